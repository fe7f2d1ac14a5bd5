import Verif.Spec.Leaf
import Verif.Spec.Metadata
import Verif.Spec.Heading
import Verif.Spec.Macros
/-!
# Specification: where reading blocks can stall

A parser that finds no block at a place and does not move on either never returns.  `Stalls` describes the places at which
that can happen in terms of the lines of the document.
-/

namespace Adoc.Spec

/-- The lines end with a block that does not take the blank lines behind it: with the closing line of a delimited block, or
with an attribute entry, which may be continued on further lines. -/
inductive Abrupt : List Text → Prop
  | delimiter {ls l} : ((∃ c, RawDelim c l) ∨ CompoundDelim l) → Abrupt (ls ++ [l])
  | entry {ls l cs} : l.head? = some ':' → (∀ x ∈ (l :: cs).dropLast, ∃ a, x = a ++ ['\\']) → Abrupt (ls ++ l :: cs)

/-- The attribute list may name the style `literal`: it contains this word, or something that is replaced. -/
def MayBeLiteral (t : Text) : Prop := Occurs "literal".toList t ∨ '{' ∈ t ∨ '\'' ∈ t ∨ '"' ∈ t

/-- `ls` are lines among which a block is looked for, `before` the lines in front of them.  Behind the blank lines and the
metadata there is no text: the lines are at their end, or a line of white space follows.  And there are no metadata but a
blank line that the block in front left, or a line of white space other than spaces and tabs; or there is only an anchor;
or the attribute list may name the literal style. -/
def Stalls [Uni] (before ls : List Text) : Prop :=
  ∃ is rest, MetaItems [] (ls.dropWhile (·.all Span.isBlank)) is rest ∧
    (rest = [] ∨ ∃ l r, rest = l :: r ∧ ∀ c ∈ l, isWhite c = true) ∧
    ((is = [] ∧ (rest = [] → Abrupt before)) ∨ (∃ a r, is = [.anchor a r]) ∨ ∃ t, .attrs t ∈ is ∧ MayBeLiteral t)

/-- There is a place at which reading the blocks of the document can stall: the lines from there on to the end of the
document or to a line that may close an enclosing block. -/
def MayStall [Uni] (doc : Text) : Prop :=
  ∃ before ls behind, lines doc = before ++ ls ++ behind ∧ ls ≠ [] ∧
    (behind = [] ∨ ∃ d r, behind = d :: r ∧ CompoundDelim d) ∧ Stalls before ls

/-- A simple condition that excludes such places: no line begins with a bracket, no line of white space has other characters
than spaces and tabs, and every blank line has a line behind it that is not the delimiter of a block of blocks. -/
structure Settled [Uni] (doc : Text) : Prop where
  brackets : ∀ l ∈ lines doc, l.head? ≠ some '['
  white : ∀ l ∈ lines doc, (∀ c ∈ l, isWhite c = true) → ∀ c ∈ l, c = ' ' ∨ c = '\t'
  blank : ∀ before l behind, lines doc = before ++ l :: behind → (∀ c ∈ l, c = ' ' ∨ c = '\t') →
    ∃ l' behind', behind = l' :: behind' ∧ ¬ CompoundDelim l'

/-- An indented line behind the heading of a section. -/
def IndentedInSection (doc : Text) : Prop :=
  ∃ before heading between line behind level title, lines doc = before ++ heading :: between ++ line :: behind ∧
    Heading level title heading ∧ Indented line

end Adoc.Spec
