import Verif.Model.Steps
import Verif.Spec.Typography
import Verif.Spec.Lines
/-!
# Specification: formatted text

`*strong*`, `_emphasis_` and the like.  A passage stands between two marks, possibly with attributes in brackets in front of
it.  `Constrained` passages are whole words or several of them; `Unconstrained` ones may stand anywhere.
-/

namespace Adoc.Spec

/-- What may stand in front of a mark: nothing, or attributes in brackets. -/
inductive AttrPart : Text → Option Text → Prop
  | none : AttrPart [] none
  | some {a} : a ≠ [] → '[' ∉ a → ']' ∉ a → AttrPart ('[' :: a ++ [']']) (some a)

/-- `body` is the shortest text for which `ok` and `ends` hold: `ok` of itself, `ends` of what follows. -/
def Shortest (ok ends : Text → Prop) (body behind : Text) : Prop :=
  ok body ∧ ends behind ∧ ∀ b r, b ++ r = body ++ behind → b.length < body.length → ok b → ¬ ends r

/-- A text begins with the closing mark, and what is behind that is all right. -/
def Closes (cl : Text) (after : Text → Prop) (t : Text) : Prop := ∃ r, t = cl ++ r ∧ after r

/-- A passage with its marks: it goes up to the first closing mark that makes the passage `ok` and after which the text may
go on. -/
def Passage (op cl : Text) (ok after : Text → Prop) (passage : Text) (attrs : Option Text) (body behind : Text) : Prop :=
  ∃ a, AttrPart a attrs ∧ passage = a ++ op ++ body ++ cl ∧ Shortest ok (Closes cl after) body (cl ++ behind)

/-- The text does not go on within a word. -/
def WordEnds [Uni] (t : Text) : Prop := ∀ c, t.head? = some c → Uni.isWord c = false

/-- Whole words: at the beginning of the text or behind a character `c` that is no part of a word and not one of `excl`; the
passage does not begin or end with white space, and no word goes on behind it.  With a backslash in front of it the passage is
kept without the backslash; but if it has attributes, only these are kept and the rest is formatted without them. -/
def Constrained [Uni] (excl : List Char) (op cl : Text) (format : Option Text → Text → Text) (before : Option Char)
    (piece behind new : Text) : Prop :=
  ∃ a passage attrs body, piece = a ++ passage ∧ Passage op cl Solid WordEnds passage attrs body behind ∧
    ((a = [] ∧ before = none ∧ new = format attrs body) ∨
      ∃ c, a = [c] ∧ Uni.isWord c = false ∧ c ∉ excl ∧
        (before = none → ¬ ∃ p x b r, Passage op cl Solid WordEnds p x b r ∧ piece ++ behind = p ++ r) ∧
        new = if c ≠ '\\' then c :: format attrs body
          else match attrs with
            | none => passage
            | some x => '[' :: x ++ [']'] ++ format none body)

/-- Anywhere: the passage is formatted; with a backslash in front of it, it is kept without the backslash. -/
def Unconstrained (mark : Text) (ok : Text → Prop) (format : Option Text → Text → Text) (_ : Option Char)
    (piece behind new : Text) : Prop :=
  ∃ passage attrs body, Passage mark mark ok (fun _ => True) passage attrs body behind ∧
    ((piece = passage ∧ new = format attrs body) ∨ (piece = '\\' :: passage ∧ new = passage))

/-- How a passage is rendered: with attributes, a marked passage is rendered without a format of its own. -/
def formatBy [Uni] (e : Env) (type : QuoteType) (scope : QuoteScope) : Option Text → Text → Text
  | none, body => e.r.quoted type scope none none body
  | some a, body =>
    match inlineAttrlist e.store a with
    | .ok l => e.r.quoted (if type = .mark then .unquoted else type) scope (some l) l.id body
    | .error _ => []

/-- What may not stand in front of whole words. -/
def notBefore : List Char := ['&', ';', ':', '}']

/-- The formats up to double backquotes, in the order in which they are looked for. -/
def formatsBefore [Uni] (f : QuoteType → QuoteScope → Option Text → Text → Text) :
    List (Option Char → Text → Text → Text → Prop) :=
  [Unconstrained "**".toList (· ≠ []) (f .strong .unconstrained),
    Constrained notBefore "*".toList "*".toList (f .strong .constrained),
    Constrained notBefore "\"`".toList "`\"".toList (f .doubleQuote .constrained),
    Constrained notBefore "'`".toList "`'".toList (f .singleQuote .constrained),
    Unconstrained "``".toList (· ≠ []) (f .monospaced .unconstrained)]

/-- The passages between single backquotes. -/
def backquotes [Uni] (f : QuoteType → QuoteScope → Option Text → Text → Text) : Option Char → Text → Text → Text → Prop :=
  Constrained ['&', ';', ':', '"', '\'', '`', '}'] "`".toList "`".toList (f .monospaced .constrained)

/-- The formats behind single backquotes. -/
def formatsLast [Uni] (f : QuoteType → QuoteScope → Option Text → Text → Text) :
    List (Option Char → Text → Text → Text → Prop) :=
  [Unconstrained "__".toList (· ≠ []) (f .emphasis .unconstrained),
    Constrained notBefore "_".toList "_".toList (f .emphasis .constrained),
    Unconstrained "##".toList (· ≠ []) (f .mark .unconstrained),
    Constrained notBefore "#".toList "#".toList (f .mark .constrained),
    Unconstrained "^".toList (fun b => b ≠ [] ∧ ∀ c ∈ b, isWhite c = false) (f .superscript .unconstrained),
    Unconstrained "~".toList (fun b => b ≠ [] ∧ ∀ c ∈ b, isWhite c = false) (f .subscript .unconstrained)]

/-- The formats from single backquotes on. -/
def formatsBehind [Uni] (f : QuoteType → QuoteScope → Option Text → Text → Text) :
    List (Option Char → Text → Text → Text → Prop) := backquotes f :: formatsLast f

/-! ### A single passage -/

/-- The marks of formatted text. -/
def marks : List Char := ['*', '_', '`', '#', '^', '~']

/-- Text without any of them. -/
def Unmarked (t : Text) : Prop := ∀ c ∈ marks, c ∉ t

/-- Where whole words may begin: at the beginning of the text, or behind a character that belongs to no word and is none of
`excl`, no backslash and no end of attributes. -/
def WordStarts [Uni] (excl : List Char) (u : Text) : Prop :=
  ∀ x, u.getLast? = some x → Uni.isWord x = false ∧ x ∉ excl ∧ x ≠ ']' ∧ x ≠ '\\'

/-- Where other passages may begin. -/
def MayStart (u : Text) : Prop := ∀ x, u.getLast? = some x → x ≠ ']' ∧ x ≠ '\\'

/-- No quotes at the beginning and at the end. -/
def NoQuoteFirst (t : Text) : Prop := ∀ c, t.head? = some c → c ≠ '"' ∧ c ≠ '\''
def NoQuoteLast (t : Text) : Prop := ∀ c, t.getLast? = some c → c ≠ '"' ∧ c ≠ '\''

end Adoc.Spec
