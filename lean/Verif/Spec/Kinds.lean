import Verif.Spec.Leaf
import Verif.Spec.Metadata
import Verif.Spec.Document
import Verif.Spec.Heading
import Verif.Spec.Attribute
/-!
# Specification: the lines with which blocks begin
-/

namespace Adoc.Spec

/-- The name of a block macro. -/
def macroName : MediaType → String
  | .image => "image"
  | .video => "video"
  | .audio => "audio"

/-- The line is a block macro with the given target and attributes: `name::target[attributes]`. -/
def MediaLine (l : Text) (ty : MediaType) (target attrs : Text) : Prop :=
  l = (macroName ty).toList ++ ':' :: ':' :: target ++ '[' :: attrs ++ [']'] ∧ target ≠ [] ∧ '[' ∉ target

/-- The line is a thematic break or a page break. -/
def BreakLine (l : Text) : BreakType → Prop
  | .thematic => ∃ x ∈ ["'''", "---", "- - -", "***", "* * *"], l = x.toList
  | .page => l = "<<<".toList

/-- The line opens a delimited block with nested blocks, with the given context. -/
def CompoundLine (l : Text) (context : Text) : Prop :=
  (l = "--".toList ∧ context = "open".toList) ∨
  ∃ n, (l = List.replicate (n + 4) '=' ∧ context = "example".toList) ∨
    (l = List.replicate (n + 4) '*' ∧ context = "sidebar".toList) ∨
    (l = List.replicate (n + 4) '_' ∧ context = "quote".toList)

/-- What a line can begin. -/
inductive Form where
  | verbatim (model : ContentModel) (context : Text)
  | container (context : Text)
  | media (type : MediaType) (target attrs : Text)
  | heading (level : Nat) (title : Text)
  | brk (type : BreakType)
  | text
deriving DecidableEq, Repr

/-- What a line begins: a delimited block, a block macro for images or videos, a section, a break; and else a paragraph. -/
inductive LineForm (l : Text) : Form → Prop
  | verbatim {c} : RawDelim c l → LineForm l (.verbatim (rawBlockKind c).1 (rawBlockKind c).2.1)
  | container {context} : CompoundLine l context → LineForm l (.container context)
  | media {ty target attrs} : MediaLine l ty target attrs → ty ≠ .audio → LineForm l (.media ty target attrs)
  | heading {n title} : Heading n title l → LineForm l (.heading n title)
  | brk {ty} : BreakLine l ty → LineForm l (.brk ty)
  | text : (¬ ∃ c, RawDelim c l) → (¬ ∃ context, CompoundLine l context) →
      (¬ ∃ ty target attrs, MediaLine l ty target attrs ∧ ty ≠ .audio) → (¬ ∃ n title, Heading n title l) →
      (¬ ∃ ty, BreakLine l ty) → LineForm l .text

/-- What a block is, as far as its first line tells. -/
def formOf : BlockKind → Option Form
  | .simple .. => some .text
  | .raw _ m x _ => some (.verbatim m x)
  | .compound x => some (.container x)
  | .media ty target attrs => some (.media ty target.data attrs.source.data)
  | .section n title _ _ _ => some (.heading n title.original.data)
  | .brk ty => some (.brk ty)
  | .preamble => none
  | .docAttr _ => none

/-- The metadata of a block are the ones given. -/
structure Describes (is : List MetaItem) (f : Meta) : Prop where
  title : f.titleSource.map Span.data = is.findSome? MetaItem.title?
  anchor : f.anchor.map Span.data = (is.findSome? MetaItem.anchor?).map Prod.fst
  attrs : f.attrlist.map (fun a => a.source.data) = is.findSome? MetaItem.attrs?

/-- No paragraph begins at these lines. -/
def NoParagraph (ls : List Text) : Prop :=
  ∃ taken rest, Paragraph false ls taken rest ∧ ∀ l ∈ taken, ∀ c ∈ l, isWhite c = true

/-- An attribute entry between blocks: its first line must end with a colon or have a colon and a space in it. -/
def BodyEntry (t : Text) : Prop :=
  ∃ c sep rest u n k, Extent t c sep rest ∧ StripSpaces c u ∧ Entry u n k ∧
    ∃ l sep' rest', FirstLine t l sep' rest' ∧ (EndsIn l ':' ∨ ∃ a b, l = a ++ ':' :: ' ' :: b)

/-- The text ends with a line of blanks. -/
def EndsBlank (t : Text) : Prop :=
  ∃ a w, t = a ++ w ++ ['\n'] ∧ (a = [] ∨ ∃ a', a = a' ++ ['\n']) ∧ ∀ c ∈ w, c = ' ' ∨ c = '\t' ∨ c = '\r'

end Adoc.Spec
