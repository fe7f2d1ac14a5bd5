import Verif.Model.Text
/-!
# Reading HTML start tags

How a reader of HTML takes a start tag apart: the name, then attributes, each after a blank, either a bare name or a name,
`="`, a value up to the next quotation mark, and that mark.  This is the part of the HTML syntax the inline renderer
writes; it knows nothing of the renderer.
-/

namespace Adoc.Spec

/-- Names of elements and attributes: lower-case ASCII letters. -/
def HtmlName (n : Text) : Prop := n ≠ [] ∧ ∀ c ∈ n, 'a' ≤ c ∧ c ≤ 'z'

/-- `HtmlAttrs t l rest`: `t` is read as the attributes `l`, the `>` which ends the tag, and `rest`. -/
inductive HtmlAttrs : Text → List (Text × Option Text) → Text → Prop
  | close (rest : Text) : HtmlAttrs ('>' :: rest) [] rest
  | bare {n t l rest} : HtmlName n → HtmlAttrs t l rest → HtmlAttrs (' ' :: n ++ t) ((n, none) :: l) rest
  | pair {n v t l rest} : HtmlName n → '"' ∉ v → HtmlAttrs t l rest →
      HtmlAttrs (' ' :: n ++ '=' :: '"' :: v ++ '"' :: t) ((n, some v) :: l) rest

/-- `StartTag t name l rest`: `t` begins with the start tag of an element `name` with the attributes `l`, and goes on with
`rest`. -/
def StartTag (t name : Text) (l : List (Text × Option Text)) (rest : Text) : Prop :=
  HtmlName name ∧ ∃ s, t = '<' :: name ++ s ∧ HtmlAttrs s l rest

/-- The words of a value, for attributes like `rel` and `class`. -/
def HasWord (v w : Text) : Prop :=
  ∃ a b, v = a ++ w ++ b ∧ (a = [] ∨ a.getLast? = some ' ') ∧ (b = [] ∨ b.head? = some ' ')

end Adoc.Spec
