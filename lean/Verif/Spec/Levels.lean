import Verif.Spec.Document
/-!
# Specification: the levels of nested sections
-/

namespace Adoc.Spec

/-- A text without attribute references and single quotes: nothing is substituted in it. -/
def NoSubst (t : Text) : Prop := '{' ∉ t ∧ '\'' ∉ t

/-- The block has no attribute list, or one in which nothing is substituted. -/
def PlainList (b : Block) : Prop := ∀ a, b.fields.attrlist = some a → NoSubst a.source.data

/-- `y` is a section in the section `x`, with nothing but sections between them, all of them with plain attribute lists. -/
inductive SubSection : Block → Block → Prop
  | child {x y} : IsSection x → y ∈ x.children → IsSection y → PlainList y → SubSection x y
  | step {x y z} : IsSection x → y ∈ x.children → PlainList y → SubSection y z → SubSection x z

end Adoc.Spec
