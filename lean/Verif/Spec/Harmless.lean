import Verif.Model.Text
/-!
# Specification: texts whose substitution is safe
-/

namespace Adoc.Spec

/-- A text without backquotes, opening braces and brackets, plus and dollar signs, and without colons or without slashes. -/
structure Harmless (t : Text) : Prop where
  chars : ∀ c ∈ ['`', '{', '[', '+', '$'], c ∉ t
  scheme : ':' ∉ t ∨ '/' ∉ t

end Adoc.Spec
