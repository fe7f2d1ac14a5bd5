import Verif.Spec.Comments
/-!
# Specification: delimiters of another length
-/

namespace Adoc.Spec

/-- The line is a delimiter. -/
def Delimiter (l : Text) : Prop := (∃ c, RawDelim c l) ∨ ∃ context, CompoundLine l context

/-- Delimiters are replaced by others of the same kind, different ones by different ones, and other lines stay as they are. -/
structure Redelimits (f : Text → Text) : Prop where
  same : ∀ l, ¬ Delimiter l → f l = l
  raw : ∀ c l, RawDelim c l → RawDelim c (f l)
  compound : ∀ context l, CompoundLine l context → CompoundLine (f l) context
  marks : ∀ l, (¬ ∃ n, 6 < n ∧ Marks n l) → ¬ ∃ n, 6 < n ∧ Marks n (f l)
  inj : ∀ a b, f a = f b → a = b

end Adoc.Spec
