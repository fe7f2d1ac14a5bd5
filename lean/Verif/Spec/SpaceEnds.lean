import Verif.Spec.LineEnds
/-!
# Specification: texts that differ in the spaces at the ends of their lines only
-/

namespace Adoc.Spec

/-- Two texts with the same lines, but for the spaces at the ends of the lines.  Neither text has a last line of spaces where
the other one has none. -/
inductive SpaceEnds : Text → Text → Prop
  | nil : SpaceEnds [] []
  | last {l sp sp'} : '\n' ∉ l → l ≠ [] → ¬ EndsIn l '\r' → (∀ c ∈ sp, c = ' ') → (∀ c ∈ sp', c = ' ') →
      SpaceEnds (l ++ sp) (l ++ sp')
  | line {l sp sp' e t t'} : '\n' ∉ l → ¬ EndsIn l '\r' → (∀ c ∈ sp, c = ' ') → (∀ c ∈ sp', c = ' ') →
      LineEnd e → SpaceEnds t t' → SpaceEnds (l ++ sp ++ e ++ t) (l ++ sp' ++ e ++ t')

end Adoc.Spec
