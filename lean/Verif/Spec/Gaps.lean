import Verif.Spec.Comments
/-!
# Specification: more empty lines between blocks
-/

namespace Adoc.Spec

/-- The second lines are the first ones with more empty lines behind empty lines. -/
inductive Spread : List Text → List Text → Prop
  | nil : Spread [] []
  | cons {l g ls ls'} : (g ≠ [] → l = []) → (∀ x ∈ g, x = []) → Spread ls ls' → Spread (l :: ls) (l :: (g ++ ls'))

end Adoc.Spec
