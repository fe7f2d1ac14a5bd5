import Verif.Model.Renderer
/-!
# Specification for the inline macros (C46)
-/

namespace Adoc.Spec
open Adoc

/-- `n` stands somewhere in `t`. -/
def Occurs (n t : Text) : Prop := ∃ a b, t = a ++ n ++ b

/-- An image or icon macro without a target. -/
def EmptyTarget (t : Text) : Prop := Occurs "image:[".toList t ∨ Occurs "icon:[".toList t

/-- A link or mail macro whose target is a single character. -/
def ShortTarget (t : Text) : Prop :=
  ∃ c, Occurs ("link:".toList ++ [c, '[']) t ∨ Occurs ("mailto:".toList ++ [c, '[']) t

/-- A renderer whose images and icons never fail.  (The other methods of a renderer have no way to fail.) -/
def NeverFails (r : Renderer) : Prop := ∀ p, (∀ i, ∃ x, r.image p i = .ok x) ∧ ∀ i, ∃ x, r.icon p i = .ok x

end Adoc.Spec
