import Verif.Spec.LineEnds
import Verif.Spec.Outline
/-!
# Specification: empty lines around a document
-/

namespace Adoc.Spec

/-- Lines with nothing but spaces. -/
inductive EmptyLines : Text → Prop
  | nil : EmptyLines []
  | cons {sp e t} : (∀ c ∈ sp, c = ' ') → LineEnd e → EmptyLines t → EmptyLines (sp ++ e ++ t)

/-- A block that ends in a delimiter line. -/
def Leaf.closed : Leaf → Bool
  | .verbatim _ _ => true
  | .container _ _ => true
  | .labelled _ b => b.closed
  | _ => false

/-- A document ends in a block that ends in a delimiter line. -/
def Token.closed : Token → Bool
  | .leaf b => b.closed
  | .heading _ _ _ => false

end Adoc.Spec
