import Verif.Model.Section
/-!
# Specification of section numbers and section ids
-/

namespace Adoc.Spec

/-- The number that follows `prev` for a section of the given level: the number of the last section at that level with
its last component increased, or `prev` continued with ones. -/
inductive NextNumber : List Nat → Nat → List Nat → Prop
  | sibling {pre : List Nat} {x : Nat} {deeper : List Nat} :
      NextNumber (pre ++ x :: deeper) (pre.length + 1) (pre ++ [x + 1])
  | deeper {prev : List Nat} {k : Nat} : NextNumber prev (prev.length + (k + 1)) (prev ++ List.replicate (k + 1) 1)

/-- A letter of the English alphabet, in upper case. -/
def CapitalLetter (c : Char) : Prop := c ∈ "ABCDEFGHIJKLMNOPQRSTUVWXYZ".toList

/-- `s` does not occur twice in a row. -/
def NotDoubled (s : Char) (t : Text) : Prop := ∀ a b, t ≠ a ++ s :: s :: b

/-- Every run of `s` shortened to a single one. -/
def squeeze (s : Char) : Text → Text
  | [] => []
  | c :: r => if c = s ∧ r.head? = some s then squeeze s r else c :: squeeze s r

end Adoc.Spec
