/-!
# Outcomes of a call

A Rust call returns, panics, or runs forever.  The model returns a value, the failure `panic`, or the failure `fuel`
when the bound on the number of iterations or nested calls is exhausted; a call runs forever exactly when it gives
`fuel` for every bound.
-/

namespace Adoc

inductive Fail where
  | panic | fuel
deriving DecidableEq, Repr

abbrev Res (α : Type) := Except Fail α

/-- `Option::unwrap` and indexing: absence is a panic. -/
def Res.ofOption {α : Type} : Option α → Res α
  | some a => .ok a
  | none => .error .panic

instance {α : Type} [DecidableEq α] : DecidableEq (Except Fail α)
  | .ok a, .ok b => if h : a = b then isTrue (by rw [h]) else isFalse (by intro e; cases e; exact h rfl)
  | .error a, .error b => if h : a = b then isTrue (by rw [h]) else isFalse (by intro e; cases e; exact h rfl)
  | .ok _, .error _ => isFalse (by intro e; cases e)
  | .error _, .ok _ => isFalse (by intro e; cases e)

end Adoc
