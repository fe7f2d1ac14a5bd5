import Verif.Model.SourceMap
/-!
# What a source map means
-/

namespace Adoc.Spec

/-- The entries are in strictly increasing order of their line numbers. -/
def Increasing (m : List (Nat × SourceLine)) : Prop := m.Pairwise fun a b => a.1 < b.1

/-- `r` is what the map says about line `n`: the entry with the greatest line number not above `n`, moved on by the
distance, and without such an entry line `n` of the unnamed file. -/
def Floor (m : List (Nat × SourceLine)) (n : Nat) (r : SourceLine) : Prop :=
  (∃ k l, (k, l) ∈ m ∧ k ≤ n ∧ (∀ e ∈ m, e.1 ≤ n → e.1 ≤ k) ∧ r = ⟨l.file, l.line + (n - k)⟩) ∨
  ((∀ e ∈ m, n < e.1) ∧ r = ⟨none, n⟩)

end Adoc.Spec
