import Verif.Spec.SourceMap
/-! # Lemmas about source maps -/

namespace Adoc
open Spec
namespace SourceMap

theorem increasing_lt {m : SourceMap} (h : Increasing m) {i j : Nat} {a b : Nat × SourceLine} (hi : m[i]? = some a)
    (hj : m[j]? = some b) (hij : i < j) : a.1 < b.1 := by
  obtain ⟨hi', rfl⟩ := List.getElem?_eq_some_iff.mp hi
  obtain ⟨hj', rfl⟩ := List.getElem?_eq_some_iff.mp hj
  exact (List.pairwise_iff_getElem.mp h) i j hi' hj' hij

theorem searchLoop_spec {m : SourceMap} (h : Increasing m) (n : Nat) : ∀ (size base : Nat), 1 ≤ size →
    base + size ≤ m.length → (base = 0 ∨ ∀ e, m[base]? = some e → e.1 ≤ n) →
    (∀ i e, base + size ≤ i → m[i]? = some e → n < e.1) →
    ∃ b, m.searchLoop n base size = b ∧ b < m.length ∧ (b = 0 ∨ ∀ e, m[b]? = some e → e.1 ≤ n) ∧
      (∀ i e, b < i → m[i]? = some e → n < e.1) := by
  intro size
  induction size using Nat.strongRecOn with
  | ind size ih =>
    intro base h1 h2 h3 h4
    rw [searchLoop]
    by_cases hs : size ≤ 1
    · rw [dif_pos hs]
      refine ⟨base, rfl, by omega, h3, fun i e hi he => h4 i e (by omega) he⟩
    · rw [dif_neg hs]
      simp only
      have hmid : base + size / 2 < m.length := by omega
      have hget : m[base + size / 2]? = some m[base + size / 2] := List.getElem?_eq_getElem hmid
      generalize hx : m[base + size / 2] = x at hget
      rw [hget]
      simp only
      by_cases hk : x.1 > n
      · rw [if_pos hk]
        refine ih (size - size / 2) (by omega) base (by omega) (by omega) h3 ?_
        intro i e hi he
        by_cases hi' : base + size / 2 < i
        · have := increasing_lt h hget he hi'; omega
        · have : i = base + size / 2 := by omega
          subst this
          rw [hget] at he; cases he; exact hk
      · rw [if_neg hk]
        refine ih (size - size / 2) (by omega) (base + size / 2) (by omega) (by omega) (Or.inr ?_) ?_
        · intro e he; rw [hget] at he; cases he; omega
        · intro i e hi he; exact h4 i e (by omega) he

theorem floor_some {m : SourceMap} (h : Increasing m) (n : Nat) : ∃ r, m.originalFileAndLine n = some r ∧ Floor m n r := by
  unfold originalFileAndLine binarySearch
  by_cases hm : m.length = 0
  · rw [if_pos hm]
    have := List.length_eq_zero_iff.mp hm
    subst this
    exact ⟨_, rfl, Or.inr ⟨by simp, rfl⟩⟩
  · rw [if_neg hm]
    obtain ⟨b, hb, hlt, h1, h2⟩ := searchLoop_spec h n m.length 0 (by omega) (by omega) (Or.inl rfl)
      (fun i e hi he => by
        have := (List.getElem?_eq_some_iff.mp he).1; omega)
    simp only [hb]
    have hget : m[b]? = some m[b] := List.getElem?_eq_getElem hlt
    generalize hx : m[b] = x at hget
    have hmem : x ∈ m := by rw [← hx]; exact List.getElem_mem hlt
    obtain ⟨k, l⟩ := x
    have hmax : ∀ e ∈ m, e.1 ≤ n → e.1 ≤ k := by
      intro e he hen
      obtain ⟨i, hi, rfl⟩ := List.mem_iff_getElem.mp he
      have hgi : m[i]? = some m[i] := List.getElem?_eq_getElem hi
      rcases Nat.lt_trichotomy i b with hib | hib | hib
      · have := increasing_lt h hgi hget hib; simp at this; omega
      · subst hib; rw [hx]; exact Nat.le_refl _
      · have := h2 i _ hib hgi; omega
    rw [hget]
    simp only
    by_cases hk : k = n
    · rw [if_pos hk]
      simp only [hget, Option.map_some]
      refine ⟨_, rfl, Or.inl ⟨k, l, hmem, by omega, hmax, ?_⟩⟩
      rw [hk, Nat.sub_self]; rfl
    · rw [if_neg hk]
      by_cases hkn : k < n
      · rw [if_pos hkn]
        simp only [hget, Option.map_some]
        refine ⟨_, rfl, Or.inl ⟨k, l, hmem, by omega, hmax, ?_⟩⟩
        congr 1; omega
      · rw [if_neg hkn]
        have hb0 : b = 0 := by
          rcases h1 with h1 | h1
          · exact h1
          · have := h1 _ hget; simp at this; omega
        subst hb0
        refine ⟨_, rfl, Or.inr ⟨?_, rfl⟩⟩
        intro e he
        obtain ⟨i, hi, rfl⟩ := List.mem_iff_getElem.mp he
        have hgi : m[i]? = some m[i] := List.getElem?_eq_getElem hi
        cases i with
        | zero => rw [hget] at hgi; rw [← Option.some.inj hgi]; simp; omega
        | succ i => exact h2 _ _ (by omega) hgi

theorem floor_unique {m : SourceMap} (h : Increasing m) {n : Nat} {r r' : SourceLine} (h1 : Floor m n r) (h2 : Floor m n r') :
    r = r' := by
  rcases h1 with ⟨k, l, h3, h4, h5, rfl⟩ | ⟨h3, rfl⟩ <;> rcases h2 with ⟨k', l', h3', h4', h5', rfl⟩ | ⟨h3', rfl⟩
  · have hk : k = k' := Nat.le_antisymm (h5' _ h3 h4) (h5 _ h3' h4')
    subst hk
    have : l = l' := by
      obtain ⟨i, hi⟩ := List.mem_iff_getElem?.mp h3
      obtain ⟨j, hj⟩ := List.mem_iff_getElem?.mp h3'
      rcases Nat.lt_trichotomy i j with hij | hij | hij
      · have := increasing_lt h hi hj hij; simp at this
      · subst hij; rw [hi] at hj; cases hj; rfl
      · have := increasing_lt h hj hi hij; simp at this
    rw [this]
  · have := h3' _ h3; simp at this; omega
  · have := h3 _ h3'; simp at this; omega
  · rfl

theorem lookup_iff {m : SourceMap} (h : Increasing m) {n : Nat} {r : SourceLine} :
    m.originalFileAndLine n = some r ↔ Floor m n r := by
  obtain ⟨q, h1, h2⟩ := floor_some h n
  rw [h1]
  constructor
  · rintro ⟨rfl⟩; exact h2
  · intro hr; rw [floor_unique h h2 hr]

end SourceMap
end Adoc
