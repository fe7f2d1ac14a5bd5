import Verif.Spec.Outline
/-!
# Every order of headings and blocks is that of one outline
-/

namespace Adoc
open Spec

/-- What comes behind sections of level `n` and more: nothing, or a heading of a smaller level. -/
def Behind (n : Nat) (qs : List Token) : Prop := ∀ x qs', qs = x :: qs' → ∃ m t lab, x = .heading m t lab ∧ m < n

theorem leaves_first : ∀ (ts : List Token), ∃ (leaves : List Leaf) (rest : List Token), ts = leaves.map .leaf ++ rest ∧
    ∀ x qs, rest = x :: qs → ∃ m t lab, x = Token.heading m t lab
  | [] => ⟨[], [], rfl, nofun⟩
  | .heading m t lab :: ts => ⟨[], _, rfl, by rintro x qs h; cases h; exact ⟨_, _, _, rfl⟩⟩
  | .leaf b :: ts => by
    obtain ⟨leaves, rest, rfl, h⟩ := leaves_first ts
    exact ⟨b :: leaves, rest, rfl, h⟩

theorem leaves_unique : ∀ {ls ls' : List Leaf} {r r' : List Token}, ls.map Token.leaf ++ r = ls'.map .leaf ++ r' →
    (∀ x qs, r = x :: qs → ∃ m t lab, x = Token.heading m t lab) → (∀ x qs, r' = x :: qs → ∃ m t lab, x = Token.heading m t lab) →
    ls = ls' ∧ r = r'
  | [], [], _, _, h, _, _ => ⟨rfl, h⟩
  | [], b :: ls', _, _, h, h1, _ => by obtain ⟨_, _, _, e⟩ := h1 _ _ h; cases e
  | b :: ls, [], _, _, h, _, h1 => by obtain ⟨_, _, _, e⟩ := h1 _ _ h.symm; cases e
  | b :: ls, b' :: ls', r, r', h, h1, h2 => by
    rw [List.map_cons, List.map_cons, List.cons_append, List.cons_append, List.cons.injEq] at h
    obtain ⟨e, h⟩ := h
    cases e
    obtain ⟨rfl, rfl⟩ := leaves_unique h h1 h2
    exact ⟨rfl, rfl⟩

theorem forest_exists : ∀ (k : Nat) (n most : Nat) (ts : List Token), ts.length ≤ k →
    (∀ m t lab, .heading m t lab ∈ ts → m ≤ 5) →
    (∀ x qs, ts = x :: qs → ∃ m t lab, x = .heading m t lab ∧ m ≤ n + most) →
    ∃ secs ps qs, ts = ps ++ qs ∧ Flat n most secs ps ∧ Behind n qs
  | k, n, most, [], _, _, _ => ⟨[], [], [], rfl, .nil, nofun⟩
  | 0, n, most, x :: ts, h, _, _ => by simp at h
  | k + 1, n, most, x :: ts, hk, h5, hh => by
    obtain ⟨m, t, lab, rfl, hm⟩ := hh _ _ rfl
    by_cases hlt : m < n
    · exact ⟨[], [], _, rfl, .nil, by rintro x qs e; cases e; exact ⟨m, t, lab, rfl, hlt⟩⟩
    · obtain ⟨j, rfl⟩ : ∃ j, m = n + j := ⟨m - n, by omega⟩
      obtain ⟨leaves, rest, rfl, hr⟩ := leaves_first ts
      have hlen : rest.length ≤ k := by simp at hk; omega
      have hsub : ∀ m t lab, .heading m t lab ∈ rest → m ≤ 5 := fun m t lab h => h5 m t lab (by simp [h])
      obtain ⟨subs, ps, qs, rfl, hf, hb⟩ := forest_exists k (n + j + 1) 5 rest hlen hsub (by
        intro x qs e
        obtain ⟨m, t, lab, rfl⟩ := hr x qs e
        exact ⟨m, t, lab, rfl, by have := hsub m t lab (by rw [e]; simp); omega⟩)
      obtain ⟨secs, ps', qs', rfl, hf', hb'⟩ := forest_exists k n j qs (by simp at hlen; omega)
        (fun m t lab h => hsub m t lab (by simp [h])) (by
          intro x qs e
          obtain ⟨m, t, lab, rfl, hm⟩ := hb x qs e
          exact ⟨m, t, lab, rfl, by omega⟩)
      exact ⟨.mk t leaves subs lab j :: secs, _, qs', by simp, .cons (by omega) hf hf', hb'⟩

theorem flat_first {l k : Nat} {secs : List Sec} {ps : List Token} (h : Flat l k secs ps) :
    ps = [] ∨ ∃ j t lab qs, ps = .heading (l + j) t lab :: qs ∧ j ≤ k := by
  cases h with
  | nil => exact Or.inl rfl
  | cons h _ _ => exact Or.inr ⟨_, _, _, _, rfl, h⟩

theorem behind_flat {n k : Nat} {secs : List Sec} {ps qs : List Token} (h : Flat n k secs ps) (hb : Behind n qs) :
    Behind (n + k + 1) (ps ++ qs) := by
  intro x qs' e
  rcases flat_first h with rfl | ⟨j, t, lab, r, rfl, hj⟩
  · obtain ⟨m, t, lab, e', hm⟩ := hb x qs' e
    exact ⟨m, t, lab, e', by omega⟩
  · cases e; exact ⟨_, _, _, rfl, by omega⟩

theorem headed_flat {n k j : Nat} {secs : List Sec} {ps qs : List Token} (h : Flat n k secs ps) (hb : Behind j qs) :
    ∀ x qs', ps ++ qs = x :: qs' → ∃ m t lab, x = Token.heading m t lab := by
  intro x qs' e
  rcases flat_first h with rfl | ⟨j, t, lab, r, rfl, hj⟩
  · obtain ⟨m, t, lab, e', hm⟩ := hb x qs' e
    exact ⟨m, t, lab, e'⟩
  · cases e; exact ⟨_, _, _, rfl⟩

theorem forest_unique {n most : Nat} {secs : List Sec} {ps : List Token} (h : Flat n most secs ps) :
    ∀ {most' : Nat} {secs' : List Sec} {ps' qs qs' : List Token}, Flat n most' secs' ps' → ps ++ qs = ps' ++ qs' →
      Behind n qs → Behind n qs' → secs = secs' ∧ ps = ps' ∧ qs = qs' := by
  induction h with
  | @nil n most =>
    intro most' secs' ps' qs qs' h' e hb hb'
    cases h' with
    | nil => exact ⟨rfl, rfl, e⟩
    | cons _ _ _ =>
      obtain ⟨m, t, lab, e', hm⟩ := hb _ _ e
      cases e'
      omega
  | @cons n most title blocks subs label skipped secs ps qs1 _ h1 h2 ih1 ih2 =>
    intro most' secs' ps' qs qs' h' e hb hb'
    cases h' with
    | nil =>
      obtain ⟨m, t, lab, e', hm⟩ := hb' _ _ e.symm
      cases e'
      omega
    | @cons _ _ title' blocks' subs' label' skipped' secs' ps' qs1' _ h1' h2' =>
      rw [List.cons_append, List.cons_append, List.cons.injEq] at e
      obtain ⟨e0, e⟩ := e
      injection e0 with e1 e2 e3
      have e4 : skipped = skipped' := by omega
      subst e2 e3 e4
      simp only [List.append_assoc] at e
      obtain ⟨rfl, e5⟩ := leaves_unique e (headed_flat h1 (behind_flat h2 hb)) (headed_flat h1' (behind_flat h2' hb'))
      obtain ⟨rfl, rfl, e6⟩ := ih1 h1' e5 (behind_flat h2 hb) (behind_flat h2' hb')
      obtain ⟨rfl, rfl, e7⟩ := ih2 h2' e6 hb hb'
      exact ⟨rfl, rfl, e7⟩

end Adoc
