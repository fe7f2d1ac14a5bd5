import Verif.Lemmas.RegexRel
/-!
# Groups that take part in every match
-/

namespace Adoc
namespace Re
variable [Uni]

/-- A match adds captures in front of those there were. -/
theorem Rel.caps_grow {r : Re} {s s' : RS} (h : Rel r s s') : ∃ l, s'.caps = l ++ s.caps := by
  induction h with
  | seq _ _ iha ihb =>
    obtain ⟨l, h1⟩ := iha
    obtain ⟨l', h2⟩ := ihb
    exact ⟨l' ++ l, by rw [h2, h1, List.append_assoc]⟩
  | altL _ ih => exact ih
  | altR _ ih => exact ih
  | starStep _ _ _ iha ihb =>
    obtain ⟨l, h1⟩ := iha
    obtain ⟨l', h2⟩ := ihb
    exact ⟨l' ++ l, by rw [h2, h1, List.append_assoc]⟩
  | cap _ ih =>
    obtain ⟨l, h1⟩ := ih
    exact ⟨_ :: l, by simp only; rw [h1]; rfl⟩
  | _ => exact ⟨[], rfl⟩

/-- Groups that take part in every match. -/
def must : Re → List Nat
  | seq a b => must a ++ must b
  | alt a b => (must a).filter fun n => (must b).contains n
  | cap n r => n :: must r
  | _ => []

theorem must_sound {r : Re} {s s' : RS} (h : Rel r s s') : ∀ n ∈ must r, ∃ v, (n, v) ∈ s'.caps := by
  induction h with
  | seq _ h2 iha ihb =>
    intro n hn
    rcases List.mem_append.mp hn with hn | hn
    · obtain ⟨v, hv⟩ := iha n hn
      obtain ⟨l, hl⟩ := h2.caps_grow
      exact ⟨v, by rw [hl]; exact List.mem_append_right _ hv⟩
    · exact ihb n hn
  | altL _ ih => exact fun n hn => ih n (List.mem_filter.mp hn).1
  | altR _ ih => exact fun n hn => ih n (by simpa using (List.mem_filter.mp hn).2)
  | cap _ ih =>
    intro n hn
    rcases List.mem_cons.mp hn with rfl | hn
    · exact ⟨_, List.mem_cons_self⟩
    · obtain ⟨v, hv⟩ := ih n hn
      exact ⟨v, List.mem_cons_of_mem _ hv⟩
  | _ => intro n hn; cases hn

omit [Uni] in
theorem get_of_mem {mt : Match} {n : Nat} {v : Text} (h : (n, v) ∈ mt.caps) : ∃ w, mt.get n = some w := by
  unfold Match.get
  split
  · exact ⟨_, rfl⟩
  · cases hf : mt.caps.find? (fun p => p.1 == n) with
    | none =>
      have := List.find?_eq_none.mp hf _ h
      simp at this
    | some p => exact ⟨p.2, rfl⟩

/-- Such a group is set in every match. -/
theorem matchAt_get {re : Re} {pv : Option Char} {t : Text} {mt : Match} {s : RS} (h : matchAt re pv t = some (mt, s))
    (n : Nat) (hn : (must re).contains n = true) : ∃ v, mt.get n = some v := by
  obtain ⟨hr, _, _, hc⟩ := matchAt_sound h
  obtain ⟨v, hv⟩ := must_sound hr n (by simpa using hn)
  exact get_of_mem (v := v) (by rw [hc]; exact hv)

theorem matchAt_at {re : Re} {pv : Option Char} {t : Text} {mt : Match} {s : RS} (h : matchAt re pv t = some (mt, s))
    (n : Nat) (hn : (must re).contains n = true) : ∃ v, mt.at! n = .ok v := by
  obtain ⟨v, hv⟩ := matchAt_get h n hn
  exact ⟨v, by unfold Match.at!; rw [hv]; rfl⟩

/-- Some group of the list takes part in every match. -/
def covers (l : List Nat) : Re → Bool
  | seq a b => covers l a || covers l b
  | alt a b => covers l a && covers l b
  | cap n r => l.contains n || covers l r
  | _ => false

theorem covers_sound {l : List Nat} {r : Re} {s s' : RS} (h : Rel r s s') (hc : covers l r = true) :
    ∃ n ∈ l, ∃ v, (n, v) ∈ s'.caps := by
  induction h with
  | seq _ h2 iha ihb =>
    simp only [covers, Bool.or_eq_true] at hc
    rcases hc with hc | hc
    · obtain ⟨n, hn, v, hv⟩ := iha hc
      obtain ⟨l, hl⟩ := h2.caps_grow
      exact ⟨n, hn, v, by rw [hl]; exact List.mem_append_right _ hv⟩
    · exact ihb hc
  | altL _ ih => simp only [covers, Bool.and_eq_true] at hc; exact ih hc.1
  | altR _ ih => simp only [covers, Bool.and_eq_true] at hc; exact ih hc.2
  | @cap n r s s' _ ih =>
    simp only [covers, Bool.or_eq_true, List.contains_iff_mem] at hc
    rcases hc with hc | hc
    · exact ⟨n, hc, _, List.mem_cons_self⟩
    · obtain ⟨n, hn, v, hv⟩ := ih hc
      exact ⟨n, hn, v, List.mem_cons_of_mem _ hv⟩
  | _ => cases hc

theorem matchAt_covers {re : Re} {pv : Option Char} {t : Text} {mt : Match} {s : RS} (h : matchAt re pv t = some (mt, s))
    (l : List Nat) (hl : covers l re = true) : ∃ n ∈ l, ∃ v, mt.get n = some v := by
  obtain ⟨hr, _, _, hc⟩ := matchAt_sound h
  obtain ⟨n, hn, v, hv⟩ := covers_sound hr hl
  exact ⟨n, hn, get_of_mem (v := v) (by rw [hc]; exact hv)⟩

/-- Groups that may take part in a match. -/
def sets : Re → List Nat
  | seq a b => sets a ++ sets b
  | alt a b => sets a ++ sets b
  | star _ r => sets r
  | cap n r => n :: sets r
  | _ => []

theorem Rel.sets {n : Nat} {v : Text} {r : Re} {s s' : RS} (h : Rel r s s') (hn : n ∉ Re.sets r)
    (hm : (n, v) ∈ s'.caps) : (n, v) ∈ s.caps := by
  induction h with
  | seq _ _ iha ihb =>
    simp only [Re.sets, List.mem_append, not_or] at hn
    exact iha hn.1 (ihb hn.2 hm)
  | altL _ ih => simp only [Re.sets, List.mem_append, not_or] at hn; exact ih hn.1 hm
  | altR _ ih => simp only [Re.sets, List.mem_append, not_or] at hn; exact ih hn.2 hm
  | starStep _ _ _ iha ihb => exact iha hn (ihb hn hm)
  | cap _ ih =>
    simp only [Re.sets, List.mem_cons, not_or] at hn
    simp only [List.mem_cons, Prod.mk.injEq] at hm
    rcases hm with ⟨rfl, _⟩ | hm
    · exact absurd rfl hn.1
    · exact ih hn.2 hm
  | _ => exact hm

/-- The two groups never take part in a match together. -/
def excl (m n : Nat) : Re → Bool
  | seq a b =>
    (!(sets a).contains m && !(sets a).contains n && excl m n b) ||
    (!(sets b).contains m && !(sets b).contains n && excl m n a)
  | alt a b => excl m n a && excl m n b
  | r => !(sets r).contains m || !(sets r).contains n

theorem Rel.excl {m n : Nat} {r : Re} {s s' : RS} (h : Rel r s s') (he : Re.excl m n r = true)
    (hm : ∀ v, (m, v) ∉ s.caps) (hn : ∀ v, (n, v) ∉ s.caps) : (∀ v, (m, v) ∉ s'.caps) ∨ ∀ v, (n, v) ∉ s'.caps := by
  have base : ∀ {r : Re} {s s' : RS}, Rel r s s' → (!(Re.sets r).contains m || !(Re.sets r).contains n) = true →
      (∀ v, (m, v) ∉ s.caps) → (∀ v, (n, v) ∉ s.caps) → (∀ v, (m, v) ∉ s'.caps) ∨ ∀ v, (n, v) ∉ s'.caps := by
    intro r s s' h he hm hn
    simp only [Bool.or_eq_true, Bool.not_eq_true', List.contains_eq_mem, decide_eq_false_iff_not] at he
    rcases he with he | he
    · exact .inl fun v hv => hm v (h.sets he hv)
    · exact .inr fun v hv => hn v (h.sets he hv)
  induction h with
  | seq h1 h2 iha ihb =>
    simp only [Re.excl, Bool.or_eq_true, Bool.and_eq_true, Bool.not_eq_true', List.contains_eq_mem,
      decide_eq_false_iff_not] at he
    rcases he with ⟨⟨e1, e2⟩, e3⟩ | ⟨⟨e1, e2⟩, e3⟩
    · exact ihb e3 (fun v hv => hm v (h1.sets e1 hv)) (fun v hv => hn v (h1.sets e2 hv))
    · rcases iha e3 hm hn with h | h
      · exact .inl fun v hv => h v (h2.sets e1 hv)
      · exact .inr fun v hv => h v (h2.sets e2 hv)
  | altL _ ih => simp only [Re.excl, Bool.and_eq_true] at he; exact ih he.1 hm hn
  | altR _ ih => simp only [Re.excl, Bool.and_eq_true] at he; exact ih he.2 hm hn
  | starStep h1 h2 h3 => exact base (.starStep h1 h2 h3) he hm hn
  | cap h => exact base (.cap h) he hm hn
  | _ => exact .inl hm

omit [Uni] in
theorem get_none {mt : Match} {n : Nat} (hn : n ≠ 0) (h : ∀ v, (n, v) ∉ mt.caps) : mt.get n = none := by
  unfold Match.get
  rw [if_neg hn]
  simp only [Option.map_eq_none_iff, List.find?_eq_none, beq_iff_eq]
  rintro ⟨k, v⟩ hm rfl
  exact h v hm

/-- Two such groups are never set together. -/
theorem matchAt_excl {re : Re} {pv : Option Char} {t : Text} {mt : Match} {s : RS} (h : matchAt re pv t = some (mt, s))
    (m n : Nat) (hm : m ≠ 0) (hn : n ≠ 0) (he : excl m n re = true) : mt.get m = none ∨ mt.get n = none := by
  obtain ⟨hr, _, _, hc⟩ := matchAt_sound h
  rcases hr.excl he (fun _ => List.not_mem_nil) (fun _ => List.not_mem_nil) with h | h
  · exact .inl (get_none hm (by rw [hc]; exact h))
  · exact .inr (get_none hn (by rw [hc]; exact h))

/-- No part of the expression matches the character. -/
def avoids (c : Char) : Re → Bool
  | cls p => !p c
  | seq a b => avoids c a && avoids c b
  | alt a b => avoids c a && avoids c b
  | star _ r => avoids c r
  | cap _ r => avoids c r
  | _ => true

theorem Rel.avoids {c : Char} {r : Re} {s s' : RS} (h : Rel r s s') (ha : Re.avoids c r = true) :
    c ∉ s.rest.take (s.rest.length - s'.rest.length) := by
  have key : ∀ {a b d : RS}, (∃ u, a.rest = u ++ b.rest) → (∃ u, b.rest = u ++ d.rest) →
      c ∉ a.rest.take (a.rest.length - b.rest.length) → c ∉ b.rest.take (b.rest.length - d.rest.length) →
      c ∉ a.rest.take (a.rest.length - d.rest.length) := by
    rintro a b d ⟨u, hu⟩ ⟨v, hv⟩ h1 h2
    rw [hu, hv] at *
    simp only [List.length_append, Nat.add_sub_cancel] at *
    rw [show u.length + (v.length + d.rest.length) - d.rest.length = (u ++ v).length by simp; omega, ← List.append_assoc,
      List.take_left]
    rw [List.take_left] at h1 h2
    simp [h1, h2]
  induction h with
  | @cls p pv d cs caps hp =>
    simp only [List.length_cons, Nat.add_sub_cancel_left, List.take_succ_cons, List.take_zero, List.mem_singleton]
    rintro rfl
    simp [Re.avoids, hp] at ha
  | seq h1 h2 ih1 ih2 =>
    simp only [Re.avoids, Bool.and_eq_true] at ha
    obtain ⟨u, hu, _⟩ := h1.consumes
    obtain ⟨v, hv, _⟩ := h2.consumes
    exact key ⟨u, hu⟩ ⟨v, hv⟩ (ih1 ha.1) (ih2 ha.2)
  | altL _ ih => simp only [Re.avoids, Bool.and_eq_true] at ha; exact ih ha.1
  | altR _ ih => simp only [Re.avoids, Bool.and_eq_true] at ha; exact ih ha.2
  | starStep h1 _ h2 ih1 ih2 =>
    obtain ⟨u, hu, _⟩ := h1.consumes
    obtain ⟨v, hv, _⟩ := h2.consumes
    exact key ⟨u, hu⟩ ⟨v, hv⟩ (ih1 ha) (ih2 ha)
  | cap _ ih => exact ih ha
  | _ => simp

/-- No part of the expression that is the group `n` matches the character. -/
def capAvoids (c : Char) (n : Nat) : Re → Bool
  | seq a b => capAvoids c n a && capAvoids c n b
  | alt a b => capAvoids c n a && capAvoids c n b
  | star _ r => capAvoids c n r
  | cap k r => (if k = n then Re.avoids c r else true) && capAvoids c n r
  | _ => true

theorem Rel.capAvoids {c : Char} {n : Nat} {r : Re} {s s' : RS} (h : Rel r s s') (ha : Re.capAvoids c n r = true) :
    ∀ v, (n, v) ∈ s'.caps → (n, v) ∈ s.caps ∨ c ∉ v := by
  induction h with
  | seq h1 h2 ih1 ih2 =>
    simp only [Re.capAvoids, Bool.and_eq_true] at ha
    intro v hv
    rcases ih2 ha.2 v hv with h | h
    · exact ih1 ha.1 v h
    · exact .inr h
  | altL _ ih => simp only [Re.capAvoids, Bool.and_eq_true] at ha; exact ih ha.1
  | altR _ ih => simp only [Re.capAvoids, Bool.and_eq_true] at ha; exact ih ha.2
  | starStep h1 _ h2 ih1 ih2 =>
    intro v hv
    rcases ih2 ha v hv with h | h
    · exact ih1 ha v h
    · exact .inr h
  | @cap k r s s' h ih =>
    simp only [Re.capAvoids, Bool.and_eq_true] at ha
    intro v hv
    simp only [List.mem_cons, Prod.mk.injEq] at hv
    rcases hv with ⟨rfl, rfl⟩ | hv
    · rw [if_pos rfl] at ha
      exact .inr (h.avoids ha.1)
    · exact ih ha.2 v hv
  | _ => exact fun v hv => .inl hv

theorem mem_of_get {mt : Match} {n : Nat} {v : Text} (hn : n ≠ 0) (h : mt.get n = some v) : (n, v) ∈ mt.caps := by
  unfold Match.get at h
  rw [if_neg hn] at h
  cases hf : mt.caps.find? (fun p => p.1 == n) with
  | none => rw [hf] at h; cases h
  | some p =>
    rw [hf] at h
    cases h
    have := List.mem_of_find?_eq_some hf
    have hp := List.find?_some hf
    simp only [beq_iff_eq] at hp
    rw [← hp]; exact this

/-- The text of such a group is free of the character, in every match. -/
theorem matchAt_capAvoids {re : Re} {pv : Option Char} {t : Text} {mt : Match} {s : RS}
    (h : matchAt re pv t = some (mt, s)) {n : Nat} (hn : n ≠ 0) {c : Char} (ha : capAvoids c n re = true) {v : Text}
    (hv : mt.get n = some v) : c ∉ v := by
  obtain ⟨hr, _, _, hc⟩ := matchAt_sound h
  rcases hr.capAvoids ha v (by rw [← hc]; exact mem_of_get hn hv) with h | h
  · cases h
  · exact h

end Re
end Adoc
