import Verif.Lemmas.Formatting
import Verif.Props.Look
/-!
# The replacer of formatted text against its specification
-/

namespace Adoc
open Adoc.Spec Adoc.Props Re
variable [Uni]

theorem quoteAttrs_eq (e : Env) (ty : QuoteType) (o : Option Text) : ∃ al ty', quoteAttrs e ty o = .ok (al, ty') ∧
    ∀ sc b, e.r.quoted ty' sc al (al.bind Attrlist.id) b = formatBy e ty sc o b := by
  cases o with
  | none => exact ⟨none, ty, rfl, fun sc b => rfl⟩
  | some a =>
    obtain ⟨r, hr⟩ := C33_inline_total (fun _ => .error .panic) e.store (Span.new a)
    have hl : inlineAttrlist e.store a = .ok r.1 := by unfold inlineAttrlist; rw [hr]; rfl
    refine ⟨some r.1, if ty = .mark then .unquoted else ty, by unfold quoteAttrs; simp only [hl, bind, Except.bind], fun sc b => ?_⟩
    simp only [formatBy, hl]
    rfl

theorem passage_noslash {op cl : Text} {ok after : Text → Prop} (hop : op ≠ [] ∧ op.head? ≠ some '[' ∧ op.head? ≠ some '\\')
    {p : Text} {o : Option Text} {b r : Text} (h : Passage op cl ok after p o b r) : startsWith p ['\\'] = false := by
  obtain ⟨c, t, rfl, hc⟩ := h.head hop.1
  have : c ≠ '\\' := by
    rintro rfl
    rcases hc with hc | hc
    · revert hc; decide
    · exact hop.2.2 hc
  simp only [startsWith, List.isPrefixOf_cons₂, Bool.and_eq_false_iff]
  exact Or.inl (by rw [Bool.eq_false_iff]; intro h; exact this (beq_iff_eq.mp h).symm)

/-- A match is a passage; unless it is followed by a quote it is replaced as specified. -/
theorem constrained_hit (e : Env) {ty : QuoteType} {ex : List Char} {op cl : Text}
    (hop : op ≠ [] ∧ op.head? ≠ some '[' ∧ op.head? ≠ some '\\') {pv : Option Char} {u : Text} {mt : Match} {s : RS}
    (hm : matchAt (constrainedRe ex op cl) pv u = some (mt, s)) :
    ∃ x, mt.text ≠ [] ∧ Constrained ex op cl (formatBy e ty .constrained) pv mt.text s.rest x ∧
      (¬ (ty = .monospaced ∧ QuoteScope.constrained = .constrained ∧ quoteFollows s.rest = true) →
        quoteReplacer e ty .constrained mt s.rest = .ok (x, .continue_)) := by
  obtain ⟨_, et, _⟩ := matchAt_sound hm
  obtain ⟨a, p, o, b, e1, hp, ec, ha⟩ := constrained_match ⟨hop.1, hop.2.1⟩ hm
  have hns := passage_noslash hop hp
  have hne : mt.text ≠ [] := by
    obtain ⟨c, x, rfl, _⟩ := hp.head hop.1
    rw [e1]; simp
  have g3 : mt.at! 3 = .ok b := by unfold Match.at! Match.get; rw [ec]; rfl
  have g2 : mt.get 2 = o := by
    unfold Match.get; rw [ec]
    cases o <;> rfl
  have g1 : mt.get 1 = some a := by
    unfold Match.get; rw [ec]
    cases o <;> rfl
  obtain ⟨al, ty', hal, hf⟩ := quoteAttrs_eq e ty o
  rcases ha with ⟨rfl, hpv⟩ | ⟨c, rfl, hw, hx, hno⟩
  · rw [List.nil_append] at e1
    refine ⟨formatBy e ty .constrained o b, hne, ⟨[], p, o, b, e1, hp, Or.inl ⟨rfl, hpv, rfl⟩⟩, fun hskip => ?_⟩
    unfold quoteReplacer
    rw [if_neg hskip, if_neg (by rw [e1, hns]; simp)]
    simp only [g2, hal, g3, g1, bind, Except.bind, hf]
    rfl
  · refine ⟨_, hne, ⟨[c], p, o, b, e1, hp, Or.inr ⟨c, rfl, hw, hx, hno, rfl⟩⟩, fun hskip => ?_⟩
    unfold quoteReplacer
    rw [if_neg hskip]
    by_cases hc : c = '\\'
    · subst hc
      rw [if_pos (by rw [e1]; rfl)]
      simp only [g2]
      cases o with
      | none => simp only [e1]; rfl
      | some x => simp only [g3, bind, Except.bind]; rfl
    · rw [if_neg (by
        rw [e1]
        simp only [startsWith, List.singleton_append, List.isPrefixOf_cons₂, Bool.and_eq_true, beq_iff_eq]
        exact fun h => hc h.1.symm)]
      simp only [g2, hal, g3, g1, bind, Except.bind, hf]
      rw [if_pos hc]
      rfl

theorem constrained_renders (e : Env) {ty : QuoteType} {ex : List Char} {op cl : Text}
    (hop : op ≠ [] ∧ op.head? ≠ some '[' ∧ op.head? ≠ some '\\') {t : Text}
    (hq : ty = .monospaced → cl = ['`'] ∧ NoQuoteBehind t) :
    LookRenders (constrainedRe ex op cl) (quoteReplacer e ty .constrained) (Constrained ex op cl (formatBy e ty .constrained)) t where
  sound := by
    intro pv u mt s hsuf hm
    obtain ⟨_, et, _⟩ := matchAt_sound hm
    obtain ⟨a, p, o, b, e1, hp, ec, ha⟩ := constrained_match ⟨hop.1, hop.2.1⟩ hm
    have hskip : ¬ (ty = .monospaced ∧ QuoteScope.constrained = .constrained ∧ quoteFollows s.rest = true) := by
      rintro ⟨ht, _, hf⟩
      obtain ⟨hcl, hn⟩ := hq ht
      obtain ⟨y, hy⟩ := hsuf
      obtain ⟨x, hx⟩ : ∃ x, mt.text = x ++ cl := by
        obtain ⟨z, _, hz, _⟩ := hp
        exact ⟨a ++ z ++ op ++ b, by rw [e1, hz]; simp⟩
      generalize hr : s.rest = r at hf et
      cases r with
      | nil => cases hf
      | cons c r =>
        have := hn (y ++ x) c r (by rw [← hy, et, hx, hcl]; simp)
        simp only [quoteFollows, Bool.or_eq_true, beq_iff_eq] at hf
        rcases hf with (h | h) | h
        · exact this.1 h
        · exact this.2.1 h
        · exact this.2.2 h
    obtain ⟨x, h1, h2, h3⟩ := constrained_hit e (ty := ty) hop hm
    exact ⟨x, h3 hskip, h1, h2⟩
  complete := fun _ _ _ _ h => constrained_rel ⟨hop.1, hop.2.1⟩ h

theorem anywhere_renders (e : Env) {ty : QuoteType} {mark : Text} {q : Char → Bool} {ok : Text → Prop}
    (hok : ∀ b, ok b ↔ (b ≠ [] ∧ ∀ c ∈ b, q c = true))
    (hop : mark ≠ [] ∧ mark.head? ≠ some '[' ∧ mark.head? ≠ some '\\') {t : Text} :
    LookRenders (anywhereRe mark q) (quoteReplacer e ty .unconstrained) (Unconstrained mark ok (formatBy e ty .unconstrained)) t where
  sound := by
    intro pv u mt s hsuf hm
    obtain ⟨_, et, _⟩ := matchAt_sound hm
    obtain ⟨a, p, o, b, e1, hp, ec, ha⟩ := anywhere_match hok ⟨hop.1, hop.2.1⟩ hm
    have hns := passage_noslash hop hp
    have hne : mt.text ≠ [] := by
      obtain ⟨c, x, rfl, _⟩ := hp.head hop.1
      rw [e1]; simp
    have g2 : mt.at! 2 = .ok b := by unfold Match.at! Match.get; rw [ec]; rfl
    have g1 : mt.get 1 = o := by
      unfold Match.get; rw [ec]
      cases o <;> rfl
    unfold quoteReplacer
    rw [if_neg (by rintro ⟨_, h, _⟩; cases h)]
    obtain ⟨al, ty', hal, hf⟩ := quoteAttrs_eq e ty o
    rcases ha with rfl | rfl
    · rw [List.nil_append] at e1
      refine ⟨formatBy e ty .unconstrained o b, ?_, hne, p, o, b, hp, Or.inl ⟨e1, rfl⟩⟩
      rw [if_neg (by rw [e1, hns]; simp)]
      simp only [hal, g2, g1, bind, Except.bind, hf]
    · refine ⟨p, ?_, hne, p, o, b, hp, Or.inr ⟨e1, rfl⟩⟩
      rw [if_pos (by rw [e1]; rfl)]
      simp only [e1]
      rfl
  complete := fun _ _ _ _ h => anywhere_rel hok ⟨hop.1, hop.2.1⟩ h

theorem lookRenders_congr {re re' : Re} {rep : LookReplacer} {P : Option Char → Text → Text → Text → Prop} {t : Text}
    (hm : ∀ k s, m re k s = m re' k s) (h : LookRenders re' rep P t) : LookRenders re rep P t where
  sound := fun pv u mt s hs h1 => h.sound pv u mt s hs (by unfold matchAt at h1 ⊢; rw [← hm]; exact h1)
  complete := fun pv u r x hp => by
    obtain ⟨s, hs⟩ := h.complete pv u r x hp
    cases h1 : m re some ⟨pv, u ++ r, []⟩ with
    | none =>
      rw [hm] at h1
      exact absurd h1 (Option.isSome_iff_ne_none.mp (m_complete _ some _ _ hs rfl))
    | some z =>
      obtain ⟨s', h2, _⟩ := m_sound _ _ _ _ h1
      exact ⟨s', h2⟩

end Adoc
