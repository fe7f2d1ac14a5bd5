import Verif.Spec.Look
import Verif.Lemmas.Captures
/-!
# The loop of the replacement with look-ahead
-/

namespace Adoc
open Span Spec Re
variable [Uni]

theorem blen_append' (a b : Text) : blen (a ++ b) = blen a + blen b := by
  induction a with
  | nil => simp [blen]
  | cons c cs ih => simp only [List.cons_append, blen, ih]; omega

/-- An early skip: the loop writes what it is meant to write. -/
theorem look_exec {re : Re} {rep : LookReplacer}
    (hx : ∀ mt r x n, rep mt r = .ok (x, .skipAheadAndRetry n) → x ≠ []) {d : Bool} {pv : Option Char} {e : Bool}
    {t out : Text} (h : Looked re rep true d pv e t out) :
    ∀ (fuel : Nat) (a mid new : Text), t.length < fuel → (d = false → a = []) →
      lookLoop re rep fuel (a ++ mid ++ t) (blen (a ++ mid)) pv t e (blen a) new = .ok (some (new ++ mid ++ out)) := by
  induction h with
  | @finish d pv e hm =>
    intro fuel a mid new hf hd
    obtain ⟨fuel, rfl⟩ : ∃ k, fuel = k + 1 := ⟨fuel - 1, by omega⟩
    rw [List.append_nil, List.append_nil, lookLoop]
    have hs : splitB (a ++ mid) (blen a) = some (a, mid) := splitB_blen a mid
    cases h1 : matchAt re pv [] with
    | none => simp only [hs]
    | some p =>
      obtain ⟨mt, s⟩ := p
      have he := hm _ _ h1
      obtain ⟨_, h2, _⟩ := matchAt_sound h1
      have h3 : mt.text = [] := (List.append_eq_nil_iff.mp h2.symm).1
      simp only [he, h3, ne_eq, not_true, Bool.false_eq_true, or_self, if_false, hs]
  | @keep d pv e c cs out hm _ ih =>
    intro fuel a mid new hf hd
    obtain ⟨fuel, rfl⟩ : ∃ k, fuel = k + 1 := ⟨fuel - 1, by omega⟩
    have ih := ih fuel a (mid ++ [c]) new (by simpa using hf) hd
    have e1 : a ++ (mid ++ [c]) ++ cs = a ++ mid ++ c :: cs := by simp
    have e2 : blen (a ++ (mid ++ [c])) = blen (a ++ mid) + c.utf8Size := by
      rw [← List.append_assoc, blen_append']; simp [blen]
    have e3 : new ++ (mid ++ [c]) ++ out = new ++ mid ++ c :: out := by simp
    rw [e1, e2, e3] at ih
    rw [lookLoop]
    cases h1 : matchAt re pv (c :: cs) with
    | none => simp only; exact ih
    | some p =>
      obtain ⟨mt, s⟩ := p
      obtain ⟨h3, he⟩ := hm _ _ h1
      simp only [he, h3, ne_eq, not_true, Bool.false_eq_true, or_self, if_false]
      exact ih
  | @replace d pv e mt s x out hm hne hr _ ih =>
    intro fuel a mid new hf hd
    obtain ⟨fuel, rfl⟩ : ∃ k, fuel = k + 1 := ⟨fuel - 1, by omega⟩
    have : 0 < mt.text.length := List.length_pos_iff.mpr hne
    have ih := ih fuel (a ++ mid ++ mt.text) [] (new ++ mid ++ x) (by simp at hf; omega) (by simp)
    simp only [List.append_nil, List.append_assoc] at ih
    have hs : sliceB (a ++ mid ++ (mt.text ++ s.rest)) (blen a) (blen (a ++ mid)) = some (a, mid) :=
      sliceB_iff.mpr ⟨mt.text ++ s.rest, by simp, rfl, by rw [blen_append']⟩
    rw [lookLoop]
    simp only [hm, hne, ne_eq, not_false_eq_true, true_or, if_true, hs, hr]
    rw [← blen_append']
    simpa only [List.append_assoc] using ih
  | @replaceEmpty d pv c cs mt s x out hm he hr _ ih =>
    intro fuel a mid new hf hd
    obtain ⟨fuel, rfl⟩ : ∃ k, fuel = k + 1 := ⟨fuel - 1, by omega⟩
    obtain ⟨_, h2, _⟩ := matchAt_sound hm
    have hrest : s.rest = c :: cs := by rw [he] at h2; exact h2.symm
    have ih := ih fuel (a ++ mid) [c] (new ++ mid ++ x) (by simpa using hf) (by simp)
    have e1 : a ++ mid ++ [c] ++ cs = a ++ mid ++ c :: cs := by simp
    have e2 : blen (a ++ mid ++ [c]) = blen (a ++ mid) + c.utf8Size := by
      rw [blen_append']; simp [blen]
    have e3 : new ++ mid ++ x ++ [c] ++ out = new ++ mid ++ (x ++ c :: out) := by simp
    rw [e1, e2, e3] at ih
    have hs : sliceB (a ++ mid ++ c :: cs) (blen a) (blen (a ++ mid)) = some (a, mid) :=
      sliceB_iff.mpr ⟨c :: cs, by simp, rfl, by rw [blen_append']⟩
    rw [lookLoop]
    simp only [hm, he, ne_eq, not_true, or_true, if_true, hs, hrest, hr, if_false]
    exact ih
  | @replaceEnd d pv mt s x hm hr =>
    intro fuel a mid new hf hd
    obtain ⟨fuel, rfl⟩ : ∃ k, fuel = k + 1 := ⟨fuel - 1, by omega⟩
    obtain ⟨_, h2, _⟩ := matchAt_sound hm
    obtain ⟨h3, h4⟩ := List.append_eq_nil_iff.mp h2.symm
    have hs : sliceB (a ++ mid) (blen a) (blen (a ++ mid)) = some (a, mid) :=
      sliceB_iff.mpr ⟨[], by simp, rfl, by rw [blen_append']⟩
    have hs' : splitB (a ++ mid) (blen (a ++ mid)) = some (a ++ mid, []) := by
      have := splitB_blen (a ++ mid) []
      rwa [List.append_nil] at this
    rw [List.append_nil, lookLoop]
    simp only [hm, h3, h4, ne_eq, not_true, or_true, if_true, hs, hr, if_false, hs', List.append_nil]
  | @skip d pv e mt s x u b out hm he hr hne hd' _ ih =>
    intro fuel a mid new hf hd
    obtain ⟨fuel, rfl⟩ : ∃ k, fuel = k + 1 := ⟨fuel - 1, by omega⟩
    have hd0 := hd' rfl
    have ha := hd hd0
    subst ha
    have : 0 < u.length := List.length_pos_iff.mpr hne
    have ih := ih fuel [] [] (new ++ mid ++ x) (by simp at hf; omega) (fun _ => rfl)
    have hs : sliceB ([] ++ mid ++ (u ++ b)) (blen []) (blen ([] ++ mid)) = some ([], mid) :=
      sliceB_iff.mpr ⟨u ++ b, by simp, rfl, by simp [blen]⟩
    have hs' : splitB ([] ++ mid ++ (u ++ b)) (blen ([] ++ mid) + blen u) = some (mid ++ u, b) := by
      rw [← blen_append']
      have := splitB_blen (mid ++ u) b
      simpa using this
    have hpos : blen u ≠ 0 := by
      obtain ⟨c, cs, rfl⟩ := List.exists_cons_of_ne_nil hne
      have := Char.utf8Size_pos c
      simp only [blen]; omega
    have hnn : ¬ (new ++ mid ++ x = [] ∧ isMatch re b = false) := by
      rintro ⟨hz, _⟩
      exact hx _ _ _ _ hr (List.append_eq_nil_iff.mp hz).2
    rw [lookLoop]
    simp only [hm]
    rw [if_pos (by
      by_cases hz : mt.text = []
      · exact Or.inr (he hz)
      · exact Or.inl hz)]
    simp only [hs, hr, hpos, if_false, hs', hnn]
    simpa [blen] using ih

theorem search_none_at {re : Re} : ∀ {pv : Option Char} {t : Text}, search re pv t = none →
    matchAt re pv t = none ∧ ∀ c cs, t = c :: cs → search re (some c) cs = none := by
  intro pv t h
  cases t with
  | nil => rw [search, Option.map_eq_none_iff] at h; exact ⟨h, by simp⟩
  | cons c cs =>
    rw [search] at h
    cases h1 : matchAt re pv (c :: cs) with
    | some r => rw [h1] at h; cases h
    | none =>
      rw [h1] at h
      refine ⟨rfl, ?_⟩
      rintro _ _ ⟨⟩
      exact Option.map_eq_none_iff.mp h

/-- Without matches nothing changes. -/
theorem looked_none {re : Re} {rep : LookReplacer} {b d : Bool} {pv : Option Char} {e : Bool} {t out : Text}
    (h : Looked re rep b d pv e t out) (hs : search re pv t = none) : out = t := by
  induction h with
  | finish => rfl
  | keep _ _ ih => rw [ih ((search_none_at hs).2 _ _ rfl)]
  | replace hm => rw [(search_none_at hs).1] at hm; cases hm
  | replaceEmpty hm => rw [(search_none_at hs).1] at hm; cases hm
  | replaceEnd hm => rw [(search_none_at hs).1] at hm; cases hm
  | skip hm => rw [(search_none_at hs).1] at hm; cases hm

/-- What is meant to be written is determined. -/
theorem Spec.Looked.det {re : Re} {rep : LookReplacer} {b d : Bool} {pv : Option Char} {e : Bool} {t x y : Text}
    (h : Looked re rep b d pv e t x) : ∀ {b' d' : Bool}, Looked re rep b' d' pv e t y → x = y := by
  have inj : ∀ {re : Re} {pv : Option Char} {t : Text} {mt mt' : Match} {s s' : RS}, matchAt re pv t = some (mt, s) →
      matchAt re pv t = some (mt', s') → mt = mt' ∧ s = s' := by
    intro re pv t mt mt' s s' h1 h2
    rw [h1] at h2
    cases h2
    exact ⟨rfl, rfl⟩
  have nilText : ∀ {re : Re} {pv : Option Char} {mt : Match} {s : RS}, matchAt re pv [] = some (mt, s) →
      mt.text = [] ∧ s.rest = [] := by
    intro re pv mt s h1
    exact List.append_eq_nil_iff.mp (matchAt_sound h1).2.1.symm
  induction h generalizing y with
  | finish hm =>
    intro b' d' h'
    generalize ht : ([] : Text) = t at h'
    cases h' with
    | finish => rfl
    | keep => cases ht
    | replace h1 hne => exact absurd (List.append_eq_nil_iff.mp ht.symm).1 hne
    | replaceEmpty => cases ht
    | replaceEnd h1 => exact absurd (hm _ _ h1) (by simp)
    | skip h1 he _ hne => exact absurd (List.append_eq_nil_iff.mp ht.symm).1 hne
  | @keep d pv e c cs out hm _ ih =>
    intro b' d' h'
    generalize ht : c :: cs = t at h'
    cases h' with
    | finish => cases ht
    | keep _ h2 => cases ht; rw [ih h2]
    | replace h1 hne => rw [← ht] at h1; exact absurd (hm _ _ h1).1 hne
    | replaceEmpty h1 => rw [← ht] at h1; exact absurd (hm _ _ h1).2 (by simp)
    | replaceEnd => cases ht
    | skip h1 he _ hne => rw [← ht] at h1; rw [he (hm _ _ h1).1] at hm; exact absurd (hm _ _ h1).2 (by simp)
  | @replace d pv e mt s x out hm hne hr _ ih =>
    intro b' d' h'
    generalize ht : mt.text ++ s.rest = t at h' hm
    cases h' with
    | finish => exact absurd (List.append_eq_nil_iff.mp ht).1 hne
    | keep h1 => exact absurd (h1 _ _ hm).1 hne
    | replace h1 _ hr' h2 =>
      obtain ⟨rfl, rfl⟩ := inj hm h1
      rw [hr] at hr'
      cases hr'
      rw [ih h2]
    | replaceEmpty h1 h3 => obtain ⟨rfl, rfl⟩ := inj hm h1; exact absurd h3 hne
    | replaceEnd h1 => obtain ⟨rfl, rfl⟩ := inj hm h1; exact absurd (nilText h1).1 hne
    | skip h1 _ hr' => obtain ⟨rfl, rfl⟩ := inj hm h1; rw [hr] at hr'; cases hr'
  | @replaceEmpty d pv c cs mt s x out hm he hr _ ih =>
    intro b' d' h'
    generalize ht : c :: cs = t at h'
    cases h' with
    | finish => cases ht
    | keep h1 => rw [← ht] at h1; exact absurd (h1 _ _ hm).2 (by simp)
    | replace h1 hne => rw [← ht] at h1; obtain ⟨rfl, rfl⟩ := inj hm h1; exact absurd he hne
    | replaceEmpty h1 _ hr' h2 =>
      cases ht
      obtain ⟨rfl, rfl⟩ := inj hm h1
      rw [hr] at hr'
      cases hr'
      rw [ih h2]
    | replaceEnd => cases ht
    | skip h1 _ hr' =>
      rw [← ht] at h1
      obtain ⟨rfl, rfl⟩ := inj hm h1
      have : s.rest = c :: cs := by
        have := (matchAt_sound hm).2.1
        rw [he] at this
        exact this.symm
      rw [this, hr] at hr'
      cases hr'
  | @replaceEnd d pv mt s x hm hr =>
    intro b' d' h'
    generalize ht : ([] : Text) = t at h'
    cases h' with
    | finish h1 => exact absurd (h1 _ _ hm) (by simp)
    | keep => cases ht
    | replace h1 hne => exact absurd (List.append_eq_nil_iff.mp ht.symm).1 hne
    | replaceEmpty => cases ht
    | replaceEnd h1 hr' => obtain ⟨rfl, rfl⟩ := inj hm h1; rw [hr] at hr'; cases hr'; rfl
    | skip h1 he _ hne => exact absurd (List.append_eq_nil_iff.mp ht.symm).1 hne
  | @skip d pv e mt s x u v out hm he hr hne _ _ ih =>
    intro b' d' h'
    generalize ht : u ++ v = t at h' hm
    cases h' with
    | finish => exact absurd (List.append_eq_nil_iff.mp ht).1 hne
    | keep h1 => rw [he (h1 _ _ hm).1] at h1; exact absurd (h1 _ _ hm).2 (by simp)
    | replace h1 _ hr' => obtain ⟨rfl, rfl⟩ := inj hm h1; rw [hr] at hr'; cases hr'
    | replaceEmpty h1 h3 hr' =>
      obtain ⟨rfl, rfl⟩ := inj hm h1
      have := (matchAt_sound hm).2.1
      rw [h3] at this
      simp only [List.nil_append] at this
      rw [← this, hr'] at hr
      cases hr
    | replaceEnd h1 => exact absurd (List.append_eq_nil_iff.mp ht).1 hne
    | skip h1 _ hr' _ _ h2 =>
      obtain ⟨rfl, rfl⟩ := inj hm h1
      rw [hr] at hr'
      injection hr' with hr'
      injection hr' with hx hn
      injection hn with hn
      have h3 := splitB_blen u v
      rw [ht, hn, splitB_blen] at h3
      cases h3
      rw [hx, ih h2]

/-- Something is meant to be written for every text, when the replacer succeeds on the matches in it and skips to
character boundaries. -/
theorem looked_exists {re : Re} {rep : LookReplacer} {b : Bool} (u : Text)
    (hrep : ∀ pv t mt s, t <:+ u → matchAt re pv t = some (mt, s) →
      ∃ x, rep mt s.rest = .ok (x, .continue_) ∨
        (b = false ∧ ∃ a v, t = a ++ v ∧ a ≠ [] ∧ rep mt s.rest = .ok (x, .skipAheadAndRetry (blen a)))) :
    ∀ (n : Nat) (t : Text), t.length ≤ n → t <:+ u → ∀ (d : Bool) (pv : Option Char) (e : Bool),
      ∃ out, Looked re rep b d pv e t out := by
  intro n
  induction n with
  | zero =>
    intro t ht hu d pv e
    obtain rfl := List.length_eq_zero_iff.mp (Nat.le_zero.mp ht)
    cases hm : matchAt re pv [] with
    | none => exact ⟨[], .finish (by rw [hm]; simp)⟩
    | some p =>
      obtain ⟨mt, s⟩ := p
      cases e with
      | false => exact ⟨[], .finish (fun _ _ _ => rfl)⟩
      | true =>
        obtain ⟨x, hx | ⟨_, a, v, ha, hne, _⟩⟩ := hrep _ _ _ _ hu hm
        · have : s.rest = [] := (List.append_eq_nil_iff.mp (matchAt_sound hm).2.1.symm).2
          rw [this] at hx
          exact ⟨x, .replaceEnd hm hx⟩
        · exact absurd (List.append_eq_nil_iff.mp ha.symm).1 hne
  | succ n ih =>
    intro t ht hu d pv e
    cases t with
    | nil => exact ih [] (by simp) hu d pv e
    | cons c cs =>
      have hcs : cs <:+ u := (List.suffix_cons c cs).trans hu
      have hlen : cs.length ≤ n := by simpa using ht
      cases hm : matchAt re pv (c :: cs) with
      | none =>
        obtain ⟨out, h⟩ := ih cs hlen hcs d (some c) true
        exact ⟨c :: out, .keep (by rw [hm]; simp) h⟩
      | some p =>
        obtain ⟨mt, s⟩ := p
        have he := (matchAt_sound hm).2.1
        by_cases hkeep : mt.text = [] ∧ e = false
        · obtain ⟨out, h⟩ := ih cs hlen hcs d (some c) true
          refine ⟨c :: out, .keep ?_ h⟩
          intro mt' s' hm'
          rw [hm] at hm'
          cases hm'
          exact hkeep
        · obtain ⟨x, hx | ⟨hb, a, v, ha, hne, hx⟩⟩ := hrep _ _ _ _ hu hm
          · by_cases hz : mt.text = []
            · have : s.rest = c :: cs := by rw [hz] at he; exact he.symm
              rw [this] at hx
              obtain ⟨out, h⟩ := ih cs hlen hcs true (some c) true
              have hee : e = true := by
                cases e with
                | true => rfl
                | false => exact absurd ⟨hz, rfl⟩ hkeep
              subst hee
              exact ⟨_, .replaceEmpty hm hz hx h⟩
            · have hl : s.rest.length ≤ n := by
                have h1 : (c :: cs).length = mt.text.length + s.rest.length := by rw [he]; simp
                have h2 := List.length_pos_iff.mpr hz
                simp only [List.length_cons] at h1
                omega
              have hsu : s.rest <:+ u := by
                refine List.IsSuffix.trans ?_ hu
                rw [he]
                exact List.suffix_append _ _
              obtain ⟨out, h⟩ := ih s.rest hl hsu true s.prev false
              rw [he] at hm ⊢
              exact ⟨_, .replace hm hz hx h⟩
          · have hl : v.length ≤ n := by
              have h1 : (c :: cs).length = a.length + v.length := by rw [ha]; simp
              have h2 := List.length_pos_iff.mpr hne
              simp only [List.length_cons] at h1
              omega
            have hvu : v <:+ u := by
              refine List.IsSuffix.trans ?_ hu
              rw [ha]
              exact List.suffix_append _ _
            obtain ⟨out, h⟩ := ih v hl hvu d none true
            rw [ha] at hm ⊢
            refine ⟨_, .skip hm ?_ hx hne ?_ h⟩
            · intro hz
              cases e with
              | true => rfl
              | false => exact absurd ⟨hz, rfl⟩ hkeep
            · rw [hb]; simp

/-- The loop stays within its bound. -/
theorem look_fuel {re : Re} {rep : LookReplacer} (hr : ∀ mt r, rep mt r ≠ .error .fuel) : ∀ (fuel : Nat) (hay : Text)
    (pos : Nat) (pre : Text) (pv : Option Char) (t : Text) (e : Bool) (last : Nat) (new : Text), hay = pre ++ t →
    pos = blen pre → t.length < fuel → lookLoop re rep fuel hay pos pv t e last new ≠ .error .fuel := by
  intro fuel
  induction fuel with
  | zero => intro hay pos pre pv t e last new _ _ h; omega
  | succ fuel ih =>
    intro hay pos pre pv t e last new hh hp hf
    subst hh hp
    have adv : ∀ (last : Nat) (new : Text), (match t with
        | [] =>
          match splitB (pre ++ t) last with
          | some (_, tl) => (.ok (some (new ++ tl)) : Res (Option Text))
          | none => .error .panic
        | c :: cs => lookLoop re rep fuel (pre ++ t) (blen pre + c.utf8Size) (some c) cs true last new) ≠ .error .fuel := by
      intro last new
      cases t with
      | nil =>
        simp only
        cases splitB (pre ++ []) last with
        | none => simp
        | some p => simp
      | cons c cs =>
        simp only
        exact ih _ _ (pre ++ [c]) _ _ _ _ _ (by simp) (by rw [blen_append']; simp [blen]) (by simpa using hf)
    rw [lookLoop]
    cases hm : matchAt re pv t with
    | none => exact adv _ _
    | some p =>
      obtain ⟨mt, s⟩ := p
      have he := (matchAt_sound hm).2.1
      simp only
      by_cases hc : mt.text ≠ [] ∨ e = true
      · rw [if_pos hc]
        cases hs : sliceB (pre ++ t) last (blen pre) with
        | none => simp
        | some q =>
          obtain ⟨_, mid⟩ := q
          simp only
          cases hx : rep mt s.rest with
          | error x =>
            simp only [ne_eq, Except.error.injEq]
            rintro rfl
            exact hr _ _ hx
          | ok y =>
            obtain ⟨x, l⟩ := y
            cases l with
            | continue_ =>
              simp only
              by_cases hz : mt.text ≠ []
              · rw [if_pos hz]
                have : 0 < mt.text.length := List.length_pos_iff.mpr hz
                have hl : t.length = mt.text.length + s.rest.length := by rw [he]; simp
                refine ih _ _ (pre ++ mt.text) _ _ _ _ _ ?_ (by rw [blen_append']) (by omega)
                rw [List.append_assoc, ← he]
              · rw [if_neg hz]
                exact adv _ _
            | skipAheadAndRetry n =>
              simp only
              by_cases hn : n = 0
              · rw [if_pos hn]; simp
              · rw [if_neg hn]
                cases hs' : splitB (pre ++ t) (blen pre + n) with
                | none => simp
                | some q =>
                  obtain ⟨a, hay'⟩ := q
                  simp only
                  by_cases hb : new ++ mid ++ x = [] ∧ isMatch re hay' = false
                  · rw [if_pos hb]; simp
                  · rw [if_neg hb]
                    obtain ⟨e1, e2⟩ := splitB_sound hs'
                    refine ih _ _ [] _ _ _ _ _ rfl rfl ?_
                    have hlen : pre.length + t.length = a.length + hay'.length := by
                      have := congrArg List.length e1
                      simpa using this
                    have : pre.length < a.length := by
                      refine Nat.lt_of_not_le fun hle => ?_
                      have h1 : a <+: pre := by
                        refine List.prefix_of_prefix_length_le (l₃ := pre ++ t) ?_ (List.prefix_append _ _) hle
                        rw [e1]
                        exact List.prefix_append _ _
                      obtain ⟨w, hw⟩ := h1
                      rw [← hw, blen_append'] at e2
                      omega
                    omega
      · rw [if_neg hc]
        exact adv _ _

end Adoc
