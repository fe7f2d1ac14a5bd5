import Verif.Spec.Backquotes
import Verif.Lemmas.FormatReplacer
/-!
# The replacement with look-ahead for passages that are not always formatted
-/

namespace Adoc
open Adoc.Spec Adoc.Props Re Span
variable [Uni]

/-- Expressions and replacers that do what `P` says unless a quote follows. -/
structure Holds (re : Re) (rep : LookReplacer) (P : Option Char → Text → Text → Text → Prop) : Prop where
  sound : ∀ pv t mt s, matchAt re pv t = some (mt, s) → ∃ x, mt.text ≠ [] ∧ P pv mt.text s.rest x ∧
    (¬ QuoteNext s.rest → rep mt s.rest = .ok (x, .continue_)) ∧
    (QuoteNext s.rest → (∀ c ∈ keptOf mt.text, c.utf8Size = 1) →
      rep mt s.rest = .ok (keptOf mt.text, .skipAheadAndRetry (blen (keptOf mt.text)))) ∧
    (QuoteNext s.rest → (∃ c ∈ keptOf mt.text, c.utf8Size ≠ 1) → rep mt s.rest = .error .panic)
  complete : ∀ pv m b x, P pv m b x → ∃ s, Rel re ⟨pv, m ++ b, []⟩ s
  det : Determined P

omit [Uni] in
theorem keptOf_prefix (p : Text) : keptOf p <+: p := by
  unfold keptOf; split <;> exact List.take_prefix _ _

omit [Uni] in
theorem keptOf_ne {p : Text} (h : p ≠ []) : keptOf p ≠ [] := by
  unfold keptOf
  cases p with
  | nil => exact absurd rfl h
  | cons c p => split <;> simp

/-- At a place where nothing is to be replaced, nothing matches. -/
theorem Holds.miss {re : Re} {rep : LookReplacer} {P : Option Char → Text → Text → Text → Prop} (h : Holds re rep P)
    {pv : Option Char} {t : Text} (hn : ∀ piece behind new, t = piece ++ behind → ¬ P pv piece behind new) :
    matchAt re pv t = none := by
  cases hm : matchAt re pv t with
  | none => rfl
  | some y =>
    obtain ⟨mt, s⟩ := y
    obtain ⟨x, _, hp, _⟩ := h.sound _ _ _ _ hm
    exact absurd hp (hn _ _ _ (matchAt_sound hm).2.1)

/-- Where something is to be replaced, that is what matches. -/
theorem Holds.match {re : Re} {rep : LookReplacer} {P : Option Char → Text → Text → Text → Prop} (h : Holds re rep P)
    {pv : Option Char} {u r x : Text} (hp : P pv u r x) :
    ∃ mt s, matchAt re pv (u ++ r) = some (mt, s) ∧ mt.text = u ∧ s.rest = r ∧ u ≠ [] ∧ s.prev = u.getLast? ∧
    (¬ QuoteNext r → rep mt r = .ok (x, .continue_)) ∧
    (QuoteNext r → (∀ c ∈ keptOf u, c.utf8Size = 1) → rep mt r = .ok (keptOf u, .skipAheadAndRetry (blen (keptOf u)))) ∧
    (QuoteNext r → (∃ c ∈ keptOf u, c.utf8Size ≠ 1) → rep mt r = .error .panic) := by
  obtain ⟨s, hs⟩ := h.complete _ _ _ _ hp
  cases hm : matchAt re pv (u ++ r) with
  | none => exact absurd hs (matchAt_none.mp hm s)
  | some y =>
    obtain ⟨mt, s⟩ := y
    obtain ⟨y, hne, hp', h1, h2, h3⟩ := h.sound _ _ _ _ hm
    obtain ⟨_, e1, e2, _⟩ := matchAt_sound hm
    obtain ⟨_, e3, e4⟩ := h.det _ _ _ _ _ _ _ hp hp' e1
    have e5 : r = s.rest := by rw [← e3] at e1; exact List.append_cancel_left e1
    subst e4
    rw [prevAfter_ne hne] at e2
    refine ⟨mt, s, rfl, e3.symm, e5.symm, by rw [e3]; exact hne, by rw [e2, e3], ?_, ?_, ?_⟩
    · rw [e5]; exact h1
    · rw [e5, e3]; exact h2
    · rw [e5, e3]; exact h3

/-- The loop panics when the end of the last replacement is not a character boundary. -/
theorem look_stuck {re : Re} {rep : LookReplacer} {P : Option Char → Text → Text → Text → Prop} (h : Holds re rep P) :
    ∀ (fuel : Nat) (pre : Text) (pv : Option Char) (t : Text) (e : Bool) (last : Nat) (new : Text), t.length < fuel →
    (∀ a b, pre ++ t = a ++ b → blen a ≠ last) → lookLoop re rep fuel (pre ++ t) (blen pre) pv t e last new = .error .panic := by
  intro fuel
  induction fuel with
  | zero => intro pre pv t e last new hf; omega
  | succ fuel ih =>
    intro pre pv t e last new hf hb
    rw [lookLoop]
    have adv : (match t with
        | [] =>
          match splitB (pre ++ t) last with
          | some (_, tl) => (.ok (some (new ++ tl)) : Res (Option Text))
          | none => .error .panic
        | c :: cs => lookLoop re rep fuel (pre ++ t) (blen pre + c.utf8Size) (some c) cs true last new) = .error .panic := by
      cases t with
      | nil =>
        simp only
        cases hs : splitB (pre ++ []) last with
        | none => rfl
        | some q =>
          obtain ⟨e1, e2⟩ := splitB_sound hs
          exact absurd e2 (hb _ _ e1)
      | cons c cs =>
        simp only
        have := ih (pre ++ [c]) (some c) cs true last new (by simpa using hf) (by simpa using hb)
        rw [blen_append'] at this
        simpa [blen] using this
    cases hm : matchAt re pv t with
    | none => exact adv
    | some y =>
      obtain ⟨mt, s⟩ := y
      obtain ⟨x, hne, _⟩ := h.sound _ _ _ _ hm
      simp only
      rw [if_pos (Or.inl hne)]
      cases hs : sliceB (pre ++ t) last (blen pre) with
      | none => rfl
      | some q =>
        obtain ⟨a, mid⟩ := q
        obtain ⟨post, e1, e2, _⟩ := sliceB_iff.mp hs
        exact absurd e2 (hb a (mid ++ post) (by rw [e1]; simp))

/-- What the caller goes on with. -/
def lookOutcome : Option Text → Res (Option Text)
  | none => .error .panic
  | some out => .ok (some out)

theorem look_backquoted {re : Re} {rep : LookReplacer} {P : Option Char → Text → Text → Text → Prop} (h : Holds re rep P)
    {pos last : Nat} {pv : Option Char} {t : Text} {r : Option Text} (hb : Backquoted P pos last pv t r) :
    ∀ (fuel : Nat) (pre : Text) (e : Bool) (new : Text), t.length < fuel → blen pre = pos →
      (∀ a mid, pre = a ++ mid → blen a = last →
        lookLoop re rep fuel (pre ++ t) pos pv t e last new = lookOutcome (r.map (new ++ mid ++ ·))) ∧
      (pos < last → lookLoop re rep fuel (pre ++ t) pos pv t e last new = lookOutcome (r.map (new ++ ·))) := by
  have pos_lt : ∀ {t : Text} {fuel : Nat}, t.length < fuel → ∃ k, fuel = k + 1 := fun h => ⟨_, (Nat.succ_pred_eq_of_pos (by omega)).symm⟩
  induction hb with
  | @done pos last pv hle =>
    rintro fuel pre e new hf rfl
    obtain ⟨fuel, rfl⟩ := pos_lt hf
    have hm : matchAt re pv [] = none := by
      cases hm : matchAt re pv [] with
      | none => rfl
      | some y =>
        obtain ⟨_, hne, _⟩ := h.sound _ _ _ _ hm
        exact absurd (List.append_eq_nil_iff.mp (matchAt_sound hm).2.1.symm).1 hne
    refine ⟨?_, fun hlt => by omega⟩
    rintro a mid rfl rfl
    rw [List.append_nil, lookLoop, hm]
    simp only [splitB_blen]
    simp [lookOutcome]
  | @short pos last pv hlt =>
    rintro fuel pre e new hf rfl
    have key : lookLoop re rep fuel (pre ++ []) (blen pre) pv [] e last new = .error .panic := by
      refine look_stuck h _ _ _ _ _ _ _ hf ?_
      rintro a b e1 rfl
      rw [List.append_nil] at e1
      rw [e1, blen_append'] at hlt
      omega
    exact ⟨fun _ _ _ _ => key, fun _ => key⟩
  | @keep pos last pv c t out hle hn _ ih =>
    rintro fuel pre e new hf rfl
    obtain ⟨fuel, rfl⟩ := pos_lt hf
    refine ⟨?_, fun hlt => by omega⟩
    rintro a mid rfl rfl
    have ih := (ih fuel (a ++ mid ++ [c]) true new (by simpa using hf) (by rw [blen_append']; simp [blen])).1 a (mid ++ [c])
      (by simp) rfl
    rw [lookLoop, h.miss hn]
    simp only
    rw [show a ++ mid ++ c :: t = a ++ mid ++ [c] ++ t by simp, ih]
    congr 1
    cases out <;> simp
  | @lose pos last pv c t out hle hn _ ih =>
    rintro fuel pre e new hf rfl
    obtain ⟨fuel, rfl⟩ := pos_lt hf
    have hc := Char.utf8Size_pos c
    refine ⟨?_, fun _ => ?_⟩
    · rintro a mid rfl rfl
      rw [blen_append'] at hle
      omega
    · rw [lookLoop, h.miss hn]
      simp only
      have ih := ih fuel (pre ++ [c]) true new (by simpa using hf) (by rw [blen_append']; simp [blen])
      rw [show pre ++ c :: t = pre ++ [c] ++ t by simp]
      rcases Nat.lt_or_ge (blen pre + c.utf8Size) last with hlt | hge
      · exact ih.2 hlt
      · have := ih.1 (pre ++ [c]) [] (by simp) (by rw [blen_append']; simp [blen]; omega)
        rw [this, List.append_nil]
  | @torn pos last pv c t hlt hgt hn =>
    rintro fuel pre e new hf rfl
    have key : lookLoop re rep fuel (pre ++ c :: t) (blen pre) pv (c :: t) e last new = .error .panic := by
      refine look_stuck h _ _ _ _ _ _ _ hf ?_
      rintro a b e1 rfl
      rcases List.append_eq_append_iff.mp e1 with ⟨w, hw, _⟩ | ⟨w, hw, _⟩
      · rw [hw, blen_append'] at hgt hlt
        cases w with
        | nil => simp [blen] at hlt
        | cons d w =>
          rename_i hw2
          have : d = c := by
            have := (List.cons.inj hw2).1
            exact this.symm
          subst this
          simp only [blen] at hgt
          omega
      · rw [hw, blen_append'] at hlt
        omega
    exact ⟨fun _ _ _ _ => key, fun _ => key⟩
  | @hit pos last pv piece behind new' out hle hp hq _ ih =>
    rintro fuel pre e new hf rfl
    obtain ⟨fuel, rfl⟩ := pos_lt hf
    obtain ⟨mt, s, hm, e1, e2, hne, e3, hr, _, _⟩ := h.match hp
    refine ⟨?_, fun hlt => by omega⟩
    rintro a mid rfl rfl
    have : 0 < piece.length := List.length_pos_iff.mpr hne
    have ih := (ih fuel (a ++ mid ++ piece) false (new ++ mid ++ new') (by simp at hf; omega) (by rw [blen_append'])).1
      (a ++ mid ++ piece) [] (by simp) (by rw [blen_append'])
    have hs : sliceB (a ++ mid ++ (piece ++ behind)) (blen a) (blen (a ++ mid)) = some (a, mid) :=
      sliceB_iff.mpr ⟨piece ++ behind, by simp, rfl, by rw [blen_append']⟩
    rw [lookLoop, hm]
    simp only [e1, e2, hne, ne_eq, not_false_eq_true, true_or, if_true, hs, hr hq, e3]
    rw [show a ++ mid ++ (piece ++ behind) = a ++ mid ++ piece ++ behind by simp, ih]
    congr 1
    cases out <;> simp
  | @held pos last pv piece behind new' rest out hle hp hq he ha _ ih =>
    rintro fuel pre e new hf rfl
    obtain ⟨fuel, rfl⟩ := pos_lt hf
    obtain ⟨mt, s, hm, e1, e2, hne, e3, _, hr, _⟩ := h.match hp
    refine ⟨?_, fun hlt => by omega⟩
    rintro a mid rfl rfl
    have hk := keptOf_ne hne
    generalize hkk : keptOf piece = k at *
    have : 0 < k.length := List.length_pos_iff.mpr hk
    have hlen : piece.length + behind.length = k.length + rest.length := by simpa using congrArg List.length he
    have ih := ih fuel [] true (new ++ mid ++ k) (by simp at hf; omega) rfl
    have hs : sliceB (a ++ mid ++ (piece ++ behind)) (blen a) (blen (a ++ mid)) = some (a, mid) :=
      sliceB_iff.mpr ⟨piece ++ behind, by simp, rfl, by rw [blen_append']⟩
    have hs' : splitB (a ++ mid ++ (piece ++ behind)) (blen (a ++ mid) + blen k) = some (a ++ mid ++ k, rest) := by
      rw [← blen_append', he, ← List.append_assoc]
      exact splitB_blen _ _
    have hpos : blen k ≠ 0 := by
      obtain ⟨c, cs, rfl⟩ := List.exists_cons_of_ne_nil hk
      have := Char.utf8Size_pos c
      simp only [blen]; omega
    have hnn : ¬ (new ++ mid ++ k = [] ∧ isMatch re rest = false) := by
      rintro ⟨hz, _⟩
      exact hk (List.append_eq_nil_iff.mp hz).2
    have ih' : lookLoop re rep fuel rest 0 none rest true (blen a) (new ++ mid ++ k) = lookOutcome (out.map (new ++ mid ++ k ++ ·)) := by
      rcases Nat.eq_zero_or_pos (blen a) with h0 | h0
      · have := ih.1 [] [] rfl (by simp [blen, h0])
        simpa using this
      · simpa using ih.2 h0
    rw [lookLoop, hm]
    simp only [e1, e2, hne, ne_eq, not_false_eq_true, true_or, if_true, hs, hr hq ha, hpos, if_false, hs', hnn]
    rw [ih']
    congr 1
    cases out <;> simp
  | @wide pos last pv piece behind new' c hle hp hq hc hw =>
    rintro fuel pre e new hf rfl
    obtain ⟨fuel, rfl⟩ := pos_lt hf
    obtain ⟨mt, s, hm, e1, e2, hne, e3, _, _, hr⟩ := h.match hp
    refine ⟨?_, fun hlt => by omega⟩
    rintro a mid rfl rfl
    have hs : sliceB (a ++ mid ++ (piece ++ behind)) (blen a) (blen (a ++ mid)) = some (a, mid) :=
      sliceB_iff.mpr ⟨piece ++ behind, by simp, rfl, by rw [blen_append']⟩
    rw [lookLoop, hm]
    simp only [e1, e2, hne, ne_eq, not_false_eq_true, true_or, if_true, hs, hr hq ⟨c, hc, hw⟩]
    rfl
  | @inside pos last pv piece behind new' hlt hp =>
    rintro fuel pre e new hf rfl
    obtain ⟨fuel, rfl⟩ := pos_lt hf
    obtain ⟨mt, s, hm, e1, e2, hne, _⟩ := h.match hp
    have key : lookLoop re rep (fuel + 1) (pre ++ (piece ++ behind)) (blen pre) pv (piece ++ behind) e last new = .error .panic := by
      rw [lookLoop, hm]
      simp only
      rw [if_pos (Or.inl (by rw [e1]; exact hne))]
      cases hs : sliceB (pre ++ (piece ++ behind)) last (blen pre) with
      | none => rfl
      | some q =>
        obtain ⟨a, mid⟩ := q
        obtain ⟨post, _, e5, e6⟩ := sliceB_iff.mp hs
        omega
    exact ⟨fun _ _ _ _ => key, fun _ => key⟩

/-- Something becomes of every text. -/
theorem backquoted_exists {re : Re} {rep : LookReplacer} {P : Option Char → Text → Text → Text → Prop} (h : Holds re rep P) :
    ∀ (n : Nat) (t : Text), t.length ≤ n → ∀ pos last pv, ∃ r, Backquoted P pos last pv t r := by
  intro n
  induction n with
  | zero =>
    intro t ht pos last pv
    obtain rfl := List.length_eq_zero_iff.mp (Nat.le_zero.mp ht)
    rcases Nat.lt_or_ge pos last with hl | hl
    · exact ⟨_, .short hl⟩
    · exact ⟨_, .done hl⟩
  | succ n ih =>
    intro t ht pos last pv
    cases t with
    | nil => exact ih [] (by simp) pos last pv
    | cons c t =>
      cases hm : matchAt re pv (c :: t) with
      | none =>
        have hn : ∀ piece behind new, c :: t = piece ++ behind → ¬ P pv piece behind new := by
          intro u r x e hp
          obtain ⟨mt, s, hm', _⟩ := h.match hp
          rw [← e, hm] at hm'
          cases hm'
        obtain ⟨r, hr⟩ := ih t (by simpa using ht) (pos + c.utf8Size) last (some c)
        rcases Nat.lt_or_ge pos last with hl | hl
        · rcases Nat.lt_or_ge last (pos + c.utf8Size) with hg | hg
          · exact ⟨_, .torn hl hg hn⟩
          · exact ⟨_, .lose hg hn hr⟩
        · exact ⟨_, .keep hl hn hr⟩
      | some y =>
        obtain ⟨mt, s⟩ := y
        obtain ⟨x, hne, hp, _⟩ := h.sound _ _ _ _ hm
        have e := (matchAt_sound hm).2.1
        rw [e]
        have hlen : t.length + 1 = mt.text.length + s.rest.length := by simpa using congrArg List.length e
        have hpos := List.length_pos_iff.mpr hne
        rcases Nat.lt_or_ge pos last with hl | hl
        · exact ⟨_, .inside hl hp⟩
        · by_cases hq : QuoteNext s.rest
          · by_cases hw : ∀ c ∈ keptOf mt.text, c.utf8Size = 1
            · obtain ⟨z, hz⟩ := keptOf_prefix mt.text
              have hk := List.length_pos_iff.mpr (keptOf_ne hne)
              have hzl : (keptOf mt.text).length + z.length = mt.text.length := by
                have := congrArg List.length hz
                simpa using this
              obtain ⟨r, hr⟩ := ih (z ++ s.rest) (by simp at ht ⊢; omega) 0 last none
              exact ⟨_, .held hl hp hq (by rw [← List.append_assoc, hz]) hw hr⟩
            · simp only [Classical.not_forall] at hw
              obtain ⟨d, hd, hw⟩ := hw
              exact ⟨_, .wide hl hp hq hd hw⟩
          · obtain ⟨r, hr⟩ := ih s.rest (by simp at ht; omega) (pos + blen mt.text) (pos + blen mt.text) mt.text.getLast?
            exact ⟨_, .hit hl hp hq hr⟩

theorem backquoted_same {P : Option Char → Text → Text → Text → Prop} : ∀ {t : Text} {pos : Nat} {pv : Option Char},
    (∀ a u b x pv, t = a ++ u ++ b → ¬ P pv u b x) → Backquoted P pos 0 pv t (some t)
  | [], _, _, _ => .done (Nat.zero_le _)
  | c :: t, pos, pv, hn => by
    have := Backquoted.keep (P := P) (pos := pos) (last := 0) (before := pv) (c := c) (t := t) (out := some t) (Nat.zero_le _)
      (fun u b x e => hn [] u b x pv (by simpa using e))
      (backquoted_same fun a u b x pv e => hn (c :: a) u b x pv (by simp [e]))
    exact this

/-- What becomes of a text is what the program makes of it. -/
theorem look_exact {re : Re} {rep : LookReplacer} {P : Option Char → Text → Text → Text → Prop} (h : Holds re rep P)
    {t : Text} {r : Option Text} (hb : Backquoted P 0 0 none t r) :
    lookResult re rep t = match r with | none => .error .panic | some out => .ok out := by
  have key : lookLoop re rep ((t.length + 1) * (t.length + 1)) t 0 none t true 0 [] = lookOutcome r := by
    have := (look_backquoted h hb ((t.length + 1) * (t.length + 1)) [] true [] (by
      have : (t.length + 1) * 1 ≤ (t.length + 1) * (t.length + 1) := Nat.mul_le_mul_left _ (by omega)
      omega) rfl).1 [] [] rfl rfl
    simpa using this
  unfold lookResult replaceWithLookahead
  split
  · rename_i hm
    have hs : search re none t = none := by
      unfold isMatch at hm
      cases hs : search re none t with
      | none => rfl
      | some r => rw [hs] at hm; cases hm
    have hsame : ∀ (t : Text) (pv : Option Char) (pos : Nat), search re pv t = none → Backquoted P pos 0 pv t (some t) := by
      intro t
      induction t with
      | nil => intro pv pos _; exact .done (Nat.zero_le _)
      | cons c t ih =>
        intro pv pos hs
        obtain ⟨h1, h2⟩ := search_none_at hs
        refine Backquoted.keep (out := some t) (Nat.zero_le _) (fun u b x e hp => ?_) (ih _ _ (h2 _ _ rfl))
        obtain ⟨mt, s, hm', _⟩ := h.match hp
        rw [← e, h1] at hm'
        cases hm'
    have h2 := (look_backquoted h (hsame t none 0 hs) ((t.length + 1) * (t.length + 1)) [] true [] (by
      have : (t.length + 1) * 1 ≤ (t.length + 1) * (t.length + 1) := Nat.mul_le_mul_left _ (by omega)
      omega) rfl).1 [] [] rfl rfl
    simp only [List.nil_append, key, Option.map_some] at h2
    cases r with
    | none => cases h2
    | some out =>
      simp only [lookOutcome, Except.ok.injEq, Option.some.injEq] at h2
      subst h2
      rfl
  · rw [key]
    cases r <;> rfl

omit [Uni] in
theorem quoteNext_iff {t : Text} : QuoteNext t ↔ quoteFollows t = true := by
  cases t with
  | nil => exact ⟨(fun ⟨_, _, h, _⟩ => by cases h), fun h => by cases h⟩
  | cons c t =>
    simp only [quoteFollows, Bool.or_eq_true, beq_iff_eq, or_assoc]
    exact ⟨(fun ⟨_, _, h, hc⟩ => by cases h; exact hc), fun h => ⟨c, t, rfl, h⟩⟩

theorem holds_backquotes (e : Env) : Holds (constrainedRe ['&', ';', ':', '"', '\'', '`', '}'] "`".toList "`".toList)
    (quoteReplacer e .monospaced .constrained) (backquotes (formatBy e)) where
  sound := by
    intro pv t mt s hm
    obtain ⟨x, h1, h2, h3⟩ := constrained_hit e (ty := .monospaced) (by decide) hm
    refine ⟨x, h1, h2, fun hq => h3 fun h => hq (quoteNext_iff.mpr h.2.2), ?_⟩
    obtain ⟨a, p, o, b, e1, hp, ec, ha⟩ := constrained_match (by decide) hm
    have hns := passage_noslash (by decide) hp
    obtain ⟨d, z, hd, _⟩ := hp.head (by decide)
    -- what is kept are the first one or two characters
    obtain ⟨n, k, w, hk, hl, ew, hn⟩ : ∃ (n : Nat) (k w : Text), keptOf mt.text = k ∧ k.length = n ∧ mt.text = k ++ w ∧
        n = if startsWith mt.text ['\\'] = true then 2 else 1 := by
      by_cases hb : startsWith mt.text ['\\'] = true
      · obtain ⟨r, hr⟩ := startsWith_iff.mp hb
        have : ['\\'] <+: mt.text := ⟨r, hr.symm⟩
        cases r with
        | nil =>
          exfalso
          rw [e1, hd] at hr
          rcases ha with ⟨rfl, _⟩ | ⟨c, rfl, _⟩
          · rw [hd] at hns
            simp only [List.nil_append, List.append_nil] at hr
            rw [hr] at hns
            cases hns
          · simp at hr
        | cons r w => exact ⟨2, ['\\', r], w, by unfold keptOf; rw [if_pos this, hr]; rfl, rfl, by rw [hr]; rfl, by rw [if_pos hb]⟩
      · have : ¬ ['\\'] <+: mt.text := fun ⟨r, hr⟩ => hb (startsWith_iff.mpr ⟨r, hr.symm⟩)
        obtain ⟨c, w, hw⟩ := List.exists_cons_of_ne_nil h1
        exact ⟨1, [c], w, by unfold keptOf; rw [if_neg this, hw]; rfl, rfl, by rw [hw]; rfl, by rw [if_neg hb]⟩
    have hlen : ∀ k : Text, (∀ c ∈ k, c.utf8Size = 1) → blen k = k.length := by
      intro k
      induction k with
      | nil => intro _; rfl
      | cons c k ih =>
        intro h
        rw [blen, ih fun d hd => h d (by simp [hd]), h c (by simp), List.length_cons]
        omega
    have hge : ∀ k : Text, k.length ≤ blen k := by
      intro k
      induction k with
      | nil => exact Nat.zero_le _
      | cons c k ih =>
        have := Char.utf8Size_pos c
        rw [blen, List.length_cons]; omega
    have hgt : ∀ k : Text, (∃ c ∈ k, c.utf8Size ≠ 1) → k.length < blen k := by
      intro k
      induction k with
      | nil => rintro ⟨_, h, _⟩; cases h
      | cons c k ih =>
        rintro ⟨d, hd, hw⟩
        have := Char.utf8Size_pos c
        have h' := hge k
        rw [blen, List.length_cons]
        rcases List.mem_cons.mp hd with rfl | hd
        · omega
        · have := ih ⟨d, hd, hw⟩
          omega
    constructor
    · intro hq hasc
      rw [hk] at hasc ⊢
      unfold quoteReplacer
      rw [if_pos ⟨rfl, rfl, quoteNext_iff.mp hq⟩, hlen k hasc, hl, hn]
      have : sliceB mt.text 0 (if startsWith mt.text ['\\'] = true then 2 else 1) = some ([], k) :=
        sliceB_iff.mpr ⟨w, by rw [ew]; rfl, rfl, by rw [← hn, ← hl, ← hlen k hasc]; simp [blen]⟩
      simp only [this]
    · intro hq hwide
      rw [hk] at hwide
      unfold quoteReplacer
      rw [if_pos ⟨rfl, rfl, quoteNext_iff.mp hq⟩]
      have : sliceB mt.text 0 (if startsWith mt.text ['\\'] = true then 2 else 1) = none := by
        cases hs : sliceB mt.text 0 (if startsWith mt.text ['\\'] = true then 2 else 1) with
        | none => rfl
        | some q =>
          exfalso
          obtain ⟨a', y⟩ := q
          obtain ⟨post, e3, e4, e5⟩ := sliceB_iff.mp hs
          have ha0 : a' = [] := by
            cases a' with
            | nil => rfl
            | cons c a' =>
              have := Char.utf8Size_pos c
              simp only [blen] at e4; omega
          subst ha0
          rw [← hn, ← hl] at e5
          simp only [blen, Nat.zero_add] at e5
          have hy : y <+: k := by
            refine List.prefix_of_prefix_length_le (l₃ := mt.text) ⟨post, by rw [e3]; rfl⟩ ⟨w, ew.symm⟩ ?_
            have := hge y
            omega
          obtain ⟨v, hv⟩ := hy
          have h4 := congrArg blen hv
          rw [blen_append'] at h4
          have h5 := congrArg List.length hv
          rw [List.length_append] at h5
          -- every character of `k` but those of `y` counts, and `y` has the length of `k` in bytes
          cases v with
          | nil =>
            rw [List.append_nil] at hv
            have := hgt k hwide
            rw [hv] at e5
            omega
          | cons c v =>
            have h6 := hge y
            have h7 : y.length < k.length := by rw [← h5]; simp
            match y, k, hl, hv, e5, hn, hwide with
            | [], k, hl, hv, e5, hn, _ => 
              simp only [blen] at e5
              rw [← e5] at hl
              split at hn <;> omega
            | [y1], [k1], _, hv, _, _, _ => simp at h7
            | [y1], [k1, k2], hl, hv, e5, hn, _ =>
              split at hn
              · rename_i hb
                obtain ⟨r, hr⟩ := startsWith_iff.mp hb
                rw [e3] at hr
                simp only [List.nil_append, List.cons_append, List.cons.injEq] at hr
                rw [hr.1] at e5
                simp only [blen, List.length_cons, List.length_nil] at e5
                revert e5
                decide
              · simp only [List.length_cons, List.length_nil] at hl
                omega
            | [y1], k1 :: k2 :: k3 :: k, hl, _, _, hn, _ =>
              simp only [List.length_cons] at hl
              split at hn <;> omega
            | y1 :: y2 :: y, k, hl, hv, e5, hn, _ =>
              simp only [List.length_cons] at h7
              split at hn <;> omega
      simp only [this]
  complete := fun _ _ _ _ h => constrained_rel (by decide) h
  det := determined_constrained (by decide) _

theorem backquoted_det {re : Re} {rep : LookReplacer} {P : Option Char → Text → Text → Text → Prop} (h : Holds re rep P)
    {t : Text} {r r' : Option Text} (h1 : Backquoted P 0 0 none t r) (h2 : Backquoted P 0 0 none t r') : r = r' := by
  have e := (look_exact h h1).symm.trans (look_exact h h2)
  cases r <;> cases r' <;> simp at e ⊢
  exact e

/-! ### What is meant -/

omit [Uni] in
theorem monospace_weaken {P : Option Char → Text → Text → Text → Prop} {b d : Bool} {pv : Option Char} {t out : Text}
    (h : Monospace P b d pv t out) : Monospace P false d pv t out := by
  induction h with
  | done => exact .done
  | keep h1 _ ih => exact .keep h1 ih
  | hit h1 h2 _ ih => exact .hit h1 h2 ih
  | held h1 h2 h3 _ _ ih => exact .held h1 h2 h3 (fun h => by cases h) ih

omit [Uni] in
theorem monospace_backquoted {P : Option Char → Text → Text → Text → Prop} {d : Bool} {pv : Option Char} {t out : Text}
    (h : Monospace P true d pv t out) : ∀ {pos last : Nat}, last ≤ pos → (d = false → last = 0) →
      Backquoted P pos last pv t (some out) := by
  induction h with
  | done => intro pos last hl _; exact .done hl
  | @keep d pv c t out h1 _ ih =>
    intro pos last hl hd
    exact Backquoted.keep (out := some out) hl h1 (ih (by omega) hd)
  | @hit d pv piece behind new out h1 h2 _ ih =>
    intro pos last hl hd
    exact Backquoted.hit (out := some out) hl h1 h2 (ih (Nat.le_refl _) (fun h => by cases h))
  | @held d pv piece behind new rest out h1 h2 h3 h4 _ ih =>
    intro pos last hl hd
    obtain ⟨h5, h6⟩ := h4 rfl
    exact Backquoted.held (out := some out) hl h1 h2 h3 h6 (ih (by rw [hd h5]; exact Nat.le_refl _) hd)

omit [Uni] in
theorem monospace_compare {P : Option Char → Text → Text → Text → Prop} (hP : Determined P) {d : Bool} {pv : Option Char} {t out : Text}
    (h : Monospace P false d pv t out) : ∀ {pos last : Nat} {out' : Text}, Backquoted P pos last pv t (some out') →
      (d = false ↔ last = 0) →
      (last ≤ pos → out'.length < out.length ∨ (out' = out ∧ Monospace P true d pv t out)) ∧
      (pos < last → out'.length < out.length) := by
  induction h with
  | @done d pv =>
    intro pos last out' hb hd
    generalize ht : ([] : Text) = t at hb
    generalize hr : some out' = r at hb
    cases hb with
    | done hl => cases hr; exact ⟨fun _ => Or.inr ⟨rfl, .done⟩, fun _ => by omega⟩
    | short => cases hr
    | keep => cases ht
    | lose => cases ht
    | torn => cases ht
    | hit _ hp => exact absurd (List.append_eq_nil_iff.mp ht.symm).1 (hP _ _ _ _ _ _ _ hp hp rfl).1
    | held _ hp => exact absurd (List.append_eq_nil_iff.mp ht.symm).1 (hP _ _ _ _ _ _ _ hp hp rfl).1
    | wide => cases hr
    | inside => cases hr
  | @keep d pv c t out h1 _ ih =>
    intro pos last out' hb hd
    generalize ht : c :: t = t' at hb
    generalize hr : some out' = r at hb
    cases hb with
    | done => cases ht
    | short => cases ht
    | @keep _ _ _ _ _ o hl _ hb =>
      cases ht
      cases o with
      | none => cases hr
      | some o =>
        cases hr
        refine ⟨fun _ => ?_, fun _ => by omega⟩
        rcases (ih hb hd).1 (by omega) with h | ⟨rfl, h⟩
        · exact Or.inl (by simpa using h)
        · exact Or.inr ⟨rfl, .keep h1 h⟩
    | lose hl _ hb =>
      cases ht
      cases hr
      have hc := Char.utf8Size_pos c
      refine ⟨fun _ => by omega, fun _ => ?_⟩
      rcases Nat.lt_or_ge (pos + c.utf8Size) last with hlt | hge
      · have := (ih hb hd).2 hlt
        simp only [List.length_cons]; omega
      · rcases (ih hb hd).1 hge with h | ⟨rfl, _⟩
        · simp only [List.length_cons]; omega
        · simp
    | torn => cases hr
    | hit _ hp => exact absurd hp (h1 _ _ _ ht)
    | held _ hp => exact absurd hp (h1 _ _ _ ht)
    | wide => cases hr
    | inside => cases hr
  | @hit d pv piece behind new out h1 h2 _ ih =>
    intro pos last out' hb hd
    generalize ht : piece ++ behind = t' at hb
    generalize hr : some out' = r at hb
    have hne : piece ≠ [] := (hP _ _ _ _ _ _ _ h1 h1 rfl).1
    cases hb with
    | done => exact absurd (List.append_eq_nil_iff.mp ht).1 hne
    | short => exact absurd (List.append_eq_nil_iff.mp ht).1 hne
    | keep _ hn => exact absurd h1 (hn _ _ _ ht.symm)
    | lose _ hn => exact absurd h1 (hn _ _ _ ht.symm)
    | torn => cases hr
    | @hit _ _ _ piece' behind' new' o hl hp _ hb =>
      obtain ⟨_, rfl, rfl⟩ := hP _ _ _ _ _ _ _ h1 hp ht
      obtain rfl := List.append_cancel_left ht
      cases o with
      | none => cases hr
      | some o =>
        cases hr
        refine ⟨fun _ => ?_, fun _ => by omega⟩
        have hpos : 0 < blen piece := by
          obtain ⟨c, cs, rfl⟩ := List.exists_cons_of_ne_nil hne
          have := Char.utf8Size_pos c
          simp only [blen]; omega
        rcases (ih hb ⟨(fun h => by cases h), fun h => by omega⟩).1 (Nat.le_refl _) with h | ⟨rfl, h⟩
        · exact Or.inl (by simpa using h)
        · exact Or.inr ⟨rfl, .hit h1 h2 h⟩
    | held _ hp hq =>
      obtain ⟨_, rfl, rfl⟩ := hP _ _ _ _ _ _ _ h1 hp ht
      obtain rfl := List.append_cancel_left ht
      exact absurd hq h2
    | wide => cases hr
    | inside => cases hr
  | @held d pv piece behind new rest out h1 h2 h3 h4 _ ih =>
    intro pos last out' hb hd
    generalize ht : piece ++ behind = t' at hb
    generalize hr : some out' = r at hb
    have hne : piece ≠ [] := (hP _ _ _ _ _ _ _ h1 h1 rfl).1
    cases hb with
    | done => exact absurd (List.append_eq_nil_iff.mp ht).1 hne
    | short => exact absurd (List.append_eq_nil_iff.mp ht).1 hne
    | keep _ hn => exact absurd h1 (hn _ _ _ ht.symm)
    | lose _ hn => exact absurd h1 (hn _ _ _ ht.symm)
    | torn => cases hr
    | hit _ hp hq =>
      obtain ⟨_, rfl, rfl⟩ := hP _ _ _ _ _ _ _ h1 hp ht
      obtain rfl := List.append_cancel_left ht
      exact absurd h2 hq
    | @held _ _ _ piece' behind' new' rest' o hl hp _ he hasc hb =>
      obtain ⟨_, rfl, rfl⟩ := hP _ _ _ _ _ _ _ h1 hp ht
      obtain rfl := List.append_cancel_left ht
      obtain rfl : rest = rest' := List.append_cancel_left (h3.symm.trans he)
      cases o with
      | none => cases hr
      | some o =>
        cases hr
        refine ⟨fun _ => ?_, fun _ => by omega⟩
        rcases Nat.eq_zero_or_pos last with h0 | h0
        · rcases (ih hb hd).1 (by omega) with h | ⟨rfl, h⟩
          · exact Or.inl (by simpa using h)
          · exact Or.inr ⟨rfl, .held h1 h2 h3 (fun _ => ⟨hd.mpr h0, hasc⟩) h⟩
        · have := (ih hb hd).2 h0
          exact Or.inl (by simpa using this)
    | wide => cases hr
    | inside => cases hr

/-- What is meant exists for every text. -/
theorem monospace_exists {re : Re} {rep : LookReplacer} {P : Option Char → Text → Text → Text → Prop} (h : Holds re rep P) :
    ∀ (n : Nat) (t : Text), t.length ≤ n → ∀ d pv, ∃ out, Monospace P false d pv t out := by
  intro n
  induction n with
  | zero =>
    intro t ht d pv
    obtain rfl := List.length_eq_zero_iff.mp (Nat.le_zero.mp ht)
    exact ⟨_, .done⟩
  | succ n ih =>
    intro t ht d pv
    cases t with
    | nil => exact ⟨_, .done⟩
    | cons c t =>
      cases hm : matchAt re pv (c :: t) with
      | none =>
        obtain ⟨r, hr⟩ := ih t (by simpa using ht) d (some c)
        refine ⟨_, .keep (fun u r x e hp => ?_) hr⟩
        obtain ⟨mt, s, hm', _⟩ := h.match hp
        rw [← e, hm] at hm'
        cases hm'
      | some y =>
        obtain ⟨mt, s⟩ := y
        obtain ⟨x, hne, hp, _⟩ := h.sound _ _ _ _ hm
        have e := (matchAt_sound hm).2.1
        rw [e]
        have hlen : t.length + 1 = mt.text.length + s.rest.length := by simpa using congrArg List.length e
        have hpos := List.length_pos_iff.mpr hne
        by_cases hq : QuoteNext s.rest
        · obtain ⟨z, hz⟩ := keptOf_prefix mt.text
          have hk := List.length_pos_iff.mpr (keptOf_ne hne)
          have hzl : (keptOf mt.text).length + z.length = mt.text.length := by
            have := congrArg List.length hz
            simpa using this
          obtain ⟨r, hr⟩ := ih (z ++ s.rest) (by simp at ht ⊢; omega) d none
          exact ⟨_, .held hp hq (by rw [← List.append_assoc, hz]) (fun h => by cases h) hr⟩
        · obtain ⟨r, hr⟩ := ih s.rest (by simp at ht; omega) true mt.text.getLast?
          exact ⟨_, .hit hp hq hr⟩

omit [Uni] in
/-- It is unique. -/
theorem monospace_det {P : Option Char → Text → Text → Text → Prop} (hP : Determined P) {b d : Bool} {pv : Option Char} {t x : Text}
    (h : Monospace P b d pv t x) : ∀ {b' d' : Bool} {y : Text}, Monospace P b' d' pv t y → x = y := by
  induction h with
  | done =>
    intro b' d' y h'
    generalize ht : ([] : Text) = t at h'
    cases h' with
    | done => rfl
    | keep => cases ht
    | hit hp => exact absurd (List.append_eq_nil_iff.mp ht.symm).1 (hP _ _ _ _ _ _ _ hp hp rfl).1
    | held hp => exact absurd (List.append_eq_nil_iff.mp ht.symm).1 (hP _ _ _ _ _ _ _ hp hp rfl).1
  | @keep d pv c t out h1 _ ih =>
    intro b' d' y h'
    generalize ht : c :: t = t' at h'
    cases h' with
    | done => cases ht
    | keep _ h' => cases ht; rw [ih h']
    | hit hp => exact absurd hp (h1 _ _ _ ht)
    | held hp => exact absurd hp (h1 _ _ _ ht)
  | @hit d pv piece behind new out h1 h2 _ ih =>
    intro b' d' y h'
    generalize ht : piece ++ behind = t' at h'
    cases h' with
    | done => exact absurd (List.append_eq_nil_iff.mp ht).1 (hP _ _ _ _ _ _ _ h1 h1 rfl).1
    | keep hn => exact absurd h1 (hn _ _ _ ht.symm)
    | hit hp _ h' =>
      obtain ⟨_, rfl, rfl⟩ := hP _ _ _ _ _ _ _ h1 hp ht
      obtain rfl := List.append_cancel_left ht
      rw [ih h']
    | held hp hq =>
      obtain ⟨_, rfl, rfl⟩ := hP _ _ _ _ _ _ _ h1 hp ht
      obtain rfl := List.append_cancel_left ht
      exact absurd hq h2
  | @held d pv piece behind new rest out h1 h2 h3 h4 _ ih =>
    intro b' d' y h'
    generalize ht : piece ++ behind = t' at h'
    cases h' with
    | done => exact absurd (List.append_eq_nil_iff.mp ht).1 (hP _ _ _ _ _ _ _ h1 h1 rfl).1
    | keep hn => exact absurd h1 (hn _ _ _ ht.symm)
    | hit hp hq =>
      obtain ⟨_, rfl, rfl⟩ := hP _ _ _ _ _ _ _ h1 hp ht
      obtain rfl := List.append_cancel_left ht
      exact absurd h2 hq
    | held hp hq he _ h' =>
      obtain ⟨_, rfl, rfl⟩ := hP _ _ _ _ _ _ _ h1 hp ht
      obtain rfl := List.append_cancel_left ht
      obtain rfl := List.append_cancel_left (h3.symm.trans he)
      rw [ih h']

end Adoc
