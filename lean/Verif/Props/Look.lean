import Verif.Lemmas.Look
import Verif.Props.Attrlist
/-!
# C32: replacement with look-ahead

`Spec.Looked` says what is meant to be written.
-/

namespace Adoc.Props
open Adoc Adoc.Spec Span Re

section
variable [Uni]

/-- The result for a text: what the caller goes on with. -/
def lookResult (re : Re) (rep : LookReplacer) (t : Text) : Res Text := (replaceWithLookahead re t rep).map (·.getD t)

/-- What is meant to be written exists for every text, if the replacer does not fail on matches and skips to character
boundaries. -/
theorem C32_exists (re : Re) (rep : LookReplacer)
    (hrep : ∀ pv t mt s, matchAt re pv t = some (mt, s) → ∃ x, rep mt s.rest = .ok (x, .continue_) ∨
      ∃ a v, t = a ++ v ∧ a ≠ [] ∧ rep mt s.rest = .ok (x, .skipAheadAndRetry (blen a))) (t : Text) :
    ∃ out, Looked re rep false false none true t out := by
  refine looked_exists t ?_ _ t (Nat.le_refl _) (List.suffix_refl t) false none true
  intro pv t' mt s _ hm
  obtain ⟨x, h⟩ := hrep pv t' mt s hm
  exact ⟨x, h.imp id fun h => ⟨rfl, h⟩⟩

/-- It is unique. -/
theorem C32_unique {re : Re} {rep : LookReplacer} {t x y : Text} (hx : Looked re rep false false none true t x)
    (hy : Looked re rep false false none true t y) : x = y :=
  hx.det hy

/-- The replacement keeps the text outside matches and replaces each match, for every expression and replacer, as long as
the replacer does not ask to skip after a match has been replaced, and writes something when it asks to skip.
Missing: skipping after a replacement, where text is lost (`C32_text_lost`) or the code panics (`C32_panics`). -/
theorem C32_keeps_partial {re : Re} {rep : LookReplacer} {t out : Text}
    (hx : ∀ mt r x n, rep mt r = .ok (x, .skipAheadAndRetry n) → x ≠ [])
    (h : Looked re rep true false none true t out) : lookResult re rep t = .ok out := by
  unfold lookResult replaceWithLookahead
  split
  · rename_i hm
    have : search re none t = none := by
      unfold isMatch at hm
      cases hs : search re none t with
      | none => rfl
      | some r => rw [hs] at hm; cases hm
    rw [looked_none h this]
    rfl
  · have := look_exec hx h ((t.length + 1) * (t.length + 1)) [] [] [] (by
      have : (t.length + 1) * 1 ≤ (t.length + 1) * (t.length + 1) := Nat.mul_le_mul_left _ (by omega)
      omega) (fun _ => rfl)
    simp only [List.nil_append, blen] at this
    rw [this]
    rfl

/-- The replacement returns or panics for every expression and every replacer that does. -/
theorem C32_terminates (re : Re) (rep : LookReplacer) (hr : ∀ mt r, rep mt r ≠ .error .fuel) (t : Text) :
    replaceWithLookahead re t rep ≠ .error .fuel := by
  unfold replaceWithLookahead
  split
  · simp
  · refine look_fuel hr _ _ _ [] _ _ _ _ _ rfl rfl ?_
    have : (t.length + 1) * 1 ≤ (t.length + 1) * (t.length + 1) := Nat.mul_le_mul_left _ (by omega)
    omega

/-- A replacer that never skips: the replacement never fails and keeps the text outside matches. -/
theorem C32_without_skips {re : Re} {rep : LookReplacer}
    (hrep : ∀ pv t mt s, matchAt re pv t = some (mt, s) → ∃ x, rep mt s.rest = .ok (x, .continue_))
    (hno : ∀ mt r x n, rep mt r ≠ .ok (x, .skipAheadAndRetry n)) (t : Text) :
    ∃ out, lookResult re rep t = .ok out ∧ Looked re rep true false none true t out := by
  obtain ⟨out, h⟩ := looked_exists (re := re) (rep := rep) (b := true) t (fun pv t' mt s _ hm => by
    obtain ⟨x, h⟩ := hrep pv t' mt s hm
    exact ⟨x, Or.inl h⟩) _ t (Nat.le_refl _) (List.suffix_refl t) false none true
  exact ⟨out, C32_keeps_partial (fun mt r x n hx => absurd hx (hno _ _ _ _)) h, h⟩

/-! ### Quotes -/

private theorem quoteAttrs_total (e : Env) (ty : QuoteType) (a : Option Text) : ∃ r, quoteAttrs e ty a = .ok r := by
  cases a with
  | none => exact ⟨_, rfl⟩
  | some a =>
    obtain ⟨r, hr⟩ := C33_inline_total (fun _ => .error .panic) e.store (Span.new a)
    unfold quoteAttrs inlineAttrlist
    simp only [hr, bind, Except.bind, Except.map]
    exact ⟨_, rfl⟩

/-- No backquote is followed by a quote. -/
def NoQuoteBehind (t : Text) : Prop := ∀ a c b, t = a ++ '`' :: c :: b → c ≠ '"' ∧ c ≠ '\'' ∧ c ≠ '`'

private theorem constrained_end {ex : List Char} {op cl : Text} {pv : Option Char} {t : Text} {mt : Match} {s : RS}
    (h : matchAt (constrainedRe ex op cl) pv t = some (mt, s)) : ∃ z, t = z ++ cl ++ s.rest := by
  obtain ⟨hr, _⟩ := matchAt_sound h
  unfold constrainedRe cat cat cat cat cat cat at hr
  simp only [rel_seq_iff] at hr
  obtain ⟨s1, h1, s2, h2, s3, h3, s4, h4, s5, h5, h6⟩ := hr
  obtain ⟨u1, e1, _⟩ := h1.consumes
  obtain ⟨u2, e2, _⟩ := h2.consumes
  obtain ⟨u3, e3, _⟩ := h3.consumes
  obtain ⟨u4, e4, _⟩ := h4.consumes
  obtain ⟨r, e5, hs5⟩ := rel_lit_iff.mp h5
  cases h6 with
  | endHalf =>
    rw [hs5]
    exact ⟨u1 ++ u2 ++ u3 ++ u4, by simp only at e1; rw [e1, e2, e3, e4, e5]; simp⟩

private theorem replacer_continues (e : Env) (ty : QuoteType) (sc : QuoteScope) (mt : Match) (after : Text)
    (h3 : sc = .constrained → ∃ v, mt.at! 3 = .ok v) (h2 : sc = .unconstrained → ∃ v, mt.at! 2 = .ok v)
    (hq : ty = .monospaced → sc = .constrained → ∀ c r, after = c :: r → c ≠ '"' ∧ c ≠ '\'' ∧ c ≠ '`') :
    ∃ x, quoteReplacer e ty sc mt after = .ok (x, .continue_) := by
  unfold quoteReplacer
  rw [if_neg (by
    rintro ⟨ht, hs, hc⟩
    cases after with
    | nil => cases hc
    | cons c r =>
      obtain ⟨q1, q2, q3⟩ := hq ht hs c r rfl
      simp only [quoteFollows, Bool.or_eq_true, beq_iff_eq] at hc
      rcases hc with (hc | hc) | hc
      · exact q1 hc
      · exact q2 hc
      · exact q3 hc)]
  by_cases hb : startsWith mt.text ['\\'] = true
  · rw [if_pos hb]
    cases sc with
    | constrained =>
      cases mt.get 2 with
      | none => exact ⟨_, rfl⟩
      | some attrs =>
        obtain ⟨v, hv⟩ := h3 rfl
        simp only [hv, bind, Except.bind]
        exact ⟨_, rfl⟩
    | unconstrained => exact ⟨_, rfl⟩
  · rw [if_neg hb]
    cases sc with
    | constrained =>
      obtain ⟨r, hr⟩ := quoteAttrs_total e ty (mt.get 2)
      obtain ⟨v, hv⟩ := h3 rfl
      simp only [hr, hv, bind, Except.bind]
      exact ⟨_, rfl⟩
    | unconstrained =>
      obtain ⟨r, hr⟩ := quoteAttrs_total e ty (mt.get 1)
      obtain ⟨v, hv⟩ := h2 rfl
      simp only [hr, hv, bind, Except.bind]
      exact ⟨_, rfl⟩

private theorem quote_groups {q : QuoteSub} (hq : q ∈ quoteSubs) :
    (q.scope = .constrained → (must q.pattern).contains 3 = true ∧ ∃ ex op cl, q.pattern = constrainedRe ex op cl ∧
      (q.type = .monospaced → cl = ['`'])) ∧
    (q.scope = .unconstrained → (must q.pattern).contains 2 = true) := by
  unfold quoteSubs at hq
  simp only [List.mem_cons, List.not_mem_nil, or_false] at hq
  rcases hq with rfl | rfl | rfl | rfl | rfl | rfl | rfl | rfl | rfl | rfl | rfl | rfl <;>
    first
    | exact ⟨(fun h => by cases h), fun _ => rfl⟩
    | exact ⟨fun _ => ⟨rfl, _, _, _, rfl, fun _ => rfl⟩, fun h => by cases h⟩
    | exact ⟨fun _ => ⟨rfl, _, _, _, rfl, fun h => by cases h⟩, fun h => by cases h⟩

private theorem replacer_skip_ne (e : Env) (ty : QuoteType) (sc : QuoteScope) (mt : Match) (r x : Text) (n : Nat) :
    quoteReplacer e ty sc mt r = .ok (x, .skipAheadAndRetry n) → x ≠ [] := by
  have cont : ∀ {α : Type} {m : Res α} {f : α → Text}, (m.bind fun v => .ok (f v, Look.continue_)) ≠
      .ok (x, .skipAheadAndRetry n) := by
    intro α m f
    cases m with
    | error => exact fun h => by cases h
    | ok v => exact fun h => by cases h
  by_cases hc : ty = .monospaced ∧ sc = .constrained ∧
      quoteFollows r = true
  · intro h
    unfold quoteReplacer at h
    rw [if_pos hc] at h
    simp only at h
    generalize hn : (if startsWith mt.text ['\\'] = true then 2 else 1) = k at h
    cases hs : sliceB mt.text 0 k with
    | none => rw [hs] at h; cases h
    | some y =>
      obtain ⟨o, y⟩ := y
      rw [hs] at h
      simp only [Except.ok.injEq, Prod.mk.injEq] at h
      obtain ⟨rfl, _⟩ := h
      obtain ⟨post, h1, h2, h3⟩ := sliceB_iff.mp hs
      rintro rfl
      simp only [blen] at h3
      split at hn <;> omega
  · intro h
    exfalso
    unfold quoteReplacer at h
    rw [if_neg hc] at h
    by_cases hb : startsWith mt.text ['\\'] = true
    · rw [if_pos hb] at h
      cases sc with
      | constrained =>
        cases h2 : mt.get 2 with
        | none => rw [h2] at h; cases h
        | some attrs => rw [h2] at h; exact cont h
      | unconstrained => cases h
    · rw [if_neg hb] at h
      cases sc with
      | constrained =>
        obtain ⟨q, hr⟩ := quoteAttrs_total e ty (mt.get 2)
        simp only [hr, bind, Except.bind] at h
        exact cont h
      | unconstrained =>
        obtain ⟨q, hr⟩ := quoteAttrs_total e ty (mt.get 1)
        simp only [hr, bind, Except.bind] at h
        exact cont h

/-- Replacing one kind of quotes never fails and keeps the text outside matches.
Missing: single backquotes, in a text with a backquote followed by a quote (`C32_panics`). -/
theorem C32_quotes_partial (e : Env) {q : QuoteSub} (hq : q ∈ quoteSubs) (t : Text)
    (ht : q.type = .monospaced → q.scope = .constrained → NoQuoteBehind t) :
    ∃ out, lookResult q.pattern (quoteReplacer e q.type q.scope) t = .ok out ∧
      Looked q.pattern (quoteReplacer e q.type q.scope) true false none true t out := by
  obtain ⟨g3, g2⟩ := quote_groups hq
  have key : ∀ pv t' mt s, t' <:+ t → matchAt q.pattern pv t' = some (mt, s) →
      ∃ x, quoteReplacer e q.type q.scope mt s.rest = .ok (x, .continue_) := by
    intro pv t' mt s hsuf hm
    refine replacer_continues e q.type q.scope mt s.rest (fun hs => matchAt_at hm 3 (g3 hs).1)
      (fun hs => matchAt_at hm 2 (g2 hs)) ?_
    intro hty hs c r hc
    obtain ⟨_, ex, op, cl, hp, hcl⟩ := g3 hs
    rw [hp] at hm
    obtain ⟨z, hz⟩ := constrained_end hm
    obtain ⟨y, hy⟩ := hsuf
    refine ht hty hs (y ++ z) c r ?_
    rw [← hy, hz, hc, hcl hty]
    simp
  obtain ⟨out, h⟩ := looked_exists (re := q.pattern) (rep := quoteReplacer e q.type q.scope) (b := true) t
    (fun pv t' mt s hs hm => by
      obtain ⟨x, h⟩ := key pv t' mt s hs hm
      exact ⟨x, Or.inl h⟩) _ t (Nat.le_refl _) (List.suffix_refl t) false none true
  exact ⟨out, C32_keeps_partial (replacer_skip_ne e q.type q.scope) h, h⟩

end

/-- Non-vacuity: an early skip is handled as intended. -/
example : letI := asciiUni
    lookResult (constrainedRe ['&', ';', ':', '"', '\'', '`', '}'] ['`'] ['`'])
      (quoteReplacer { store := .default, sep := '/', r := Html.renderer } .monospaced .constrained)
      "x `b`' `a`".toList = .ok "x `b`' <code>a</code>".toList := by
  decide +kernel

/-- Non-vacuity: quotes of another kind, replaced in a text with backquotes. -/
example : letI := asciiUni
    lookResult (constrainedRe ['&', ';', ':', '}'] ['*'] ['*'])
      (quoteReplacer { store := .default, sep := '/', r := Html.renderer } .strong .constrained)
      "x *b* `a`' \\*c*".toList = .ok "x <strong>b</strong> `a`' *c*".toList := by
  decide +kernel

/-- The full claim is false: the code panics. -/
theorem C32_panics : letI := asciiUni
    applyQuotes { store := .default, sep := '/', r := Html.renderer } "`a` `b`'".toList = .error .panic := by
  decide +kernel

/-- The full claim is false: text is lost. -/
theorem C32_text_lost : letI := asciiUni
    applyQuotes { store := .default, sep := '/', r := Html.renderer } "`a` \\`b`' long text".toList =
      .ok "<code>a</code> \\` long text".toList := by
  decide +kernel

end Adoc.Props
