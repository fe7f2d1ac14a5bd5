import Verif.Lemmas.FormatWord
import Verif.Lemmas.Backquotes
/-!
# C64: formatted text
-/

namespace Adoc.Props
open Adoc Adoc.Spec Re
variable [Uni]

/-- The kinds of quotes and the formats they stand for. -/
private inductive Kinds (e : Env) : (Text → Prop) → List QuoteSub → List (Option Char → Text → Text → Text → Prop) → Prop
  | nil {t} : Kinds e t [] []
  | cons {t q qs P Ps} : (q.type = .monospaced → q.scope = .constrained → ∀ u, t u → NoQuoteBehind u) →
      (∀ u, t u → LookRenders q.pattern (quoteReplacer e q.type q.scope) P u) → Determined P → Kinds e (fun _ => True) qs Ps →
      Kinds e t (q :: qs) (P :: Ps)

private theorem kinds_det {e : Env} {T : Text → Prop} {qs : List QuoteSub}
    {Ps : List (Option Char → Text → Text → Text → Prop)} (h : Kinds e T qs Ps) {t : Text} :
    ∀ {u v}, Typeset Ps t u → Typeset Ps t v → u = v := by
  induction h generalizing t with
  | nil => intro u v hu hv; cases hu; cases hv; rfl
  | cons _ _ hd _ ih =>
    intro u v hu hv
    cases hu with
    | cons h1 h2 =>
      cases hv with
      | cons g1 g2 =>
        cases Adoc.Rewrites.det hd h1 g1
        exact ih h2 g2

private theorem kinds_apply {e : Env} {T : Text → Prop} {qs : List QuoteSub}
    {Ps : List (Option Char → Text → Text → Text → Prop)} (h : Kinds e T qs Ps) (hq : ∀ q ∈ qs, q ∈ quoteSubs) {t : Text} (ht : T t) :
    ∃ u, Typeset Ps t u ∧ ∀ qs', applyQuoteSubs e (qs ++ qs') t = applyQuoteSubs e qs' u := by
  induction h generalizing t with
  | nil => exact ⟨t, .nil, fun _ => rfl⟩
  | @cons T q qs P Ps hn hr _ _ ih =>
    obtain ⟨u, h1, h2⟩ := C32_quotes_partial e (hq q (by simp)) t (fun a b => hn a b t ht)
    obtain ⟨v, h3, h4⟩ := ih (fun x hx => hq x (by simp [hx])) (t := u) trivial
    refine ⟨v, .cons ((hr t ht).rewrites h2 (List.suffix_refl t)) h3, fun qs' => ?_⟩
    rw [← h4, List.cons_append, applyQuoteSubs]
    unfold lookResult at h1
    cases hx : replaceWithLookahead q.pattern t (quoteReplacer e q.type q.scope) with
    | error z => rw [hx] at h1; cases h1
    | ok z =>
      rw [hx] at h1
      simp only [Except.map, Except.ok.injEq] at h1
      simp only [bind, Except.bind, h1]

private theorem any_ok (b : Text) : b ≠ [] ↔ (b ≠ [] ∧ ∀ c ∈ b, (fun _ : Char => true) c = true) := by simp

private theorem white_ok (b : Text) :
    (b ≠ [] ∧ ∀ c ∈ b, isWhite c = false) ↔ (b ≠ [] ∧ ∀ c ∈ b, (fun c => !isWhite c) c = true) := by simp

private theorem unconstrained_kind (e : Env) (ty : QuoteType) {mark : Text}
    (hop : mark ≠ [] ∧ mark.head? ≠ some '[' ∧ mark.head? ≠ some '\\') {t : Text} :
    LookRenders (unconstrainedRe mark) (quoteReplacer e ty .unconstrained)
      (Unconstrained mark (· ≠ []) (formatBy e ty .unconstrained)) t :=
  lookRenders_congr (fun _ _ => unconstrained_same) (anywhere_renders e any_ok hop)

private theorem kinds_before (e : Env) : Kinds e (fun _ => True) (quoteSubs.take 5) (formatsBefore (formatBy e)) := by
  unfold formatsBefore
  unfold quoteSubs
  simp only [List.take_succ_cons, List.take_zero]
  refine .cons (fun _ h => by cases h) ?_ ?_ (.cons (fun h => by cases h) ?_ ?_ (.cons (fun h => by cases h) ?_ ?_
    (.cons (fun h => by cases h) ?_ ?_ (.cons (fun _ h => by cases h) ?_ ?_ .nil))))
  · exact fun u _ => unconstrained_kind e _ (by decide)
  · exact determined_unconstrained (by decide) _
  · exact fun u _ => constrained_renders e (by decide) (fun h => by cases h)
  · exact determined_constrained (by decide) _
  · exact fun u _ => constrained_renders e (by decide) (fun h => by cases h)
  · exact determined_constrained (by decide) _
  · exact fun u _ => constrained_renders e (by decide) (fun h => by cases h)
  · exact determined_constrained (by decide) _
  · exact fun u _ => unconstrained_kind e _ (by decide)
  · exact determined_unconstrained (by decide) _

private theorem kinds_last (e : Env) : Kinds e (fun _ => True) (quoteSubs.drop 6) (formatsLast (formatBy e)) := by
  unfold formatsLast
  unfold quoteSubs
  simp only [List.drop_succ_cons, List.drop_zero]
  refine .cons (fun h => by cases h) ?_ ?_ (.cons (fun h => by cases h) ?_ ?_
    (.cons (fun h => by cases h) ?_ ?_ (.cons (fun h => by cases h) ?_ ?_ (.cons (fun h => by cases h) ?_ ?_
      (.cons (fun h => by cases h) ?_ ?_ .nil)))))
  · exact fun u _ => unconstrained_kind e _ (by decide)
  · exact determined_unconstrained (by decide) _
  · exact fun u _ => constrained_renders e (by decide) (fun h => by cases h)
  · exact determined_constrained (by decide) _
  · exact fun u _ => unconstrained_kind e _ (by decide)
  · exact determined_unconstrained (by decide) _
  · exact fun u _ => constrained_renders e (by decide) (fun h => by cases h)
  · exact determined_constrained (by decide) _
  · exact fun u _ => lookRenders_congr (fun _ _ => script_same) (anywhere_renders e white_ok (by decide))
  · exact determined_unconstrained (by decide) _
  · exact fun u _ => lookRenders_congr (fun _ _ => script_same) (anywhere_renders e white_ok (by decide))
  · exact determined_unconstrained (by decide) _

private theorem kinds_behind (e : Env) : Kinds e NoQuoteBehind (quoteSubs.drop 5) (formatsBehind (formatBy e)) := by
  show Kinds e NoQuoteBehind (⟨.monospaced, .constrained, _⟩ :: quoteSubs.drop 6) (backquotes (formatBy e) :: formatsLast (formatBy e))
  refine .cons (fun _ _ u h => h) ?_ ?_ (kinds_last e)
  · exact fun u h => constrained_renders e (by decide) (fun _ => ⟨rfl, h⟩)
  · exact determined_constrained (by decide) _

omit [Uni] in
private theorem same_of_marks {P : Option Char → Text → Text → Text → Prop} {Ps : List (Option Char → Text → Text → Text → Prop)}
    {t : Text} (hs : quotedTextSniff t = false)
    (hP : ∀ pv u r x, P pv u r x → ∃ c ∈ u, quotedTextSniff [c] = true) (h : Typeset Ps t t) : Typeset (P :: Ps) t t := by
  refine .cons (Adoc.Rewrites.same fun a u b x pv e hp => ?_) h
  obtain ⟨c, hc, hm⟩ := hP _ _ _ _ hp
  have : quotedTextSniff t = true := by
    unfold quotedTextSniff at hm ⊢
    rw [List.any_eq_true]
    exact ⟨c, by rw [e]; simp [hc], by simpa using hm⟩
  rw [hs] at this
  cases this

omit [Uni] in
private theorem passage_mark {op cl : Text} {ok after : Text → Prop} {p : Text} {o : Option Text} {b r : Text}
    (hop : ∃ c ∈ op, quotedTextSniff [c] = true) (h : Passage op cl ok after p o b r) : ∃ c ∈ p, quotedTextSniff [c] = true := by
  obtain ⟨a, _, rfl, _⟩ := h
  obtain ⟨c, h1, h2⟩ := hop
  exact ⟨c, by simp [h1], h2⟩

private theorem constrained_mark {ex : List Char} {op cl : Text} {f : Option Text → Text → Text}
    (hop : ∃ c ∈ op, quotedTextSniff [c] = true) : ∀ pv u r x, Constrained ex op cl f pv u r x →
      ∃ c ∈ u, quotedTextSniff [c] = true := by
  rintro pv u r x ⟨a, p, o, b, rfl, hp, _⟩
  obtain ⟨c, h1, h2⟩ := passage_mark hop hp
  exact ⟨c, by simp [h1], h2⟩

omit [Uni] in
private theorem unconstrained_mark {op : Text} {ok : Text → Prop} {f : Option Text → Text → Text}
    (hop : ∃ c ∈ op, quotedTextSniff [c] = true) : ∀ pv u r x, Unconstrained op ok f pv u r x →
      ∃ c ∈ u, quotedTextSniff [c] = true := by
  rintro pv u r x ⟨p, o, b, hp, h⟩
  obtain ⟨c, h1, h2⟩ := passage_mark hop hp
  rcases h with ⟨rfl, _⟩ | ⟨rfl, _⟩
  · exact ⟨c, h1, h2⟩
  · exact ⟨c, by simp [h1], h2⟩

private theorem same_before (f : QuoteType → QuoteScope → Option Text → Text → Text) {t : Text} (h : quotedTextSniff t = false) :
    Typeset (formatsBefore f) t t := by
  unfold formatsBefore
  refine same_of_marks h (unconstrained_mark ?_) (same_of_marks h (constrained_mark ?_) (same_of_marks h (constrained_mark ?_)
    (same_of_marks h (constrained_mark ?_) (same_of_marks h (unconstrained_mark ?_) .nil))))
  all_goals decide

private theorem same_last (f : QuoteType → QuoteScope → Option Text → Text → Text) {t : Text} (h : quotedTextSniff t = false) :
    Typeset (formatsLast f) t t := by
  unfold formatsLast
  refine same_of_marks h (unconstrained_mark ?_) (same_of_marks h (constrained_mark ?_)
    (same_of_marks h (unconstrained_mark ?_) (same_of_marks h (constrained_mark ?_) (same_of_marks h (unconstrained_mark ?_)
      (same_of_marks h (unconstrained_mark ?_) .nil)))))
  all_goals decide

private theorem same_behind (f : QuoteType → QuoteScope → Option Text → Text → Text) {t : Text} (h : quotedTextSniff t = false) :
    Typeset (formatsBehind f) t t := same_of_marks h (constrained_mark (by decide)) (same_last f h)

/-- For every text there is exactly one that the formats up to double backquotes make of it. -/
theorem C64_before (e : Env) (t : Text) :
    ∃ u, Typeset (formatsBefore (formatBy e)) t u ∧ ∀ v, Typeset (formatsBefore (formatBy e)) t v → v = u := by
  obtain ⟨u, h, _⟩ := kinds_apply (kinds_before e) (fun _ h => List.mem_of_mem_take h) (t := t) trivial
  exact ⟨u, h, fun v hv => kinds_det (kinds_before e) hv h⟩

/-- The quotes step formats a text as specified: one format after the other is looked for in the whole text, and passages go
up to the first closing mark.  It does so for every text in which, when it comes to single backquotes, no backquote is
followed by a quote.
Missing: the other texts; the claim is false of them (`C32_panics`, `C32_text_lost`). -/
theorem C64_formatting_partial (e : Env) {t u : Text} (hu : Typeset (formatsBefore (formatBy e)) t u) (hq : NoQuoteBehind u)
    (out : Text) : applyQuotes e t = .ok out ↔ Typeset (formatsBehind (formatBy e)) u out := by
  obtain ⟨v, h1, h2⟩ : ∃ v, Typeset (formatsBehind (formatBy e)) u v ∧ applyQuotes e t = .ok v := by
    unfold applyQuotes
    cases hs : quotedTextSniff t with
    | false =>
      cases kinds_det (kinds_before e) hu (same_before _ hs)
      exact ⟨t, same_behind _ hs, rfl⟩
    | true =>
      obtain ⟨u', h1, h2⟩ := kinds_apply (kinds_before e) (fun _ h => List.mem_of_mem_take h) (t := t) trivial
      cases kinds_det (kinds_before e) hu h1
      obtain ⟨v, h3, h4⟩ := kinds_apply (kinds_behind e) (fun _ h => List.mem_of_mem_drop h) hq
      refine ⟨v, h3, ?_⟩
      have h2 := h2 (quoteSubs.drop 5)
      have h4 := h4 []
      rw [List.take_append_drop] at h2
      rw [List.append_nil] at h4
      rw [if_neg (by simp), h2, h4]
      rfl
  rw [h2, Except.ok.injEq]
  constructor
  · rintro rfl; exact h1
  · intro h; exact kinds_det (kinds_behind e) h1 h

/-- It never fails for them. -/
theorem C64_formats_partial (e : Env) {t u : Text} (hu : Typeset (formatsBefore (formatBy e)) t u) (hq : NoQuoteBehind u) :
    ∃ out, applyQuotes e t = .ok out := by
  obtain ⟨v, h, _⟩ := kinds_apply (kinds_behind e) (fun _ h => List.mem_of_mem_drop h) hq
  exact ⟨v, (C64_formatting_partial e hu hq v).mpr h⟩

/-! ### All texts -/

/-- The step that formats passages between single backquotes. -/
def backquoteStep (e : Env) (t : Text) : Res Text :=
  lookResult (constrainedRe ['&', ';', ':', '"', '\'', '`', '}'] "`".toList "`".toList) (quoteReplacer e .monospaced .constrained) t

/-- **What single backquotes do to every text**: passages in front of a quote are not formatted, and behind the first character
of such a passage the search starts again, without as many bytes as had been read up to the last formatted passage.  If these
are not there, or end within a character or within a passage, or if the passage stands behind a character of several bytes, the
program panics. -/
theorem C32_backquotes_exact (e : Env) (t out : Text) :
    backquoteStep e t = .ok out ↔ Backquoted (backquotes (formatBy e)) 0 0 none t (some out) := by
  obtain ⟨r, hr⟩ := backquoted_exists (holds_backquotes e) t.length t (Nat.le_refl _) 0 0 none
  have hx := look_exact (holds_backquotes e) hr
  unfold backquoteStep
  constructor
  · intro h
    rw [hx] at h
    cases r with
    | none => cases h
    | some o => cases h; exact hr
  · intro h
    cases backquoted_det (holds_backquotes e) h hr
    exact hx

/-- And exactly these texts make it panic. -/
theorem C32_backquotes_panic (e : Env) (t : Text) (f : Fail) :
    backquoteStep e t = .error f ↔ f = .panic ∧ Backquoted (backquotes (formatBy e)) 0 0 none t none := by
  obtain ⟨r, hr⟩ := backquoted_exists (holds_backquotes e) t.length t (Nat.le_refl _) 0 0 none
  have hx := look_exact (holds_backquotes e) hr
  unfold backquoteStep
  constructor
  · intro h
    rw [hx] at h
    cases r with
    | none => cases h; exact ⟨rfl, hr⟩
    | some o => cases h
  · rintro ⟨rfl, h⟩
    cases backquoted_det (holds_backquotes e) h hr
    exact hx

/-- **When single backquotes do what is meant**: exactly when no passage that is in front of a quote comes behind a formatted
one, or stands behind a character of several bytes. -/
theorem C32_backquotes_iff (e : Env) (t out : Text) :
    (backquoteStep e t = .ok out ∧ Monospace (backquotes (formatBy e)) false false none t out) ↔
      Monospace (backquotes (formatBy e)) true false none t out := by
  constructor
  · rintro ⟨h1, h2⟩
    have h3 := (C32_backquotes_exact e t out).mp h1
    rcases (monospace_compare (holds_backquotes e).det h2 h3 (by simp)).1 (Nat.le_refl _) with h | ⟨_, h⟩
    · omega
    · exact h
  · intro h
    exact ⟨(C32_backquotes_exact e t out).mpr (monospace_backquoted h (Nat.le_refl _) fun _ => rfl), monospace_weaken h⟩

/-- What is meant exists for every text, and is unique. -/
theorem C32_backquotes_meant (e : Env) (t : Text) :
    ∃ out, Monospace (backquotes (formatBy e)) false false none t out ∧
      ∀ out', Monospace (backquotes (formatBy e)) false false none t out' → out' = out := by
  obtain ⟨out, h⟩ := monospace_exists (holds_backquotes e) t.length t (Nat.le_refl _) false none
  exact ⟨out, h, fun out' h' => (monospace_det (holds_backquotes e).det h h').symm⟩

private theorem apply_middle (e : Env) (t u : Text) (hs : quotedTextSniff t = true) (hu : Typeset (formatsBefore (formatBy e)) t u) :
    applyQuotes e t = (backquoteStep e u).bind (applyQuoteSubs e (quoteSubs.drop 6)) := by
  obtain ⟨u', h1, h2⟩ := kinds_apply (kinds_before e) (fun _ h => List.mem_of_mem_take h) (t := t) trivial
  cases kinds_det (kinds_before e) hu h1
  have h2 := h2 (quoteSubs.drop 5)
  rw [List.take_append_drop] at h2
  unfold applyQuotes
  rw [hs, if_neg (by simp), h2]
  show applyQuoteSubs e (⟨.monospaced, .constrained, _⟩ :: quoteSubs.drop 6) u = _
  rw [applyQuoteSubs]
  unfold backquoteStep lookResult
  simp only
  cases replaceWithLookahead (constrainedRe ['&', ';', ':', '"', '\'', '`', '}'] "`".toList "`".toList) u
    (quoteReplacer e .monospaced .constrained) <;> rfl

private theorem apply_last (e : Env) (v : Text) : ∃ out, Typeset (formatsLast (formatBy e)) v out ∧
    applyQuoteSubs e (quoteSubs.drop 6) v = .ok out := by
  obtain ⟨out, h1, h2⟩ := kinds_apply (kinds_last e) (fun _ h => List.mem_of_mem_drop h) (t := v) trivial
  have h2 := h2 []
  rw [List.append_nil] at h2
  exact ⟨out, h1, h2⟩

/-- **What the quotes step makes of every text**, for every renderer. -/
theorem C64_exact (e : Env) (t out : Text) :
    applyQuotes e t = .ok out ↔ ∃ u v, Typeset (formatsBefore (formatBy e)) t u ∧
      Backquoted (backquotes (formatBy e)) 0 0 none u (some v) ∧ Typeset (formatsLast (formatBy e)) v out := by
  cases hs : quotedTextSniff t with
  | false =>
    have hb : Backquoted (backquotes (formatBy e)) 0 0 none t (some t) := by
      refine backquoted_same fun a u b x pv he hp => ?_
      obtain ⟨c, hc, hm⟩ := constrained_mark (by decide) _ _ _ _ hp
      have : quotedTextSniff t = true := by
        unfold quotedTextSniff at hm ⊢
        rw [List.any_eq_true]
        exact ⟨c, by rw [he]; simp [hc], by simpa using hm⟩
      rw [hs] at this
      cases this
    unfold applyQuotes
    rw [hs, if_pos (by rfl), Except.ok.injEq]
    constructor
    · rintro rfl
      exact ⟨t, t, same_before _ hs, hb, same_last _ hs⟩
    · rintro ⟨u, v, h1, h2, h3⟩
      cases kinds_det (kinds_before e) h1 (same_before _ hs)
      cases backquoted_det (holds_backquotes e) h2 hb
      exact (kinds_det (kinds_last e) h3 (same_last _ hs)).symm
  | true =>
    obtain ⟨u, hu, hd⟩ := C64_before e t
    rw [apply_middle e t u hs hu]
    constructor
    · intro h
      cases hv : backquoteStep e u with
      | error f => rw [hv] at h; cases h
      | ok v =>
        rw [hv] at h
        obtain ⟨o, h1, h2⟩ := apply_last e v
        have h : applyQuoteSubs e (quoteSubs.drop 6) v = .ok out := h
        rw [h2] at h
        cases h
        exact ⟨u, v, hu, (C32_backquotes_exact e u v).mp hv, h1⟩
    · rintro ⟨u', v, h1, h2, h3⟩
      cases hd _ h1
      rw [(C32_backquotes_exact e _ v).mpr h2]
      obtain ⟨o, g1, g2⟩ := apply_last e v
      cases kinds_det (kinds_last e) h3 g1
      exact g2

/-- And exactly these texts make it fail: it panics. -/
theorem C64_panics_iff (e : Env) (t : Text) (f : Fail) :
    applyQuotes e t = .error f ↔ f = .panic ∧ ∃ u, Typeset (formatsBefore (formatBy e)) t u ∧
      Backquoted (backquotes (formatBy e)) 0 0 none u none := by
  obtain ⟨u, hu, hd⟩ := C64_before e t
  cases hs : quotedTextSniff t with
  | false =>
    unfold applyQuotes
    rw [hs, if_pos (by rfl)]
    refine ⟨(fun h => by cases h), ?_⟩
    rintro ⟨_, u', h1, h2⟩
    exfalso
    cases kinds_det (kinds_before e) h1 (same_before _ hs)
    obtain ⟨u', v, h3, h4, _⟩ := (C64_exact e t t).mp (by unfold applyQuotes; rw [hs]; rfl)
    cases kinds_det (kinds_before e) h3 (same_before _ hs)
    cases backquoted_det (holds_backquotes e) h2 h4
  | true =>
    rw [apply_middle e t u hs hu]
    constructor
    · intro h
      cases hv : backquoteStep e u with
      | error g =>
        rw [hv] at h
        cases h
        obtain ⟨h1, h2⟩ := (C32_backquotes_panic e u f).mp hv
        exact ⟨h1, u, hu, h2⟩
      | ok v =>
        rw [hv] at h
        obtain ⟨o, h1, h2⟩ := apply_last e v
        have h : applyQuoteSubs e (quoteSubs.drop 6) v = .error f := h
        rw [h2] at h
        cases h
    · rintro ⟨rfl, u', h1, h2⟩
      cases hd _ h1
      rw [(C32_backquotes_panic e _ _).mpr ⟨rfl, h2⟩]
      rfl

/-- Non-vacuity: a passage held back, then one formatted, then one held back: text is lost. -/
example : letI := asciiUni
    ∃ u v, Typeset (formatsBefore (formatBy ⟨⟨.default, '/'⟩, Html.renderer⟩)) "x `b`' `a` \\`c`' long text".toList u ∧
      Backquoted (backquotes (formatBy ⟨⟨.default, '/'⟩, Html.renderer⟩)) 0 0 none u (some v) ∧
      Typeset (formatsLast (formatBy ⟨⟨.default, '/'⟩, Html.renderer⟩)) v "x `b`' <code>a</code> \\`g text".toList := by
  letI := asciiUni
  exact (C64_exact ⟨⟨.default, '/'⟩, Html.renderer⟩ _ _).mp (by decide +kernel)

private theorem mono_keep {re : Re} {rep : LookReplacer} {P : Option Char → Text → Text → Text → Prop} (h : Holds re rep P)
    {d : Bool} {pv : Option Char} {c : Char} {t out : Text} (hm : matchAt re pv (c :: t) = none)
    (hr : Monospace P true d (some c) t out) : Monospace P true d pv (c :: t) (c :: out) := by
  refine .keep (fun u r x e hp => ?_) hr
  obtain ⟨mt, s, hm', _⟩ := h.match hp
  rw [← e, hm] at hm'
  cases hm'

/-- Non-vacuity of `C32_backquotes_iff`: nothing is lost when the passage held back comes first. -/
example : letI := asciiUni
    Monospace (backquotes (formatBy ⟨⟨.default, '/'⟩, Html.renderer⟩)) true false none ['`', 'b', '`', '\'', ' ', '`', 'a', '`']
      (['`', 'b', '`', '\''] ++ (" <code>a</code>".toList ++ [])) := by
  letI := asciiUni
  have h := holds_backquotes ⟨⟨.default, '/'⟩, Html.renderer⟩
  -- the passage at the start
  obtain ⟨x, _, hp, _⟩ := h.sound none ['`', 'b', '`', '\'', ' ', '`', 'a', '`'] ⟨['`', 'b', '`'], [(3, ['b']), (1, [])]⟩
    ⟨some '`', ['\'', ' ', '`', 'a', '`'], [(3, ['b']), (1, [])]⟩ (by decide +kernel)
  refine Monospace.held (piece := ['`', 'b', '`']) (behind := ['\'', ' ', '`', 'a', '`']) (rest := ['b', '`', '\'', ' ', '`', 'a', '`'])
    (out := ['b', '`', '\''] ++ (" <code>a</code>".toList ++ [])) hp ⟨'\'', _, rfl, by decide⟩ (by decide) (fun _ => ⟨rfl, by decide⟩) ?_
  refine mono_keep h (by decide +kernel) (mono_keep h (by decide +kernel) (mono_keep h (by decide +kernel) ?_))
  -- and the second one
  obtain ⟨x, _, hp, hr, _⟩ := h.sound (some '\'') [' ', '`', 'a', '`'] ⟨[' ', '`', 'a', '`'], [(3, ['a']), (1, [' '])]⟩
    ⟨some '`', [], [(3, ['a']), (1, [' '])]⟩ (by decide +kernel)
  have hx : " <code>a</code>".toList = x := by
    have h1 := hr (by rintro ⟨_, _, h, _⟩; cases h)
    have h2 : quoteReplacer ⟨⟨.default, '/'⟩, Html.renderer⟩ .monospaced .constrained
        ⟨[' ', '`', 'a', '`'], [(3, ['a']), (1, [' '])]⟩ [] = .ok (" <code>a</code>".toList, .continue_) := by decide +kernel
    rw [h2] at h1
    exact (Prod.mk.inj (Except.ok.inj h1)).1
  rw [hx]
  exact Monospace.hit (piece := [' ', '`', 'a', '`']) (behind := []) (out := []) hp (by rintro ⟨_, _, h, _⟩; cases h) .done

/-- The program also panics when a passage in front of a quote stands behind a character of several bytes. -/
theorem C32_panics_wide : letI := asciiUni
    applyQuotes ⟨⟨.default, '/'⟩, Html.renderer⟩ "—`b`'".toList = .error .panic := by
  letI := asciiUni
  decide +kernel

/-! ### A single passage -/

/-- The marks of whole words. -/
def wordMarks : List (Char × QuoteType) := [('*', .strong), ('_', .emphasis), ('`', .monospaced), ('#', .mark)]

/-- The marks of passages anywhere. -/
def freeMarks : List (Char × Nat × QuoteType) :=
  [('*', 2, .strong), ('_', 2, .emphasis), ('`', 2, .monospaced), ('#', 2, .mark), ('^', 1, .superscript), ('~', 1, .subscript)]

omit [Uni] in
private theorem quiet_pairs {c : Char} {n : Nat} {u w v : Text} (hu : Unmarked u) (hw : Unmarked w) (hv : Unmarked v) (hc : c ∈ marks)
    (h : c = '`' → NoQuoteLast u ∧ NoQuoteLast w) {x : Char} (hx : x = '"' ∨ x = '\'') :
    ¬ [x, '`'] <:+: u ++ List.replicate n c ++ w ++ List.replicate n c ++ v := by
  have hxm : ∀ {d : Char}, d ∈ marks → x ≠ d := by
    rintro d hd rfl
    rcases hx with rfl | rfl <;> revert hd <;> decide
  by_cases hcc : c = '`'
  · subst hcc
    obtain ⟨h1, h2⟩ := h rfl
    have hq : ∀ {t : Text}, NoQuoteLast t → t.getLast? ≠ some x := fun ht e => by
      rcases hx with rfl | rfl
      · exact (ht _ e).1 rfl
      · exact (ht _ e).2 rfl
    have hrep : ¬ [x, '`'] <:+: List.replicate n '`' := fun hi => by
      have : x ∈ List.replicate n '`' := hi.subset (by simp)
      exact hxm hc (List.eq_of_mem_replicate this)
    intro hi
    have hgl : ∀ {t : Text}, t.getLast? ≠ some x → (t ++ List.replicate n '`').getLast? ≠ some x := by
      intro t ht e
      cases n with
      | zero => simp at e; exact ht e
      | succ n => rw [List.replicate_succ', ← List.append_assoc, List.getLast?_append] at e; cases e; exact hxm hc rfl
    have hun : ∀ {t : Text}, Unmarked t → ¬ [x, '`'] <:+: t := fun ht => no_infix_of (ht _ hc)
    have hglw : ∀ {a b : Text}, a.getLast? ≠ some x → b.getLast? ≠ some x → (a ++ b).getLast? ≠ some x := by
      intro a b ha hb e
      rw [List.getLast?_append] at e
      cases hbl : b.getLast? with
      | none => rw [hbl] at e; exact ha e
      | some y => rw [hbl] at e hb; exact hb e
    rcases pair_append hi with hi | hi | ⟨e, _⟩
    · rcases pair_append hi with hi | hi | ⟨e, _⟩
      · rcases pair_append hi with hi | hi | ⟨e, _⟩
        · rcases pair_append hi with hi | hi | ⟨e, _⟩
          · exact hun hu hi
          · exact hrep hi
          · exact hq h1 e
        · exact hun hw hi
        · exact hgl (hq h1) e
      · exact hrep hi
      · exact hglw (hgl (hq h1)) (hq h2) e
    · exact hun hv hi
    · exact hgl (hglw (hgl (hq h1)) (hq h2)) e
  · refine no_infix_of ?_
    have h1 := hu '`' (by decide)
    have h2 := hw '`' (by decide)
    have h3 := hv '`' (by decide)
    intro hm
    simp only [List.mem_append, List.mem_replicate] at hm
    rcases hm with (((hm | hm) | hm) | hm) | hm
    · exact h1 hm
    · exact hcc hm.2.symm
    · exact h2 hm
    · exact hcc hm.2.symm
    · exact h3 hm

omit [Uni] in
private theorem few_marks {c d : Char} {n k : Nat} {u w v : Text} (hu : Unmarked u) (hw : Unmarked w) (hv : Unmarked v)
    (hd : d ∈ marks) (hk : (if d = c then 2 * n else 0) < k) :
    Few d k (u ++ List.replicate n c ++ w ++ List.replicate n c ++ v) := by
  unfold Few
  rw [marked_count (hu d hd) (hw d hd) (hv d hd)]
  exact hk

omit [Uni] in
private theorem unmarked_quiet {t : Text} (h : Unmarked t) : NoQuoteBehind t := by
  rintro a c b rfl
  exact absurd (by simp) (h '`' (by decide))

omit [Uni] in
private theorem word_quiet {u w v : Text} (hu : Unmarked u) (hw : Unmarked w) (hv : Unmarked v) (hs : w ≠ [])
    (h1 : NoQuoteFirst w) (h2 : NoQuoteFirst v) : NoQuoteBehind (u ++ ['`'] ++ w ++ ['`'] ++ v) := by
  intro a c b e
  have hi : ['`', c] <:+: u ++ ['`'] ++ w ++ ['`'] ++ v := ⟨a, b, by rw [e]; simp⟩
  have hun : ∀ {t : Text}, Unmarked t → ¬ ['`', c] <:+: t := fun ht hi => ht '`' (by decide) (hi.subset (by simp))
  have hone : ∀ {d : Char}, ¬ ['`', c] <:+: [d] := fun hi => by
    have := hi.length_le
    simp at this
  have hmem : ∀ {t : Text}, t.head? = some c → c ∈ t := fun e => List.mem_of_mem_head? e
  have hfirst : ∀ {t : Text}, Unmarked t → NoQuoteFirst t → t.head? = some c → c ≠ '"' ∧ c ≠ '\'' ∧ c ≠ '`' := fun ht hq e =>
    ⟨(hq c e).1, (hq c e).2, fun ec => ht '`' (by decide) (ec ▸ hmem e)⟩
  have hlast : ∀ {t r : Text}, Unmarked t → (r ++ t).getLast? = some '`' → t = [] := by
    intro t r ht e
    rcases List.eq_nil_or_concat t with h | ⟨t', d, rfl⟩
    · exact h
    · rw [List.concat_eq_append, ← List.append_assoc, List.getLast?_append] at e
      have ed : d = '`' := by simpa using e
      subst ed
      exact absurd (by simp) (ht '`' (by decide))
  rcases pair_append hi with hi | hi | ⟨_, e2⟩
  · rcases pair_append hi with hi | hi | ⟨e1, e2⟩
    · rcases pair_append hi with hi | hi | ⟨_, e2⟩
      · rcases pair_append hi with hi | hi | ⟨e1, e2⟩
        · exact absurd hi (hun hu)
        · exact absurd hi hone
        · exact absurd (List.mem_of_getLast? e1) (hu '`' (by decide))
      · exact absurd hi (hun hw)
      · exact hfirst hw h1 e2
    · exact absurd hi hone
    · exact absurd (hlast hw e1) hs
  · exact absurd hi (hun hv)
  · exact hfirst hv h2 e2

/-- Words between two marks are formatted and the rest of the text is kept: for every text with a passage of whole words in it
and no other marks.  The marks may stand at the beginning of the text or behind a character that belongs to no word, and no
word may go on behind them. -/
theorem C64_words (e : Env) {c : Char} {ty : QuoteType} (hk : (c, ty) ∈ wordMarks) {u w v : Text} (hu : Unmarked u)
    (hw : Unmarked w) (hv : Unmarked v) (hs : WordStarts notBefore u) (hb : Solid w) (he : WordEnds v)
    (hq : c = '`' → NoQuoteLast u ∧ NoQuoteFirst w ∧ NoQuoteLast w ∧ NoQuoteFirst v)
    (hr : Unmarked (e.r.quoted ty .constrained none none w)) :
    applyQuotes e (u ++ [c] ++ w ++ [c] ++ v) = .ok (u ++ e.r.quoted ty .constrained none none w ++ v) := by
  have hout : Unmarked (u ++ e.r.quoted ty .constrained none none w ++ v) := unmarked_append (unmarked_append hu hr) hv
  have few : ∀ {d : Char} {k : Nat}, d ∈ marks → (if d = c then 2 * 1 else 0) < k → Few d k (u ++ [c] ++ w ++ [c] ++ v) :=
    fun hd hk => few_marks (n := 1) hu hw hv hd hk
  have hcm : c ∈ marks := by
    simp only [wordMarks, List.mem_cons, Prod.mk.injEq, List.not_mem_nil, or_false] at hk
    rcases hk with ⟨rfl, _⟩ | ⟨rfl, _⟩ | ⟨rfl, _⟩ | ⟨rfl, _⟩ <;> decide
  have pairs : ∀ {x : Char}, (x = '"' ∨ x = '\'') → ¬ [x, '`'] <:+: u ++ [c] ++ w ++ [c] ++ v := fun hx =>
    quiet_pairs (n := 1) hu hw hv hcm (fun h => ⟨(hq h).1, (hq h).2.2.1⟩) hx
  have hit : ∀ {ex : List Char} {f : Option Text → Text → Text}, WordStarts ex u →
      Rewrites (Constrained ex [c] [c] f) none (u ++ [c] ++ w ++ [c] ++ v) (u ++ f none w ++ v) := fun hs =>
    word_constrained (hw c hcm) (hv c hcm) hb he (hu c hcm) (fun _ => rfl) hs
  have nobq : c ≠ '`' → NoQuoteBehind (u ++ [c] ++ w ++ [c] ++ v) := by
    intro hc a d b e
    have h1 : ('`' : Char) ∈ u ++ [c] ++ w ++ [c] ++ v := by rw [e]; simp
    have h2 : List.count '`' (u ++ List.replicate 1 c ++ w ++ List.replicate 1 c ++ v) = 0 := by
      rw [marked_count (hu _ (by decide)) (hw _ (by decide)) (hv _ (by decide)), if_neg (fun h => hc h.symm)]
    exact absurd h1 (List.count_eq_zero.mp h2)
  have hne : w ≠ [] := by obtain ⟨x, y, rfl, _⟩ := hb.first; simp
  have hidle : c ≠ '*' → ∀ Q ∈ idleBefore, Q (u ++ [c] ++ w ++ [c] ++ v) := by
    intro hc
    have h0 : ('*' : Char) ≠ c := fun h => hc h.symm
    simp only [idleBefore, List.mem_cons, List.not_mem_nil, or_false, forall_eq_or_imp, forall_eq]
    exact ⟨few (by decide) (by rw [if_neg h0]; decide), few (by decide) (by rw [if_neg h0]; decide), pairs (Or.inl rfl),
      pairs (Or.inr rfl), few (by decide) (by split <;> omega)⟩
  simp only [wordMarks, List.mem_cons, Prod.mk.injEq, List.not_mem_nil, or_false] at hk
  rcases hk with ⟨rfl, rfl⟩ | ⟨rfl, rfl⟩ | ⟨rfl, rfl⟩ | ⟨rfl, rfl⟩
  · refine (C64_formatting_partial e (idle_hit (idle_before _) 1 rfl ?_ (hit hs) (unmarked_before hout)) (unmarked_quiet hout) _).mpr
      (idle_typeset (idle_behind _) (unmarked_behind hout))
    simp only [idleBefore, List.take_succ_cons, List.take_zero, List.mem_cons, List.not_mem_nil, or_false, forall_eq]
    exact few (by decide) (by decide)
  · refine (C64_formatting_partial e (idle_typeset (idle_before _) (hidle (by decide))) (nobq (by decide)) _).mpr
      (idle_hit (idle_behind _) 2 rfl ?_ (hit hs) (unmarked_behind hout))
    simp only [idleBehind, List.take_succ_cons, List.take_zero, List.mem_cons, List.not_mem_nil, or_false, forall_eq_or_imp, forall_eq]
    exact ⟨few (by decide) (by decide), few (by decide) (by decide)⟩
  · obtain ⟨q1, q2, q3, q4⟩ := hq rfl
    refine (C64_formatting_partial e (idle_typeset (idle_before _) (hidle (by decide))) (word_quiet hu hw hv hne q2 q4) _).mpr
      (idle_hit (idle_behind _) 0 rfl (fun _ h => by cases h) (hit ?_) (unmarked_behind hout))
    intro x hx
    obtain ⟨a1, a2, a3, a4⟩ := hs x hx
    refine ⟨a1, ?_, a3, a4⟩
    have h1 := q1 x hx
    have h2 : x ≠ '`' := fun ex => hu '`' (by decide) (ex ▸ List.mem_of_getLast? hx)
    simp only [notBefore, List.mem_cons, List.not_mem_nil, or_false, not_or] at a2 ⊢
    exact ⟨a2.1, a2.2.1, a2.2.2.1, h1.1, h1.2, h2, a2.2.2.2⟩
  · refine (C64_formatting_partial e (idle_typeset (idle_before _) (hidle (by decide))) (nobq (by decide)) _).mpr
      (idle_hit (idle_behind _) 4 rfl ?_ (hit hs) (unmarked_behind hout))
    simp only [idleBehind, List.take_succ_cons, List.take_zero, List.mem_cons, List.not_mem_nil, or_false, forall_eq_or_imp, forall_eq]
    exact ⟨few (by decide) (by decide), few (by decide) (by decide), few (by decide) (by decide), few (by decide) (by decide)⟩

/-- A passage between two marks is formatted, wherever it stands, and the rest of the text is kept: for every text with such a
passage in it and no other marks. -/
theorem C64_anywhere (e : Env) {c : Char} {n : Nat} {ty : QuoteType} (hk : (c, n, ty) ∈ freeMarks) {u w v : Text} (hu : Unmarked u)
    (hw : Unmarked w) (hv : Unmarked v) (hs : MayStart u) (hb : w ≠ []) (hb1 : n = 1 → ∀ x ∈ w, isWhite x = false)
    (hq : c = '`' → NoQuoteLast u ∧ NoQuoteLast w) (hr : Unmarked (e.r.quoted ty .unconstrained none none w)) :
    applyQuotes e (u ++ List.replicate n c ++ w ++ List.replicate n c ++ v) =
      .ok (u ++ e.r.quoted ty .unconstrained none none w ++ v) := by
  have hout : Unmarked (u ++ e.r.quoted ty .unconstrained none none w ++ v) := unmarked_append (unmarked_append hu hr) hv
  have hcm : c ∈ marks := by
    simp only [freeMarks, List.mem_cons, Prod.mk.injEq, List.not_mem_nil, or_false] at hk
    rcases hk with ⟨rfl, _⟩ | ⟨rfl, _⟩ | ⟨rfl, _⟩ | ⟨rfl, _⟩ | ⟨rfl, _⟩ | ⟨rfl, _⟩ <;> decide
  have few : ∀ {d : Char} {k : Nat}, d ∈ marks → (if d = c then 2 * n else 0) < k →
      Few d k (u ++ List.replicate n c ++ w ++ List.replicate n c ++ v) :=
    fun hd hk => few_marks hu hw hv hd hk
  have pairs : ∀ {x : Char}, (x = '"' ∨ x = '\'') → ¬ [x, '`'] <:+: u ++ List.replicate n c ++ w ++ List.replicate n c ++ v :=
    fun hx => quiet_pairs hu hw hv hcm hq hx
  have hit : ∀ {m : Nat} {ok : Text → Prop} {f : Option Text → Text → Text}, n = m + 1 → ok w →
      Rewrites (Unconstrained (List.replicate (m + 1) c) ok f) none
        (u ++ List.replicate n c ++ w ++ List.replicate n c ++ v) (u ++ f none w ++ v) := by
    rintro m ok f rfl ho
    exact word_unconstrained (hw c hcm) (hv c hcm) ho (hu c hcm) hs
  have nobq : c ≠ '`' → NoQuoteBehind (u ++ List.replicate n c ++ w ++ List.replicate n c ++ v) := by
    intro hc a d b e
    have h1 : ('`' : Char) ∈ u ++ List.replicate n c ++ w ++ List.replicate n c ++ v := by rw [e]; simp
    have h2 : List.count '`' (u ++ List.replicate n c ++ w ++ List.replicate n c ++ v) = 0 := by
      rw [marked_count (hu _ (by decide)) (hw _ (by decide)) (hv _ (by decide)), if_neg (fun h => hc h.symm)]
    exact absurd h1 (List.count_eq_zero.mp h2)
  have hidle : c ≠ '*' → c ≠ '`' → ∀ Q ∈ idleBefore, Q (u ++ List.replicate n c ++ w ++ List.replicate n c ++ v) := by
    intro hc hc'
    have h0 : ('*' : Char) ≠ c := fun h => hc h.symm
    have h1 : ('`' : Char) ≠ c := fun h => hc' h.symm
    simp only [idleBefore, List.mem_cons, List.not_mem_nil, or_false, forall_eq_or_imp, forall_eq]
    exact ⟨few (by decide) (by rw [if_neg h0]; decide), few (by decide) (by rw [if_neg h0]; decide), pairs (Or.inl rfl),
      pairs (Or.inr rfl), few (by decide) (by rw [if_neg h1]; decide)⟩
  have hdone : Typeset (formatsBehind (formatBy e)) _ _ := idle_typeset (idle_behind (formatBy e)) (unmarked_behind hout)
  simp only [freeMarks, List.mem_cons, Prod.mk.injEq, List.not_mem_nil, or_false] at hk
  rcases hk with ⟨rfl, rfl, rfl⟩ | ⟨rfl, rfl, rfl⟩ | ⟨rfl, rfl, rfl⟩ | ⟨rfl, rfl, rfl⟩ | ⟨rfl, rfl, rfl⟩ | ⟨rfl, rfl, rfl⟩
  · exact (C64_formatting_partial e (idle_hit (idle_before _) 0 rfl (fun _ h => by cases h) (hit (m := 1) rfl hb)
      (unmarked_before hout)) (unmarked_quiet hout) _).mpr hdone
  · refine (C64_formatting_partial e (idle_typeset (idle_before _) (hidle (by decide) (by decide))) (nobq (by decide)) _).mpr
      (idle_hit (idle_behind _) 1 rfl ?_ (hit (m := 1) rfl hb) (unmarked_behind hout))
    simp only [idleBehind, List.take_succ_cons, List.take_zero, List.mem_cons, List.not_mem_nil, or_false, forall_eq_or_imp, forall_eq]
    exact few (by decide) (by decide)
  · refine (C64_formatting_partial e (idle_hit (idle_before _) 4 rfl ?_ (hit (m := 1) rfl hb) (unmarked_before hout))
      (unmarked_quiet hout) _).mpr hdone
    simp only [idleBefore, List.take_succ_cons, List.take_zero, List.mem_cons, List.not_mem_nil, or_false, forall_eq_or_imp, forall_eq]
    exact ⟨few (by decide) (by decide), few (by decide) (by decide), pairs (Or.inl rfl), pairs (Or.inr rfl)⟩
  · refine (C64_formatting_partial e (idle_typeset (idle_before _) (hidle (by decide) (by decide))) (nobq (by decide)) _).mpr
      (idle_hit (idle_behind _) 3 rfl ?_ (hit (m := 1) rfl hb) (unmarked_behind hout))
    simp only [idleBehind, List.take_succ_cons, List.take_zero, List.mem_cons, List.not_mem_nil, or_false, forall_eq_or_imp, forall_eq]
    exact ⟨few (by decide) (by decide), few (by decide) (by decide), few (by decide) (by decide)⟩
  · refine (C64_formatting_partial e (idle_typeset (idle_before _) (hidle (by decide) (by decide))) (nobq (by decide)) _).mpr
      (idle_hit (idle_behind _) 5 rfl ?_ (hit (m := 0) rfl ⟨hb, hb1 rfl⟩) (unmarked_behind hout))
    simp only [idleBehind, List.take_succ_cons, List.take_zero, List.mem_cons, List.not_mem_nil, or_false, forall_eq_or_imp, forall_eq]
    refine ⟨?_, ?_, ?_, ?_, ?_⟩ <;> exact few (by decide) (by decide)
  · refine (C64_formatting_partial e (idle_typeset (idle_before _) (hidle (by decide) (by decide))) (nobq (by decide)) _).mpr
      (idle_hit (idle_behind _) 6 rfl ?_ (hit (m := 0) rfl ⟨hb, hb1 rfl⟩) (unmarked_behind hout))
    simp only [idleBehind, List.take_succ_cons, List.take_zero, List.mem_cons, List.not_mem_nil, or_false, forall_eq_or_imp, forall_eq]
    refine ⟨?_, ?_, ?_, ?_, ?_, ?_⟩ <;> exact few (by decide) (by decide)

/-- What the marks of whole words mean in HTML. -/
def wordTags : List (Char × Text) := [('*', "strong".toList), ('_', "em".toList), ('`', "code".toList), ('#', "mark".toList)]

/-- What the marks of passages anywhere mean in HTML. -/
def freeTags : List (Text × Text) :=
  [("**".toList, "strong".toList), ("__".toList, "em".toList), ("``".toList, "code".toList), ("##".toList, "mark".toList),
    ("^".toList, "sup".toList), ("~".toList, "sub".toList)]

/-- A text between tags. -/
def tagged (tag body : Text) : Text := '<' :: tag ++ ['>'] ++ body ++ "</".toList ++ tag ++ ['>']

omit [Uni] in
private theorem unmarked_tagged {tag w : Text} (ht : Unmarked tag) (hw : Unmarked w) : Unmarked (tagged tag w) := by
  intro c hc h
  have h1 := ht c hc
  have h2 := hw c hc
  have n1 : ∀ x ∈ ['<', '>', '/'], c ≠ x := by
    rintro x hx rfl
    revert hx hc
    simp only [marks, List.mem_cons, List.not_mem_nil, or_false]
    rintro (rfl | rfl | rfl | rfl | rfl | rfl) <;> decide
  have n2 : c ∉ "</".toList := by
    show c ∉ ['<', '/']
    simp only [List.mem_cons, List.not_mem_nil, or_false, not_or]
    exact ⟨n1 _ (by simp), n1 _ (by simp)⟩
  simp only [tagged, List.cons_append, List.append_assoc, List.mem_cons, List.mem_append, List.not_mem_nil, or_false, h1, h2, n2,
    n1 '<' (by simp), n1 '>' (by simp), false_or] at h

omit [Uni] in
private theorem wrap_tagged (tag w : Text) : Html.wrap tag none [] w = tagged tag w := by
  unfold Html.wrap tagged
  generalize "</".toList = x
  simp

/-- In HTML, whole words between two marks are put into the element for the mark. -/
theorem C64_words_html (pe : PEnv) {c : Char} {tag : Text} (hk : (c, tag) ∈ wordTags) {u w v : Text}
    (hu : Unmarked u) (hw : Unmarked w) (hv : Unmarked v) (hs : WordStarts notBefore u) (hb : Solid w) (he : WordEnds v)
    (hq : c = '`' → NoQuoteLast u ∧ NoQuoteFirst w ∧ NoQuoteLast w ∧ NoQuoteFirst v) :
    applyQuotes ⟨pe, Html.renderer⟩ (u ++ [c] ++ w ++ [c] ++ v) = .ok (u ++ tagged tag w ++ v) := by
  have key : ∀ {ty : QuoteType}, (c, ty) ∈ wordMarks → Unmarked tag → Html.quoted ty .constrained none none w = tagged tag w →
      applyQuotes ⟨pe, Html.renderer⟩ (u ++ [c] ++ w ++ [c] ++ v) = .ok (u ++ tagged tag w ++ v) := by
    intro ty h1 h2 h3
    have := C64_words ⟨pe, Html.renderer⟩ h1 hu hw hv hs hb he hq (by
      show Unmarked (Html.quoted ty .constrained none none w)
      rw [h3]; exact unmarked_tagged h2 hw)
    rw [this, show (Html.renderer.quoted ty .constrained none none w : Text) = tagged tag w from h3]
  simp only [wordTags, List.mem_cons, Prod.mk.injEq, List.not_mem_nil, or_false] at hk
  rcases hk with ⟨rfl, rfl⟩ | ⟨rfl, rfl⟩ | ⟨rfl, rfl⟩ | ⟨rfl, rfl⟩
  · exact key (ty := .strong) (by decide) (by unfold Unmarked; decide) (wrap_tagged _ _)
  · exact key (ty := .emphasis) (by decide) (by unfold Unmarked; decide) (wrap_tagged _ _)
  · exact key (ty := .monospaced) (by decide) (by unfold Unmarked; decide) (wrap_tagged _ _)
  · exact key (ty := .mark) (by decide) (by unfold Unmarked; decide) (wrap_tagged _ _)

/-- In HTML, a passage between two marks is put into the element for the marks, wherever it stands. -/
theorem C64_anywhere_html (pe : PEnv) {m tag : Text} (hk : (m, tag) ∈ freeTags) {u w v : Text}
    (hu : Unmarked u) (hw : Unmarked w) (hv : Unmarked v) (hs : MayStart u) (hb : w ≠ [])
    (hb1 : m.length = 1 → ∀ x ∈ w, isWhite x = false) (hq : m = "``".toList → NoQuoteLast u ∧ NoQuoteLast w) :
    applyQuotes ⟨pe, Html.renderer⟩ (u ++ m ++ w ++ m ++ v) = .ok (u ++ tagged tag w ++ v) := by
  have key : ∀ {c : Char} {n : Nat} {ty : QuoteType}, m = List.replicate n c → (c, n, ty) ∈ freeMarks → (c = '`' → n = 2) →
      Unmarked tag → Html.quoted ty .unconstrained none none w = tagged tag w →
      applyQuotes ⟨pe, Html.renderer⟩ (u ++ m ++ w ++ m ++ v) = .ok (u ++ tagged tag w ++ v) := by
    rintro c n ty rfl h1 h0 h2 h3
    have := C64_anywhere ⟨pe, Html.renderer⟩ h1 hu hw hv hs hb (fun h => hb1 (by simp [h]))
      (fun h => hq (by rw [h, h0 h]; rfl)) (by
      show Unmarked (Html.quoted ty .unconstrained none none w)
      rw [h3]; exact unmarked_tagged h2 hw)
    rw [this, show (Html.renderer.quoted ty .unconstrained none none w : Text) = tagged tag w from h3]
  simp only [freeTags, List.mem_cons, Prod.mk.injEq, List.not_mem_nil, or_false] at hk
  rcases hk with ⟨rfl, rfl⟩ | ⟨rfl, rfl⟩ | ⟨rfl, rfl⟩ | ⟨rfl, rfl⟩ | ⟨rfl, rfl⟩ | ⟨rfl, rfl⟩
  · exact key (c := '*') (n := 2) (ty := .strong) rfl (by decide) (by decide) (by unfold Unmarked; decide)
      (wrap_tagged _ _)
  · exact key (c := '_') (n := 2) (ty := .emphasis) rfl (by decide) (by decide) (by unfold Unmarked; decide)
      (wrap_tagged _ _)
  · exact key (c := '`') (n := 2) (ty := .monospaced) rfl (by decide) (by decide) (by unfold Unmarked; decide)
      (wrap_tagged _ _)
  · exact key (c := '#') (n := 2) (ty := .mark) rfl (by decide) (by decide) (by unfold Unmarked; decide)
      (wrap_tagged _ _)
  · exact key (c := '^') (n := 1) (ty := .superscript) rfl (by decide) (by decide) (by unfold Unmarked; decide)
      (wrap_tagged _ _)
  · exact key (c := '~') (n := 1) (ty := .subscript) rfl (by decide) (by decide) (by unfold Unmarked; decide)
      (wrap_tagged _ _)

/-- Non-vacuity: an instance for each of the two. -/
example : letI := asciiUni
    applyQuotes ⟨⟨.default, '/'⟩, Html.renderer⟩ "(see `the code`).".toList = .ok "(see <code>the code</code>).".toList ∧
      applyQuotes ⟨⟨.default, '/'⟩, Html.renderer⟩ "H~2~O".toList = .ok "H<sub>2</sub>O".toList := by
  letI := asciiUni
  constructor
  · refine C64_words_html (u := "(see ".toList) (w := "the code".toList) (v := ").".toList) ⟨.default, '/'⟩ (c := '`')
      (tag := "code".toList) (by decide) ?_ ?_ ?_ ?_ ⟨⟨'t', "he code".toList, rfl, by decide⟩, ?_⟩ ?_ ?_
    · unfold Unmarked; decide
    · unfold Unmarked; decide
    · unfold Unmarked; decide
    · rintro x hx; cases hx; exact ⟨by decide, by decide, by decide, by decide⟩
    · rintro x hx; cases hx; decide
    · rintro x hx; cases hx; decide
    · intro _
      refine ⟨?_, ?_, ?_, ?_⟩ <;> (rintro x hx; cases hx; exact ⟨by decide, by decide⟩)
  · refine C64_anywhere_html (u := "H".toList) (w := "2".toList) (v := "O".toList) ⟨.default, '/'⟩ (m := "~".toList)
      (tag := "sub".toList) (by decide) ?_ ?_ ?_ ?_ (by decide) ?_ ?_
    · unfold Unmarked; decide
    · unfold Unmarked; decide
    · unfold Unmarked; decide
    · rintro x hx; cases hx; exact ⟨by decide, by decide⟩
    · intro _; decide
    · exact fun h => absurd h (by decide)

private def quietB : Text → Bool
  | [] => true
  | a :: r => (a != '`' || match r.head? with | none => true | some c => c != '"' && c != '\'' && c != '`') && quietB r

omit [Uni] in
private theorem quiet_of : ∀ t, quietB t = true → NoQuoteBehind t
  | [], _ => by rintro (_ | ⟨_, _⟩) c b e <;> cases e
  | x :: t, h => by
    rw [quietB, Bool.and_eq_true] at h
    intro a c b e
    cases a with
    | nil =>
      rw [List.nil_append] at e
      cases e
      have := h.1
      simpa [and_assoc] using this
    | cons y a => cases e; exact quiet_of _ h.2 a c b rfl

/-- Non-vacuity: a text with several formats, escapes and attributes, for which all conditions are met. -/
example : letI := asciiUni
    ∃ u out, Typeset (formatsBefore (formatBy ⟨⟨.default, '/'⟩, Html.renderer⟩))
        "*a* _b_ **c**d `e` \\#f# [.g]#h# x^i^ \"`j`\"".toList u ∧ NoQuoteBehind u ∧
      Typeset (formatsBehind (formatBy ⟨⟨.default, '/'⟩, Html.renderer⟩)) u out ∧
      out = ("<strong>a</strong> <em>b</em> <strong>c</strong>d <code>e</code> #f# <span class=\"g\">h</span> " ++
        "x<sup>i</sup> &#8220;j&#8221;").toList := by
  letI := asciiUni
  obtain ⟨u, h1, h2⟩ := kinds_apply (kinds_before ⟨⟨.default, '/'⟩, Html.renderer⟩) (fun _ h => List.mem_of_mem_take h)
    (t := "*a* _b_ **c**d `e` \\#f# [.g]#h# x^i^ \"`j`\"".toList) trivial
  have hu : u = "<strong>a</strong> _b_ <strong>c</strong>d `e` \\#f# [.g]#h# x^i^ &#8220;j&#8221;".toList := by
    have h := h2 []
    have hd : applyQuoteSubs ⟨⟨.default, '/'⟩, Html.renderer⟩ (quoteSubs.take 5 ++ [])
        "*a* _b_ **c**d `e` \\#f# [.g]#h# x^i^ \"`j`\"".toList =
        .ok "<strong>a</strong> _b_ <strong>c</strong>d `e` \\#f# [.g]#h# x^i^ &#8220;j&#8221;".toList := by decide +kernel
    rw [hd] at h
    exact (Except.ok.inj h).symm
  have hq : NoQuoteBehind u := by
    rw [hu]
    exact quiet_of _ (by decide +kernel)
  exact ⟨u, _, h1, hq, (C64_formatting_partial _ h1 hq _).mp (by decide +kernel), rfl⟩

end Adoc.Props
