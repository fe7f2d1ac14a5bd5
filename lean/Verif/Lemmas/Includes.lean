import Verif.Lemmas.Expansion
import Verif.Spec.Includes
/-!
# Facts about the places a preprocessor comes to
-/

namespace Adoc
open Spec Span

set_option linter.unusedSectionVars false

variable [Uni]

/-- What is learnt does not depend on line numbers. -/
theorem Spec.Expansion.anywhere {env : PreEnv} {strict : Bool} {file : Option Text} {started : Bool} {n : Nat} {t : Text}
    {σ σ' : Reading} {outs : List OutLine} (h : Expansion env strict file started n t σ outs σ') :
    ∀ (started' : Bool) (n' : Nat), ∃ outs', Expansion env false file started' n' t σ outs' σ' := by
  induction h with
  | done => exact fun _ _ => ⟨_, .done⟩
  | text h1 h2 h3 h4 _ ih =>
    intro st' n'
    obtain ⟨o, ho⟩ := ih true (n' + 1)
    exact ⟨_, .text h1 h2 h3 h4 ho⟩
  | entry h1 h2 h3 h4 h5 _ _ ih =>
    intro st' n'
    obtain ⟨o, ho⟩ := ih true _
    exact ⟨_, .entry h1 h2 h3 h4 h5 (by simp) ho⟩
  | resolved h1 h2 h3 h4 h5 h6 h7 _ _ ih1 ih2 =>
    intro st' n'
    obtain ⟨o1, ho1⟩ := ih1 false 1
    obtain ⟨o2, ho2⟩ := ih2 false (n' + 1)
    exact ⟨_, .resolved h1 h2 h3 h4 h5 h6 h7 ho1 ho2⟩
  | unresolved h1 h2 h3 h4 h5 h6 h7 _ _ ih =>
    intro st' n'
    obtain ⟨o, ho⟩ := ih st' (n' + 1)
    exact ⟨_, .unresolved h1 h2 h3 h4 h5 h6 h7 (by simp) ho⟩

theorem firstLine_shorter {t l sep rest : Text} (h : FirstLine t l sep rest) (ht : t ≠ []) : rest.length < t.length := by
  have h1 := congrArg List.length h.eq
  simp only [List.length_append] at h1
  by_cases h0 : rest = []
  · subst h0; exact List.length_pos_iff.mpr ht
  · have := term_count h.term h0
    have : sep ≠ [] := by rintro rfl; simp at this
    have := List.length_pos_iff.mpr this
    omega

theorem extent_shorter {t c sep rest : Text} (h : Extent t c sep rest) (ht : t ≠ []) : rest.length < t.length := by
  have h1 := congrArg List.length h.eq
  simp only [List.length_append] at h1
  by_cases h0 : rest = []
  · subst h0; exact List.length_pos_iff.mpr ht
  · have := term_count (isTerm_of_extent h) h0
    have : sep ≠ [] := by rintro rfl; simp at this
    have := List.length_pos_iff.mpr this
    omega

theorem firstLine_exists (t : Text) : ∃ l sep rest, FirstLine t l sep rest := by
  obtain ⟨l, sep, rest, h, _⟩ := takeLine_first (Span.new t)
  exact ⟨l, sep, rest, h⟩

/-- An entry whose value fails. -/
theorem entryAt_error (env : PreEnv) (st : PState) (s : Span) {l c sep rest name raw : Text} {e : Fail}
    (hea : EntryAt st.reading s.data l c sep rest name (.value raw)) (he : env.hdr st.store (joinValue raw) = .error e) :
    entryAt env st s l = .error e := by
  obtain ⟨h1, ⟨r, h2⟩, h3, hx, u, hu, hen⟩ := hea
  unfold entryAt
  rw [if_pos]
  · obtain ⟨nm, vs, _, e1, _, _, e2⟩ := parse_entry (hdr := env.hdr st.store) hx hu hen
    rw [e2]
    have hk : kindValue (env.hdr st.store) (.value raw) = .error e := by
      have : kindValue (env.hdr st.store) (.value raw) = (env.hdr st.store (joinValue raw)).map IVal.value := rfl
      rw [this, he]; rfl
    rw [hk]; rfl
  · simp only [Bool.and_eq_true, Bool.or_eq_true]
    refine ⟨⟨h1, startsWith_iff.mpr ⟨r, h2⟩⟩, ?_⟩
    rcases h3 with h3 | h3
    · exact Or.inl (endsIn_iff.mpr h3)
    · exact Or.inr (containsSub_iff.mpr h3)

/-- The value of an entry, or the failure. -/
theorem entryValue_or (env : PreEnv) (σ : Reading) (kind : EntryKind) :
    (∃ v, EntryValue (env.hdr σ.attrs) kind v) ∨ ∃ raw e, kind = .value raw ∧ env.hdr σ.attrs (joinValue raw) = .error e := by
  cases kind with
  | unset => exact Or.inl ⟨_, .unset⟩
  | set => exact Or.inl ⟨_, .set⟩
  | value raw =>
    cases h : env.hdr σ.attrs (joinValue raw) with
    | ok v => exact Or.inl ⟨_, .value h⟩
    | error e => exact Or.inr ⟨raw, e, rfl, h⟩

/-! ### Files that are read to their end -/

/-- If no file that is included from here on includes others without end and no value fails, the file is read to its end. -/
theorem expands_of_acc {env : PreEnv} {p : Point} (ha : Acc (fun q p => Includes env p q) p) :
    (∀ q e, Reaches env p q → ¬ FailsAt env e q) → ∀ started n, ∃ outs σ', Expansion env false p.file started n p.rest p.state outs σ' := by
  induction ha with
  | intro p _ ih =>
    intro hf
    obtain ⟨file, t, σ⟩ := p
    have key : ∀ (k : Nat) (t : Text) (σ : Reading), t.length ≤ k →
        (∀ q, Includes env ⟨file, t, σ⟩ q → (∀ r e, Reaches env q r → ¬ FailsAt env e r) →
          ∀ started n, ∃ outs σ', Expansion env false q.file started n q.rest q.state outs σ') →
        (∀ q e, Reaches env ⟨file, t, σ⟩ q → ¬ FailsAt env e q) →
        ∀ started n, ∃ outs σ', Expansion env false file started n t σ outs σ' := by
      intro k
      induction k with
      | zero =>
        intro t σ hk _ _ started n
        rw [List.eq_nil_of_length_eq_zero (Nat.le_zero.mp hk)]
        exact ⟨_, _, .done⟩
      | succ k ihk =>
        intro t σ hk hi hf started n
        by_cases ht : t = []
        · subst ht; exact ⟨_, _, .done⟩
        obtain ⟨l, sep, rest, hl⟩ := firstLine_exists t
        have hlen := firstLine_shorter hl ht
        have go : ∀ {q : Point}, Next env ⟨file, t, σ⟩ q → q.file = file → q.rest.length < t.length → ∀ started n, ∃ outs σ',
            Expansion env false file started n q.rest q.state outs σ' := by
          intro q hq hfile hlt
          obtain ⟨f', t', σ'⟩ := q
          simp only at hfile hlt; subst hfile
          exact ihk t' σ' (by omega) (fun q ⟨d, h1, h2⟩ => hi q ⟨d, .step hq h1, h2⟩) (fun q e hr => hf q e (.next hq hr))
        by_cases hno : NoEntry σ t l
        · by_cases hni : ∀ target attrs, ¬ IncludeLine l target attrs
          · obtain ⟨o, σ', ho⟩ := go (.text ht hl hno hni) rfl hlen true (n + 1)
            exact ⟨_, _, .text ht hl hno hni ho⟩
          · simp only [Classical.not_forall, Classical.not_not] at hni
            obtain ⟨target, attrs, hil⟩ := hni
            obtain ⟨target', _, hexp⟩ := Props.C30_expands σ.attrs target
            have hexp : Expands (fun n => σ.attrs.hasAttribute n = true) (attrText σ.attrs) target target' := hexp
            have hal : ∃ al, IncludeAttrs σ.attrs attrs al := by
              cases attrs with
              | none => exact ⟨_, .none⟩
              | some a => obtain ⟨al, h⟩ := inlineAttrlist_total σ.attrs a; exact ⟨al, .some h⟩
            obtain ⟨al, hal⟩ := hal
            cases hr : env.resolve file target' al σ.attrs with
            | none =>
              obtain ⟨o, σ', ho⟩ := go (.unresolved ht hl hno hil hexp hal hr) rfl hlen started (n + 1)
              exact ⟨_, _, .unresolved ht hl hno hil hexp hal hr (by simp) ho⟩
            | some text =>
              have hop : OpensFile env ⟨file, t, σ⟩ ⟨some target', text, σ⟩ := .mk ht hl hno hil hexp hal hr
              obtain ⟨o1, σ1, ho1⟩ := hi _ ⟨_, .refl, hop⟩ (fun r e hr => hf r e (.opens hop hr)) false 1
              obtain ⟨o2, σ2, ho2⟩ := go (.resolved ht hl hno hil hexp hal hr ho1) rfl hlen false (n + 1)
              exact ⟨_, _, .resolved ht hl hno hil hexp hal hr ho1 ho2⟩
        · have : ∃ c sep rest name kind, EntryAt σ t l c sep rest name kind := by
            unfold NoEntry at hno
            simp only [Classical.not_forall, Classical.not_not] at hno
            exact hno
          obtain ⟨c, csep, crest, name, kind, hea⟩ := this
          rcases entryValue_or env σ kind with ⟨v, hv⟩ | ⟨raw, e, rfl, he⟩
          · obtain ⟨o, σ', ho⟩ := go (.entry ht hl hea hv) rfl (extent_shorter hea.2.2.2.1 ht) true (n + c.count '\n' + 1)
            exact ⟨_, _, .entry ht hl hea hv (stripEnd_iff.mpr rfl) (by simp) ho⟩
          · exact absurd (FailsAt.mk ht hl hea he) (hf _ _ .refl)
    exact key t.length t σ (Nat.le_refl _) (fun q hq hf' => ih q hq hf') hf

/-- Without an infinite chain, every chain ends. -/
theorem acc_of_not_endless {env : PreEnv} {p : Point} (h : ¬ EndlessIncludes env p) : Acc (fun q p => Includes env p q) p := by
  apply Classical.byContradiction
  intro hna
  have hstep : ∀ p : {p : Point // ¬ Acc (fun q p => Includes env p q) p},
      ∃ q : {p : Point // ¬ Acc (fun q p => Includes env p q) p}, Includes env p.1 q.1 := by
    rintro ⟨p, hp⟩
    apply Classical.byContradiction
    intro hno
    exact hp (.intro p fun q hq => Classical.byContradiction fun hq' => hno ⟨⟨q, hq'⟩, hq⟩)
  let next := fun p => Classical.choose (hstep p)
  let f : Nat → {p : Point // ¬ Acc (fun q p => Includes env p q) p} := fun n => Nat.rec ⟨p, hna⟩ (fun _ q => next q) n
  exact h ⟨fun n => (f n).1, rfl, fun i => Classical.choose_spec (hstep (f i))⟩

/-! ### What a run does at a point -/

/-- One line of a run, seen from outside. -/
theorem run_step (env : PreEnv) (file : Option Text) (rep : Bool) (s : Span) (st : PState) (hs : s.data ≠ []) :
    (∃ e, FailsAt env e ⟨file, s.data, st.reading⟩ ∧
      ∀ fuel, processLines env (fuel + 1) file rep s st = .error e) ∨
    (∃ rest σ rep' s' st', Next env ⟨file, s.data, st.reading⟩ ⟨file, rest, σ⟩ ∧ s'.data = rest ∧ st'.reading = σ ∧
      ∀ fuel, processLines env (fuel + 1) file rep s st = processLines env fuel file rep' s' st') ∨
    (∃ target text, OpensFile env ⟨file, s.data, st.reading⟩ ⟨some target, text, st.reading⟩ ∧
      ∃ rest s', s'.data = rest ∧
      (∀ outs σ, Expansion env false (some target) false 1 text st.reading outs σ →
        Next env ⟨file, s.data, st.reading⟩ ⟨file, rest, σ⟩) ∧
      (∀ fuel e, processLines env fuel (some target) false (Span.new text) st = .error e →
        processLines env (fuel + 1) file rep s st = .error e) ∧
      (∀ fuel st', processLines env fuel (some target) false (Span.new text) st = .ok st' →
        processLines env (fuel + 1) file rep s st = processLines env fuel file false s' st')) := by
  obtain ⟨l, sep, rest, hl, e⟩ := takeLine_first s
  obtain ⟨d1, d2⟩ := takeLine_data hl.eq e
  rcases entryAt_spec env st s hl with ⟨e1, hno⟩ | ⟨c, csep, crest, name, kind, hea, hcase⟩
  · rcases includeAt_spec st hl.noNl with ⟨e2, hni⟩ | ⟨target, attrs, target', al, e2, hil, hexp, hal⟩
    · right; left
      refine ⟨rest, _, true, s.takeLine.after, (st.report rep file s.takeLine.item.line).copy l, .text hs hl hno hni, d2, ?_, ?_⟩
      · rw [copy_reading, report_reading]
      · intro fuel
        rw [processLines, if_neg hs]
        simp only [d1, e1, e2]
    · cases hr : env.resolve file target' al st.store with
      | none =>
        right; left
        refine ⟨rest, _, rep, s.takeLine.after, st.unresolved file l, .unresolved hs hl hno hil hexp hal hr, d2, rfl, fun fuel => ?_⟩
        rw [processLines, if_neg hs]
        simp only [d1, e1, e2, hr]
      | some text =>
        right; right
        refine ⟨target', text, .mk hs hl hno hil hexp hal hr, rest, s.takeLine.after, d2,
          fun outs σ h => .resolved hs hl hno hil hexp hal hr h, ?_, ?_⟩
        · intro fuel e' he'
          rw [processLines, if_neg hs]
          simp only [d1, e1, e2, hr, he']
        · intro fuel st' he'
          rw [processLines, if_neg hs]
          simp only [d1, e1, e2, hr, he']
  · rcases hcase with ⟨a, v, e1, hv, a1, a2, a3, a4⟩ | ⟨e', e1, hbad⟩
    · right; left
      have hx := hea.2.2.2.1
      refine ⟨crest, _, true, a.after, (st.report rep file s.takeLine.item.line).entry a.item, .entry hs hl hea hv, ?_, ?_, ?_⟩
      · rw [a4, hx.dropN_data]
      · rw [entry_reading _ _ a1 a2, report_reading]
      · intro fuel
        rw [processLines, if_neg hs]
        simp only [d1, e1]
    · left
      rcases entryValue_or env st.reading kind with ⟨v, hv⟩ | ⟨raw, e2, rfl, he⟩
      · exact absurd hv (hbad v)
      · refine ⟨e2, .mk hs hl hea he, fun fuel => ?_⟩
        rw [processLines, if_neg hs]
        simp only [d1, entryAt_error env st s hea he]

/-! ### Each point has one continuation -/

theorem Spec.Expansion.state_det {env : PreEnv} {file : Option Text} {t : Text} {σ σ₁ σ₂ : Reading} {b₁ b₂ s₁ s₂ : Bool} {n₁ n₂ : Nat}
    {o₁ o₂ : List OutLine} (h₁ : Expansion env s₁ file b₁ n₁ t σ o₁ σ₁) (h₂ : Expansion env s₂ file b₂ n₂ t σ o₂ σ₂) : σ₁ = σ₂ := by
  obtain ⟨_, g₁⟩ := h₁.anywhere true 1
  obtain ⟨_, g₂⟩ := h₂.anywhere true 1
  exact (g₁.det g₂).2

theorem Spec.OpensFile.det {env : PreEnv} {p q q' : Point} (h : OpensFile env p q) (h' : OpensFile env p q') : q = q' := by
  cases h with
  | mk ht hl hno hil hexp hal hr =>
    cases h' with
    | mk ht' hl' hno' hil' hexp' hal' hr' =>
      obtain ⟨rfl, rfl, rfl⟩ := hl.det hl'
      obtain ⟨rfl, rfl⟩ := hil.det hil'
      obtain rfl := Expands.det hexp hexp'
      obtain rfl := hal.det hal'
      rw [hr] at hr'; cases hr'; rfl

theorem Spec.FailsAt.det {env : PreEnv} {p : Point} {e e' : Fail} (h : FailsAt env e p) (h' : FailsAt env e' p) : e = e' := by
  cases h with
  | mk ht hl hea he =>
    cases h' with
    | mk ht' hl' hea' he' =>
      obtain ⟨rfl, rfl, rfl⟩ := hl.det hl'
      obtain ⟨_, _, _, _, hk⟩ := hea.det hea'
      cases hk
      rw [he] at he'; cases he'; rfl

theorem Spec.FailsAt.not_opens {env : PreEnv} {p q : Point} {e : Fail} (h : FailsAt env e p) : ¬ OpensFile env p q := by
  intro h'
  cases h with
  | mk ht hl hea he =>
    cases h' with
    | mk ht' hl' hno => obtain ⟨rfl, rfl, rfl⟩ := hl.det hl'; exact hno _ _ _ _ _ hea

theorem Spec.FailsAt.not_next {env : PreEnv} {p q : Point} {e : Fail} (h : FailsAt env e p) : ¬ Next env p q := by
  intro h'
  cases h with
  | mk ht hl hea he =>
    cases h' with
    | text ht' hl' hno => obtain ⟨rfl, rfl, rfl⟩ := hl.det hl'; exact hno _ _ _ _ _ hea
    | unresolved ht' hl' hno => obtain ⟨rfl, rfl, rfl⟩ := hl.det hl'; exact hno _ _ _ _ _ hea
    | resolved ht' hl' hno => obtain ⟨rfl, rfl, rfl⟩ := hl.det hl'; exact hno _ _ _ _ _ hea
    | entry ht' hl' hea' hv =>
      obtain ⟨rfl, rfl, rfl⟩ := hl.det hl'
      obtain ⟨_, _, _, _, hk⟩ := hea.det hea'
      subst hk
      cases hv with
      | value h => rw [h] at he; cases he

theorem Spec.Next.det {env : PreEnv} {p q q' : Point} (h : Next env p q) (h' : Next env p q') : q = q' := by
  cases h with
  | text ht hl hno hni =>
    cases h' with
    | text ht' hl' => obtain ⟨rfl, rfl, rfl⟩ := hl.det hl'; rfl
    | entry ht' hl' hea => obtain ⟨rfl, rfl, rfl⟩ := hl.det hl'; exact absurd hea (hno _ _ _ _ _)
    | unresolved ht' hl' _ hil => obtain ⟨rfl, rfl, rfl⟩ := hl.det hl'; exact absurd hil (hni _ _)
    | resolved ht' hl' _ hil => obtain ⟨rfl, rfl, rfl⟩ := hl.det hl'; exact absurd hil (hni _ _)
  | entry ht hl hea hv =>
    cases h' with
    | entry ht' hl' hea' hv' =>
      obtain ⟨rfl, rfl, rfl⟩ := hl.det hl'
      obtain ⟨rfl, rfl, rfl, rfl, rfl⟩ := hea.det hea'
      rw [hv.det hv']
    | text ht' hl' hno => obtain ⟨rfl, rfl, rfl⟩ := hl.det hl'; exact absurd hea (hno _ _ _ _ _)
    | unresolved ht' hl' hno => obtain ⟨rfl, rfl, rfl⟩ := hl.det hl'; exact absurd hea (hno _ _ _ _ _)
    | resolved ht' hl' hno => obtain ⟨rfl, rfl, rfl⟩ := hl.det hl'; exact absurd hea (hno _ _ _ _ _)
  | unresolved ht hl hno hil hexp hal hr =>
    cases h' with
    | text ht' hl' _ hni => obtain ⟨rfl, rfl, rfl⟩ := hl.det hl'; exact absurd hil (hni _ _)
    | entry ht' hl' hea => obtain ⟨rfl, rfl, rfl⟩ := hl.det hl'; exact absurd hea (hno _ _ _ _ _)
    | unresolved ht' hl' _ hil' => obtain ⟨rfl, rfl, rfl⟩ := hl.det hl'; rfl
    | resolved ht' hl' _ hil' hexp' hal' hr' =>
      obtain ⟨rfl, rfl, rfl⟩ := hl.det hl'
      obtain ⟨rfl, rfl⟩ := hil.det hil'
      obtain rfl := Expands.det hexp hexp'
      obtain rfl := hal.det hal'
      rw [hr] at hr'; cases hr'
  | resolved ht hl hno hil hexp hal hr hx =>
    cases h' with
    | text ht' hl' _ hni => obtain ⟨rfl, rfl, rfl⟩ := hl.det hl'; exact absurd hil (hni _ _)
    | entry ht' hl' hea => obtain ⟨rfl, rfl, rfl⟩ := hl.det hl'; exact absurd hea (hno _ _ _ _ _)
    | unresolved ht' hl' _ hil' hexp' hal' hr' =>
      obtain ⟨rfl, rfl, rfl⟩ := hl.det hl'
      obtain ⟨rfl, rfl⟩ := hil.det hil'
      obtain rfl := Expands.det hexp hexp'
      obtain rfl := hal.det hal'
      rw [hr] at hr'; cases hr'
    | resolved ht' hl' _ hil' hexp' hal' hr' hx' =>
      obtain ⟨rfl, rfl, rfl⟩ := hl.det hl'
      obtain ⟨rfl, rfl⟩ := hil.det hil'
      obtain rfl := Expands.det hexp hexp'
      obtain rfl := hal.det hal'
      rw [hr] at hr'; cases hr'
      rw [hx.state_det hx']

theorem Spec.Next.through {env : PreEnv} {p q w : Point} (h : Next env p q) (ho : OpensFile env p w) :
    ∃ outs, Expansion env false w.file false 1 w.rest w.state outs q.state := by
  cases ho with
  | mk ht' hl' hno' hil' hexp' hal' hr' =>
    cases h with
    | text ht hl _ hni => obtain ⟨rfl, rfl, rfl⟩ := hl.det hl'; exact absurd hil' (hni _ _)
    | entry ht hl hea => obtain ⟨rfl, rfl, rfl⟩ := hl.det hl'; exact absurd hea (hno' _ _ _ _ _)
    | unresolved ht hl _ hil hexp hal hr =>
      obtain ⟨rfl, rfl, rfl⟩ := hl.det hl'
      obtain ⟨rfl, rfl⟩ := hil.det hil'
      obtain rfl := Expands.det hexp hexp'
      obtain rfl := hal.det hal'
      rw [hr] at hr'; cases hr'
    | resolved ht hl _ hil hexp hal hr hx =>
      obtain ⟨rfl, rfl, rfl⟩ := hl.det hl'
      obtain ⟨rfl, rfl⟩ := hil.det hil'
      obtain rfl := Expands.det hexp hexp'
      obtain rfl := hal.det hal'
      rw [hr] at hr'; cases hr'
      exact ⟨_, hx⟩

theorem Spec.Next.ne_nil {env : PreEnv} {p q : Point} (h : Next env p q) : p.rest ≠ [] := by cases h <;> assumption
theorem Spec.OpensFile.ne_nil {env : PreEnv} {p q : Point} (h : OpensFile env p q) : p.rest ≠ [] := by cases h; assumption
theorem Spec.FailsAt.ne_nil {env : PreEnv} {p : Point} {e : Fail} (h : FailsAt env e p) : p.rest ≠ [] := by cases h; assumption
theorem Spec.Next.file_eq {env : PreEnv} {p q : Point} (h : Next env p q) : q.file = p.file := by cases h <;> rfl

theorem Spec.OpensFile.state_eq {env : PreEnv} {p q : Point} (h : OpensFile env p q) : p.state = q.state := by
  cases h; rfl

/-! ### Failures -/

/-- A failure that is not the lack of fuel is that of a value that is reached. -/
theorem error_reached (env : PreEnv) : ∀ (fuel : Nat) (file : Option Text) (rep : Bool) (s : Span) (st : PState) (e : Fail),
    processLines env fuel file rep s st = .error e → e ≠ .fuel →
    ∃ q, Reaches env ⟨file, s.data, st.reading⟩ q ∧ FailsAt env e q
  | 0, _, _, _, _, _, h, hne => by cases h; exact absurd rfl hne
  | fuel + 1, file, rep, s, st, e, h, hne => by
    by_cases hs : s.data = []
    · rw [processLines, if_pos hs] at h; cases h
    rcases run_step env file rep s st hs with ⟨e', hf, h'⟩ | ⟨rest, σ, rep', s', st', hn, hd, hσ, h'⟩ |
      ⟨target, text, ho, rest, s', hd, hnext, h1, h2⟩
    · rw [h'] at h; cases h
      exact ⟨_, .refl, hf⟩
    · rw [h'] at h
      obtain ⟨q, hq, hf⟩ := error_reached env fuel file rep' s' st' e h hne
      rw [hd, hσ] at hq
      exact ⟨q, .next hn hq, hf⟩
    · cases hx : processLines env fuel (some target) false (Span.new text) st with
      | error e' =>
        rw [h1 _ e' hx] at h; cases h
        obtain ⟨q, hq, hf⟩ := error_reached env fuel _ _ _ _ _ hx hne
        exact ⟨q, .opens ho hq, hf⟩
      | ok st' =>
        rw [h2 _ st' hx] at h
        obtain ⟨outs, hex, _⟩ := processLines_sound env _ _ _ _ _ _ hx
        obtain ⟨q, hq, hf⟩ := error_reached env fuel _ _ _ _ _ h hne
        rw [hd] at hq
        exact ⟨q, .next (hnext _ _ hex) hq, hf⟩

/-- A value that is reached and fails lets the whole run fail. -/
theorem reached_error {env : PreEnv} {p q : Point} {e : Fail} (hr : Reaches env p q) (hf : FailsAt env e q) :
    ∀ (rep : Bool) (s : Span) (st : PState), s.data = p.rest → st.reading = p.state →
      ∃ f₀, ∀ fuel, f₀ ≤ fuel → processLines env fuel p.file rep s st = .error e := by
  induction hr with
  | @refl p =>
    intro rep s st hs hσ
    refine ⟨1, fun fuel hfuel => ?_⟩
    obtain ⟨k, rfl⟩ : ∃ k, fuel = k + 1 := ⟨fuel - 1, by omega⟩
    have hp : p = ⟨p.file, s.data, st.reading⟩ := by rw [hs, hσ]
    have hne := hf.ne_nil
    rw [hp] at hf
    rcases run_step env p.file rep s st (by rw [hs]; exact hne) with ⟨e', hf', h'⟩ | ⟨rest, σ, rep', s', st', hn, _⟩ | ⟨target, text, ho, _⟩
    · rw [h', hf.det hf']
    · exact absurd hn hf.not_next
    · exact absurd ho hf.not_opens
  | @next p p' q hn _ ih =>
    intro rep s st hs hσ
    have hp : p = ⟨p.file, s.data, st.reading⟩ := by rw [hs, hσ]
    have hne := hn.ne_nil
    have hfile := hn.file_eq
    rw [hp] at hn
    rcases run_step env p.file rep s st (by rw [hs]; exact hne) with ⟨e', hf', h'⟩ | ⟨rest, σ, rep', s', st', hn', hd, hσ', h'⟩ |
      ⟨target, text, ho, rest, s', hd, hnext, h1, h2⟩
    · exact absurd hn hf'.not_next
    · obtain rfl := hn.det hn'
      obtain ⟨f2, k2⟩ := ih hf rep' s' st' hd hσ'
      refine ⟨f2 + 1, fun fuel hfuel => ?_⟩
      obtain ⟨k, rfl⟩ : ∃ k, fuel = k + 1 := ⟨fuel - 1, by omega⟩
      rw [h']
      exact k2 k (by omega)
    · obtain ⟨outs, hx⟩ := hn.through ho
      obtain ⟨f1, st1, g1, g2, _⟩ := processLines_complete hx (Span.new text) st rfl (fun _ => rfl) rfl
      have hp' := hn.det (hnext _ _ hx)
      obtain ⟨f2, k2⟩ := ih hf false s' st1 (by rw [hd, hp']) g2
      rw [hfile] at k2
      refine ⟨max f1 f2 + 1, fun fuel hfuel => ?_⟩
      obtain ⟨k, rfl⟩ : ∃ k, fuel = k + 1 := ⟨fuel - 1, by omega⟩
      rw [h2 k st1 (processLines_mono env (by omega) g1 (by simp))]
      exact k2 k (by omega)
  | @opens p p' q ho _ ih =>
    intro rep s st hs hσ
    have hp : p = ⟨p.file, s.data, st.reading⟩ := by rw [hs, hσ]
    have hne := ho.ne_nil
    rw [hp] at ho
    rcases run_step env p.file rep s st (by rw [hs]; exact hne) with ⟨e', hf', h'⟩ | ⟨rest, σ, rep', s', st', hn', hd, hσ', h'⟩ |
      ⟨target, text, ho', rest, s', hd, hnext, h1, h2⟩
    · exact absurd ho hf'.not_opens
    · obtain ⟨outs, hx⟩ := hn'.through ho
      obtain ⟨f0, k0⟩ := ih hf false (Span.new p'.rest) st rfl ho.state_eq
      rw [← ho.state_eq] at hx
      obtain ⟨f1, st1, g1, _⟩ := processLines_complete hx (Span.new p'.rest) st rfl (fun _ => rfl) rfl
      have a := processLines_mono env (Nat.le_max_left f1 f0) g1 (by simp)
      rw [k0 _ (Nat.le_max_right f1 f0)] at a
      cases a
    · obtain rfl := ho.det ho'
      obtain ⟨f1, k1⟩ := ih hf false (Span.new text) st rfl rfl
      refine ⟨f1 + 1, fun fuel hfuel => ?_⟩
      obtain ⟨k, rfl⟩ : ∃ k, fuel = k + 1 := ⟨fuel - 1, by omega⟩
      exact h1 k e (k1 k (by omega))

/-! ### Files that include one another without end -/

/-- Somewhere behind `p`, in the same file, is a directive that begins an endless chain. -/
def Chain (env : PreEnv) (p : Point) : Prop := ∃ d q, ReadsOn env p d ∧ OpensFile env d q ∧ EndlessIncludes env q

theorem chain_of_endless {env : PreEnv} {p : Point} (h : EndlessIncludes env p) : Chain env p := by
  obtain ⟨f, rfl, hf⟩ := h
  obtain ⟨d, h1, h2⟩ := hf 0
  exact ⟨d, f 1, h1, h2, fun i => f (i + 1), rfl, fun i => hf (i + 1)⟩

theorem Chain.ne_nil {env : PreEnv} {p : Point} (h : Chain env p) : p.rest ≠ [] := by
  obtain ⟨d, q, h1, h2, _⟩ := h
  cases h1 with
  | refl => exact h2.ne_nil
  | step hn _ => exact hn.ne_nil

/-- At a place in front of a chain: the directive is here, or the place behind is in front of the chain. -/
theorem Chain.split {env : PreEnv} {p : Point} (h : Chain env p) :
    (∃ q, OpensFile env p q ∧ Chain env q) ∨ ∃ q, Next env p q ∧ Chain env q := by
  obtain ⟨d, q, h1, h2, h3⟩ := h
  cases h1 with
  | refl => exact Or.inl ⟨q, h2, chain_of_endless h3⟩
  | step hn hr => exact Or.inr ⟨_, hn, d, q, hr, h2, h3⟩

theorem Spec.Expansion.not_chain {env : PreEnv} {strict : Bool} {file : Option Text} {started : Bool} {n : Nat} {t : Text}
    {σ σ' : Reading} {outs : List OutLine} (h : Expansion env strict file started n t σ outs σ') : ¬ Chain env ⟨file, t, σ⟩ := by
  induction h with
  | done => exact fun hc => hc.ne_nil rfl
  | text ht hl hno hni _ ih =>
    intro hc
    rcases hc.split with ⟨q, ho, _⟩ | ⟨q, hn, hc'⟩
    · cases ho with
      | mk _ hl' _ hil' => obtain ⟨rfl, rfl, rfl⟩ := hl.det hl'; exact hni _ _ hil'
    · obtain rfl := hn.det (.text ht hl hno hni)
      exact ih hc'
  | entry ht hl hea hv _ _ _ ih =>
    intro hc
    rcases hc.split with ⟨q, ho, _⟩ | ⟨q, hn, hc'⟩
    · cases ho with
      | mk _ hl' hno' => obtain ⟨rfl, rfl, rfl⟩ := hl.det hl'; exact hno' _ _ _ _ _ hea
    · obtain rfl := hn.det (.entry ht hl hea hv)
      exact ih hc'
  | unresolved ht hl hno hil hexp hal hr _ _ ih =>
    intro hc
    rcases hc.split with ⟨q, ho, _⟩ | ⟨q, hn, hc'⟩
    · cases ho with
      | mk _ hl' _ hil' hexp' hal' hr' =>
        obtain ⟨rfl, rfl, rfl⟩ := hl.det hl'
        obtain ⟨rfl, rfl⟩ := hil.det hil'
        obtain rfl := Expands.det hexp hexp'
        obtain rfl := hal.det hal'
        rw [hr] at hr'; cases hr'
    · obtain rfl := hn.det (.unresolved ht hl hno hil hexp hal hr)
      exact ih hc'
  | resolved ht hl hno hil hexp hal hr hx _ ih₁ ih₂ =>
    intro hc
    rcases hc.split with ⟨q, ho, hc'⟩ | ⟨q, hn, hc'⟩
    · obtain rfl := ho.det (.mk ht hl hno hil hexp hal hr)
      exact ih₁ hc'
    · obtain ⟨_, hx'⟩ := hx.anywhere false 1
      obtain rfl := hn.det (.resolved ht hl hno hil hexp hal hr hx')
      exact ih₂ hc'

theorem chain_fuel (env : PreEnv) : ∀ (fuel : Nat) (p : Point), Chain env p → ∀ (rep : Bool) (s : Span) (st : PState),
    s.data = p.rest → st.reading = p.state → processLines env fuel p.file rep s st = .error .fuel
  | 0, _, _, _, _, _, _, _ => rfl
  | k + 1, p, hc, rep, s, st, hs, hσ => by
    have hp : p = ⟨p.file, s.data, st.reading⟩ := by rw [hs, hσ]
    have hne := hc.ne_nil
    rcases run_step env p.file rep s st (by rw [hs]; exact hne) with ⟨e', hf', h'⟩ | ⟨rest, σ, rep', s', st', hn', hd, hσ', h'⟩ |
      ⟨target, text, ho', rest, s', hd, hnext, h1, h2⟩
    · rw [← hp] at hf'
      rcases hc.split with ⟨q, ho, _⟩ | ⟨q, hn, _⟩
      · exact absurd ho hf'.not_opens
      · exact absurd hn hf'.not_next
    · rw [← hp] at hn'
      rcases hc.split with ⟨q, ho, hq⟩ | ⟨q, hn, hq⟩
      · obtain ⟨outs, hx⟩ := hn'.through ho
        exact absurd hq hx.not_chain
      · obtain rfl := hn.det hn'
        rw [h']
        exact chain_fuel env k _ hq rep' s' st' hd hσ'
    · rw [← hp] at ho' hnext
      rcases hc.split with ⟨q, ho, hq⟩ | ⟨q, hn, hq⟩
      · obtain rfl := ho.det ho'
        exact h1 k _ (chain_fuel env k _ hq false (Span.new text) st rfl rfl)
      · obtain ⟨outs, hx⟩ := hn.through ho'
        have hq' := hn.det (hnext _ _ hx)
        obtain ⟨f1, st1, g1, g2, _⟩ := processLines_complete hx (Span.new text) st rfl (fun _ => rfl) rfl
        cases hr : processLines env k (some target) false (Span.new text) st with
        | error e =>
          by_cases he : e = .fuel
          · subst he; exact h1 k _ hr
          · have a := processLines_mono env (Nat.le_max_left f1 k) g1 (by simp)
            have b := processLines_mono env (Nat.le_max_right f1 k) hr (by simpa using he)
            rw [b] at a; cases a
        | ok st' =>
          rw [h2 k st' hr]
          obtain ⟨outs', hx', _⟩ := processLines_sound env _ _ _ _ _ _ hr
          have := hn.file_eq
          rw [← this]
          exact chain_fuel env k q hq false s' st' (by rw [hd, hq']) (hx'.state_det hx)

end Adoc
