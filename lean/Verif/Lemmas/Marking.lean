import Verif.Lemmas.Expansion
import Verif.Spec.Marking
/-!
# Notes about origins (helper lemmas for C11)
-/

namespace Adoc
open Adoc.Spec Span SourceMap

variable [Uni]

set_option linter.unusedSectionVars false

theorem firstNoted_line (b : Bool) (os : List OutLine) : (firstNoted b os).map MarkedLine.line = os := by
  cases os with
  | nil => rfl
  | cons o os => simp [firstNoted, List.map_map, Function.comp_def]

theorem firstNoted_length (b : Bool) (os : List OutLine) : (firstNoted b os).length = os.length := by
  rw [← List.length_map (f := MarkedLine.line), firstNoted_line]

/-- The lines of a marking are the expansion. -/
theorem Spec.Marking.expansion {env : PreEnv} {file : Option Text} {started : Bool} {n : Nat} {t : Text} {σ σ' : Reading}
    {outs : List MarkedLine} (h : Marking env file started n t σ outs σ') :
    Expansion env false file started n t σ (outs.map MarkedLine.line) σ' := by
  induction h with
  | done => exact .done
  | text ht hl hno hni _ ih => exact .text ht hl hno hni ih
  | entry ht hl hea hv hb _ ih =>
    rw [List.map_append, firstNoted_line]
    exact .entry ht hl hea hv hb (by simp) ih
  | resolved ht hl hno hil hexp hal hr _ _ ih1 ih2 =>
    rw [List.map_append]
    exact .resolved ht hl hno hil hexp hal hr ih1 ih2
  | unresolved ht hl hno hil hexp hal hr _ ih => exact .unresolved ht hl hno hil hexp hal hr (by simp) ih

/-- Every expansion has a marking. -/
theorem Spec.Expansion.marking {env : PreEnv} {strict : Bool} {file : Option Text} {started : Bool} {n : Nat} {t : Text}
    {σ σ' : Reading} {outs : List OutLine} (h : Expansion env strict file started n t σ outs σ') :
    ∃ ms, Marking env file started n t σ ms σ' ∧ ms.map MarkedLine.line = outs := by
  induction h with
  | done => exact ⟨[], .done, rfl⟩
  | text ht hl hno hni _ ih =>
    obtain ⟨ms, h1, h2⟩ := ih
    exact ⟨_, .text ht hl hno hni h1, by simp [h2]⟩
  | entry ht hl hea hv hb _ _ ih =>
    obtain ⟨ms, h1, h2⟩ := ih
    exact ⟨_, .entry ht hl hea hv hb h1, by rw [List.map_append, firstNoted_line, h2]⟩
  | resolved ht hl hno hil hexp hal hr _ _ ih1 ih2 =>
    obtain ⟨ms, h1, h2⟩ := ih1
    obtain ⟨ms', h1', h2'⟩ := ih2
    exact ⟨_, .resolved ht hl hno hil hexp hal hr h1 h1', by rw [List.map_append, h2, h2']⟩
  | unresolved ht hl hno hil hexp hal hr _ _ ih =>
    obtain ⟨ms, h1, h2⟩ := ih
    exact ⟨_, .unresolved ht hl hno hil hexp hal hr h1, by simp [h2]⟩

theorem Spec.Marking.renumber {env : PreEnv} {file : Option Text} {started : Bool} {n m : Nat} {t : Text}
    {σ σ' : Reading} {outs : List MarkedLine} (h : Marking env file started n t σ outs σ') (hnm : t ≠ [] → n = m) :
    Marking env file started m t σ outs σ' := by
  by_cases ht : t = []
  · subst ht
    cases h <;> first | exact .done | (rename_i h _ _ _ _; exact absurd rfl h) | contradiction
  · rw [← hnm ht]; exact h

/-- A text has one marking. -/
theorem Spec.Marking.det {env : PreEnv} {file : Option Text} {started : Bool} {n : Nat} {t : Text}
    {σ σ' : Reading} {outs : List MarkedLine} (h : Marking env file started n t σ outs σ') :
    ∀ {outs' : List MarkedLine} {σ'' : Reading}, Marking env file started n t σ outs' σ'' → outs = outs' ∧ σ' = σ'' := by
  induction h with
  | done =>
    intro outs' σ'' h'
    cases h' <;> first | exact ⟨rfl, rfl⟩ | contradiction
  | text ht hl hno hni _ ih =>
    intro outs' σ'' h'
    cases h' with
    | done => exact absurd rfl ht
    | text ht' hl' hno' hni' hr' =>
      obtain ⟨rfl, rfl, rfl⟩ := hl.det hl'
      obtain ⟨rfl, rfl⟩ := ih hr'
      exact ⟨rfl, rfl⟩
    | entry ht' hl' hea' => obtain ⟨rfl, rfl, rfl⟩ := hl.det hl'; exact absurd hea' (hno _ _ _ _ _)
    | resolved ht' hl' hno' hil' => obtain ⟨rfl, rfl, rfl⟩ := hl.det hl'; exact absurd hil' (hni _ _)
    | unresolved ht' hl' hno' hil' => obtain ⟨rfl, rfl, rfl⟩ := hl.det hl'; exact absurd hil' (hni _ _)
  | entry ht hl hea hv hb _ ih =>
    intro outs' σ'' h'
    cases h' with
    | done => exact absurd rfl ht
    | text ht' hl' hno' hni' hr' => obtain ⟨rfl, rfl, rfl⟩ := hl.det hl'; exact absurd hea (hno' _ _ _ _ _)
    | entry ht' hl' hea' hv' hb' hr' =>
      obtain ⟨rfl, rfl, rfl⟩ := hl.det hl'
      obtain ⟨rfl, rfl, rfl, rfl, rfl⟩ := hea.det hea'
      have := hv.det hv'
      subst this
      have e := (stripEnd_iff.mp hb).trans (stripEnd_iff.mp hb').symm
      subst e
      obtain ⟨rfl, rfl⟩ := ih hr'
      exact ⟨rfl, rfl⟩
    | resolved ht' hl' hno' hil' => obtain ⟨rfl, rfl, rfl⟩ := hl.det hl'; exact absurd hea (hno' _ _ _ _ _)
    | unresolved ht' hl' hno' hil' => obtain ⟨rfl, rfl, rfl⟩ := hl.det hl'; exact absurd hea (hno' _ _ _ _ _)
  | resolved ht hl hno hil hexp hal hr _ _ ih1 ih2 =>
    intro outs' σ'' h'
    cases h' with
    | done => exact absurd rfl ht
    | text ht' hl' hno' hni' hr' => obtain ⟨rfl, rfl, rfl⟩ := hl.det hl'; exact absurd hil (hni' _ _)
    | entry ht' hl' hea' => obtain ⟨rfl, rfl, rfl⟩ := hl.det hl'; exact absurd hea' (hno _ _ _ _ _)
    | resolved ht' hl' hno' hil' hexp' hal' hr' g1 g2 =>
      obtain ⟨rfl, rfl, rfl⟩ := hl.det hl'
      obtain ⟨rfl, rfl⟩ := hil.det hil'
      have e3 := Expands.det hexp hexp'
      have e4 := hal.det hal'
      subst e3; subst e4
      have e5 := hr.symm.trans hr'
      simp only [Option.some.injEq] at e5
      subst e5
      obtain ⟨rfl, rfl⟩ := ih1 g1
      obtain ⟨rfl, rfl⟩ := ih2 g2
      exact ⟨rfl, rfl⟩
    | unresolved ht' hl' hno' hil' hexp' hal' hr' =>
      obtain ⟨rfl, rfl, rfl⟩ := hl.det hl'
      obtain ⟨rfl, rfl⟩ := hil.det hil'
      have e3 := Expands.det hexp hexp'
      have e4 := hal.det hal'
      subst e3; subst e4
      exact absurd (hr.symm.trans hr') (by simp)
  | unresolved ht hl hno hil hexp hal hr _ ih =>
    intro outs' σ'' h'
    cases h' with
    | done => exact absurd rfl ht
    | text ht' hl' hno' hni' hr' => obtain ⟨rfl, rfl, rfl⟩ := hl.det hl'; exact absurd hil (hni' _ _)
    | entry ht' hl' hea' => obtain ⟨rfl, rfl, rfl⟩ := hl.det hl'; exact absurd hea' (hno _ _ _ _ _)
    | resolved ht' hl' hno' hil' hexp' hal' hr' =>
      obtain ⟨rfl, rfl, rfl⟩ := hl.det hl'
      obtain ⟨rfl, rfl⟩ := hil.det hil'
      have e3 := Expands.det hexp hexp'
      have e4 := hal.det hal'
      subst e3; subst e4
      exact absurd (hr'.symm.trans hr) (by simp)
    | unresolved ht' hl' hno' hil' hexp' hal' hr' g =>
      obtain ⟨rfl, rfl, rfl⟩ := hl.det hl'
      obtain ⟨rfl, rfl⟩ := ih g
      exact ⟨rfl, rfl⟩

/-- Every line of a marking is one line, unless the name of its file has several. -/
theorem Spec.Marking.one_line {env : PreEnv} {file : Option Text} {started : Bool} {n : Nat} {t : Text}
    {σ σ' : Reading} {outs : List MarkedLine} (h : Marking env file started n t σ outs σ') :
    ∀ o ∈ outs, '\n' ∉ o.line.text ∨ '\n' ∈ o.line.origin.file.getD [] := by
  induction h with
  | done => simp
  | text ht hl hno hni _ ih =>
    intro o ho
    rcases List.mem_cons.mp ho with rfl | ho
    · exact Or.inl hl.noNl
    · exact ih o ho
  | @entry file started n t l lsep lrest c sep rest name kind v b σ outs σ' ht hl hea hv hb _ ih =>
    intro o ho
    rcases List.mem_append.mp ho with ho | ho
    · have h1 : o.line ∈ (firstNoted (!started) (numberedLines file n (splitChar '\n' b))).map MarkedLine.line :=
        List.mem_map_of_mem ho
      rw [firstNoted_line] at h1
      have : o.line.text ∈ (numberedLines file n (splitChar '\n' b)).map OutLine.text := List.mem_map_of_mem h1
      rw [numberedLines_text] at this
      exact Or.inl (splitChar_no _ _ _ this)
    · exact ih o ho
  | resolved ht hl hno hil hexp hal hr _ _ ih1 ih2 =>
    intro o ho
    rcases List.mem_append.mp ho with ho | ho
    · exact ih1 o ho
    · exact ih2 o ho
  | @unresolved file started n t l sep rest target attrs target' al σ outs σ' ht hl hno hil hexp hal hr _ ih =>
    intro o ho
    rcases List.mem_cons.mp ho with rfl | ho
    · by_cases hf : '\n' ∈ file.getD []
      · exact Or.inr hf
      · exact Or.inl (unresolvedLine_no_nl hf hl.noNl)
    · exact ih o ho

/-- The notes, with the numbers of their lines. -/
def notes : Nat → List MarkedLine → SourceMap
  | _, [] => []
  | k, o :: os => (if o.noted then [(k, o.line.origin)] else []) ++ notes (k + 1) os

theorem notes_append (k : Nat) (a b : List MarkedLine) : notes k (a ++ b) = notes k a ++ notes (k + a.length) b := by
  induction a generalizing k with
  | nil => rfl
  | cons o os ih =>
    simp only [List.cons_append, notes, ih, List.length_cons, List.append_assoc]
    rw [show k + 1 + os.length = k + (os.length + 1) by omega]

theorem notes_false (k : Nat) (os : List OutLine) : notes k (os.map (⟨·, false⟩)) = [] := by
  induction os generalizing k with
  | nil => rfl
  | cons o os ih => simp [notes, ih]

theorem mem_notes {k : Nat} {ms : List MarkedLine} {e : Nat × SourceLine} :
    e ∈ notes k ms ↔ ∃ j o, ms[j]? = some o ∧ o.noted = true ∧ e = (k + j, o.line.origin) := by
  induction ms generalizing k with
  | nil => simp [notes]
  | cons o os ih =>
    rw [notes, List.mem_append, ih]
    constructor
    · rintro (h | ⟨j, x, h1, h2, h3⟩)
      · split at h
        · rename_i ho
          exact ⟨0, o, rfl, ho, by simpa using h⟩
        · cases h
      · exact ⟨j + 1, x, h1, h2, by rw [h3, show k + 1 + j = k + (j + 1) by omega]⟩
    · rintro ⟨j, x, h1, h2, h3⟩
      cases j with
      | zero =>
        simp only [List.getElem?_cons_zero, Option.some.injEq] at h1
        subst h1
        left; rw [if_pos h2]; simpa using h3
      | succ j => exact Or.inr ⟨j, x, h1, h2, by rw [h3, show k + (j + 1) = k + 1 + j by omega]⟩

/-- A lookup among the notes is the computed origin. -/
theorem floor_notes {ms : List MarkedLine} {i : Nat} {r : SourceLine} : Floor (notes 1 ms) (i + 1) r ↔ Computed ms i r := by
  unfold Floor Computed
  constructor
  · rintro (⟨k, l, h1, h2, h3, rfl⟩ | ⟨h1, rfl⟩)
    · left
      obtain ⟨j, o, g1, g2, g3⟩ := mem_notes.mp h1
      simp only [Prod.mk.injEq] at g3
      obtain ⟨rfl, rfl⟩ := g3
      refine ⟨j, o, by omega, g1, g2, fun k x hk hki hx => ?_, by rw [show i + 1 - (1 + j) = i - j by omega]⟩
      cases hn : x.noted with
      | false => rfl
      | true =>
        have := h3 _ (mem_notes.mpr ⟨k, x, hx, hn, rfl⟩) (by simp only; omega)
        simp only at this
        omega
    · right
      refine ⟨fun k x hk hx => ?_, rfl⟩
      cases hn : x.noted with
      | false => rfl
      | true =>
        have := h1 _ (mem_notes.mpr ⟨k, x, hx, hn, rfl⟩)
        simp only at this
        omega
  · rintro (⟨j, o, h1, h2, h3, h4, rfl⟩ | ⟨h1, rfl⟩)
    · left
      refine ⟨1 + j, o.line.origin, mem_notes.mpr ⟨j, o, h2, h3, rfl⟩, by omega, ?_,
        by rw [show i + 1 - (1 + j) = i - j by omega]⟩
      intro e he hle
      obtain ⟨k, x, g1, g2, rfl⟩ := mem_notes.mp he
      simp only at hle ⊢
      by_cases hk : j < k
      · have := h4 k x hk (by omega) g1
        rw [g2] at this; cases this
      · omega
    · right
      refine ⟨fun e he => ?_, rfl⟩
      obtain ⟨k, x, g1, g2, rfl⟩ := mem_notes.mp he
      simp only
      by_cases hk : k ≤ i
      · have := h1 k x hk g1
        rw [g2] at this; cases this
      · omega

theorem report_map (st : PState) (b : Bool) (file : Option Text) (n : Nat) :
    (st.report b file n).sourceMap = st.sourceMap ++ (if !b then [(st.outputLineNumber, ⟨file, n⟩)] else []) := by
  unfold PState.report
  cases b <;> simp [SourceMap.append]

theorem notes_first (k : Nat) (b : Bool) (file : Option Text) (n : Nat) (ls : List Text) (h : ls ≠ []) :
    notes k (firstNoted b (numberedLines file n ls)) = if b then [(k, ⟨file, n⟩)] else [] := by
  cases ls with
  | nil => exact absurd rfl h
  | cons l ls => simp [numberedLines, firstNoted, notes, notes_false]

/-- A run writes down the notes of the marking. -/
theorem processLines_notes (env : PreEnv) : ∀ (fuel : Nat) (file : Option Text) (rep : Bool) (s : Span) (st st' : PState),
    processLines env fuel file rep s st = .ok st' → ∃ ms, Marking env file rep s.line s.data st.reading ms st'.reading ∧
      st'.sourceMap = st.sourceMap ++ notes st.outputLineNumber ms ∧ st'.outputLineNumber = st.outputLineNumber + ms.length
  | 0, _, _, _, _, _, h => by cases h
  | fuel + 1, file, rep, s, st, st', h => by
    rw [processLines] at h
    by_cases hs : s.data = []
    · rw [if_pos hs] at h
      cases h
      rw [hs]
      exact ⟨[], .done, by simp [notes], rfl⟩
    · rw [if_neg hs] at h
      simp only at h
      obtain ⟨l, sep, rest, hl, e⟩ := takeLine_first s
      obtain ⟨d1, d2⟩ := takeLine_data hl.eq e
      have hline : s.takeLine.item.line = s.line := by rw [e]; simp [takeN, sliceInternal]
      rw [d1, hline] at h
      have hafter : s.takeLine.after = s.dropN (l.length + sep.length) := by rw [e]
      rcases entryAt_spec env st s hl with ⟨h1, hno⟩ | ⟨c, csep, crest, name, kind, hea, hcase⟩
      · rw [h1] at h
        simp only at h
        rcases includeAt_spec st hl.noNl with ⟨h2, hni⟩ | ⟨target, attrs, target', al, h2, hil, hexp, hal⟩
        · rw [h2] at h
          simp only at h
          obtain ⟨ms, ih1, ih2, ih3⟩ := processLines_notes env fuel _ _ _ _ _ h
          rw [copy_reading, report_reading, d2] at ih1
          refine ⟨⟨⟨l, ⟨file, s.line⟩⟩, !rep⟩ :: ms, .text hs hl hno hni (ih1.renumber fun hr => ?_), ?_, ?_⟩
          · rw [hafter]; exact hl.next_line hr
          · rw [ih2, notes]
            simp only [PState.copy, report_map, report_outLine, List.append_assoc]
          · rw [ih3]; simp [PState.copy, report_outLine]; omega
        · rw [h2] at h
          simp only at h
          cases hr : env.resolve file target' al st.store with
          | none =>
            rw [hr] at h
            simp only at h
            obtain ⟨ms, ih1, ih2, ih3⟩ := processLines_notes env fuel _ _ _ _ _ h
            rw [d2] at ih1
            refine ⟨⟨⟨unresolvedLine file l, ⟨file, s.line⟩⟩, false⟩ :: ms,
              .unresolved hs hl hno hil hexp hal hr (ih1.renumber fun hr => ?_), ?_, ?_⟩
            · rw [hafter]; exact hl.next_line hr
            · rw [ih2]; simp [PState.unresolved, notes]
            · rw [ih3]; simp [PState.unresolved]; omega
          | some text =>
            rw [hr] at h
            simp only at h
            cases hp : processLines env fuel (some target') false (Span.new text) st with
            | error e => rw [hp] at h; cases h
            | ok st1 =>
              rw [hp] at h
              simp only at h
              obtain ⟨ms1, ih1, ih2, ih3⟩ := processLines_notes env fuel _ _ _ _ _ hp
              obtain ⟨ms2, ih4, ih5, ih6⟩ := processLines_notes env fuel _ _ _ _ _ h
              rw [d2] at ih4
              refine ⟨ms1 ++ ms2, .resolved hs hl hno hil hexp hal hr ih1 (ih4.renumber fun hr => ?_), ?_, ?_⟩
              · rw [hafter]; exact hl.next_line hr
              · rw [ih5, ih2, ih3, notes_append, List.append_assoc]
              · rw [ih6, ih3, List.length_append]; omega
      · rcases hcase with ⟨a, v, h1, hv, a1, a2, a3, a4⟩ | ⟨e, h1, _⟩
        · rw [h1] at h
          simp only at h
          obtain ⟨ms, ih1, ih2, ih3⟩ := processLines_notes env fuel _ _ _ _ _ h
          have hx := hea.2.2.2.1
          rw [entry_reading _ _ a1 a2, report_reading, a4, hx.dropN_data] at ih1
          have hlen : (firstNoted (!rep) (numberedLines file s.line (splitChar '\n' (trimEnd c)))).length =
              (trimEnd c).count '\n' + 1 := by
            rw [firstNoted_length, numberedLines_length, splitChar_length]
          have hnum : ((st.report rep file s.line).entry a.item).outputLineNumber =
              st.outputLineNumber + ((trimEnd c).count '\n' + 1) := by
            simp [PState.entry, report_outLine, a3]
          refine ⟨firstNoted (!rep) (numberedLines file s.line (splitChar '\n' (trimEnd c))) ++ ms,
            .entry hs hl hea hv (stripEnd_iff.mpr rfl) (ih1.renumber fun hr => hx.next_line hr), ?_, ?_⟩
          · rw [ih2, notes_append, notes_first _ _ _ _ _ (splitChar_ne_nil _ _), hlen, hnum]
            simp only [PState.entry, report_map, List.append_assoc]
          · rw [ih3, List.length_append, hlen, hnum]; omega
        · rw [h1] at h; cases h

end Adoc
