import Verif.Lemmas.Preprocessor
/-!
# Facts about expansions
-/

namespace Adoc
open Spec Span

set_option linter.unusedSectionVars false

variable [Uni]

/-! ### An expansion is determined by the text -/

theorem Spec.Expansion.det {env : PreEnv} {strict strict' : Bool} {file : Option Text} {started : Bool} {n : Nat} {t : Text}
    {σ σ' : Reading} {outs : List OutLine} (h : Expansion env strict file started n t σ outs σ') :
    ∀ {outs' : List OutLine} {σ'' : Reading} {started' : Bool}, Expansion env strict' file started' n t σ outs' σ'' →
      outs = outs' ∧ σ' = σ'' := by
  induction h with
  | done =>
    intro outs' σ'' st' h'
    obtain ⟨rfl, rfl⟩ := expansion_nil h'
    exact ⟨rfl, rfl⟩
  | text ht hl hno hni _ ih =>
    intro outs' σ'' st' h'
    cases h' with
    | done => exact absurd rfl ht
    | text ht' hl' hno' hni' hr' =>
      obtain ⟨rfl, rfl, rfl⟩ := hl.det hl'
      obtain ⟨rfl, rfl⟩ := ih hr'
      exact ⟨rfl, rfl⟩
    | entry ht' hl' hea' => obtain ⟨rfl, rfl, rfl⟩ := hl.det hl'; exact absurd hea' (hno _ _ _ _ _)
    | resolved ht' hl' hno' hil' => obtain ⟨rfl, rfl, rfl⟩ := hl.det hl'; exact absurd hil' (hni _ _)
    | unresolved ht' hl' hno' hil' => obtain ⟨rfl, rfl, rfl⟩ := hl.det hl'; exact absurd hil' (hni _ _)
  | entry ht hl hea hv hb _ _ ih =>
    intro outs' σ'' st' h'
    cases h' with
    | done => exact absurd rfl ht
    | text ht' hl' hno' hni' hr' => obtain ⟨rfl, rfl, rfl⟩ := hl.det hl'; exact absurd hea (hno' _ _ _ _ _)
    | entry ht' hl' hea' hv' hb' _ hr' =>
      obtain ⟨rfl, rfl, rfl⟩ := hl.det hl'
      obtain ⟨rfl, rfl, rfl, rfl, rfl⟩ := hea.det hea'
      have := hv.det hv'
      subst this
      have e := (stripEnd_iff.mp hb).trans (stripEnd_iff.mp hb').symm
      subst e
      obtain ⟨rfl, rfl⟩ := ih hr'
      exact ⟨rfl, rfl⟩
    | resolved ht' hl' hno' hil' => obtain ⟨rfl, rfl, rfl⟩ := hl.det hl'; exact absurd hea (hno' _ _ _ _ _)
    | unresolved ht' hl' hno' hil' => obtain ⟨rfl, rfl, rfl⟩ := hl.det hl'; exact absurd hea (hno' _ _ _ _ _)
  | resolved ht hl hno hil hexp hal hr _ _ ih1 ih2 =>
    intro outs' σ'' st' h'
    cases h' with
    | done => exact absurd rfl ht
    | text ht' hl' hno' hni' hr' => obtain ⟨rfl, rfl, rfl⟩ := hl.det hl'; exact absurd hil (hni' _ _)
    | entry ht' hl' hea' => obtain ⟨rfl, rfl, rfl⟩ := hl.det hl'; exact absurd hea' (hno _ _ _ _ _)
    | resolved ht' hl' hno' hil' hexp' hal' hr' g1 g2 =>
      obtain ⟨rfl, rfl, rfl⟩ := hl.det hl'
      obtain ⟨rfl, rfl⟩ := hil.det hil'
      have e3 := Expands.det hexp hexp'
      have e4 := hal.det hal'
      subst e3; subst e4
      have e5 := hr.symm.trans hr'
      simp only [Option.some.injEq] at e5
      subst e5
      obtain ⟨rfl, rfl⟩ := ih1 g1
      obtain ⟨rfl, rfl⟩ := ih2 g2
      exact ⟨rfl, rfl⟩
    | unresolved ht' hl' hno' hil' hexp' hal' hr' =>
      obtain ⟨rfl, rfl, rfl⟩ := hl.det hl'
      obtain ⟨rfl, rfl⟩ := hil.det hil'
      have e3 := Expands.det hexp hexp'
      have e4 := hal.det hal'
      subst e3; subst e4
      exact absurd (hr.symm.trans hr') (by simp)
  | unresolved ht hl hno hil hexp hal hr _ _ ih =>
    intro outs' σ'' st' h'
    cases h' with
    | done => exact absurd rfl ht
    | text ht' hl' hno' hni' hr' => obtain ⟨rfl, rfl, rfl⟩ := hl.det hl'; exact absurd hil (hni' _ _)
    | entry ht' hl' hea' => obtain ⟨rfl, rfl, rfl⟩ := hl.det hl'; exact absurd hea' (hno _ _ _ _ _)
    | resolved ht' hl' hno' hil' hexp' hal' hr' =>
      obtain ⟨rfl, rfl, rfl⟩ := hl.det hl'
      obtain ⟨rfl, rfl⟩ := hil.det hil'
      have e3 := Expands.det hexp hexp'
      have e4 := hal.det hal'
      subst e3; subst e4
      exact absurd (hr'.symm.trans hr) (by simp)
    | unresolved ht' hl' hno' hil' hexp' hal' hr' _ g =>
      obtain ⟨rfl, rfl, rfl⟩ := hl.det hl'
      obtain ⟨rfl, rfl⟩ := ih g
      exact ⟨rfl, rfl⟩

theorem append4_no {c : Char} {p q r s : Text} (h1 : c ∉ p) (h2 : c ∉ q) (h3 : c ∉ r) (h4 : c ∉ s) : c ∉ p ++ q ++ r ++ s := by
  simp [h1, h2, h3, h4]

theorem unresolvedLine_no_nl {file : Option Text} {l : Text} (h1 : '\n' ∉ file.getD []) (h2 : '\n' ∉ l) :
    '\n' ∉ unresolvedLine file l := by
  have a1 : '\n' ∉ "Unresolved directive in ".toList := by decide
  have a2 : '\n' ∉ " - ".toList := by decide
  have a3 : '\n' ∉ "(root file)".toList := by decide
  unfold unresolvedLine
  generalize "Unresolved directive in ".toList = p at *
  generalize " - ".toList = q at *
  generalize "(root file)".toList = r at *
  cases file with
  | none => exact append4_no a1 a3 a2 h2
  | some f => exact append4_no a1 h1 a2 h2

theorem Spec.Expansion.strict_lines {env : PreEnv} {file : Option Text} {started : Bool} {n : Nat} {t : Text}
    {σ σ' : Reading} {outs : List OutLine} (h : Expansion env true file started n t σ outs σ') :
    ∀ o ∈ outs, '\n' ∉ o.text := by
  induction h with
  | done => simp
  | text ht hl hno hni _ ih =>
    intro o ho
    rcases List.mem_cons.mp ho with rfl | ho
    · exact hl.noNl
    · exact ih o ho
  | @entry file started n t l lsep lrest c sep rest name kind v b σ outs σ' ht hl hea hv hb _ _ ih =>
    intro o ho
    rcases List.mem_append.mp ho with ho | ho
    · have : o.text ∈ (numberedLines file n (splitChar '\n' b)).map OutLine.text := List.mem_map_of_mem ho
      rw [numberedLines_text] at this
      exact splitChar_no _ _ _ this
    · exact ih o ho
  | resolved ht hl hno hil hexp hal hr _ _ ih1 ih2 =>
    intro o ho
    rcases List.mem_append.mp ho with ho | ho
    · exact ih1 o ho
    · exact ih2 o ho
  | @unresolved file started n t l sep rest target attrs target' al σ outs σ' ht hl hno hil hexp hal hr hs _ ih =>
    intro o ho
    rcases List.mem_cons.mp ho with rfl | ho
    · exact unresolvedLine_no_nl (hs rfl).2 hl.noNl
    · exact ih o ho

/-! ### When every expansion is strict -/

theorem term_white {sep rest : Text} (h : IsTerminator sep rest) : ∀ c ∈ sep, isWhite c = true := by
  rcases h with rfl | rfl | ⟨_, rfl | rfl⟩ <;> decide

theorem term_count {sep rest : Text} (h : IsTerminator sep rest) (hr : rest ≠ []) : sep.count '\n' = 1 := by
  rcases h with rfl | rfl | ⟨h, _⟩
  · decide
  · decide
  · exact absurd h hr

theorem isTerm_of_extent {t c sep rest : Text} (h : Extent t c sep rest) : IsTerminator sep rest := by
  induction h with
  | last h _ => exact h.term
  | more _ _ _ _ ih => exact ih

theorem blank_tail {t c sep rest : Text} (h : Extent t c sep rest) : ∀ {b w : Text}, c = b ++ w →
    (∀ x ∈ w, isWhite x = true) → '\n' ∈ w → rest ≠ [] →
    ∃ a w' r, t = a ++ '\\' :: w' ++ r ∧ (∀ x ∈ w', isWhite x = true) ∧ 2 ≤ w'.count '\n' := by
  induction h with
  | last h _ =>
    intro b w hc _ hm _
    exact absurd (by rw [hc]; exact List.mem_append_right _ hm) h.noNl
  | @more t l sep rest c sep' rest' hl hcont hne hx ih =>
    intro b w hc hw hm hr
    have heq := hl.eq
    by_cases hlen : w.length ≤ c.length
    · have : ∃ b', c = b' ++ w := by
        rcases List.append_eq_append_iff.mp hc with ⟨p, h1, h2⟩ | ⟨p, h1, h2⟩
        · exact ⟨p, h2⟩
        · have := congrArg List.length h2
          simp only [List.length_append] at this
          have hp : p = [] := List.eq_nil_of_length_eq_zero (by omega)
          subst hp
          exact ⟨[], by rw [h2]; simp⟩
      obtain ⟨b', hb'⟩ := this
      obtain ⟨a, w', r, h1, h2, h3⟩ := ih hb' hw hm hr
      exact ⟨l ++ sep ++ a, w', r, by rw [heq, h1]; simp, h2, h3⟩
    · have hcw : ∀ x ∈ c, isWhite x = true := by
        rcases List.append_eq_append_iff.mp hc with ⟨p, h1, h2⟩ | ⟨p, h1, h2⟩
        · have := congrArg List.length h2
          simp only [List.length_append] at this
          omega
        · intro x hx; exact hw x (by rw [h2]; exact List.mem_append_right _ hx)
      by_cases hnl : '\n' ∈ c
      · obtain ⟨a, w', r, h1, h2, h3⟩ := ih (b := []) rfl hcw hnl hr
        exact ⟨l ++ sep ++ a, w', r, by rw [heq, h1]; simp, h2, h3⟩
      · obtain ⟨a, sp, ha, hsp⟩ := hcont
        have hterm := isTerm_of_extent hx
        refine ⟨a, sp ++ sep ++ c ++ sep', rest', ?_, ?_, ?_⟩
        · rw [heq, hx.eq, ha]; simp
        · intro x hx'
          simp only [List.mem_append] at hx'
          rcases hx' with ((hx' | hx') | hx') | hx'
          · rw [hsp x hx']; decide
          · exact term_white hl.term x hx'
          · exact hcw x hx'
          · exact term_white hterm x hx'
        · simp only [List.count_append]
          have := term_count hl.term hne
          have := term_count hterm hr
          omega

theorem Spec.Tidy.suffix {a t : Text} (h : Tidy (a ++ t)) : Tidy t := by
  intro b w r e hw
  exact h (a ++ b) w r (by rw [e]; simp) hw

theorem Spec.Expansion.toStrict {env : PreEnv} {strict : Bool} {file : Option Text} {started : Bool} {n : Nat} {t : Text}
    {σ σ' : Reading} {outs : List OutLine} (h : Expansion env strict file started n t σ outs σ')
    (hres : ∀ file target al s, env.resolve file target al s ≠ none)
    (htidy : ∀ file target al s text, env.resolve file target al s = some text → Tidy text) :
    Tidy t → Expansion env true file started n t σ outs σ' := by
  induction h with
  | done => intro _; exact .done
  | text ht hl hno hni _ ih =>
    intro htd
    rw [hl.eq] at htd
    exact .text ht hl hno hni (ih htd.suffix)
  | @entry file started n t l lsep lrest c sep rest name kind v b σ outs σ' ht hl hea hv hb _ _ ih =>
    intro htd
    have hx := hea.2.2.2.1
    refine .entry ht hl hea hv hb (fun _ hr => ?_) (ih (by rw [hx.eq] at htd; exact htd.suffix))
    obtain ⟨w, hw1, hw2, _⟩ := hb
    by_cases hm : '\n' ∈ w
    · obtain ⟨a, w', r, h1, h2, h3⟩ := blank_tail hx hw1 hw2 hm hr
      have := htd a w' r h1 h2
      omega
    · rw [hw1, List.count_append, List.count_eq_zero.mpr hm]; omega
  | resolved ht hl hno hil hexp hal hr _ _ ih1 ih2 =>
    intro htd
    rw [hl.eq] at htd
    exact .resolved ht hl hno hil hexp hal hr (ih1 (htidy _ _ _ _ _ hr)) (ih2 htd.suffix)
  | unresolved ht hl hno hil hexp hal hr _ _ ih => intro _; exact absurd hr (hres _ _ _ _)

/-! ### Termination -/

theorem run_terminates (env : PreEnv) (hh : ∀ s t, ∃ v, env.hdr s t = .ok v) (rank : Option Text → Nat)
    (hrank : ∀ file target al s text, env.resolve file target al s = some text → rank (some target) < rank file) :
    ∀ (r : Nat) (file : Option Text), rank file ≤ r → ∀ (n : Nat) (s : Span) (rep : Bool) (st : PState), s.data.length ≤ n →
      ∃ fuel st', processLines env fuel file rep s st = .ok st' := by
  intro r
  induction r with
  | zero =>
    intro file hr n
    induction n with
    | zero =>
      intro s rep st hn
      exact ⟨1, st, by rw [processLines, if_pos (List.eq_nil_of_length_eq_zero (by omega))]⟩
    | succ n ihn => exact stepCase env hh rank hrank file n (fun tg al s text h => by have := hrank _ _ _ _ _ h; omega) ihn
  | succ r ihr =>
    intro file hr n
    induction n with
    | zero =>
      intro s rep st hn
      exact ⟨1, st, by rw [processLines, if_pos (List.eq_nil_of_length_eq_zero (by omega))]⟩
    | succ n ihn =>
      exact stepCase env hh rank hrank file n (fun tg al s text h sp rep st =>
        ihr (some tg) (by have := hrank _ _ _ _ _ h; omega) sp.data.length sp rep st (Nat.le_refl _)) ihn
where
  stepCase (env : PreEnv) (hh : ∀ s t, ∃ v, env.hdr s t = .ok v) (rank : Option Text → Nat)
    (hrank : ∀ file target al s text, env.resolve file target al s = some text → rank (some target) < rank file)
    (file : Option Text) (n : Nat)
    (hsub : ∀ target al s text, env.resolve file target al s = some text → ∀ (sp : Span) (rep : Bool) (st : PState),
      ∃ fuel st', processLines env fuel (some target) rep sp st = .ok st')
    (ih : ∀ (s : Span) (rep : Bool) (st : PState), s.data.length ≤ n → ∃ fuel st', processLines env fuel file rep s st = .ok st') :
    ∀ (s : Span) (rep : Bool) (st : PState), s.data.length ≤ n + 1 → ∃ fuel st', processLines env fuel file rep s st = .ok st' := by
    intro s rep st hn
    by_cases hs : s.data = []
    · exact ⟨1, st, by rw [processLines, if_pos hs]⟩
    obtain ⟨l, sep, rest, hl, e⟩ := takeLine_first s
    obtain ⟨d1, d2⟩ := takeLine_data hl.eq e
    have hlen : rest.length ≤ n := by
      have h1 := congrArg List.length hl.eq
      simp only [List.length_append] at h1
      by_cases h0 : rest = []
      · subst h0; simp
      · have := term_count hl.term h0
        have : sep ≠ [] := by rintro rfl; simp at this
        have := List.length_pos_iff.mpr this
        omega
    rcases entryAt_spec env st s hl with ⟨e1, hno⟩ | ⟨c, csep, crest, name, kind, hea, hcase⟩
    · rcases includeAt_spec st hl.noNl with ⟨e2, hni⟩ | ⟨target, attrs, target', al, e2, hil, hexp, hal⟩
      · obtain ⟨fuel, st', h⟩ := ih s.takeLine.after true ((st.report rep file s.takeLine.item.line).copy l) (by rw [d2]; exact hlen)
        refine ⟨fuel + 1, st', ?_⟩
        rw [processLines, if_neg hs]
        simp only [d1, e1, e2]
        exact h
      · cases hr : env.resolve file target' al st.store with
        | none =>
          obtain ⟨fuel, st', h⟩ := ih s.takeLine.after rep (st.unresolved file l) (by rw [d2]; exact hlen)
          refine ⟨fuel + 1, st', ?_⟩
          rw [processLines, if_neg hs]
          simp only [d1, e1, e2, hr]
          exact h
        | some text =>
          obtain ⟨f1, st1, g1⟩ := hsub target' al st.store text hr (Span.new text) false st
          obtain ⟨f2, st2, g2⟩ := ih s.takeLine.after false st1 (by rw [d2]; exact hlen)
          refine ⟨max f1 f2 + 1, st2, ?_⟩
          rw [processLines, if_neg hs]
          simp only [d1, e1, e2, hr]
          rw [processLines_mono env (Nat.le_max_left f1 f2) g1 (by simp)]
          exact processLines_mono env (Nat.le_max_right f1 f2) g2 (by simp)
    · rcases hcase with ⟨a, v, e1, hv, a1, a2, a3, a4⟩ | ⟨_, _, hbad⟩
      · have hx := hea.2.2.2.1
        have hal : a.after.data.length ≤ n := by
          rw [a4, hx.dropN_data]
          have h1 := congrArg List.length hx.eq
          simp only [List.length_append] at h1
          by_cases h0 : crest = []
          · subst h0; simp
          · have := term_count (isTerm_of_extent hx) h0
            have : csep ≠ [] := by rintro rfl; simp at this
            have := List.length_pos_iff.mpr this
            omega
        obtain ⟨fuel, st', h⟩ := ih a.after true ((st.report rep file s.takeLine.item.line).entry a.item) hal
        refine ⟨fuel + 1, st', ?_⟩
        rw [processLines, if_neg hs]
        simp only [d1, e1]
        exact h
      · exfalso
        cases kind with
        | unset => exact hbad _ .unset
        | set => exact hbad _ .set
        | value raw =>
          obtain ⟨v, hv⟩ := hh st.store (joinValue raw)
          exact hbad _ (.value hv)

/-! ### Text without directives -/

theorem linesOf_cons {t l : Text} {ls : List Text} (h : LinesOf t (l :: ls)) (hcr : '\r' ∉ l) :
    ∃ sep rest, FirstLine t l sep rest ∧ LinesOf rest ls ∧ t ≠ [] := by
  have hne : ¬ EndsIn l '\r' := by rintro ⟨r, rfl⟩; simp at hcr
  cases h with
  | last h1 h2 => exact ⟨[], [], ⟨by simp, h2, Or.inr (Or.inr ⟨rfl, Or.inr rfl⟩), fun h => absurd h hne⟩, .nil, h1⟩
  | @cons _ rest _ h1 h2 =>
    exact ⟨['\n'], rest, ⟨by simp, h1, Or.inl rfl, fun h => absurd h hne⟩, h2, by simp⟩

theorem Spec.PlainLines.tail {l : Text} {ls : List Text} (h : PlainLines (l :: ls)) : PlainLines ls :=
  ⟨fun m hm => h.noCr m (List.mem_cons_of_mem _ hm), fun m hm => h.noInclude m (List.mem_cons_of_mem _ hm),
   fun m hm => h.noTrailing m (List.mem_cons_of_mem _ hm),
   fun a x m b e => h.noDangling (l :: a) x m b (by rw [e]; rfl)⟩

theorem unlines_cons (l : Text) (ls : List Text) : unlines (l :: ls) = l ++ '\n' :: unlines ls := by
  simp [unlines]

theorem extent_lines {t c sep rest : Text} (h : Extent t c sep rest) : ∀ {ls : List Text}, LinesOf t ls → PlainLines ls → t ≠ [] →
    ∃ pre post, ls = pre ++ post ∧ pre ≠ [] ∧ c ++ ['\n'] = unlines pre ∧ LinesOf rest post ∧ PlainLines post ∧
      ∀ x r, c = r ++ [x] → isWhite x = false := by
  induction h with
  | @last t l sep rest hl _ =>
    intro ls h1 h2 ht
    cases ls with
    | nil => cases h1; exact absurd rfl ht
    | cons m ls =>
      obtain ⟨sep', rest', h3, h4, h5⟩ := linesOf_cons h1 (h2.noCr m (by simp))
      obtain ⟨rfl, rfl, rfl⟩ := hl.det h3
      exact ⟨[l], ls, rfl, by simp, by simp [unlines], h4, h2.tail, fun x r e => h2.noTrailing l (by simp) x r e⟩
  | @more t l sep rest c sep' rest' hl hc hr hx ih =>
    intro ls h1 h2 ht
    cases ls with
    | nil => cases h1; exact absurd rfl ht
    | cons m ls =>
      obtain ⟨sep2, rest2, h3, h4, h5⟩ := linesOf_cons h1 (h2.noCr m (by simp))
      obtain ⟨rfl, rfl, rfl⟩ := hl.det h3
      obtain ⟨pre, post, e1, e2, e3, e4, e5, e6⟩ := ih h4 h2.tail hr
      have hsep : sep = ['\n'] := by
        cases h1 with
        | last g1 g2 =>
          have := hl.eq
          cases h4
          exact absurd rfl hr
        | @cons _ rest3 _ g1 g2 =>
          have g : FirstLine (l ++ '\n' :: rest3) l ['\n'] rest3 :=
            ⟨by simp, g1, Or.inl rfl, fun hh => by obtain ⟨q, rfl⟩ := hh; exact absurd (by simp) (h2.noCr (q ++ ['\r']) (by simp))⟩
          exact (hl.det g).2.1
      subst hsep
      refine ⟨l :: pre, post, by rw [e1]; rfl, by simp, ?_, e4, e5, ?_⟩
      · rw [unlines_cons, ← e3]; simp
      · intro x r e
        by_cases hce : c = []
        · exfalso
          subst hce
          cases pre with
          | nil => exact e2 rfl
          | cons p pre =>
            rw [unlines_cons] at e3
            have hp : p = [] := by
              cases p with
              | nil => rfl
              | cons q p =>
                have := congrArg List.length e3
                simp at this
            subst hp
            obtain ⟨a, sp, ha, hsp⟩ := hc
            have hend : EndsIn l '\\' := by
              cases hsp' : sp.reverse with
              | nil =>
                have : sp = [] := by simpa using hsp'
                subst this
                exact ⟨a, ha⟩
              | cons y ys =>
                have hy : sp = ys.reverse ++ [y] := by
                  have := congrArg List.reverse hsp'
                  simpa using this
                have h1 := hsp y (by rw [hy]; simp)
                have := h2.noTrailing l (by simp) y (a ++ '\\' :: ys.reverse) (by rw [ha, hy]; simp)
                rw [h1] at this
                exact absurd this (by decide)
            exact h2.noDangling [] l [] (pre ++ post) (by rw [e1]; rfl) hend rfl
        · obtain ⟨r', y, hy⟩ : ∃ r' y, c = r' ++ [y] := ⟨c.dropLast, c.getLast hce, (List.dropLast_concat_getLast hce).symm⟩
          have : x = y := by
            have e' : (l ++ ['\n'] ++ r') ++ [y] = r ++ [x] := by rw [← e, hy]; simp
            have := List.append_inj_right' e' rfl
            simpa using this.symm
          subst this
          exact e6 x r' hy

theorem expansion_plain {env : PreEnv} {strict : Bool} {file : Option Text} {started : Bool} {n : Nat} {t : Text}
    {σ σ' : Reading} {outs : List OutLine} (h : Expansion env strict file started n t σ outs σ') :
    ∀ {ls : List Text}, LinesOf t ls → PlainLines ls → OutLine.join outs = unlines ls := by
  induction h with
  | done =>
    intro ls h1 h2
    cases ls with
    | nil => rfl
    | cons m ls => obtain ⟨_, _, _, _, h5⟩ := linesOf_cons h1 (h2.noCr m (by simp)); exact absurd rfl h5
  | @text file started n t l sep rest σ outs σ' ht hl hno hni _ ih =>
    intro ls h1 h2
    cases ls with
    | nil => cases h1; exact absurd rfl ht
    | cons m ls =>
      obtain ⟨sep', rest', h3, h4, h5⟩ := linesOf_cons h1 (h2.noCr m (by simp))
      obtain ⟨rfl, rfl, rfl⟩ := hl.det h3
      rw [join_cons, ih h4 h2.tail, unlines_cons]
      simp
  | @entry file started n t l lsep lrest c sep rest name kind v b σ outs σ' ht hl hea hv hb _ _ ih =>
    intro ls h1 h2
    obtain ⟨pre, post, e1, e2, e3, e4, e5, e6⟩ := extent_lines hea.2.2.2.1 h1 h2 ht
    have hbc : b = c := by
      rw [stripEnd_iff.mp hb]
      exact ((stripEnd_iff (t := c) (b := c)).mp ⟨[], by simp, by simp, e6⟩).symm
    rw [join_append, ih e4 e5, join_numberedLines, hbc, e3, e1]
    simp [unlines]
  | @resolved file started n t l sep rest target attrs target' al text σ outs₁ σ₁ outs₂ σ₂ ht hl hno hil =>
    intro ls h1 h2
    exfalso
    cases ls with
    | nil => cases h1; exact absurd rfl ht
    | cons m ls =>
      obtain ⟨sep', rest', h3, h4, h5⟩ := linesOf_cons h1 (h2.noCr m (by simp))
      obtain ⟨rfl, rfl, rfl⟩ := hl.det h3
      exact h2.noInclude _ (by simp) _ _ hil
  | @unresolved file started n t l sep rest target attrs target' al σ outs σ' ht hl hno hil =>
    intro ls h1 h2
    exfalso
    cases ls with
    | nil => cases h1; exact absurd rfl ht
    | cons m ls =>
      obtain ⟨sep', rest', h3, h4, h5⟩ := linesOf_cons h1 (h2.noCr m (by simp))
      obtain ⟨rfl, rfl, rfl⟩ := hl.det h3
      exact h2.noInclude _ (by simp) _ _ hil

omit [Uni] in
theorem splitChar_mid {c : Char} : ∀ (a x : Text), splitChar c (a ++ c :: x) = splitChar c a ++ splitChar c x
  | a, x => by
    induction h : a.length using Nat.strongRecOn generalizing a with
    | _ n ih =>
      by_cases hc : c ∈ a
      · obtain ⟨p, q, rfl, hp⟩ := List.eq_append_cons_of_mem hc
        rw [List.append_assoc, List.cons_append, splitChar_append hp, splitChar_append hp,
          ih q.length (by rw [← h]; simp; omega) q rfl]
        rfl
      · rw [splitChar_append hc, splitChar_single hc]; rfl

theorem splitChar_prefix {c : Char} {p : Text} (hp : c ∉ p) (b : Text) : ∃ r ls, splitChar c (p ++ b) = (p ++ r) :: ls := by
  by_cases hc : c ∈ b
  · obtain ⟨x, y, rfl, hx⟩ := List.eq_append_cons_of_mem hc
    exact ⟨x, splitChar c y, by rw [← List.append_assoc, splitChar_append (by simp [hp, hx])]⟩
  · exact ⟨b, [], by rw [splitChar_single (by simp [hp, hc])]⟩

/-- A text in which no line begins with `p`. -/
theorem no_line_starts {p t : Text} (hp : '\n' ∉ p) (h : ∀ l ∈ splitChar '\n' t, ¬ ∃ r, l = p ++ r) :
    startsWith t p = false ∧ containsSub t ('\n' :: p) = false := by
  constructor
  · rw [Bool.eq_false_iff]
    intro hs
    obtain ⟨b, rfl⟩ := startsWith_iff.mp hs
    obtain ⟨r, ls, e⟩ := splitChar_prefix hp b
    exact h (p ++ r) (by rw [e]; simp) ⟨r, rfl⟩
  · rw [Bool.eq_false_iff]
    intro hs
    obtain ⟨a, b, rfl⟩ := containsSub_iff.mp hs
    obtain ⟨r, ls, e⟩ := splitChar_prefix hp b
    refine h (p ++ r) ?_ ⟨r, rfl⟩
    rw [List.append_assoc, List.cons_append, splitChar_mid, e]
    simp

end Adoc
