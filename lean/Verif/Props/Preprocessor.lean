import Verif.Lemmas.Expansion
import Verif.Lemmas.Marking
/-!
# C10 – C14: preprocessing

`env` holds the include handler and the header substitutions; every theorem is for an arbitrary one unless it says
otherwise.  The fuel of `preprocess` bounds its running time: a result `.ok` is one the program returns.
-/

namespace Adoc.Props
open Adoc Adoc.Spec Span SourceMap

set_option linter.unusedSectionVars false

variable [Uni]

private theorem run_of {env : PreEnv} {fuel : Nat} {store : AttrStore} {primary : Option Text} {source o : Text} {m : SourceMap}
    (h : preprocess env fuel store primary source = .ok (o, m)) :
    (noDirectives source primary = true ∧ o = source ∧ m = []) ∨
    (noDirectives source primary = false ∧ ∃ st, processLines env fuel primary primary.isNone (Span.new source) (PState.init store) =
      .ok st ∧ o = st.output ∧ m = st.sourceMap) := by
  unfold preprocess at h
  by_cases hn : noDirectives source primary = true
  · rw [if_pos hn] at h
    simp only [Except.ok.injEq, Prod.mk.injEq] at h
    exact Or.inl ⟨hn, h.1.symm, h.2.symm⟩
  · rw [if_neg hn] at h
    cases hp : processLines env fuel primary primary.isNone (Span.new source) (PState.init store) with
    | error e => rw [hp] at h; cases h
    | ok st =>
      rw [hp] at h
      simp only [Except.ok.injEq, Prod.mk.injEq] at h
      exact Or.inr ⟨by simpa using hn, st, rfl, h.1.symm, h.2.symm⟩

private theorem init_inv (store : AttrStore) : (PState.init store).Inv := ⟨List.Pairwise.nil, by simp [PState.init]⟩

/-! ### C10 -/

/-- The keys of the source map increase strictly, and all of them are numbers of lines of the output. -/
theorem C10_increasing {env : PreEnv} {fuel : Nat} {store : AttrStore} {primary : Option Text} {source o : Text} {m : SourceMap}
    (h : preprocess env fuel store primary source = .ok (o, m)) : Increasing m ∧ ∀ e ∈ m, 1 ≤ e.1 := by
  rcases run_of h with ⟨_, _, rfl⟩ | ⟨_, st, h1, _, rfl⟩
  · exact ⟨List.Pairwise.nil, by simp⟩
  · obtain ⟨h2, _, ext, h3, h4⟩ := run_inv env _ _ _ _ _ _ h1 (init_inv store)
    refine ⟨h2.1, ?_⟩
    rw [h3]
    intro e he
    exact h4 e (by simpa [PState.init] using he)

/-- The lookup is the floor lookup. -/
theorem C10_lookup {env : PreEnv} {fuel : Nat} {store : AttrStore} {primary : Option Text} {source o : Text} {m : SourceMap}
    (h : preprocess env fuel store primary source = .ok (o, m)) (n : Nat) (r : SourceLine) :
    m.originalFileAndLine n = some r ↔ Floor m n r := lookup_iff (C10_increasing h).1

/-- The lookup always answers, and there is one answer. -/
theorem C10_answers {env : PreEnv} {fuel : Nat} {store : AttrStore} {primary : Option Text} {source o : Text} {m : SourceMap}
    (h : preprocess env fuel store primary source = .ok (o, m)) (n : Nat) :
    ∃ r, m.originalFileAndLine n = some r ∧ ∀ r', Floor m n r' → r' = r := by
  obtain ⟨r, h1, h2⟩ := floor_some (C10_increasing h).1 n
  exact ⟨r, h1, fun r' h' => floor_unique (C10_increasing h).1 h' h2⟩

/-! ### C13 -/

/-- What preprocessing returns is an expansion of the source: text lines kept, attribute entries kept without trailing
white space, resolved directives replaced by the expansion of their target, unresolved ones by one line. -/
theorem C13_sound {env : PreEnv} {fuel : Nat} {store : AttrStore} {primary : Option Text} {source o : Text} {m : SourceMap}
    (h : preprocess env fuel store primary source = .ok (o, m)) (hn : noDirectives source primary = false) :
    ∃ outs σ, Expansion env false primary primary.isNone 1 source (Reading.start store) outs σ ∧ o = OutLine.join outs := by
  rcases run_of h with ⟨h1, _⟩ | ⟨_, st, h1, rfl, _⟩
  · rw [hn] at h1; cases h1
  · obtain ⟨outs, h2, h3, _⟩ := processLines_sound env _ _ _ _ _ _ h1
    exact ⟨outs, _, h2, by rw [h3]; rfl⟩

/-- Every expansion is what preprocessing returns. -/
theorem C13_complete {env : PreEnv} {strict : Bool} {store : AttrStore} {primary : Option Text} {source : Text}
    {outs : List OutLine} {σ : Reading} (hn : noDirectives source primary = false)
    (h : Expansion env strict primary primary.isNone 1 source (Reading.start store) outs σ) :
    ∃ fuel m, preprocess env fuel store primary source = .ok (OutLine.join outs, m) := by
  obtain ⟨fuel, st, h1, _⟩ := processLines_complete h (Span.new source) (PState.init store) rfl (fun _ => rfl) rfl
  obtain ⟨outs', h2, h3, _⟩ := processLines_sound env _ _ _ _ _ _ h1
  obtain ⟨rfl, _⟩ := h.det h2
  refine ⟨fuel, st.sourceMap, ?_⟩
  unfold preprocess
  rw [if_neg (by rw [hn]; simp), h1]
  simp only [h3]
  rfl

/-- A source has one expansion. -/
theorem C13_unique {env : PreEnv} {strict strict' : Bool} {file : Option Text} {started started' : Bool} {n : Nat} {t : Text}
    {σ σ₁ σ₂ : Reading} {outs₁ outs₂ : List OutLine} (h₁ : Expansion env strict file started n t σ outs₁ σ₁)
    (h₂ : Expansion env strict' file started' n t σ outs₂ σ₂) : outs₁ = outs₂ ∧ σ₁ = σ₂ := h₁.det h₂

/-- The result does not depend on the fuel. -/
theorem C13_fuel {env : PreEnv} {fuel fuel' : Nat} {store : AttrStore} {primary : Option Text} {source : Text}
    {r : Text × SourceMap} (h : preprocess env fuel store primary source = .ok r) (hle : fuel ≤ fuel') :
    preprocess env fuel' store primary source = .ok r := by
  unfold preprocess at h ⊢
  by_cases hn : noDirectives source primary = true
  · rw [if_pos hn] at h ⊢; exact h
  · rw [if_neg hn] at h ⊢
    cases hp : processLines env fuel primary primary.isNone (Span.new source) (PState.init store) with
    | error e => rw [hp] at h; cases h
    | ok st => rw [hp] at h; rw [processLines_mono env hle hp (by simp)]; exact h

/-! ### C11 -/

/-- For a strict expansion (see `Spec.Expansion`), every line of the output maps to the file and line it comes from.
Missing: expansions that are not strict, for which the claim is false (below). -/
theorem C11_origin_partial {env : PreEnv} {store : AttrStore} {primary : Option Text} {source : Text}
    {outs : List OutLine} {σ : Reading} (hn : noDirectives source primary = false)
    (h : Expansion env true primary primary.isNone 1 source (Reading.start store) outs σ) :
    ∃ fuel m, preprocess env fuel store primary source = .ok (unlines (outs.map OutLine.text), m) ∧
      (∀ l ∈ outs.map OutLine.text, '\n' ∉ l) ∧
      ∀ i o, outs[i]? = some o → m.originalFileAndLine (i + 1) = some o.origin := by
  obtain ⟨fuel, st, h1, _, _, h4⟩ := processLines_complete h (Span.new source) (PState.init store) rfl (fun _ => rfl) rfl
  obtain ⟨outs', h2, h3, _⟩ := processLines_sound env _ _ _ _ _ _ h1
  obtain ⟨rfl, _⟩ := h.det h2
  refine ⟨fuel, st.sourceMap, ?_, ?_, ?_⟩
  · unfold preprocess
    rw [if_neg (by rw [hn]; simp), h1]
    simp only [h3]
    congr 1
    simp [PState.init, OutLine.join, unlines, List.flatMap_map]
  · intro l hl
    obtain ⟨o, ho, rfl⟩ := List.mem_map.mp hl
    exact h.strict_lines o ho
  · intro i o hio
    obtain ⟨h5, _⟩ := run_inv env _ _ _ _ _ _ h1 (init_inv store)
    rw [lookup_iff h5.1, Nat.add_comm]
    refine h4 rfl (init_inv store) ?_ i o hio
    intro hp _
    have : primary = none := by cases primary <;> simp_all
    subst this
    exact Or.inr ⟨by simp [PState.init], rfl⟩

/-- The same with conditions on the files alone: every directive can be resolved and, in every file, a line that ends in a
backslash is not followed by a blank line. -/
theorem C11_tidy_partial {env : PreEnv} {store : AttrStore} {primary : Option Text} {source : Text} {fuel : Nat} {o : Text}
    {m : SourceMap} (hrun : preprocess env fuel store primary source = .ok (o, m)) (hn : noDirectives source primary = false)
    (hres : ∀ file target al s, env.resolve file target al s ≠ none)
    (htidy : ∀ file target al s text, env.resolve file target al s = some text → Tidy text) (ht : Tidy source) :
    ∃ outs σ, Expansion env false primary primary.isNone 1 source (Reading.start store) outs σ ∧
      o = unlines (outs.map OutLine.text) ∧ (∀ l ∈ outs.map OutLine.text, '\n' ∉ l) ∧
      ∀ i x, outs[i]? = some x → m.originalFileAndLine (i + 1) = some x.origin := by
  obtain ⟨outs, σ, h1, _⟩ := C13_sound hrun hn
  obtain ⟨fuel', m', h2, h3, h4⟩ := C11_origin_partial hn (h1.toStrict hres htidy ht)
  have e1 := C13_fuel hrun (Nat.le_max_left fuel fuel')
  have e2 := C13_fuel h2 (Nat.le_max_right fuel fuel')
  rw [e1] at e2
  simp only [Except.ok.injEq, Prod.mk.injEq] at e2
  obtain ⟨rfl, rfl⟩ := e2
  exact ⟨outs, σ, h1, rfl, h3, h4⟩

/-- The origin reported for every line, of every expansion: that of the last noted line up to it, moved on by the distance
(`Spec.Computed`), where `Spec.Marking` says which lines are noted.  (A line is one line of the result unless the name of its
file contains a line end.) -/
theorem C11_exact {env : PreEnv} {store : AttrStore} {primary : Option Text} {source : Text} {fuel : Nat} {o : Text}
    {m : SourceMap} (hrun : preprocess env fuel store primary source = .ok (o, m)) (hn : noDirectives source primary = false) :
    ∃ ms σ, Marking env primary primary.isNone 1 source (Reading.start store) ms σ ∧
      o = unlines (ms.map (·.line.text)) ∧ (∀ x ∈ ms, '\n' ∉ x.line.text ∨ '\n' ∈ x.line.origin.file.getD []) ∧
      ∀ i r, m.originalFileAndLine (i + 1) = some r ↔ Computed ms i r := by
  rcases run_of hrun with ⟨h1, _⟩ | ⟨_, st, h1, rfl, rfl⟩
  · rw [hn] at h1; cases h1
  · obtain ⟨ms, h2, h3, _⟩ := processLines_notes env _ _ _ _ _ _ h1
    obtain ⟨outs, h4, h5, _⟩ := processLines_sound env _ _ _ _ _ _ h1
    obtain ⟨rfl, _⟩ := h2.expansion.det h4
    refine ⟨ms, _, h2, ?_, h2.one_line, fun i r => ?_⟩
    · rw [h5]
      simp [PState.init, OutLine.join, unlines, List.flatMap_map]
    · obtain ⟨h6, _⟩ := run_inv env _ _ _ _ _ _ h1 (init_inv store)
      rw [lookup_iff h6.1, h3]
      exact floor_notes

/-- So a line is reported to be where it comes from exactly if that is what is computed for it. -/
theorem C11_right_iff {env : PreEnv} {store : AttrStore} {primary : Option Text} {source : Text} {fuel : Nat} {o : Text}
    {m : SourceMap} (hrun : preprocess env fuel store primary source = .ok (o, m)) (hn : noDirectives source primary = false)
    {ms : List MarkedLine} {σ : Reading} (hm : Marking env primary primary.isNone 1 source (Reading.start store) ms σ)
    {i : Nat} {x : MarkedLine} (hx : ms[i]? = some x) :
    m.originalFileAndLine (i + 1) = some x.line.origin ↔
      (∃ j y, j ≤ i ∧ ms[j]? = some y ∧ y.noted = true ∧ (∀ k z, j < k → k ≤ i → ms[k]? = some z → z.noted = false) ∧
        x.line.origin.file = y.line.origin.file ∧ x.line.origin.line = y.line.origin.line + (i - j)) ∨
      (∀ k z, k ≤ i → ms[k]? = some z → z.noted = false) ∧ x.line.origin.file = none ∧ x.line.origin.line = i + 1 := by
  obtain ⟨ms', σ', h1, _, _, h2⟩ := C11_exact hrun hn
  obtain ⟨rfl, _⟩ := hm.det h1
  rw [h2]
  unfold Computed
  have ext : ∀ (a : SourceLine) f n, a = ⟨f, n⟩ ↔ a.file = f ∧ a.line = n := by
    intro a f n; cases a; simp
  simp only [ext]

/-- The lines of a marking are those of the expansion (C13), so the origins in it are where the lines were copied from; every
expansion has a marking, and only one. -/
theorem C11_marking {env : PreEnv} {file : Option Text} {started : Bool} {n : Nat} {t : Text} {σ σ' : Reading} {outs : List OutLine} :
    Expansion env false file started n t σ outs σ' ↔
      ∃ ms, Marking env file started n t σ ms σ' ∧ ms.map MarkedLine.line = outs ∧
        ∀ ms' σ'', Marking env file started n t σ ms' σ'' → ms' = ms := by
  constructor
  · intro h
    obtain ⟨ms, h1, h2⟩ := h.marking
    exact ⟨ms, h1, h2, fun ms' σ'' h' => (h'.det h1).1⟩
  · rintro ⟨ms, h1, rfl, _⟩
    exact h1.expansion

/-- Without directives and without a file name, line `n` is line `n` of the text. -/
theorem C11_untouched {env : PreEnv} {fuel : Nat} {store : AttrStore} {primary : Option Text} {source o : Text} {m : SourceMap}
    (h : preprocess env fuel store primary source = .ok (o, m)) (hn : noDirectives source primary = true) (n : Nat) :
    o = source ∧ m.originalFileAndLine n = some ⟨none, n⟩ := by
  rcases run_of h with ⟨_, rfl, rfl⟩ | ⟨h1, _⟩
  · exact ⟨rfl, rfl⟩
  · rw [hn] at h1; cases h1

private def noFiles : PreEnv := ⟨fun _ _ _ _ => none, fun _ t => .ok t⟩

private def lookupIn (r : Res (Text × SourceMap)) (n : Nat) : Option SourceLine :=
  match r with
  | .ok (_, m) => m.originalFileAndLine n
  | .error _ => none

private def outputOf (r : Res (Text × SourceMap)) : Option Text :=
  match r with
  | .ok (o, _) => some o
  | .error _ => none

/-- The full claim is false: a directive that cannot be resolved, as the first line of a named file, is attributed to no
file at all. -/
theorem C11_unresolved_unmapped : letI := asciiUni
    lookupIn (preprocess noFiles 3 AttrStore.default (some ['f']) "include::x[]".toList) 1 = some ⟨none, 1⟩ := by
  decide +kernel

/-- The full claim is false: behind an attribute entry that ends in a blank line, the line numbers are off. -/
theorem C11_entry_drift : letI := asciiUni
    let r := preprocess noFiles 5 AttrStore.default (some ['f']) ":a: b \\\n\np".toList
    outputOf r = some ":a: b \\\np\n".toList ∧ lookupIn r 2 = some ⟨some ['f'], 2⟩ := by
  decide +kernel

/-! ### C12 -/

/-- Without a primary file name, a text in which no line begins with `include::` or `if` is returned as it is. -/
theorem C12_untouched {env : PreEnv} {fuel : Nat} {store : AttrStore} {source : Text}
    (h : ∀ l ∈ splitChar '\n' source, (¬ ∃ r, l = "include::".toList ++ r) ∧ ¬ ∃ r, l = "if".toList ++ r) :
    preprocess env fuel store none source = .ok (source, []) := by
  obtain ⟨h1, h2⟩ := no_line_starts (t := source) (p := "include::".toList) (by decide) (fun l hl => (h l hl).1)
  obtain ⟨h3, h4⟩ := no_line_starts (t := source) (p := "if".toList) (by decide) (fun l hl => (h l hl).2)
  have e1 : "\ninclude::".toList = '\n' :: "include::".toList := by decide
  have e2 : "\nif".toList = '\n' :: "if".toList := by decide
  unfold preprocess
  rw [if_pos]
  unfold noDirectives
  rw [e1, e2, h1, h2, h3, h4]
  rfl

/-- With a primary file name, or a line beginning with `if`, the lines of a text without directives are kept, provided that
no line ends in white space, no line ends in a backslash in front of an empty one and there are no carriage returns.
Missing: texts that break these conditions, for which the claim is false (below). -/
theorem C12_lines_kept_partial {env : PreEnv} {fuel : Nat} {store : AttrStore} {primary : Option Text} {source o : Text}
    {m : SourceMap} {ls : List Text} (h : preprocess env fuel store primary source = .ok (o, m)) (hls : LinesOf source ls)
    (hp : PlainLines ls) : o = source ∨ o = unlines ls := by
  rcases run_of h with ⟨_, rfl, _⟩ | ⟨hn, _⟩
  · exact Or.inl rfl
  · obtain ⟨outs, σ, h1, rfl⟩ := C13_sound h hn
    exact Or.inr (expansion_plain h1 hls hp)

/-- The full claim is false: a blank line behind a backslash disappears. -/
theorem C12_blank_line_lost : letI := asciiUni
    outputOf (preprocess noFiles 5 AttrStore.default (some ['f']) ":a: b \\\n\np".toList) = some ":a: b \\\np\n".toList := by
  decide +kernel

/-- The full claim is false: white space at the end of an entry disappears. -/
theorem C12_trailing_space_lost : letI := asciiUni
    outputOf (preprocess noFiles 5 AttrStore.default (some ['f']) ":a: b  \np".toList) = some ":a: b\np\n".toList := by
  decide +kernel

/-! ### C14 -/

/-- Preprocessing returns when the header substitutions always do and includes are well-founded: files can be ranked so
that every file is ranked higher than the files it includes.  Missing: cyclic includes, for which it does not return. -/
theorem C14_terminates_partial {env : PreEnv} (hh : ∀ s t, ∃ v, env.hdr s t = .ok v) (rank : Option Text → Nat)
    (hrank : ∀ file target al s text, env.resolve file target al s = some text → rank (some target) < rank file)
    (store : AttrStore) (primary : Option Text) (source : Text) :
    ∃ fuel r, preprocess env fuel store primary source = .ok r := by
  unfold preprocess
  by_cases hn : noDirectives source primary = true
  · exact ⟨0, _, by rw [if_pos hn]⟩
  · obtain ⟨fuel, st, h⟩ := run_terminates env hh rank hrank (rank primary) primary (Nat.le_refl _) _ (Span.new source)
      primary.isNone (PState.init store) (Nat.le_refl _)
    exact ⟨fuel, _, by rw [if_neg hn, h]⟩

private def selfText : Text := "include::a[]".toList
private def selfInclude : PreEnv := ⟨fun _ _ _ _ => some selfText, fun _ t => .ok t⟩

private theorem self_line : FirstLine selfText selfText [] [] :=
  ⟨by simp, by decide, Or.inr (Or.inr ⟨rfl, Or.inr rfl⟩), fun ⟨r, h⟩ => by
    have := congrArg List.getLast? h
    rw [List.getLast?_concat] at this
    exact absurd this (by decide)⟩

private theorem self_include : IncludeLine selfText ['a'] none :=
  ⟨⟨[], by decide, Or.inl ⟨rfl, rfl⟩⟩, by decide, by decide, fun c r e => by cases e; decide, fun c r e => by
    have := List.append_inj_right' (s₁ := []) (t₁ := ['a']) e rfl
    simp at this; subst this; decide⟩

/-- The full claim is false: a file that includes itself is read forever, whatever the fuel. -/
theorem C14_cycle_diverges : ∀ (fuel : Nat) (store : AttrStore) (primary : Option Text),
    preprocess selfInclude fuel store primary selfText = .error .fuel := by
  have key : ∀ (fuel : Nat) (file : Option Text) (rep : Bool) (st : PState),
      processLines selfInclude fuel file rep (Span.new selfText) st = .error .fuel := by
    intro fuel
    induction fuel with
    | zero => intros; rfl
    | succ fuel ih =>
      intro file rep st
      have hl : FirstLine (Span.new selfText).data selfText [] [] := self_line
      obtain ⟨d1, _⟩ := takeLine_data (s := Span.new selfText) hl.eq hl.takeLine_eq
      rw [processLines, if_neg (by decide)]
      simp only [d1]
      have e1 : entryAt selfInclude st (Span.new selfText) selfText = .ok none := by
        unfold entryAt
        rw [if_neg]
        have : startsWith selfText [':'] = false := by decide
        simp [this]
      rw [e1]
      simp only
      rcases includeAt_spec st self_line.noNl with ⟨_, hno⟩ | ⟨target, attrs, target', al, e2, _⟩
      · exact absurd self_include (hno _ _)
      · rw [e2]
        have : selfInclude.resolve file target' al st.store = some selfText := rfl
        simp only [this, ih]
  intro fuel store primary
  unfold preprocess
  have hn : noDirectives selfText primary = false := by
    unfold noDirectives
    have : startsWith selfText "include::".toList = true := by decide
    rw [this]
    rfl
  rw [if_neg (by rw [hn]; simp), key]

/-! ### The hypotheses are met -/

private def fileText : Text := ":x: 1\nhello".toList

/-- A handler with one file, included from the root. -/
private def twoFiles : PreEnv :=
  ⟨fun file _ _ _ => match file with | none => some fileText | some _ => none, fun _ t => .ok t⟩

example : letI := asciiUni
    preprocess twoFiles 9 AttrStore.default none "a\ninclude::b[]\nc".toList =
      .ok ("a\n:x: 1\nhello\nc\n".toList, [(2, ⟨some ['b'], 1⟩), (4, ⟨none, 3⟩)]) := by
  decide +kernel

example : noDirectives "a\ninclude::b[]\nc".toList none = false := by decide

private def rankOf : Option Text → Nat
  | none => 1
  | some _ => 0

example : ∀ file target al s text, twoFiles.resolve file target al s = some text → rankOf (some target) < rankOf file := by
  intro file target al s text h
  cases file with
  | none => exact Nat.zero_lt_one
  | some f => cases h

private def oneText : PreEnv := ⟨fun _ _ _ _ => some ['x', '\\', '\n', 'y'], fun _ t => .ok t⟩

example : (∀ file target al s, oneText.resolve file target al s ≠ none) ∧
    ∀ file target al s text, oneText.resolve file target al s = some text → Tidy text := by
  refine ⟨fun _ _ _ _ h => (by cases h), fun _ _ _ _ text h => ?_⟩
  cases h
  intro a w r e _
  have := congrArg (List.count '\n') e
  simp only [List.count_append, List.count_cons] at this
  simp at this
  omega

example : letI := asciiUni
    (outputOf (preprocess oneText 9 AttrStore.default (some ['f']) "a\ninclude::b[]".toList) = some "a\nx\\\ny\n".toList) := by
  decide +kernel

example : PlainLines [[':', 'a', ':', ' ', 'b', '\\'], ['c'], [], ['d']] ∧
    LinesOf [':', 'a', ':', ' ', 'b', '\\', '\n', 'c', '\n', '\n', 'd'] [[':', 'a', ':', ' ', 'b', '\\'], ['c'], [], ['d']] := by
  refine ⟨⟨by decide, ?_, ?_, ?_⟩, ?_⟩
  · intro l hl target attrs h
    replace h := h.starts
    have h1 : ∀ l ∈ ([[':', 'a', ':', ' ', 'b', '\\'], ['c'], [], ['d']] : List Text), startsWith l "include::".toList = false := by
      decide
    rw [h1 l hl] at h
    cases h
  · intro l hl c r e
    have h1 : l.getLast? = some c := by rw [e]; simp
    revert h1
    have : ∀ l ∈ ([[':', 'a', ':', ' ', 'b', '\\'], ['c'], [], ['d']] : List Text), ∀ c ∈ l.getLast?, isWhite c = false := by decide
    exact fun h1 => this l hl c h1
  · intro a l m b e hl hm
    subst hm
    match a, e with
    | [], e => simp at e
    | [_], e => simp at e; obtain ⟨_, rfl, _⟩ := e; obtain ⟨r, hr⟩ := hl; exact absurd (congrArg List.getLast? hr) (by simp)
    | [_, _], e => simp at e
    | [_, _, _], e => simp at e
    | _ :: _ :: _ :: _ :: _, e => simp at e
  · exact .cons (l := [':', 'a', ':', ' ', 'b', '\\']) (by decide) (.cons (l := ['c']) (by decide)
      (.cons (l := []) (by decide) (.last (by decide) (by decide))))

/-- The notes of a run with an include, an unresolved directive in front of the first line of its file, and a blank line that
is dropped: of the five lines only the first is reported wrongly, as the include is followed by a new note. -/
private def mixed : PreEnv :=
  ⟨fun _ target _ _ => if target = ['b'] then some "x\ny".toList else none, fun _ t => .ok t⟩

example : letI := asciiUni
    let r := preprocess mixed 20 AttrStore.default (some ['f']) "include::q[]\n:a: b \\\n\ninclude::b[]\nc".toList
    outputOf r = some "Unresolved directive in f - include::q[]\n:a: b \\\nx\ny\nc\n".toList ∧
    lookupIn r 1 = some ⟨none, 1⟩ ∧ lookupIn r 2 = some ⟨some ['f'], 2⟩ ∧ lookupIn r 3 = some ⟨some ['b'], 1⟩ ∧
    lookupIn r 4 = some ⟨some ['b'], 2⟩ ∧ lookupIn r 5 = some ⟨some ['f'], 5⟩ := by
  decide +kernel

end Adoc.Props
