import Verif.Props.Refs
/-!
# C22: recognising the headings of sections

`parseTitleLine` reads a heading; `Stop.check` with `.peer level recent` is the test made in front of every block of a section
of this level, the most recent heading in which had the level `recent`.
-/

namespace Adoc.Props
open Adoc Adoc.Spec Span

theorem heading_marks {l : Nat} {title line : Text} (h : Heading l title line) :
    Marks (l + 1) line ∧ markCount line = l + 1 ∧ ¬ Indented line ∧ line ≠ [] := by
  obtain ⟨h1, h2, m, gap, hm, hg, hb, ht, e⟩ := h
  have hM : Marks (l + 1) line := by
    refine ⟨m, gap ++ title, hm, by rw [e, List.append_assoc], ?_⟩
    cases gap with
    | nil => exact absurd rfl hg
    | cons c r => rcases hm with rfl | rfl <;> rcases hb c (by simp) with rfl | rfl <;> simp
  refine ⟨hM, (marks_iff (by omega)).mp hM, ?_, ?_⟩
  · rw [e, List.replicate_succ]
    rcases hm with rfl | rfl <;> simp [Indented]
  · rw [e, List.replicate_succ]; simp

theorem heading_unique {l l' : Nat} {t t' line : Text} (h : Heading l t line) (h' : Heading l' t' line) :
    l = l' ∧ t = t' := by
  have e1 := (heading_marks h).2.1
  have e2 := (heading_marks h').2.1
  have : l = l' := by omega
  subst this
  refine ⟨rfl, ?_⟩
  have key : ∀ {t : Text}, Heading l t line → t = (line.drop (l + 1)).dropWhile isBlank := by
    rintro t ⟨_, _, m, gap, _, _, hb, ht, rfl⟩
    rw [List.append_assoc, List.drop_append]
    simp only [List.drop_replicate, Nat.sub_self, List.replicate_zero, List.length_replicate, List.drop_zero,
      List.nil_append]
    have hb' : ∀ c ∈ gap, isBlank c = true := fun c hc => by simpa [isBlank] using hb c hc
    rename_i hg
    clear hb hg h h' e1 e2
    induction gap with
    | nil =>
      rw [List.nil_append]
      cases t with
      | nil => rfl
      | cons c r =>
        have := not_indented_iff.mp ht c r rfl
        simp [this]
    | cons c gap ih =>
      rw [List.cons_append, List.dropWhile_cons, if_pos (hb' c (by simp))]
      exact ih fun d hd => hb' d (by simp [hd])
  rw [key h, key h']

/-- A heading is recognised, with its level and its title, and nothing is reported. -/
theorem C22_recognised (ar : Arith) {s : Span} {l : Nat} {title : Text} (h : Heading l title s.takeNormalizedLine.item.data) :
    ∃ t, t.data = title ∧ parseTitleLine ar s = .ok (some ⟨(l, t), s.takeLine.after⟩, []) := by
  obtain ⟨_, hc, hi, hne⟩ := heading_marks h
  have h12 : 1 ≤ l ∧ l ≤ 5 := ⟨h.1, h.2.1⟩
  rcases titleLine_cases ar s _ rfl with ⟨h0, _⟩ | ⟨hm, _⟩ | ⟨n, hn, hm, _⟩ | ⟨h0, _⟩ | ⟨l', t, hh, e⟩ | ⟨_, _, _, _, h0, _⟩
  · exact absurd h0 hne
  · have := (marks_iff (Nat.le_refl 1)).mp hm; omega
  · have := (marks_iff (by omega)).mp hm; omega
  · exact absurd h0 hi
  · obtain ⟨rfl, rfl⟩ := heading_unique h hh
    exact ⟨t, rfl, e⟩
  · exact absurd ⟨_, _, h⟩ h0

/-- Nothing but a heading is recognised as one, unless the line is indented. -/
theorem C22_only_headings_partial {ar : Arith} {s : Span} {mi : MI (Nat × Span)} {ws : List Warning}
    (hi : ¬ Indented s.takeNormalizedLine.item.data) (h : parseTitleLine ar s = .ok (some mi, ws)) :
    Heading mi.item.1 mi.item.2.data s.takeNormalizedLine.item.data := by
  rcases titleLine_cases ar s _ rfl with ⟨_, e⟩ | ⟨hm, e⟩ | ⟨n, hn, hm, e⟩ | ⟨h0, _⟩ | ⟨l, t, hh, e⟩ | ⟨_, _, _, _, _, e⟩
  · rw [e] at h; cases h
  · rw [e] at h; cases h
  · rw [e] at h; cases h
  · exact absurd h0 hi
  · rw [e] at h; cases h; exact hh
  · rw [e] at h; cases h

/-- With overflow checks, reading a line as a heading panics exactly when the line is indented. -/
theorem C22_panics_iff_indented (s : Span) :
    parseTitleLine .checked s = .error .panic ↔ Indented s.takeNormalizedLine.item.data := by
  rcases titleLine_cases .checked s _ rfl with ⟨h0, e⟩ | ⟨hm, e⟩ | ⟨n, hn, hm, e⟩ | ⟨h0, _, e⟩ | ⟨l, t, hh, e⟩ |
    ⟨_, h0, _, _, _, e⟩
  · rw [e, h0]; simp [Indented]
  · obtain ⟨m, r, hm', hr, _⟩ := hm
    rw [e, hr]; rcases hm' with rfl | rfl <;> simp [Indented]
  · obtain ⟨m, r, hm', hr, _⟩ := hm
    obtain ⟨k, rfl⟩ : ∃ k, n = k + 1 := ⟨n - 1, by omega⟩
    rw [e, hr, List.replicate_succ]; rcases hm' with rfl | rfl <;> simp [Indented]
  · rw [e]; simp [h0]
  · rw [e]; simp [(heading_marks hh).2.2.1]
  · rw [e]; simp [h0]

/-- No other line makes it fail. -/
theorem C22_total_partial (ar : Arith) {s : Span} (hi : ¬ Indented s.takeNormalizedLine.item.data) :
    ∃ r, parseTitleLine ar s = .ok r := by
  rcases titleLine_cases ar s _ rfl with ⟨_, e⟩ | ⟨_, e⟩ | ⟨n, _, _, e⟩ | ⟨h0, _, e⟩ | ⟨l, t, _, e⟩ | ⟨_, _, _, _, _, e⟩
  · exact ⟨_, e⟩
  · exact ⟨_, e⟩
  · exact ⟨_, e⟩
  · exact absurd h0 hi
  · exact ⟨_, e⟩
  · exact ⟨_, e⟩

variable [Uni]

/-- A line in a section that is no heading changes neither the nesting nor the warnings, and does not fail.
Missing: indented lines (`C22_indented_panics`, `C22_indented_skips`), and lines with one mark or more than six
(`C22_marks_reported`). -/
theorem C22_no_heading_partial {e : BlockEnv} {s : Span} {m : BlockMetadata} {mw : List Warning} {level recent : Nat}
    (hm : BlockMetadata.parse e.dsubs AttrStore.default s = .ok (m, mw))
    (hi : ¬ Indented m.blockStart.takeNormalizedLine.item.data)
    (hn : ¬ ∃ l t, Heading l t m.blockStart.takeNormalizedLine.item.data)
    (h1 : ¬ ∃ n, (n = 1 ∨ 6 < n) ∧ Marks n m.blockStart.takeNormalizedLine.item.data) :
    Stop.check e s (.peer level recent) = .ok (false, .peer level recent, []) := by
  unfold Stop.check peerOrAncestor
  simp only [bind, Except.bind, hm]
  cases hd : m.isDiscrete with
  | true => rfl
  | false =>
    simp only [Bool.false_eq_true, if_false]
    have ht : parseTitleLine e.ar m.blockStart = .ok (none, []) := by
      rcases titleLine_cases e.ar m.blockStart _ rfl with ⟨_, e⟩ | ⟨h, _⟩ | ⟨n, h, h', _⟩ | ⟨h, _⟩ | ⟨l, t, h, _⟩ |
        ⟨_, _, _, _, _, e⟩
      · exact e
      · exact absurd ⟨1, Or.inl rfl, h⟩ h1
      · exact absurd ⟨n, Or.inr h, h'⟩ h1
      · exact absurd h hi
      · exact absurd ⟨_, _, h⟩ hn
      · exact e
    rw [ht]

/-- A heading in a section ends the section exactly when its level is not greater, and is reported when it skips a level. -/
theorem C22_heading {e : BlockEnv} {s : Span} {m : BlockMetadata} {mw : List Warning} {level recent l : Nat} {title : Text}
    (hm : BlockMetadata.parse e.dsubs AttrStore.default s = .ok (m, mw)) (hd : m.isDiscrete = false) (hr : recent ≤ 5)
    (hh : Heading l title m.blockStart.takeNormalizedLine.item.data) :
    Stop.check e s (.peer level recent) = .ok (decide (l ≤ level), .peer level l,
      if recent + 1 < l then [⟨s.takeNormalizedLine.item, .sectionHeadingLevelSkipped recent l⟩] else []) := by
  unfold Stop.check peerOrAncestor
  simp only [bind, Except.bind, hm, hd, Bool.false_eq_true, if_false]
  obtain ⟨t, _, ht⟩ := C22_recognised e.ar hh
  have hs : e.ar.succ recent = .ok (recent + 1) := by
    unfold Arith.succ
    rw [if_pos (by unfold Arith.size; omega)]
  rw [ht]
  simp only [hs]
  rfl

/-- The warnings about headings in a document: a heading of level 0 is reported only for a line with a single mark, one of a
level above the maximum only for a line with that many marks, and, with overflow checks, a skipped level only where one is
skipped. -/
theorem C22_warnings {c : Config} {fuel : Nat} {p p' : ParserState} {text : Text} {d : Document} {map : SourceMap}
    (hp : p.catalog = none ∨ p.catalog = some Catalog.new) (h : c.parse fuel p text = .ok (d, map, p')) :
    ∀ w ∈ d.warnings,
      (w.warning = .level0SectionHeadingNotSupported → Marks 1 w.source.data) ∧
      (∀ n, w.warning = .sectionHeadingLevelExceedsMaximum n → 6 ≤ n ∧ Marks (n + 1) w.source.data) ∧
      (∀ a b, w.warning = .sectionHeadingLevelSkipped a b → c.ar = .checked → a + 1 < b ∧ b ≤ 5) := by
  obtain ⟨t, ht, hd⟩ := c.parse_parts h
  obtain ⟨mi, hw, store, bs, rest, ws, sw, q, h1, h2, h3, h4, h5, h6, h7, h8⟩ := document_run hd
  have hc : (p.fresh).catalog = some Catalog.new := by
    unfold ParserState.fresh
    rcases hp with hp | hp <;> simp [hp]
  obtain ⟨_, hw', _⟩ := run_reg h2 Catalog.new hc
  intro w hww
  rw [h5] at hww
  rcases List.mem_append.mp hww with hww | hww
  · rcases (C47_warnings h1 w hww).2 with g | ⟨n, g⟩ <;> rw [g] <;> exact ⟨nofun, nofun, nofun⟩
  · have hH := (hw' w hww).2
    obtain ⟨sp, wt⟩ := w
    refine ⟨?_, ?_, ?_⟩
    · rintro ⟨⟩; exact hH
    · rintro n ⟨⟩; exact hH
    · rintro a b ⟨⟩; exact hH

omit [Uni] in
/-- Non-vacuity: the three warnings about headings. -/
example : letI := asciiUni
    parsed ((Config.default .checked).parse 60 .default "== A\n\n==== B\n\nfoo\n\n======= C\n\n== D\n\n= E".toList)
      (fun d => d.warnings.any (·.warning == .level0SectionHeadingNotSupported) &&
        d.warnings.any (·.warning == .sectionHeadingLevelExceedsMaximum 6) &&
        d.warnings.any (·.warning == .sectionHeadingLevelSkipped 1 3)) = true := by
  decide +kernel

omit [Uni] in
/-- Non-vacuity of the theorems about lines: a heading, a line with one mark, and a paragraph. -/
example : Heading 2 "A b".toList "===  A b".toList ∧ Marks 1 "#foo# bar".toList ∧ ¬ Indented "foo".toList ∧
    (¬ ∃ l t, Heading l t "==foo".toList) := by
  refine ⟨⟨by decide, by decide, '=', "  ".toList, Or.inl rfl, by decide, by decide, by unfold Indented; decide, rfl⟩,
    ⟨'#', "foo# bar".toList, Or.inr rfl, rfl, by decide⟩, by unfold Indented; decide, ?_⟩
  rintro ⟨l, t, h⟩
  have e := (heading_marks h).2.1
  have : markCount "==foo".toList = 2 := by decide
  rw [this] at e
  obtain ⟨_, _, m, gap, _, hg, hb, _, e'⟩ := h
  obtain rfl : l = 1 := by omega
  cases gap with
  | nil => exact hg rfl
  | cons c r =>
    have := congrArg (fun x : Text => x.drop 2) e'
    simp [List.replicate] at this
    have hc := hb c (by simp)
    rw [← this.1] at hc
    rcases hc with hc | hc <;> cases hc

/-- The outcome of a parse is this error. -/
private def failed (r : Res (Document × SourceMap × ParserState)) (x : Fail) : Bool :=
  match r with
  | .error y => y == x
  | _ => false

omit [Uni] in
private theorem failed_spec {r : Res (Document × SourceMap × ParserState)} {x : Fail} (h : failed r x = true) : r = .error x := by
  cases r with
  | ok _ => cases h
  | error y => rw [eq_of_beq (show (y == x) = true from h)]

omit [Uni] in
/-- The full claim is false: with overflow checks, an indented line in a section makes the parse panic … -/
theorem C22_indented_panics : letI := asciiUni
    ∃ text, (Config.default .checked).parse 40 .default text = .error .panic := by
  letI := asciiUni
  exact ⟨"== S\n\n foo".toList, failed_spec (by decide +kernel)⟩

omit [Uni] in
/-- … and without them it is reported as a heading of the greatest level a machine number can have. -/
theorem C22_indented_skips : letI := asciiUni
    ∃ text d map p', (Config.default .wrapping).parse 40 .default text = .ok (d, map, p') ∧
      ∃ w ∈ d.warnings, w.warning = .sectionHeadingLevelSkipped 1 (2 ^ 64 - 1) := by
  letI := asciiUni
  have h : parsed ((Config.default .wrapping).parse 40 .default "== S\n\n foo".toList) (fun d =>
      d.warnings.any fun w => w.warning == .sectionHeadingLevelSkipped 1 (2 ^ 64 - 1)) = true := by
    decide +kernel
  obtain ⟨d, map, p', h1, h2⟩ := parsed_spec h
  obtain ⟨w, hw, e⟩ := List.any_eq_true.mp h2
  exact ⟨_, d, map, p', h1, w, hw, eq_of_beq e⟩

omit [Uni] in
/-- A paragraph that begins with a mark, and a delimiter line, are reported as headings; the paragraph twice. -/
theorem C22_marks_reported : letI := asciiUni
    (∃ d map p', (Config.default .checked).parse 40 .default "== A\n\n#foo# bar".toList = .ok (d, map, p') ∧
      d.warnings.map (·.warning) = [.level0SectionHeadingNotSupported, .level0SectionHeadingNotSupported]) ∧
    ∃ d map p', (Config.default .checked).parse 40 .default "== A\n\n=======\nx\n=======".toList = .ok (d, map, p') ∧
      d.warnings.map (·.warning) = [.sectionHeadingLevelExceedsMaximum 6] := by
  letI := asciiUni
  have h1 : parsed ((Config.default .checked).parse 40 .default "== A\n\n#foo# bar".toList) (fun d =>
      d.warnings.map (·.warning) == [.level0SectionHeadingNotSupported, .level0SectionHeadingNotSupported]) = true := by
    decide +kernel
  have h2 : parsed ((Config.default .checked).parse 40 .default "== A\n\n=======\nx\n=======".toList) (fun d =>
      d.warnings.map (·.warning) == [.sectionHeadingLevelExceedsMaximum 6]) = true := by
    decide +kernel
  obtain ⟨d, map, p', a, b⟩ := parsed_spec h1
  obtain ⟨d2, map2, p2, a2, b2⟩ := parsed_spec h2
  exact ⟨⟨d, map, p', a, eq_of_beq b⟩, d2, map2, p2, a2, eq_of_beq b2⟩

end Adoc.Props
