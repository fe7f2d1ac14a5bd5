import Verif.Lemmas.SpaceEnds
import Verif.Props.LineEnds
/-!
# C81: spaces at the ends of lines
-/

namespace Adoc.Props
open Adoc Span Spec Lemmas

variable [Uni]

omit [Uni] in
private theorem undirected {t t' : Text} (h : SpaceEnds t t')
    (hd : ∀ l ∈ splitChar '\n' t, (¬ ∃ r, l = "include::".toList ++ r) ∧ ¬ ∃ r, l = "if".toList ++ r) :
    ∀ l ∈ splitChar '\n' t', (¬ ∃ r, l = "include::".toList ++ r) ∧ ¬ ∃ r, l = "if".toList ++ r := by
  have key : ∀ {p b q q' : Text}, ' ' ∉ p → '\r' ∉ p → (∀ c ∈ q', c = ' ' ∨ c = '\r') → (∃ r, b ++ q' = p ++ r) →
      ∃ r, b ++ q = p ++ r := by
    rintro p b q q' hp hp' hq ⟨r, e⟩
    rw [List.append_eq_append_iff] at e
    rcases e with ⟨m, rfl, e⟩ | ⟨m, rfl, _⟩
    · cases m with
      | nil => exact ⟨q, by simp⟩
      | cons c m =>
        rcases hq c (by rw [e]; simp) with rfl | rfl
        · exact absurd (by simp) hp
        · exact absurd (by simp) hp'
    · exact ⟨m ++ q, by simp⟩
  intro l' hl'
  obtain ⟨l, hl, b, q, q', rfl, rfl, _, h2⟩ := h.split l' hl'
  exact ⟨fun hx => (hd _ hl).1 (key (by decide) (by decide) h2 hx), fun hx => (hd _ hl).2 (key (by decide) (by decide) h2 hx)⟩

/-- C81 (partial). Spaces at the ends of lines make no difference to what a document says.  Take a text that is written by the
rules of C62, and another one that differs in the spaces at the ends of its lines only: both are parsed, and both documents
show the same blocks and sections with the same text, and in their headers the same title, authors, revision and attributes.
What is missing: the rendered text of a verbatim block keeps the spaces
(`C81_raw_keeps_spaces`), a tab at the end of a line does matter (`C81_tab_matters`), and so do the spaces behind a
backslash in an entry for the author (`C81_author_keeps_spaces`). -/
theorem C81_trailing_spaces_partial {c : Config} {fuel : Nat} {p : ParserState} {text text' rest body : Text} {hls : List HLine}
    {stage : Stage} {store : AttrStore} {leaves : List Leaf} {secs : List Sec} {tokens : List Token} (hc : c.primary = none)
    (hd : ∀ l ∈ splitChar '\n' text, (¬ ∃ r, l = "include::".toList ++ r) ∧ ¬ ∃ r, l = "if".toList ++ r)
    (hp : p.num.topmost = .normal) (hf : text.length < fuel) (hf' : text'.length < fuel)
    (h1 : HeaderReads .start text hls stage rest) (h2 : SkipEmpty rest body)
    (h3 : HeaderEffect (fun s t => (c.env fuel).subs s .header none t) c.renderer p.store hls store)
    (h4 : Flat 1 5 secs tokens) (h5 : Layout (renders (c.env fuel) store) true (leaves.map .leaf ++ tokens) (lines body))
    (ha : AuthorSingle hls) (he : SpaceEnds text text') :
    ∃ d p₁ d' p₁', c.parse fuel p text = .ok (d, [], p₁) ∧ c.parse fuel p text' = .ok (d', [], p₁') ∧
      DocumentShows (renders (c.env fuel) store) leaves secs d.blocks ∧
      DocumentShows (renders (c.env fuel) store) leaves secs d'.blocks ∧
      HeaderShows (fun s t => (c.env fuel).subs s .header none t) c.renderer p.store hls (contentsOf d.header) ∧
      contentsOf d'.header = contentsOf d.header := by
  obtain ⟨hls', rest', g1, g2, g3⟩ := he.headerReads h1
  obtain ⟨body', g4, g5⟩ := g3.skipEmpty h2
  rw [g5.lines] at h5
  obtain ⟨d', p', k1, k2, k3, _⟩ := C62_outline hc (undirected he hd) hp hf' g1 g4 (g2.effect ha h3) h4 h5
  rw [← g5.lines] at h5
  obtain ⟨d, p₁, m1, m2, m3, _⟩ := C62_outline hc hd hp hf h1 h2 h3 h4 h5
  exact ⟨d, p₁, d', p', m1, k1, m2, k2, m3, (g2.symm.shows (g2.authorSingle ha) k3).det m3⟩

/-- C81. For every document without directives, whatever its body is: the spaces at the ends of its lines make no difference to
the contents of the header (if an entry for the author stands on one line). -/
theorem C81_header {c : Config} {fuel : Nat} {p p₁ p₂ : ParserState} {text text' : Text} {d d' : Document} {m m' : SourceMap}
    (hc : c.primary = none)
    (hd : ∀ l ∈ splitChar '\n' text, (¬ ∃ r, l = "include::".toList ++ r) ∧ ¬ ∃ r, l = "if".toList ++ r)
    (ha : ∀ hls stage rest, HeaderReads .start text hls stage rest → AuthorSingle hls) (he : SpaceEnds text text')
    (h : c.parse fuel p text = .ok (d, m, p₁)) (h' : c.parse fuel p text' = .ok (d', m', p₂)) :
    contentsOf d'.header = contentsOf d.header := by
  obtain ⟨hls, stage, rest, h1, h2⟩ := header_read hc hd h
  obtain ⟨hls', stage', rest', g1, g2⟩ := header_read hc (undirected he hd) h'
  obtain ⟨ls, r, k1, k2, _⟩ := he.headerReads h1
  obtain ⟨rfl, _, _⟩ := k1.det g1
  exact g2.det (k2.shows (ha _ _ _ h1) h2)

/-- C81. In particular, what is written by `documentText` is read back (see `C62_roundtrip`) with any spaces at the ends of
its lines. -/
theorem C81_roundtrip [LawfulUni] {c : Config} {fuel : Nat} {p : ParserState} {title : Option Text} {leaves : List Leaf}
    {secs : List Sec} {text : Text} (hc : c.primary = none) (hp : p.num.topmost = .normal)
    (hb : p.store.isAttributeSet "hardbreaks-option".toList = false) (h0 : ∀ t, title = some t → ProseTitle t)
    (h1 : ∀ b ∈ leaves, Writable b) (h2 : SecsWritable 1 5 secs) (he : SpaceEnds (documentText title leaves secs) text)
    (hf : text.length < fuel) :
    ∃ d p' store, c.parse fuel p text = .ok (d, [], p') ∧
      Apart (Leaf.allIds leaves ++ Sec.allIds secs) (d.warnings.map Warning.warning) (Sec.allSkips 1 secs) ∧ d.header.title = title ∧
      DocumentShows (renders (c.env fuel) store) leaves secs d.blocks := by
  obtain ⟨hls, stage, rest, body, store, g1, g2, g3, g4, g5, g6, g7, g8⟩ := written_reads (c := c) (fuel := fuel) hb (by omega) h0 h1 h2
  obtain ⟨hls', rest', k1, k2, k3⟩ := he.headerReads g2
  obtain ⟨body', k4, k5⟩ := k3.skipEmpty g3
  rw [k5.lines] at g5
  have ha : AuthorSingle hls := fun n raw hm => absurd hm (g7 n _)
  obtain ⟨d, p', m1, m2, m3, m4⟩ := C62_outline hc (undirected he g1) hp hf k1 k4 (k2.effect ha g4) (flat_allTokens h2) g5
  refine ⟨d, p', store, m1, outline_quiet g6 (fun n k hm => ?_) m4, g8 _ (k2.symm.shows (k2.authorSingle ha) m3), m2⟩
  obtain ⟨k', hk⟩ := k2.symm.entry hm
  exact g7 n k' hk

/-! ### Cases -/

/-- The rendered texts of the blocks of a document, or nothing if it is not parsed. -/
private def texts (t : Text) : List Text :=
  match (Config.default .checked).parse 60 ParserState.default t with
  | .ok (d, _, _) => d.blocks.map fun b =>
    match b.kind with
    | .simple c _ => c.rendered
    | .raw c _ _ _ => c.rendered
    | _ => []
  | .error _ => []

omit [Uni] in
private theorem spaced_line {l e t t' : Text} (sp sp' : Text) (h1 : '\n' ∉ l) (h2 : l.getLast? ≠ some '\r') (h3 : sp.all (· == ' ') = true)
    (h4 : sp'.all (· == ' ') = true) (h6 : LineEnd e) (h7 : SpaceEnds t t') :
    SpaceEnds (l ++ sp ++ e ++ t) (l ++ sp' ++ e ++ t') := by
  exact .line h1 (fun ⟨r, e⟩ => absurd (by rw [e]; simp) h2) (by simpa using h3) (by simpa using h4) h6 h7

omit [Uni] in
/-- C81, why only partially: the lines within a verbatim block keep the spaces at their ends. -/
theorem C81_raw_keeps_spaces : letI := asciiUni
    ∃ t t', SpaceEnds t t' ∧ texts t = ["a\nb".toList] ∧ texts t' = ["a \nb".toList] := by
  letI := asciiUni
  exact ⟨"----\na\nb\n----\n".toList, "----\na \nb\n----\n".toList,
    spaced_line (l := "----".toList) (e := ['\n']) [] [] (by decide) (by decide) (by decide) (by decide) (Or.inl rfl)
    (spaced_line (l := "a".toList) (e := ['\n']) [] [' '] (by decide) (by decide) (by decide) (by decide) (Or.inl rfl)
    (spaced_line (l := "b".toList) (e := ['\n']) [] [] (by decide) (by decide) (by decide) (by decide) (Or.inl rfl)
    (spaced_line (l := "----".toList) (e := ['\n']) [] [] (by decide) (by decide) (by decide) (by decide) (Or.inl rfl) .nil))),
    by decide +kernel, by decide +kernel⟩

omit [Uni] in
/-- C81, why only partially: a tab at the end of a line is not removed.  Behind the line that opens a block it makes that line
a paragraph, and the line that should close the block opens one. -/
theorem C81_tab_matters : letI := asciiUni
    texts "----\na\n----\n".toList = ["a".toList] ∧ texts "---- \na\n----\n".toList = ["a".toList] ∧
      texts "----\t\na\n----\n".toList = ["----\na".toList, []] := by
  letI := asciiUni
  refine ⟨by decide +kernel, by decide +kernel, by decide +kernel⟩

omit [Uni] in
/-- C81, why only partially: the names derived from an entry for the author over several lines are taken from the lines as
written, with the spaces behind the backslash. -/
theorem C81_author_keeps_spaces : letI := asciiUni
    ∃ t t', SpaceEnds t t' ∧ texts t = ["A B, A \\\nB".toList] ∧ texts t' = ["A B, A \\ \nB".toList] := by
  letI := asciiUni
  exact ⟨":author: A \\\nB\n\n{author}, {firstname}\n".toList, ":author: A \\ \nB\n\n{author}, {firstname}\n".toList,
    spaced_line (l := ":author: A \\".toList) (e := ['\n']) [] [' '] (by decide) (by decide) (by decide) (by decide) (Or.inl rfl)
    (spaced_line (l := "B".toList) (e := ['\n']) [] [] (by decide) (by decide) (by decide) (by decide) (Or.inl rfl)
    (spaced_line (l := []) (e := ['\n']) [] [] (by decide) (by decide) (by decide) (by decide) (Or.inl rfl)
    (spaced_line (l := "{author}, {firstname}".toList) (e := ['\n']) [] [] (by decide) (by decide) (by decide) (by decide) (Or.inl rfl) .nil))),
    by decide +kernel, by decide +kernel⟩

/-- Spaces behind the backslash in another entry do not matter. -/
example : letI := asciiUni
    texts ":x: A \\\nB\n\n{x}\n".toList = ["A B".toList] ∧ texts ":x: A \\  \nB \n\n{x} \n".toList = ["A B".toList] := by
  letI := asciiUni
  refine ⟨by decide +kernel, by decide +kernel⟩

/-- A title and a verbatim block, which meet the conditions of the round trip. -/
private theorem written_case : letI := asciiUni
    (∀ t, some "T".toList = some t → ProseTitle t) ∧ (∀ b ∈ [Leaf.verbatim '-' ["a".toList]], Writable b) := by
  letI := asciiUni
  refine ⟨?_, ?_⟩
  · intro t h
    cases h
    exact ⟨isProse_iff.mp (by decide), by decide, ⟨⟨'T', [], rfl, by decide⟩, fun c h => by cases h; decide⟩⟩
  · intro b hb
    rw [List.mem_singleton] at hb
    subst hb
    refine .verbatim (by decide) ?_
    intro l hl
    rw [List.mem_singleton] at hl
    subst hl
    exact clean_of (c := 'a') rfl (by decide) (by decide) (by decide) (by decide)

omit [Uni] in
private theorem spaced_case :
    SpaceEnds (documentText (some "T".toList) [.verbatim '-' ["a".toList]] []) "= T  \n \n----- \na\n-----   \n".toList :=
  spaced_line (l := "= T".toList) (e := ['\n']) [] "  ".toList (by decide) (by decide) (by decide) (by decide) (Or.inl rfl)
    (spaced_line (l := []) (e := ['\n']) [] [' '] (by decide) (by decide) (by decide) (by decide) (Or.inl rfl)
    (spaced_line (l := "-----".toList) (e := ['\n']) [] [' '] (by decide) (by decide) (by decide) (by decide) (Or.inl rfl)
    (spaced_line (l := "a".toList) (e := ['\n']) [] [] (by decide) (by decide) (by decide) (by decide) (Or.inl rfl)
    (spaced_line (l := "-----".toList) (e := ['\n']) [] "   ".toList (by decide) (by decide) (by decide) (by decide) (Or.inl rfl)
      .nil))))

/-- Non-vacuity: a title and a verbatim block, with spaces at the ends of some lines. -/
example : letI := asciiUni
    ∃ text text' hls stage rest body store leaves tokens,
      (∀ l ∈ splitChar '\n' text, (¬ ∃ r, l = "include::".toList ++ r) ∧ ¬ ∃ r, l = "if".toList ++ r) ∧ leaves ≠ [] ∧
      HeaderReads .start text hls stage rest ∧ SkipEmpty rest body ∧
      HeaderEffect (fun s t => ((Config.default .checked).env 60).subs s .header none t) (Config.default .checked).renderer
        ParserState.default.store hls store ∧
      Flat 1 5 [] tokens ∧
      Layout (renders ((Config.default .checked).env 60) store) true (leaves.map .leaf ++ tokens) (lines body) ∧
      AuthorSingle hls ∧ SpaceEnds text text' ∧ text' ≠ text ∧ text.length < 60 ∧ text'.length < 60 := by
  letI := asciiUni
  obtain ⟨hls, stage, rest, body, store, g1, g2, g3, g4, g5, _, g7, _⟩ := written_reads (c := Config.default .checked) (fuel := 60)
    (store₀ := ParserState.default.store) (by decide +kernel) (by decide) written_case.1 written_case.2 .nil
  exact ⟨_, _, hls, stage, rest, body, store, _, _, g1, by simp, g2, g3, g4, .nil, g5, fun n raw hm => absurd hm (g7 n _), spaced_case, by decide, by decide, by decide⟩

/-- Non-vacuity of `C81_header`: both documents are parsed, and have the title. -/
example : letI := asciiUni
    parsed ((Config.default .checked).parse 60 ParserState.default (documentText (some "T".toList) [.verbatim '-' ["a".toList]] []))
      (fun d => decide (d.header.title = some "T".toList)) = true ∧
    parsed ((Config.default .checked).parse 60 ParserState.default "= T  \n \n----- \na\n-----   \n".toList)
      (fun d => decide (d.header.title = some "T".toList)) = true := by
  letI := asciiUni
  refine ⟨by decide +kernel, by decide +kernel⟩

end Adoc.Props
