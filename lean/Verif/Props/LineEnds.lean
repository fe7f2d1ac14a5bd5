import Verif.Lemmas.LineEnds
import Verif.Props.Written
/-!
# C74: line ends
-/

namespace Adoc.Props
open Adoc Span Spec Lemmas

variable [Uni]

omit [Uni] in
private theorem directives {t t' : Text} (h : LineEnds t t')
    (hd : ∀ l ∈ splitChar '\n' t, (¬ ∃ r, l = "include::".toList ++ r) ∧ ¬ ∃ r, l = "if".toList ++ r) :
    ∀ l ∈ splitChar '\n' t', (¬ ∃ r, l = "include::".toList ++ r) ∧ ¬ ∃ r, l = "if".toList ++ r := by
  have key : ∀ {p l l' b : Text}, '\r' ∉ p → (l = b ∨ l = b ++ ['\r']) → (l' = b ∨ l' = b ++ ['\r']) →
      (∃ r, l' = p ++ r) → ∃ r, l = p ++ r := by
    rintro p l l' b hp h1 h2 ⟨r, hr⟩
    have hb : ∃ r, b = p ++ r := by
      rcases h2 with rfl | rfl
      · exact ⟨r, hr⟩
      · rcases r.eq_nil_or_concat with rfl | ⟨r', c, rfl⟩
        · exact absurd (by rw [List.append_nil] at hr; rw [← hr]; simp) hp
        · rw [List.concat_eq_append, ← List.append_assoc] at hr
          exact ⟨r', (List.append_inj' hr rfl).1⟩
    obtain ⟨r, rfl⟩ := hb
    rcases h1 with rfl | rfl
    · exact ⟨r, rfl⟩
    · exact ⟨r ++ ['\r'], by simp⟩
  intro l' hl'
  obtain ⟨l, hl, b, h1, h2⟩ := h.split l' hl'
  exact ⟨fun hx => (hd l hl).1 (key (by decide) h1 h2 hx), fun hx => (hd l hl).2 (key (by decide) h1 h2 hx)⟩

/-- C74 (partial). Whether a line ends in a line feed or in a carriage return and a line feed makes no difference to what a
document says.  Take a text that is written by the rules of C62, and another one that differs in line ends only: both are
parsed, and both documents show the same blocks and sections with the same text, and in their headers the same title, authors,
revision and attributes.  What is missing: the rendered text of a verbatim block keeps the carriage returns
(`C74_raw_keeps_returns`), and so do the names derived from an entry for the author over several lines. -/
theorem C74_line_ends_partial {c : Config} {fuel : Nat} {p : ParserState} {text text' rest body : Text} {hls : List HLine}
    {stage : Stage} {store : AttrStore} {leaves : List Leaf} {secs : List Sec} {tokens : List Token} (hc : c.primary = none)
    (hd : ∀ l ∈ splitChar '\n' text, (¬ ∃ r, l = "include::".toList ++ r) ∧ ¬ ∃ r, l = "if".toList ++ r)
    (hp : p.num.topmost = .normal) (hf : text.length < fuel) (hf' : text'.length < fuel)
    (h1 : HeaderReads .start text hls stage rest) (h2 : SkipEmpty rest body)
    (h3 : HeaderEffect (fun s t => (c.env fuel).subs s .header none t) c.renderer p.store hls store)
    (h4 : Flat 1 5 secs tokens) (h5 : Layout (renders (c.env fuel) store) true (leaves.map .leaf ++ tokens) (lines body))
    (ha : AuthorSingle hls) (he : LineEnds text text') :
    ∃ d p₁ d' p₁', c.parse fuel p text = .ok (d, [], p₁) ∧ c.parse fuel p text' = .ok (d', [], p₁') ∧
      DocumentShows (renders (c.env fuel) store) leaves secs d.blocks ∧
      DocumentShows (renders (c.env fuel) store) leaves secs d'.blocks ∧
      HeaderShows (fun s t => (c.env fuel).subs s .header none t) c.renderer p.store hls (contentsOf d.header) ∧
      contentsOf d'.header = contentsOf d.header := by
  obtain ⟨hls', rest', g1, g2, g3⟩ := he.headerReads h1
  obtain ⟨body', g4, g5⟩ := g3.skipEmpty h2
  rw [g5.lines] at h5
  obtain ⟨d', p', k1, k2, k3, _⟩ := C62_outline hc (directives he hd) hp hf' g1 g4 (g2.effect ha h3) h4 h5
  rw [← g5.lines] at h5
  obtain ⟨d, p₁, m1, m2, m3, _⟩ := C62_outline hc hd hp hf h1 h2 h3 h4 h5
  exact ⟨d, p₁, d', p', m1, k1, m2, k2, m3, (g2.symm.shows (g2.authorSingle ha) k3).det m3⟩

/-- The header of a document without directives is read from its text. -/
theorem header_read {c : Config} {fuel : Nat} {p p' : ParserState} {text : Text} {d : Document} {m : SourceMap} (hc : c.primary = none)
    (hd : ∀ l ∈ splitChar '\n' text, (¬ ∃ r, l = "include::".toList ++ r) ∧ ¬ ∃ r, l = "if".toList ++ r)
    (h : c.parse fuel p text = .ok (d, m, p')) :
    ∃ hls stage rest, HeaderReads .start text hls stage rest ∧
      HeaderShows (fun s t => (c.env fuel).subs s .header none t) c.renderer p.store hls (contentsOf d.header) := by
  unfold Config.parse parseDocument at h
  rw [hc, C12_untouched hd] at h
  simp only [bind, Except.bind] at h
  split at h
  · cases h
  · rename_i x hx
    unfold Document.parse at hx
    simp only [bind, Except.bind] at hx
    split at hx
    · cases hx
    · rename_i y hy
      split at hx
      · cases hx
      · split at hx
        · cases hx
        · cases hx
          cases h
          exact C47_contents (source := Span.new text) hy

/-- C74. For every document without directives, whatever its body is: the line ends make no difference to the contents of the
header (if an entry for the author stands on one line). -/
theorem C74_header {c : Config} {fuel : Nat} {p p₁ p₂ : ParserState} {text text' : Text} {d d' : Document} {m m' : SourceMap}
    (hc : c.primary = none)
    (hd : ∀ l ∈ splitChar '\n' text, (¬ ∃ r, l = "include::".toList ++ r) ∧ ¬ ∃ r, l = "if".toList ++ r)
    (ha : ∀ hls stage rest, HeaderReads .start text hls stage rest → AuthorSingle hls) (he : LineEnds text text')
    (h : c.parse fuel p text = .ok (d, m, p₁)) (h' : c.parse fuel p text' = .ok (d', m', p₂)) :
    contentsOf d'.header = contentsOf d.header := by
  obtain ⟨hls, stage, rest, h1, h2⟩ := header_read hc hd h
  obtain ⟨hls', stage', rest', g1, g2⟩ := header_read hc (directives he hd) h'
  obtain ⟨ls, r, k1, k2, _⟩ := he.headerReads h1
  obtain ⟨rfl, _, _⟩ := k1.det g1
  exact g2.det (k2.shows (ha _ _ _ h1) h2)

/-- C74. In particular, what is written by `documentText` is read back (see `C62_roundtrip`) with any line ends. -/
theorem C74_roundtrip [LawfulUni] {c : Config} {fuel : Nat} {p : ParserState} {title : Option Text} {leaves : List Leaf}
    {secs : List Sec} {text : Text} (hc : c.primary = none) (hp : p.num.topmost = .normal)
    (hb : p.store.isAttributeSet "hardbreaks-option".toList = false) (h0 : ∀ t, title = some t → ProseTitle t)
    (h1 : ∀ b ∈ leaves, Writable b) (h2 : SecsWritable 1 5 secs) (he : LineEnds (documentText title leaves secs) text)
    (hf : text.length < fuel) :
    ∃ d p' store, c.parse fuel p text = .ok (d, [], p') ∧
      Apart (Leaf.allIds leaves ++ Sec.allIds secs) (d.warnings.map Warning.warning) (Sec.allSkips 1 secs) ∧ d.header.title = title ∧
      DocumentShows (renders (c.env fuel) store) leaves secs d.blocks := by
  obtain ⟨hls, stage, rest, body, store, g1, g2, g3, g4, g5, g6, g7, g8⟩ := written_reads (c := c) (fuel := fuel) hb (by omega) h0 h1 h2
  obtain ⟨hls', rest', k1, k2, k3⟩ := he.headerReads g2
  obtain ⟨body', k4, k5⟩ := k3.skipEmpty g3
  rw [k5.lines] at g5
  have ha : AuthorSingle hls := fun n raw hm => absurd hm (g7 n _)
  obtain ⟨d, p', m1, m2, m3, m4⟩ := C62_outline hc (directives he g1) hp hf k1 k4 (k2.effect ha g4) (flat_allTokens h2) g5
  refine ⟨d, p', store, m1, outline_quiet g6 (fun n k hm => ?_) m4, g8 _ (k2.symm.shows (k2.authorSingle ha) m3), m2⟩
  obtain ⟨k', hk⟩ := k2.symm.entry hm
  exact g7 n k' hk

/-! ### Cases -/

/-- The rendered texts of the blocks of a document, or nothing if it is not parsed. -/
private def texts (t : Text) : List Text :=
  match (Config.default .checked).parse 60 ParserState.default t with
  | .ok (d, _, _) => d.blocks.map fun b =>
    match b.kind with
    | .simple c _ => c.rendered
    | .raw c _ _ _ => c.rendered
    | _ => []
  | .error _ => []

omit [Uni] in
/-- C74, why only partially: the lines within a verbatim block keep their carriage returns, so what is rendered depends on the
line ends. -/
theorem C74_raw_keeps_returns : letI := asciiUni
    ∃ t t', LineEnds t t' ∧ texts t = ["a\nb".toList] ∧ texts t' = ["a\r\nb".toList] := by
  letI := asciiUni
  exact ⟨"----\na\nb\n----\n".toList, _, lineEnds_returns (by decide), by decide +kernel, by decide +kernel⟩

omit [Uni] in
/-- C74, why only partially: the names derived from an entry for the author over several lines are taken from the lines as
written, with backslash and line end. -/
theorem C74_author_keeps_returns : letI := asciiUni
    ∃ t t', LineEnds t t' ∧ texts t = ["A B, A \\\nB".toList] ∧ texts t' = ["A B, A \\\r\nB".toList] := by
  letI := asciiUni
  exact ⟨":author: A \\\nB\n\n{author}, {firstname}\n".toList, _, lineEnds_returns (by decide), by decide +kernel,
    by decide +kernel⟩

omit [Uni] in
private theorem firstLine_of {l rest : Text} (h : '\n' ∉ l) (h' : l.getLast? ≠ some '\r') :
    FirstLine (l ++ '\n' :: rest) l ['\n'] rest :=
  ⟨by simp, h, Or.inl rfl, fun ⟨r, e⟩ => absurd (by rw [e]; simp) h'⟩

omit [Uni] in
private theorem strip_self {l : Text} (h : l.getLast? ≠ some ' ') : StripSpaces l l :=
  ⟨[], by simp, by simp, fun ⟨r, e⟩ => absurd (by rw [e]; simp) h⟩

/-- Non-vacuity: a document with an entry over two lines in its header, and a paragraph. -/
example : letI := asciiUni
    ∃ hls stage rest body store leaves tokens text',
      (∃ n raw, HLine.entry n (.value raw) ∈ hls ∧ '\n' ∈ raw) ∧ leaves ≠ [] ∧
      HeaderReads .start ":x: a \\\nb\n:y:\nHello\n".toList hls stage rest ∧ SkipEmpty rest body ∧
      HeaderEffect (fun s t => ((Config.default .checked).env 60).subs s .header none t) (Config.default .checked).renderer
        ParserState.default.store hls store ∧
      Flat 1 5 [] tokens ∧
      Layout (renders ((Config.default .checked).env 60) store) true (leaves.map .leaf ++ tokens) (lines body) ∧
      AuthorSingle hls ∧ LineEnds ":x: a \\\nb\n:y:\nHello\n".toList text' ∧ text' ≠ ":x: a \\\nb\n:y:\nHello\n".toList ∧
      text'.length < 60 := by
  letI := asciiUni
  have hp : ∀ t, isProse t = true → Prose t := fun t h => isProse_iff.mp h
  refine ⟨[.entry ['x'] (.value "a \\\nb".toList), .entry ['y'] .set], .start, "Hello\n".toList, "Hello\n".toList, _,
    [.para "Hello".toList], [], withReturns ":x: a \\\nb\n:y:\nHello\n".toList, ⟨['x'], "a \\\nb".toList, by simp, by decide⟩, by simp, ?_, ?_,
    .cons (.entry (.value (v := "a b".toList) ?_) (.other (by decide))) (.cons (.entry .set (.other (by decide))) .nil), .nil, ?_, ?_,
    lineEnds_returns (by decide), by decide, by decide⟩
  · refine .line (by decide) (.entry ⟨":x: a \\\nb".toList, ['\n'], ":x: a \\\nb".toList, .more (sep := ['\n']) (c := ['b'])
      (firstLine_of (l := ":x: a \\".toList) (rest := "b\n:y:\nHello\n".toList) (by decide) (by decide))
      ⟨":x: a ".toList, [], by decide, by simp⟩ (by decide) (.last (firstLine_of (l := ['b']) (by decide) (by decide)) (Or.inl ?_)),
      strip_self (by decide), .value (n := ['x']) (sp := [' ']) ?_ (by decide) (by simp [Blank]) ?_⟩) ?_
    · rw [← continued_iff]; decide
    · rw [refName_iff]; exact ⟨'x', [], rfl, by decide, by simp⟩
    · rintro c r h; cases h; decide
    · refine .line (by decide) (.entry ⟨":y:".toList, ['\n'], ":y:".toList,
        .last (firstLine_of (l := ":y:".toList) (rest := "Hello\n".toList) (by decide) (by decide)) (Or.inl ?_), strip_self (by decide), .set (n := ['y']) ?_⟩) (.stop fun _ l s' r hl => ?_)
      · rw [← continued_iff]; decide
      · rw [refName_iff]; exact ⟨'y', [], rfl, by decide, by simp⟩
      · have hf := firstLine_of (l := "Hello".toList) (rest := []) (by decide) (by decide)
        have hh : HeadLine "Hello\n".toList "Hello".toList [] := ⟨_, _, hf, strip_self (by decide)⟩
        cases hl with
        | blank h => exact absurd (hh.det h).1 (by decide)
        | comment h hc => obtain ⟨x, e, _⟩ := hc; rw [← (hh.det h).1] at e; exact absurd (List.cons.inj e).1 (by decide)
        | entry h => obtain ⟨y, e⟩ := h.head hh; exact absurd (List.cons.inj e).1 (by decide)
        | title h _ _ => have := (hh.det h).1; exact absurd (List.cons.inj this).1 (by decide)
  · refine .stop fun l sep rest hf _ hb => ?_
    rw [(hf.det (firstLine_of (l := "Hello".toList) (rest := []) (by decide) (by decide))).1] at hb
    exact absurd (hb 'H' (by decide)) (by decide)
  · exact prose_renders (c := Config.default .checked) (f := 59) (by decide) (by decide) none nofun _ (hp "a b".toList (by decide))
      (Span.new [])
  · refine written_layout (c := Config.default .checked) (f := 59) (leaves := [.para "Hello".toList]) (secs := []) (by decide +kernel) ?_ .nil
    intro b hb
    rw [List.mem_singleton] at hb
    subst hb
    refine .para (hp _ (by decide +kernel)) ?_
    intro l hl
    rw [show splitChar '\n' "Hello".toList = ["Hello".toList] by decide, List.mem_singleton] at hl
    subst hl
    exact line_test rfl (by decide) (by decide) (by decide) ⟨'o', rfl, by decide⟩
  · intro n raw hm hn
    rw [List.mem_cons, List.mem_singleton] at hm
    rcases hm with e | e
    · cases e; exact absurd hn (by decide)
    · cases e

/-- Non-vacuity of the round trip: a title, a verbatim block and a section, with carriage returns. -/
example : letI := asciiUni
    (∀ t, some "T".toList = some t → ProseTitle t) ∧ (∀ b ∈ [Leaf.verbatim '-' ["a".toList]], Writable b) ∧
      LineEnds (documentText (some "T".toList) [.verbatim '-' ["a".toList]] [])
        "= T\r\n\r\n-----\r\na\r\n-----\r\n".toList := by
  letI := asciiUni
  refine ⟨?_, ?_, lineEnds_returns (by decide)⟩
  · intro t h
    cases h
    exact ⟨isProse_iff.mp (by decide), by decide, ⟨⟨'T', [], rfl, by decide⟩, fun c h => by cases h; decide⟩⟩
  · intro b hb
    rw [List.mem_singleton] at hb
    subst hb
    refine .verbatim (by decide) ?_
    intro l hl
    rw [List.mem_singleton] at hl
    subst hl
    exact clean_of (c := 'a') rfl (by decide) (by decide) (by decide) (by decide)

end Adoc.Props
