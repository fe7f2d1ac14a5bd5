import Verif.Lemmas.Comments
import Verif.Props.SpaceEnds
/-!
# C83: comment lines
-/

namespace Adoc.Props
open Adoc Span Spec Lemmas

variable [Uni]

/-- C83 (partial). Comment lines make no difference.  Take a text that is written by the rules of C62, and another one of
which the header has the same lines except for comments and empty lines, and the body has comment lines behind some lines that
stand in paragraphs (`Remarked`) and are not among those of verbatim blocks (`Apart`): both texts are parsed, and both documents show the same
blocks and sections with the same text, and in their headers the same title, authors, revision and attributes.  What is
missing: comment lines at the beginning of paragraphs and between blocks do make a difference (`C83_leaves_paragraph`,
`C83_hides_heading`, `C83_hides_block`), and so do the comments in comment blocks (`C83_block_shown`). -/
theorem C83_comments_partial {c : Config} {fuel : Nat} {p : ParserState} {text text' rest rest' body body' : Text}
    {S : Text → Prop} {hls hls' : List HLine} {stage stage' : Stage} {store : AttrStore} {leaves : List Leaf} {secs : List Sec} {tokens : List Token}
    (hc : c.primary = none)
    (hd : ∀ l ∈ splitChar '\n' text, (¬ ∃ r, l = "include::".toList ++ r) ∧ ¬ ∃ r, l = "if".toList ++ r)
    (hd' : ∀ l ∈ splitChar '\n' text', (¬ ∃ r, l = "include::".toList ++ r) ∧ ¬ ∃ r, l = "if".toList ++ r)
    (hp : p.num.topmost = .normal) (hf : text.length < fuel) (hf' : text'.length < fuel)
    (h1 : HeaderReads .start text hls stage rest) (h2 : SkipEmpty rest body)
    (h1' : HeaderReads .start text' hls' stage' rest') (h2' : SkipEmpty rest' body')
    (h3 : HeaderEffect (fun s t => (c.env fuel).subs s .header none t) c.renderer p.store hls store)
    (h4 : Flat 1 5 secs tokens) (h5 : Layout (renders (c.env fuel) store) true (leaves.map .leaf ++ tokens) (lines body))
    (hh : HLine.telling hls' = HLine.telling hls) (hb : Remarked S (lines body) (lines body'))
    (hl : ∀ x ∈ leaves.map Token.leaf ++ tokens, x.Apart S) :
    ∃ d p₁ d' p₁', c.parse fuel p text = .ok (d, [], p₁) ∧ c.parse fuel p text' = .ok (d', [], p₁') ∧
      DocumentShows (renders (c.env fuel) store) leaves secs d.blocks ∧
      DocumentShows (renders (c.env fuel) store) leaves secs d'.blocks ∧
      HeaderShows (fun s t => (c.env fuel).subs s .header none t) c.renderer p.store hls (contentsOf d.header) ∧
      contentsOf d'.header = contentsOf d.header := by
  have h3' := headerEffect_told (ls := hls') (hh ▸ headerEffect_telling h3)
  obtain ⟨d, p₁, m1, m2, m3, _⟩ := C62_outline hc hd hp hf h1 h2 h3 h4 h5
  obtain ⟨d', p', k1, k2, k3, _⟩ := C62_outline hc hd' hp hf' h1' h2' h3' h4 (layout_remarked h5 hl hb)
  have k4 := headerShows_telling k3
  rw [hh] at k4
  exact ⟨d, p₁, d', p', m1, k1, m2, k2, m3, k4.det (headerShows_telling m3)⟩

/-- C83. Comment lines and empty lines in front of a document: for every document written by the rules of C62, also with
verbatim blocks, they make no difference to the blocks, the sections, and the contents of the header. -/
theorem C83_front {c : Config} {fuel : Nat} {p : ParserState} {pre text rest body : Text} {hls : List HLine} {stage : Stage}
    {store : AttrStore} {leaves : List Leaf} {secs : List Sec} {tokens : List Token} (hc : c.primary = none)
    (hd : ∀ l ∈ splitChar '\n' text, (¬ ∃ r, l = "include::".toList ++ r) ∧ ¬ ∃ r, l = "if".toList ++ r)
    (hp : p.num.topmost = .normal) (hf : (pre ++ text).length < fuel)
    (h1 : HeaderReads .start text hls stage rest) (h2 : SkipEmpty rest body)
    (h3 : HeaderEffect (fun s t => (c.env fuel).subs s .header none t) c.renderer p.store hls store)
    (h4 : Flat 1 5 secs tokens) (h5 : Layout (renders (c.env fuel) store) true (leaves.map .leaf ++ tokens) (lines body))
    (hpre : CommentLines pre) :
    ∃ d p₁ d' p₁', c.parse fuel p text = .ok (d, [], p₁) ∧ c.parse fuel p (pre ++ text) = .ok (d', [], p₁') ∧
      DocumentShows (renders (c.env fuel) store) leaves secs d.blocks ∧
      DocumentShows (renders (c.env fuel) store) leaves secs d'.blocks ∧
      HeaderShows (fun s t => (c.env fuel).subs s .header none t) c.renderer p.store hls (contentsOf d.header) ∧
      contentsOf d'.header = contentsOf d.header := by
  obtain ⟨hls', g1, hh⟩ := headerReads_comments hpre h1
  have h3' := headerEffect_told (ls := hls') (hh ▸ headerEffect_telling h3)
  have hd' : ∀ l ∈ splitChar '\n' (pre ++ text), (¬ ∃ r, l = "include::".toList ++ r) ∧ ¬ ∃ r, l = "if".toList ++ r := by
    intro l hl
    rcases split_comments hpre text l hl with h | h
    · exact hd l h
    · exact ⟨fun ⟨r, e⟩ => h (by rw [e]; rfl), fun ⟨r, e⟩ => h (by rw [e]; rfl)⟩
  obtain ⟨d, p₁, m1, m2, m3, _⟩ := C62_outline hc hd hp (by simp at hf; omega) h1 h2 h3 h4 h5
  obtain ⟨d', p', k1, k2, k3, _⟩ := C62_outline hc hd' hp hf g1 h2 h3' h4 h5
  have k4 := headerShows_telling k3
  rw [hh] at k4
  exact ⟨d, p₁, d', p', m1, k1, m2, k2, m3, k4.det (headerShows_telling m3)⟩

/-- C83. For every two documents without directives, whatever their bodies are: if the lines of their headers are the same
except for comments and empty lines, the contents of the headers are the same. -/
theorem C83_header {c : Config} {fuel : Nat} {p p₁ p₂ : ParserState} {text text' rest rest' : Text} {hls hls' : List HLine}
    {stage stage' : Stage} {d d' : Document} {m m' : SourceMap} (hc : c.primary = none)
    (hd : ∀ l ∈ splitChar '\n' text, (¬ ∃ r, l = "include::".toList ++ r) ∧ ¬ ∃ r, l = "if".toList ++ r)
    (hd' : ∀ l ∈ splitChar '\n' text', (¬ ∃ r, l = "include::".toList ++ r) ∧ ¬ ∃ r, l = "if".toList ++ r)
    (h1 : HeaderReads .start text hls stage rest) (h1' : HeaderReads .start text' hls' stage' rest')
    (hh : HLine.telling hls' = HLine.telling hls)
    (h : c.parse fuel p text = .ok (d, m, p₁)) (h' : c.parse fuel p text' = .ok (d', m', p₂)) :
    contentsOf d'.header = contentsOf d.header := by
  obtain ⟨_, _, _, g1, g2⟩ := header_read hc hd h
  obtain ⟨_, _, _, g1', g2'⟩ := header_read hc hd' h'
  obtain ⟨rfl, _, _⟩ := h1.det g1
  obtain ⟨rfl, _, _⟩ := h1'.det g1'
  have k := headerShows_telling g2'
  rw [hh] at k
  exact k.det (headerShows_telling g2)

/-- C83. For every document without directives, whatever its body is: comment lines and empty lines in front of it make no
difference to the contents of the header. -/
theorem C83_header_front {c : Config} {fuel : Nat} {p p₁ p₂ : ParserState} {pre text : Text} {d d' : Document} {m m' : SourceMap}
    (hc : c.primary = none)
    (hd : ∀ l ∈ splitChar '\n' text, (¬ ∃ r, l = "include::".toList ++ r) ∧ ¬ ∃ r, l = "if".toList ++ r) (hpre : CommentLines pre)
    (h : c.parse fuel p text = .ok (d, m, p₁)) (h' : c.parse fuel p (pre ++ text) = .ok (d', m', p₂)) :
    contentsOf d'.header = contentsOf d.header := by
  have hd' : ∀ l ∈ splitChar '\n' (pre ++ text), (¬ ∃ r, l = "include::".toList ++ r) ∧ ¬ ∃ r, l = "if".toList ++ r := by
    intro l hl
    rcases split_comments hpre text l hl with h | h
    · exact hd l h
    · exact ⟨fun ⟨r, e⟩ => h (by rw [e]; rfl), fun ⟨r, e⟩ => h (by rw [e]; rfl)⟩
  obtain ⟨hls, stage, rest, h1, _⟩ := header_read hc hd h
  obtain ⟨hls', g1, hh⟩ := headerReads_comments hpre h1
  exact C83_header hc hd hd' h1 g1 hh h h'

/-! ### Cases -/

/-- The texts of the paragraphs and of the blocks with verbatim content. -/
private def blockTexts (d : Document) : List Text :=
  d.blocks.map fun b => match b.kind with
    | .simple c _ => c.rendered
    | .raw c _ _ _ => c.rendered
    | _ => "?".toList

omit [Uni] in
/-- C83, why only partially: a comment line that stands alone between two paragraphs leaves an empty paragraph behind. -/
theorem C83_leaves_paragraph : letI := asciiUni
    parsed ((Config.default .checked).parse 60 ParserState.default "a\n\nb\n".toList)
      (fun d => decide (blockTexts d = ["a".toList, "b".toList])) = true ∧
    parsed ((Config.default .checked).parse 60 ParserState.default "a\n\n// c\n\nb\n".toList)
      (fun d => decide (blockTexts d = ["a".toList, [], "b".toList])) = true := by
  letI := asciiUni
  refine ⟨by decide +kernel, by decide +kernel⟩

omit [Uni] in
/-- C83, why only partially: a heading behind a comment line becomes the text of a paragraph. -/
theorem C83_hides_heading : letI := asciiUni
    parsed ((Config.default .checked).parse 60 ParserState.default "a\n\n== S\n".toList)
      (fun d => d.blocks.any fun b => match b.kind with | .section .. => true | _ => false) = true ∧
    parsed ((Config.default .checked).parse 60 ParserState.default "a\n\n// c\n== S\n".toList)
      (fun d => decide (blockTexts d = ["a".toList, "== S".toList])) = true := by
  letI := asciiUni
  refine ⟨by decide +kernel, by decide +kernel⟩

omit [Uni] in
/-- C83, why only partially: the delimiter of a block behind a comment line becomes the text of a paragraph, and the block ends
up as another one. -/
theorem C83_hides_block : letI := asciiUni
    parsed ((Config.default .checked).parse 60 ParserState.default "a\n\n----\nx\n----\n".toList)
      (fun d => decide (blockTexts d = ["a".toList, "x".toList])) = true ∧
    parsed ((Config.default .checked).parse 60 ParserState.default "a\n\n// c\n----\nx\n----\n".toList)
      (fun d => decide (blockTexts d = ["a".toList, "----\nx".toList, []])) = true := by
  letI := asciiUni
  refine ⟨by decide +kernel, by decide +kernel⟩

omit [Uni] in
/-- C83, why only partially: a comment block is a block of the document, with the comment as its text. -/
theorem C83_block_shown : letI := asciiUni
    parsed ((Config.default .checked).parse 60 ParserState.default "a\n\n////\nc\n////\n".toList)
      (fun d => decide (blockTexts d = ["a".toList, "c".toList])) = true := by
  letI := asciiUni
  decide +kernel

omit [Uni] in
private theorem firstLine_of {l rest : Text} (h : '\n' ∉ l) (h' : l.getLast? ≠ some '\r') :
    FirstLine (l ++ '\n' :: rest) l ['\n'] rest :=
  ⟨by simp, h, Or.inl rfl, fun ⟨r, e⟩ => absurd (by rw [e]; simp) h'⟩

omit [Uni] in
private theorem strip_self {l : Text} (h : l.getLast? ≠ some ' ') : StripSpaces l l :=
  ⟨[], by simp, by simp, fun ⟨r, e⟩ => absurd (by rw [e]; simp) h⟩

omit [Uni] in
private theorem stops {t rest : Text} (hf : FirstLine t "Hello".toList ['\n'] rest) : HeaderReads .start t [] .start t := by
  refine .stop fun _ l s' r hl => ?_
  have hh : HeadLine t "Hello".toList rest := ⟨_, _, hf, strip_self (by decide)⟩
  cases hl with
  | blank h => exact absurd (hh.det h).1 (by decide)
  | comment h hc => obtain ⟨x, e, _⟩ := hc; rw [← (hh.det h).1] at e; exact absurd (List.cons.inj e).1 (by decide)
  | entry h => have := entry_colon h; rw [hf.eq] at this; exact absurd this (by simp)
  | title h _ _ => have := (hh.det h).1; exact absurd (List.cons.inj this).1 (by decide)

omit [Uni] in
private theorem skips {t rest : Text} (hf : FirstLine t "Hello".toList ['\n'] rest) : SkipEmpty t t := by
  refine .stop fun l sep rest hf' _ hb => ?_
  rw [(hf'.det hf).1] at hb
  exact absurd (hb 'H' (by decide)) (by decide)

omit [Uni] in
private theorem entry_y {t hls stage rest} (h : HeaderReads .start t hls stage rest) (_ : t ≠ []) :
    HeaderReads .start (":y:".toList ++ '\n' :: t) (.entry ['y'] .set :: hls) stage rest := by
  refine .line (by simp) (.entry ⟨":y:".toList, ['\n'], ":y:".toList,
    .last (firstLine_of (l := ":y:".toList) (rest := t) (by decide) (by decide)) (Or.inl ?_), strip_self (by decide), .set (n := ['y']) ?_⟩) h
  · rw [← continued_iff]; decide
  · rw [refName_iff]; exact ⟨'y', [], rfl, by decide, by simp⟩

/-- Non-vacuity: an entry and a paragraph; the other text has a comment behind the entry and another one in the paragraph. -/
example : letI := asciiUni
    ∃ hls hls' stage rest rest' store leaves tokens,
      leaves ≠ [] ∧ hls' ≠ hls ∧ lines rest ≠ lines rest' ∧
      HeaderReads .start ":y:\nHello\n".toList hls stage rest ∧ SkipEmpty rest rest ∧
      HeaderReads .start ":y:\n// c\nHello\n// d\n".toList hls' stage rest' ∧ SkipEmpty rest' rest' ∧
      HeaderEffect (fun s t => ((Config.default .checked).env 60).subs s .header none t) (Config.default .checked).renderer
        ParserState.default.store hls store ∧
      Flat 1 5 [] tokens ∧
      Layout (renders ((Config.default .checked).env 60) store) true (leaves.map .leaf ++ tokens) (lines rest) ∧
      HLine.telling hls' = HLine.telling hls ∧ Remarked (· = "Hello".toList) (lines rest) (lines rest') ∧
      (∀ x ∈ leaves.map Token.leaf ++ tokens, x.Apart (· = "Hello".toList)) := by
  letI := asciiUni
  have hp : ∀ t, isProse t = true → Prose t := fun t h => isProse_iff.mp h
  have hf : FirstLine "Hello\n".toList "Hello".toList ['\n'] [] := firstLine_of (l := "Hello".toList) (by decide) (by decide)
  have hf' : FirstLine "Hello\n// d\n".toList "Hello".toList ['\n'] "// d\n".toList := firstLine_of (l := "Hello".toList) (by decide) (by decide)
  have hprose : ProseLine "Hello".toList := line_test rfl (by decide) (by decide) (by decide) ⟨'o', rfl, by decide⟩
  have hbeg : Begins "Hello".toList := prose_begins (hp "Hello".toList (by decide +kernel)) (by decide) hprose
  refine ⟨[.entry ['y'] .set], [.entry ['y'] .set, .comment "// c".toList], .start, "Hello\n".toList, "Hello\n// d\n".toList, _,
    [.para "Hello".toList], [], by simp, by simp, by decide, entry_y (stops hf) (by decide), skips hf, ?_, skips hf',
    .cons (.entry .set (.other (by decide))) .nil, .nil, ?_, rfl, ?_, ?_⟩
  · refine entry_y (t := "// c\nHello\n// d\n".toList) (.line (by decide) (.comment (rest := "Hello\n// d\n".toList)
      ⟨"// c".toList, ['\n'], firstLine_of (l := "// c".toList) (rest := "Hello\n// d\n".toList) (by decide) (by decide), strip_self (by decide)⟩ ⟨" c".toList, rfl, by decide⟩) (stops hf')) (by decide)
  · refine written_layout (c := Config.default .checked) (f := 59) (leaves := [.para "Hello".toList]) (secs := []) (by decide +kernel) ?_ .nil
    intro b hb
    rw [List.mem_singleton] at hb
    subst hb
    refine .para (hp _ (by decide +kernel)) ?_
    intro l hl
    rw [show splitChar '\n' "Hello".toList = ["Hello".toList] by decide, List.mem_singleton] at hl
    subst hl
    exact hprose
  · exact .cons (l := "Hello".toList) (cs := ["// d".toList]) (fun _ => ⟨rfl, hbeg.form, ⟨'H', by decide, by decide, by decide⟩, hbeg.title, hbeg.bracket⟩)
      (fun c hc => by rw [List.mem_singleton] at hc; subst hc; exact ⟨" d".toList, rfl, by decide⟩) .nil
  · intro x hx
    rw [List.append_nil, List.map_cons, List.map_nil, List.mem_singleton] at hx
    subst hx
    exact .para

/-- Non-vacuity of `C83_front` and `C83_header_front`: a license in front of a title. -/
example : letI := asciiUni
    CommentLines "// x\n\n".toList ∧
    parsed ((Config.default .checked).parse 60 ParserState.default "= T\n\na\n".toList)
      (fun d => decide (d.header.title = some "T".toList)) = true ∧
    parsed ((Config.default .checked).parse 60 ParserState.default ("// x\n\n".toList ++ "= T\n\na\n".toList))
      (fun d => decide (d.header.title = some "T".toList)) = true := by
  letI := asciiUni
  exact ⟨.comment (l := "// x".toList) (e := ['\n']) ⟨" x".toList, rfl, by decide⟩ (by decide)
      (fun r e => absurd (congrArg List.getLast? e) (by simp)) (Or.inl rfl)
      (.empty (sp := []) (e := ['\n']) (by simp) (Or.inl rfl) .nil),
    by decide +kernel, by decide +kernel⟩

end Adoc.Props
