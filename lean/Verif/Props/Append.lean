import Verif.Lemmas.Append
import Verif.Props.SpaceEnds
/-!
# C84: what is put behind a document
-/

namespace Adoc.Props
open Adoc Span Spec Lemmas

variable [Uni]

private theorem appended {c : Config} {fuel : Nat} {p : ParserState} {text more rest body : Text} {hls : List HLine} {stage : Stage}
    {store : AttrStore} {toks toks2 : List Token} {leaves2 : List Leaf} {secs2 : List Sec} {tokens2 : List Token} (hc : c.primary = none)
    (hd : ∀ l ∈ splitChar '\n' text, (¬ ∃ r, l = "include::".toList ++ r) ∧ ¬ ∃ r, l = "if".toList ++ r)
    (hd' : ∀ l ∈ splitChar '\n' more, (¬ ∃ r, l = "include::".toList ++ r) ∧ ¬ ∃ r, l = "if".toList ++ r)
    (hp : p.num.topmost = .normal) (hf : (text ++ '\n' :: more).length < fuel)
    (h1 : HeaderReads .start text hls stage rest) (h2 : SkipEmpty rest body)
    (h3 : HeaderEffect (fun s t => (c.env fuel).subs s .header none t) c.renderer p.store hls store)
    (h5 : Layout (renders (c.env fuel) store) true toks (lines body)) (hn : ∃ a, text = a ++ ['\n']) (hb : body ≠ [])
    (ha : ∀ l, (HLine.author l ∈ hls ∨ HLine.revision l ∈ hls) → l.head? ≠ some ':')
    (h6 : Layout (renders (c.env fuel) store) false toks2 (lines more)) (hm : toks2 ≠ [])
    (h4 : Flat 1 5 secs2 tokens2) (he : toks ++ toks2 = leaves2.map .leaf ++ tokens2) :
    ∃ d p₁, c.parse fuel p (text ++ '\n' :: more) = .ok (d, [], p₁) ∧
      DocumentShows (renders (c.env fuel) store) leaves2 secs2 d.blocks ∧
      HeaderShows (fun s t => (c.env fuel).subs s .header none t) c.renderer p.store hls (contentsOf d.header) := by
  have hr : rest ≠ [] := by
    rintro rfl
    cases h2 with
    | stop _ => exact hb rfl
    | skip h _ _ _ => exact h rfl
  obtain ⟨g1, g2⟩ := headerReads_further h1 (Or.inr hn) hr (rest_colon h2 h5) ha ('\n' :: more)
  obtain ⟨g4, g5⟩ := skipEmpty_further h2 g2 hb ('\n' :: more)
  have g6 : Layout (renders (c.env fuel) store) true (leaves2.map .leaf ++ tokens2) (lines (body ++ '\n' :: more)) := by
    rw [lines_further _ g5, lines_behind, ← he]
    exact layout_append h5 h6 hm
  have hd2 : ∀ l ∈ splitChar '\n' (text ++ '\n' :: more), (¬ ∃ r, l = "include::".toList ++ r) ∧ ¬ ∃ r, l = "if".toList ++ r := by
    obtain ⟨a, rfl⟩ := hn
    intro l hl
    rw [List.append_assoc, List.singleton_append] at hl
    rcases split_behind l hl with h | rfl | h
    · exact hd l h
    · exact ⟨(fun ⟨r, e⟩ => by cases e), (fun ⟨r, e⟩ => by cases e)⟩
    · exact hd' l h
  obtain ⟨d, p', k1, k2, k3, _⟩ := C62_outline hc hd2 hp hf g1 g4 h3 h4 g6
  exact ⟨d, p', k1, k2, k3⟩

/-- C84. Sections put behind a document.  Take a text that is written by the rules of C62, has a body, and ends in a line feed
(its author and revision lines do not begin with a colon), and put behind it an empty line and a text that is written by these rules too and consists of sections of the first level: both
texts are parsed, the header of the longer one has the same contents, its blocks in front of the sections are the same, and so
are the sections of the first text (with their blocks and subsections); those put behind it follow. -/
theorem C84_sections {c : Config} {fuel : Nat} {p : ParserState} {text more rest body : Text} {hls : List HLine} {stage : Stage}
    {store : AttrStore} {leaves : List Leaf} {secs secs2 : List Sec} {tokens tokens2 : List Token} (hc : c.primary = none)
    (hd : ∀ l ∈ splitChar '\n' text, (¬ ∃ r, l = "include::".toList ++ r) ∧ ¬ ∃ r, l = "if".toList ++ r)
    (hd' : ∀ l ∈ splitChar '\n' more, (¬ ∃ r, l = "include::".toList ++ r) ∧ ¬ ∃ r, l = "if".toList ++ r)
    (hp : p.num.topmost = .normal) (hf : (text ++ '\n' :: more).length < fuel)
    (h1 : HeaderReads .start text hls stage rest) (h2 : SkipEmpty rest body)
    (h3 : HeaderEffect (fun s t => (c.env fuel).subs s .header none t) c.renderer p.store hls store)
    (h4 : Flat 1 5 secs tokens) (h5 : Layout (renders (c.env fuel) store) true (leaves.map .leaf ++ tokens) (lines body))
    (hn : ∃ a, text = a ++ ['\n']) (hb : body ≠ [])
    (ha : ∀ l, (HLine.author l ∈ hls ∨ HLine.revision l ∈ hls) → l.head? ≠ some ':')
    (h6 : Layout (renders (c.env fuel) store) false tokens2 (lines more)) (h7 : Flat 1 0 secs2 tokens2) (hm : secs2 ≠ []) :
    ∃ d p₁ d' p₁', c.parse fuel p text = .ok (d, [], p₁) ∧ c.parse fuel p (text ++ '\n' :: more) = .ok (d', [], p₁') ∧
      DocumentShows (renders (c.env fuel) store) leaves secs d.blocks ∧
      DocumentShows (renders (c.env fuel) store) leaves (secs ++ secs2) d'.blocks ∧
      contentsOf d'.header = contentsOf d.header := by
  have hm' : tokens2 ≠ [] := by cases h7 with | nil => exact absurd rfl hm | cons => simp
  obtain ⟨d, p₁, m1, m2, m3, _⟩ := C62_outline hc hd hp (by simp at hf; omega) h1 h2 h3 h4 h5
  obtain ⟨d', p', k1, k2, k3⟩ := appended (leaves2 := leaves) hc hd hd' hp hf h1 h2 h3 h5 hn hb ha h6 hm' (flat_append h4 h7) (by simp)
  exact ⟨d, p₁, d', p', m1, k1, m2, k2, k3.det m3⟩

/-- C84. Blocks (and sections behind them) put behind a document without sections: the same, with all the blocks in front of the
sections. -/
theorem C84_blocks {c : Config} {fuel : Nat} {p : ParserState} {text more rest body : Text} {hls : List HLine} {stage : Stage}
    {store : AttrStore} {leaves leaves2 : List Leaf} {secs2 : List Sec} {tokens2 : List Token} (hc : c.primary = none)
    (hd : ∀ l ∈ splitChar '\n' text, (¬ ∃ r, l = "include::".toList ++ r) ∧ ¬ ∃ r, l = "if".toList ++ r)
    (hd' : ∀ l ∈ splitChar '\n' more, (¬ ∃ r, l = "include::".toList ++ r) ∧ ¬ ∃ r, l = "if".toList ++ r)
    (hp : p.num.topmost = .normal) (hf : (text ++ '\n' :: more).length < fuel)
    (h1 : HeaderReads .start text hls stage rest) (h2 : SkipEmpty rest body)
    (h3 : HeaderEffect (fun s t => (c.env fuel).subs s .header none t) c.renderer p.store hls store)
    (h5 : Layout (renders (c.env fuel) store) true (leaves.map .leaf) (lines body))
    (hn : ∃ a, text = a ++ ['\n']) (hb : body ≠ [])
    (ha : ∀ l, (HLine.author l ∈ hls ∨ HLine.revision l ∈ hls) → l.head? ≠ some ':')
    (h6 : Layout (renders (c.env fuel) store) false (leaves2.map .leaf ++ tokens2) (lines more)) (h7 : Flat 1 5 secs2 tokens2)
    (hm : leaves2 ≠ []) :
    ∃ d p₁ d' p₁', c.parse fuel p text = .ok (d, [], p₁) ∧ c.parse fuel p (text ++ '\n' :: more) = .ok (d', [], p₁') ∧
      DocumentShows (renders (c.env fuel) store) leaves [] d.blocks ∧
      DocumentShows (renders (c.env fuel) store) (leaves ++ leaves2) secs2 d'.blocks ∧
      contentsOf d'.header = contentsOf d.header := by
  obtain ⟨d, p₁, m1, m2, m3, _⟩ := C62_outline hc hd hp (by simp at hf; omega) h1 h2 h3 (.nil (most := 5)) (by simpa using h5)
  obtain ⟨d', p', k1, k2, k3⟩ := appended (leaves2 := leaves ++ leaves2) hc hd hd' hp hf h1 h2 h3 h5 hn hb ha h6 (by simp [hm]) h7 (by simp)
  exact ⟨d, p₁, d', p', m1, k1, m2, k2, k3.det m3⟩

/-! ### Cases -/

/-- The texts of the paragraphs and of the blocks with verbatim content. -/
private def blockTexts (d : Document) : List Text :=
  d.blocks.map fun b => match b.kind with
    | .simple c _ => c.rendered
    | .raw c _ _ _ => c.rendered
    | _ => "?".toList

omit [Uni] in
/-- C84, why the documents have to be written by the rules: what is put behind a block that is not closed belongs to it. -/
theorem C84_unclosed : letI := asciiUni
    parsed ((Config.default .checked).parse 60 ParserState.default "a\n\n----\nx\n".toList)
      (fun d => decide (blockTexts d = ["a".toList, "x".toList])) = true ∧
    parsed ((Config.default .checked).parse 60 ParserState.default "a\n\n----\nx\n\nb\n".toList)
      (fun d => decide (blockTexts d = ["a".toList, "x\n\nb".toList])) = true := by
  letI := asciiUni
  refine ⟨by decide +kernel, by decide +kernel⟩

omit [Uni] in
private theorem firstLine_of {l rest : Text} (h : '\n' ∉ l) (h' : l.getLast? ≠ some '\r') :
    FirstLine (l ++ '\n' :: rest) l ['\n'] rest :=
  ⟨by simp, h, Or.inl rfl, fun ⟨r, e⟩ => absurd (by rw [e]; simp) h'⟩

omit [Uni] in
private theorem strip_self {l : Text} (h : l.getLast? ≠ some ' ') : StripSpaces l l :=
  ⟨[], by simp, by simp, fun ⟨r, e⟩ => absurd (by rw [e]; simp) h⟩

omit [Uni] in
/-- Non-vacuity: a paragraph, and a verbatim block put behind it. -/
theorem append_case : letI := asciiUni
    ∃ rest body leaves leaves2 tokens2, leaves ≠ [] ∧ leaves2 ≠ [] ∧
      HeaderReads .start "Hello\n".toList [] .start rest ∧ SkipEmpty rest body ∧
      HeaderEffect (fun s t => ((Config.default .checked).env 60).subs s .header none t) (Config.default .checked).renderer
        ParserState.default.store [] ParserState.default.store ∧
      Layout (renders ((Config.default .checked).env 60) ParserState.default.store) true (leaves.map .leaf) (lines body) ∧
      (∃ a, "Hello\n".toList = a ++ ['\n']) ∧ body ≠ [] ∧
      Layout (renders ((Config.default .checked).env 60) ParserState.default.store) false (leaves2.map .leaf ++ tokens2)
        (lines "----\nx\n----\n".toList) ∧ Flat 1 5 [] tokens2 := by
  letI := asciiUni
  have hp : ∀ t, isProse t = true → Prose t := fun t h => isProse_iff.mp h
  have hf : FirstLine "Hello\n".toList "Hello".toList ['\n'] [] := firstLine_of (l := "Hello".toList) (by decide) (by decide)
  have hh : HeadLine "Hello\n".toList "Hello".toList [] := ⟨_, _, hf, strip_self (by decide)⟩
  refine ⟨"Hello\n".toList, "Hello\n".toList, [.para "Hello".toList], [.verbatim '-' ["x".toList]], [], by simp, by simp,
    .stop fun _ l s' r hl => ?_, ?_, .nil, ?_, ⟨"Hello".toList, rfl⟩, by decide, ?_, .nil⟩
  · cases hl with
    | blank h => exact absurd (hh.det h).1 (by decide)
    | comment h hc => obtain ⟨x, e, _⟩ := hc; rw [← (hh.det h).1] at e; exact absurd (List.cons.inj e).1 (by decide)
    | entry h => exact absurd (entry_colon h) (by decide)
    | title h _ _ => have := (hh.det h).1; exact absurd (List.cons.inj this).1 (by decide)
  · refine .stop fun l sep rest hf' _ hb => ?_
    rw [(hf'.det hf).1] at hb
    exact absurd (hb 'H' (by decide)) (by decide)
  · refine written_layout (c := Config.default .checked) (f := 59) (leaves := [.para "Hello".toList]) (secs := []) (by decide +kernel) ?_ .nil
    intro b hb
    rw [List.mem_singleton] at hb
    subst hb
    refine .para (hp _ (by decide +kernel)) ?_
    intro l hl
    rw [show splitChar '\n' "Hello".toList = ["Hello".toList] by decide, List.mem_singleton] at hl
    subst hl
    exact line_test rfl (by decide) (by decide) (by decide) ⟨'o', rfl, by decide⟩
  · exact .piece (.verbatim (c := '-') (d := "----".toList) (body := ["x".toList]) (rest := []) ⟨by simp, 0, rfl⟩ (by decide) (by simp [styleOf])
      (fun h => absurd rfl h)) .nil

/-- Non-vacuity of `C84_sections`: a section put behind a paragraph. -/
example : letI := asciiUni
    ∃ secs2 tokens2, secs2 ≠ [] ∧ Flat 1 0 secs2 tokens2 ∧
      Layout (renders ((Config.default .checked).env 60) ParserState.default.store) false tokens2 (lines "== B\n\ny\n".toList) ∧
      parsed ((Config.default .checked).parse 60 ParserState.default ("Hello\n".toList ++ '\n' :: "== B\n\ny\n".toList))
        (fun d => d.blocks.length == 2) = true := by
  letI := asciiUni
  have hp : ∀ t, isProse t = true → Prose t := fun t h => isProse_iff.mp h
  have hs : SecsWritable 1 5 [.mk "B".toList [.para "y".toList] []] := by
    refine .cons (by decide) (by decide)
      ⟨hp _ (by decide), by decide, ⟨⟨'B', [], rfl, by decide⟩, fun c h => by cases h; decide⟩⟩ (fun b hb => ?_) .nil .nil
      ⟨⟨by simp, by simp, by simp⟩, by simp [styleOf]⟩
    rw [List.mem_singleton] at hb
    subst hb
    refine .para (hp _ (by decide +kernel)) fun l hl => ?_
    rw [show splitChar '\n' "y".toList = ["y".toList] by decide, List.mem_singleton] at hl
    subst hl
    exact line_test rfl (by decide) (by decide) (by decide) ⟨'y', rfl, by decide⟩
  have h := written_layout (c := Config.default .checked) (f := 59) (store := ParserState.default.store) (leaves := []) (by decide +kernel) (by simp) hs
  rw [show lines (unlines (bodyLines [] [.mk "B".toList [.para "y".toList] []])) = ["== B".toList, [], "y".toList] by decide] at h
  refine ⟨[.mk "B".toList [.para "y".toList] []], _, by simp, .cons (Nat.le_refl 0) .nil .nil, ?_, by decide +kernel⟩
  rw [show lines "== B\n\ny\n".toList = ["== B".toList, [], "y".toList] by decide]
  cases h with
  | blank h1 _ =>
    rcases h1 with h1 | ⟨_, h1⟩
    · cases h1
    · exact absurd (h1 '=' (by decide)) (by decide)
  | piece h1 h2 => exact .piece h1 h2

end Adoc.Props
