import Verif.Lemmas.Append
import Verif.Props.SpaceEnds
import Verif.Props.Total
/-!
# C82: empty lines around a document
-/

namespace Adoc.Props
open Adoc Span Spec Lemmas

variable [Uni]

/-- C82 (partial). Empty lines in front of a document and behind it make no difference.  Take a text that is written by the
rules of C62, has a body, and ends in a line feed, and put empty lines (or lines of spaces) in front of it and behind it: both
texts are parsed, and both documents show the same blocks and sections with the same text, and in their headers the same
title, authors, revision and attributes.  What is missing: behind a document that ends in a delimited block an empty line makes
parsing go on for ever (`C82_delimiter_stalls`), and behind a line with a tab the title is not found (`C82_tab_hides_title`);
documents with a header only; and author and revision lines that begin with a colon. -/
theorem C82_around_partial {c : Config} {fuel : Nat} {p : ParserState} {pre text post rest body : Text} {hls : List HLine}
    {stage : Stage} {store : AttrStore} {leaves : List Leaf} {secs : List Sec} {tokens : List Token} (hc : c.primary = none)
    (hd : ∀ l ∈ splitChar '\n' text, (¬ ∃ r, l = "include::".toList ++ r) ∧ ¬ ∃ r, l = "if".toList ++ r)
    (hp : p.num.topmost = .normal) (hf : (pre ++ (text ++ post)).length < fuel)
    (h1 : HeaderReads .start text hls stage rest) (h2 : SkipEmpty rest body)
    (h3 : HeaderEffect (fun s t => (c.env fuel).subs s .header none t) c.renderer p.store hls store)
    (h4 : Flat 1 5 secs tokens) (h5 : Layout (renders (c.env fuel) store) true (leaves.map .leaf ++ tokens) (lines body))
    (hn : ∃ a, text = a ++ ['\n']) (hb : body ≠ [])
    (ha : ∀ l, (HLine.author l ∈ hls ∨ HLine.revision l ∈ hls) → l.head? ≠ some ':')
    (hl : ∀ x, (leaves.map Token.leaf ++ tokens).getLast? = some x → x.closed = false)
    (hpre : EmptyLines pre) (hpost : EmptyLines post) :
    ∃ d p₁ d' p₁', c.parse fuel p text = .ok (d, [], p₁) ∧ c.parse fuel p (pre ++ (text ++ post)) = .ok (d', [], p₁') ∧
      DocumentShows (renders (c.env fuel) store) leaves secs d.blocks ∧
      DocumentShows (renders (c.env fuel) store) leaves secs d'.blocks ∧
      HeaderShows (fun s t => (c.env fuel).subs s .header none t) c.renderer p.store hls (contentsOf d.header) ∧
      contentsOf d'.header = contentsOf d.header := by
  have hr : rest ≠ [] := by
    rintro rfl
    cases h2 with
    | stop _ => exact hb rfl
    | skip h _ _ _ => exact h rfl
  obtain ⟨g1, g2⟩ := headerReads_further h1 (Or.inr hn) hr (rest_colon h2 h5) ha post
  obtain ⟨n, g3⟩ := headerReads_front hpre g1
  obtain ⟨g4, g5⟩ := skipEmpty_further h2 g2 hb post
  have g6 : Layout (renders (c.env fuel) store) true (leaves.map .leaf ++ tokens) (lines (body ++ post)) := by
    rw [lines_further post g5]
    exact layout_more hpost.lines _ (Nat.le_refl _) h5 (fun _ => rfl) hl
  have hd' : ∀ l ∈ splitChar '\n' (pre ++ (text ++ post)), (¬ ∃ r, l = "include::".toList ++ r) ∧ ¬ ∃ r, l = "if".toList ++ r := by
    intro l hl
    rcases split_around hpre hpost hn l hl with h | h
    · exact hd l h
    · constructor
      · rintro ⟨r, rfl⟩; exact absurd (h 'i' (by simp)) (by decide)
      · rintro ⟨r, rfl⟩; exact absurd (h 'i' (by simp)) (by decide)
  have hf' : text.length < fuel := by simp at hf; omega
  obtain ⟨d, p₁, m1, m2, m3, _⟩ := C62_outline hc hd hp hf' h1 h2 h3 h4 h5
  obtain ⟨d', p', k1, k2, k3, _⟩ := C62_outline hc hd' hp hf g3 g4 (headerEffect_front h3 n) h4 g6
  exact ⟨d, p₁, d', p', m1, k1, m2, k2, m3, (headerShows_front n k3).det m3⟩

/-- C82. For every document without directives, whatever its body is: empty lines (or lines of spaces) in front of it make no
difference to the contents of the header. -/
theorem C82_header {c : Config} {fuel : Nat} {p p₁ p₂ : ParserState} {pre text : Text} {d d' : Document} {m m' : SourceMap}
    (hc : c.primary = none)
    (hd : ∀ l ∈ splitChar '\n' text, (¬ ∃ r, l = "include::".toList ++ r) ∧ ¬ ∃ r, l = "if".toList ++ r) (hpre : EmptyLines pre)
    (h : c.parse fuel p text = .ok (d, m, p₁)) (h' : c.parse fuel p (pre ++ text) = .ok (d', m', p₂)) :
    contentsOf d'.header = contentsOf d.header := by
  have hd' : ∀ l ∈ splitChar '\n' (pre ++ text), (¬ ∃ r, l = "include::".toList ++ r) ∧ ¬ ∃ r, l = "if".toList ++ r := by
    intro l hl
    rcases split_front hpre text l hl with h | h
    · exact hd l h
    · constructor
      · rintro ⟨r, rfl⟩; exact absurd (h 'i' (by simp)) (by decide)
      · rintro ⟨r, rfl⟩; exact absurd (h 'i' (by simp)) (by decide)
  obtain ⟨hls, stage, rest, h1, h2⟩ := header_read hc hd h
  obtain ⟨hls', stage', rest', g1, g2⟩ := header_read hc hd' h'
  obtain ⟨n, k1⟩ := headerReads_front hpre h1
  obtain ⟨rfl, _, _⟩ := k1.det g1
  exact (headerShows_front n g2).det h2

/-! ### Cases -/

omit [Uni] in
/-- C82, why only partially: behind a delimited block at the end of a document an empty line makes parsing go on for ever. -/
theorem C82_delimiter_stalls (a : Arith) : letI := asciiUni
    ∃ text post, EmptyLines post ∧ parsed ((Config.default a).parse 60 ParserState.default text) (fun d => d.blocks.length == 1) = true ∧
      ∀ n, (Config.default a).parse n ParserState.default (text ++ post) = .error .fuel := by
  letI := asciiUni
  refine ⟨"----\nx\n----\n".toList, ['\n'], .cons (sp := []) (t := []) (by simp) (Or.inl rfl) .nil, ?_, C21_diverges_ordinary a _ (by decide)⟩
  cases a <;> decide +kernel

omit [Uni] in
/-- C82, why only partially: the title behind a line with a tab is not found, although other empty lines may stand in front of
it. -/
theorem C82_tab_hides_title : letI := asciiUni
    parsed ((Config.default .checked).parse 60 ParserState.default "\n= T\n\na\n".toList)
      (fun d => decide (d.header.title = some "T".toList)) = true ∧
    parsed ((Config.default .checked).parse 60 ParserState.default "\t\n= T\n\na\n".toList)
      (fun d => decide (d.header.title = none)) = true := by
  letI := asciiUni
  refine ⟨by decide +kernel, by decide +kernel⟩

omit [Uni] in
private theorem firstLine_of {l rest : Text} (h : '\n' ∉ l) (h' : l.getLast? ≠ some '\r') :
    FirstLine (l ++ '\n' :: rest) l ['\n'] rest :=
  ⟨by simp, h, Or.inl rfl, fun ⟨r, e⟩ => absurd (by rw [e]; simp) h'⟩

omit [Uni] in
private theorem strip_self {l : Text} (h : l.getLast? ≠ some ' ') : StripSpaces l l :=
  ⟨[], by simp, by simp, fun ⟨r, e⟩ => absurd (by rw [e]; simp) h⟩

/-- Non-vacuity: an entry and a paragraph, with empty lines around them. -/
example : letI := asciiUni
    ∃ hls stage rest body store leaves tokens,
      (∃ n k, HLine.entry n k ∈ hls) ∧ leaves ≠ [] ∧
      HeaderReads .start ":y:\nHello\n".toList hls stage rest ∧ SkipEmpty rest body ∧
      HeaderEffect (fun s t => ((Config.default .checked).env 60).subs s .header none t) (Config.default .checked).renderer
        ParserState.default.store hls store ∧
      Flat 1 5 [] tokens ∧
      Layout (renders ((Config.default .checked).env 60) store) true (leaves.map .leaf ++ tokens) (lines body) ∧
      (∃ a, ":y:\nHello\n".toList = a ++ ['\n']) ∧ body ≠ [] ∧
      (∀ l, (HLine.author l ∈ hls ∨ HLine.revision l ∈ hls) → l.head? ≠ some ':') ∧
      (∀ x, (leaves.map Token.leaf ++ tokens).getLast? = some x → x.closed = false) ∧
      EmptyLines "  \n\n".toList ∧ EmptyLines "\n".toList := by
  letI := asciiUni
  have hp : ∀ t, isProse t = true → Prose t := fun t h => isProse_iff.mp h
  refine ⟨[.entry ['y'] .set], .start, "Hello\n".toList, "Hello\n".toList, _, [.para "Hello".toList], [], ⟨['y'], .set, by simp⟩, by simp,
    ?_, ?_, .cons (.entry .set (.other (by decide))) .nil, .nil, ?_, ⟨":y:\nHello".toList, rfl⟩, by decide, by simp, ?_,
    .cons (sp := "  ".toList) (e := ['\n']) (by decide) (Or.inl rfl) (.cons (sp := []) (e := ['\n']) (by simp) (Or.inl rfl) .nil),
    .cons (sp := []) (e := ['\n']) (by simp) (Or.inl rfl) .nil⟩
  · refine .line (by decide) (.entry ⟨":y:".toList, ['\n'], ":y:".toList,
      .last (firstLine_of (l := ":y:".toList) (rest := "Hello\n".toList) (by decide) (by decide)) (Or.inl ?_), strip_self (by decide), .set (n := ['y']) ?_⟩) (.stop fun _ l s' r hl => ?_)
    · rw [← continued_iff]; decide
    · rw [refName_iff]; exact ⟨'y', [], rfl, by decide, by simp⟩
    · have hf := firstLine_of (l := "Hello".toList) (rest := []) (by decide) (by decide)
      have hh : HeadLine "Hello\n".toList "Hello".toList [] := ⟨_, _, hf, strip_self (by decide)⟩
      cases hl with
      | blank h => exact absurd (hh.det h).1 (by decide)
      | comment h hc => obtain ⟨x, e, _⟩ := hc; rw [← (hh.det h).1] at e; exact absurd (List.cons.inj e).1 (by decide)
      | entry h => exact absurd (entry_colon h) (by decide)
      | title h _ _ => have := (hh.det h).1; exact absurd (List.cons.inj this).1 (by decide)
  · refine .stop fun l sep rest hf _ hb => ?_
    rw [(hf.det (firstLine_of (l := "Hello".toList) (rest := []) (by decide) (by decide))).1] at hb
    exact absurd (hb 'H' (by decide)) (by decide)
  · refine written_layout (c := Config.default .checked) (f := 59) (leaves := [.para "Hello".toList]) (secs := []) (by decide +kernel) ?_ .nil
    intro b hb
    rw [List.mem_singleton] at hb
    subst hb
    refine .para (hp _ (by decide +kernel)) ?_
    intro l hl
    rw [show splitChar '\n' "Hello".toList = ["Hello".toList] by decide, List.mem_singleton] at hl
    subst hl
    exact line_test rfl (by decide) (by decide) (by decide) ⟨'o', rfl, by decide⟩
  · intro x hx
    cases hx
    rfl

/-- Non-vacuity of `C82_header`: both documents are parsed, and have the title. -/
example : letI := asciiUni
    EmptyLines " \n\n".toList ∧
    parsed ((Config.default .checked).parse 60 ParserState.default "= T\n\na\n".toList)
      (fun d => decide (d.header.title = some "T".toList)) = true ∧
    parsed ((Config.default .checked).parse 60 ParserState.default (" \n\n".toList ++ "= T\n\na\n".toList))
      (fun d => decide (d.header.title = some "T".toList)) = true := by
  letI := asciiUni
  exact ⟨.cons (sp := [' ']) (e := ['\n']) (by simp) (Or.inl rfl) (.cons (sp := []) (e := ['\n']) (by simp) (Or.inl rfl) .nil),
    by decide +kernel, by decide +kernel⟩

end Adoc.Props
