import Verif.Lemmas.Delimiters
import Verif.Props.SpaceEnds
/-!
# C87: delimiters of another length
-/

namespace Adoc.Props
open Adoc Span Spec Lemmas

variable [Uni]

/-- C87 (partial). The length of delimiters does not matter.  Take a document written by the rules of C62, without comment lines
in its body and without delimiters among the lines of verbatim blocks, and replace its delimiters by others of the same kind,
the same by the same and different ones by different ones (`Redelimits`): both texts are parsed, and show the same blocks and
sections with the same text, and the same contents of the header.  What is missing: a delimiter behind a comment line is text
(`C87_behind_comment`). -/
theorem C87_delimiters_partial {c : Config} {fuel : Nat} {p : ParserState} {text text' rest rest' body body' : Text}
    {f : Text → Text} {hls hls' : List HLine} {stage stage' : Stage} {store : AttrStore} {leaves : List Leaf} {secs : List Sec}
    {tokens : List Token} (hc : c.primary = none)
    (hd : ∀ l ∈ splitChar '\n' text, (¬ ∃ r, l = "include::".toList ++ r) ∧ ¬ ∃ r, l = "if".toList ++ r)
    (hd' : ∀ l ∈ splitChar '\n' text', (¬ ∃ r, l = "include::".toList ++ r) ∧ ¬ ∃ r, l = "if".toList ++ r)
    (hp : p.num.topmost = .normal) (hf : text.length < fuel) (hf' : text'.length < fuel)
    (h1 : HeaderReads .start text hls stage rest) (h2 : SkipEmpty rest body)
    (h1' : HeaderReads .start text' hls' stage' rest') (h2' : SkipEmpty rest' body')
    (h3 : HeaderEffect (fun s t => (c.env fuel).subs s .header none t) c.renderer p.store hls store)
    (h4 : Flat 1 5 secs tokens) (h5 : Layout (renders (c.env fuel) store) true (leaves.map .leaf ++ tokens) (lines body))
    (hh : HLine.telling hls' = HLine.telling hls) (hr : Redelimits f) (hb : lines body' = (lines body).map f)
    (hl : ∀ x ∈ leaves.map Token.leaf ++ tokens, x.Apart Delimiter) (hn : ∀ l ∈ lines body, ¬ CommentLine l) :
    ∃ d p₁ d' p₁', c.parse fuel p text = .ok (d, [], p₁) ∧ c.parse fuel p text' = .ok (d', [], p₁') ∧
      DocumentShows (renders (c.env fuel) store) leaves secs d.blocks ∧
      DocumentShows (renders (c.env fuel) store) leaves secs d'.blocks ∧
      contentsOf d'.header = contentsOf d.header := by
  have h3' := headerEffect_told (ls := hls') (hh ▸ headerEffect_telling h3)
  obtain ⟨d, p₁, m1, m2, m3, _⟩ := C62_outline hc hd hp hf h1 h2 h3 h4 h5
  obtain ⟨d', p', k1, k2, k3, _⟩ := C62_outline hc hd' hp hf' h1' h2' h3' h4 (by rw [hb]; exact layout_delimiter hr h5 hl hn)
  have k4 := headerShows_telling k3
  rw [hh] at k4
  exact ⟨d, p₁, d', p', m1, k1, m2, k2, k4.det (headerShows_telling m3)⟩

/-! ### Cases -/

/-- The texts of the paragraphs and of the blocks with verbatim content. -/
private def blockTexts (d : Document) : List Text :=
  d.blocks.map fun b => match b.kind with
    | .simple c _ => c.rendered
    | .raw c _ _ _ => c.rendered
    | _ => "?".toList

omit [Uni] in
/-- C87, why only partially: a delimiter behind a comment line at the beginning of a paragraph is text. -/
theorem C87_behind_comment : letI := asciiUni
    parsed ((Config.default .checked).parse 60 ParserState.default "a\n\n// c\n----\nx\n----\n".toList)
      (fun d => decide (blockTexts d = ["a".toList, "----\nx".toList, []])) = true ∧
    parsed ((Config.default .checked).parse 60 ParserState.default "a\n\n// c\n-----\nx\n-----\n".toList)
      (fun d => decide (blockTexts d = ["a".toList, "-----\nx".toList, []])) = true := by
  letI := asciiUni
  refine ⟨by decide +kernel, by decide +kernel⟩

private def swap (l : Text) : Text := if l = "----".toList then "-----".toList else if l = "-----".toList then "----".toList else l

omit [Uni] in
private theorem swap_redelimits : Redelimits swap := by
  have cases3 : ∀ l, (l = "----".toList ∧ swap l = "-----".toList) ∨ (l = "-----".toList ∧ swap l = "----".toList) ∨
      (l ≠ "----".toList ∧ l ≠ "-----".toList ∧ swap l = l) := by
    intro l
    by_cases h1 : l = "----".toList
    · exact Or.inl ⟨h1, by rw [h1]; rfl⟩
    · by_cases h2 : l = "-----".toList
      · exact Or.inr (Or.inl ⟨h2, by rw [h2]; rfl⟩)
      · exact Or.inr (Or.inr ⟨h1, h2, by simp only [swap, h1, h2, if_false]⟩)
  have raw4 : RawDelim '-' "----".toList := ⟨by simp, 0, rfl⟩
  have raw5 : RawDelim '-' "-----".toList := ⟨by simp, 1, rfl⟩
  have nomark : ∀ r : Text, ¬ ∃ n, 6 < n ∧ Marks n ('-' :: r) := by
    rintro r ⟨n, hn, m, x, hm, e, _⟩
    obtain ⟨k, rfl⟩ : ∃ k, n = k + 1 := ⟨n - 1, by omega⟩
    rw [List.replicate_succ] at e
    have := (List.cons.inj e).1
    rcases hm with rfl | rfl <;> exact absurd this (by decide)
  have nocompound : ∀ {r : Text} {x}, ¬ CompoundLine ('-' :: '-' :: '-' :: r) x := by
    rintro r x (⟨e, _⟩ | ⟨n, ⟨e, _⟩ | ⟨e, _⟩ | ⟨e, _⟩⟩)
    · cases e
    all_goals
      rw [List.replicate_succ] at e
      exact absurd (List.cons.inj e).1 (by decide)
  constructor
  · intro l hl
    rcases cases3 l with ⟨rfl, _⟩ | ⟨rfl, _⟩ | ⟨_, _, h⟩
    · exact absurd (Or.inl ⟨_, raw4⟩) hl
    · exact absurd (Or.inl ⟨_, raw5⟩) hl
    · exact h
  · intro c l hl
    rcases cases3 l with ⟨rfl, h⟩ | ⟨rfl, h⟩ | ⟨_, _, h⟩
    · obtain ⟨_, n, e⟩ := hl
      rw [List.replicate_succ] at e
      obtain rfl : '-' = c := (List.cons.inj e).1
      rw [h]; exact raw5
    · obtain ⟨_, n, e⟩ := hl
      rw [List.replicate_succ] at e
      obtain rfl : '-' = c := (List.cons.inj e).1
      rw [h]; exact raw4
    · rw [h]; exact hl
  · intro x l hl
    rcases cases3 l with ⟨rfl, h⟩ | ⟨rfl, h⟩ | ⟨_, _, h⟩
    · exact absurd hl nocompound
    · exact absurd hl nocompound
    · rw [h]; exact hl
  · intro l hl
    rcases cases3 l with ⟨rfl, h⟩ | ⟨rfl, h⟩ | ⟨_, _, h⟩
    · rw [h]; exact nomark _
    · rw [h]; exact nomark _
    · rw [h]; exact hl
  · intro a b e
    rcases cases3 a with ⟨rfl, h⟩ | ⟨rfl, h⟩ | ⟨h1, h2, h⟩ <;> rcases cases3 b with ⟨rfl, h'⟩ | ⟨rfl, h'⟩ | ⟨h1', h2', h'⟩ <;>
      first | rfl | (rw [h, h'] at e; first | exact e | exact absurd e (by decide) | exact absurd e.symm ‹_› | exact absurd e ‹_›)

/-- Non-vacuity: a verbatim block with a longer delimiter. -/
example {R : Rendering} : ∃ (f : Text → Text) (leaves : List Leaf), Redelimits f ∧ leaves ≠ [] ∧
    (∀ x ∈ leaves.map Token.leaf, x.Apart Delimiter) ∧ Layout R true (leaves.map .leaf) (lines "----\nx\n----\n".toList) ∧
    lines "-----\nx\n-----\n".toList = (lines "----\nx\n----\n".toList).map f ∧
    (∀ l ∈ lines "----\nx\n----\n".toList, ¬ CommentLine l) := by
  refine ⟨swap, [.verbatim '-' ["x".toList]], swap_redelimits, by simp, ?_, ?_, by decide, ?_⟩
  · intro x hx
    rw [List.map_cons, List.map_nil, List.mem_singleton] at hx
    subst hx
    refine .verbatim fun l hl hd => ?_
    rw [List.mem_singleton] at hl
    subst hl
    rcases hd with ⟨c, _, n, e⟩ | ⟨x, ⟨e, _⟩ | ⟨n, ⟨e, _⟩ | ⟨e, _⟩ | ⟨e, _⟩⟩⟩
    · exact absurd (congrArg List.length e) (by simp)
    · cases e
    all_goals exact absurd (congrArg List.length e) (by simp)
  · exact .piece (.verbatim (c := '-') (d := "----".toList) (body := ["x".toList]) (rest := []) ⟨by simp, 0, rfl⟩ (by decide)
      (by simp [styleOf]) (fun h => absurd rfl h)) .nil
  · rw [show lines "----\nx\n----\n".toList = ["----".toList, "x".toList, "----".toList] by decide]
    intro l hl hc
    obtain ⟨r, e, _⟩ := hc
    simp only [List.mem_cons, List.not_mem_nil, or_false] at hl
    rcases hl with rfl | rfl | rfl <;> cases e

end Adoc.Props
