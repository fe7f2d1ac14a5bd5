import Verif.Props.Append
import Verif.Spec.Comments
import Verif.Lemmas.Comments
/-!
# C86: blocks between delimiters
-/

namespace Adoc.Props
open Adoc Span Spec Lemmas

variable [Uni]

omit [Uni] in
private theorem compound_chars {d context : Text} (h : CompoundLine d context) :
    (∃ a b r, d = a :: b :: r ∧ a ≠ '/' ∧ a ≠ ':' ∧ b ≠ ' ') ∧ ∀ c ∈ d, c = '-' ∨ c = '=' ∨ c = '*' ∨ c = '_' := by
  rcases h with ⟨rfl, _⟩ | ⟨n, ⟨rfl, _⟩ | ⟨rfl, _⟩ | ⟨rfl, _⟩⟩
  · exact ⟨⟨'-', '-', [], rfl, by decide, by decide, by decide⟩, by decide⟩
  · exact ⟨⟨'=', '=', List.replicate (n + 2) '=', rfl, by decide, by decide, by decide⟩, fun c hc => by
      rw [List.eq_of_mem_replicate hc]; decide⟩
  · exact ⟨⟨'*', '*', List.replicate (n + 2) '*', rfl, by decide, by decide, by decide⟩, fun c hc => by
      rw [List.eq_of_mem_replicate hc]; decide⟩
  · exact ⟨⟨'_', '_', List.replicate (n + 2) '_', rfl, by decide, by decide, by decide⟩, fun c hc => by
      rw [List.eq_of_mem_replicate hc]; decide⟩

omit [Uni] in
private theorem compound_first {d context : Text} (h : CompoundLine d context) (t : Text) :
    FirstLine (d ++ '\n' :: t) d ['\n'] t ∧ StripSpaces d d := by
  have hc := (compound_chars h).2
  refine ⟨⟨by simp, fun hm => ?_, Or.inl rfl, fun ⟨r, e⟩ => ?_⟩, [], by simp, by simp, fun ⟨r, e⟩ => ?_⟩
  · exact absurd (hc _ hm) (by decide)
  · exact absurd (hc '\r' (by rw [e]; simp)) (by decide)
  · exact absurd (hc ' ' (by rw [e]; simp)) (by decide)

omit [Uni] in
private theorem compound_lines {d context : Text} (h : CompoundLine d context) (t : Text) : lines (d ++ '\n' :: t) = d :: lines t := by
  obtain ⟨hf, sp, e, _, h2⟩ := compound_first h t
  rw [firstLine_lines hf (by simp)]
  congr 1
  refine trimEndP_eq_self fun c r e => ?_
  have := (compound_chars h).2 c (by rw [e]; simp)
  rcases this with rfl | rfl | rfl | rfl <;> decide

omit [Uni] in
private theorem compound_head {d context : Text} (h : CompoundLine d context) (t : Text) :
    HeaderReads .start (d ++ '\n' :: t) [] .start (d ++ '\n' :: t) ∧ SkipEmpty (d ++ '\n' :: t) (d ++ '\n' :: t) := by
  obtain ⟨hf, hs⟩ := compound_first h t
  have hh : HeadLine (d ++ '\n' :: t) d t := ⟨_, _, hf, hs⟩
  obtain ⟨⟨a, b, r, rfl, h1, h2, h3⟩, hc⟩ := compound_chars h
  refine ⟨.stop fun _ l s' r' hl => ?_, .stop fun l sep rest hf' _ hb => ?_⟩
  · cases hl with
    | blank h => exact absurd (hh.det h).1 (by simp)
    | comment h hc => obtain ⟨x, e, _⟩ := hc; rw [← (hh.det h).1] at e; exact h1 (List.cons.inj e).1
    | entry h => have := entry_colon h; simp at this; exact h2 this
    | title h _ _ =>
      have := (hh.det h).1
      simp only [List.cons_append, List.cons.injEq] at this
      exact h3 this.2.1
  · rw [(hf'.det hf).1] at hb
    rcases hc a (by simp) with rfl | rfl | rfl | rfl <;> exact absurd (hb _ (List.mem_cons_self ..)) (by decide)

/-- C86. Blocks between delimiters.  Take a text without directives that is written by the rules of C62, has only blocks and no
header, and put its blocks between two delimiter lines that open an example, a sidebar, a quote or an open block and do not occur
among its lines (nor have more than six equals signs): both texts are parsed, and the document has one block, which shows the same
blocks with the same text in it. -/
theorem C86_wrap {c : Config} {fuel : Nat} {p : ParserState} {text rest body d context : Text} {hls : List HLine} {stage : Stage}
    {leaves : List Leaf} (hc : c.primary = none)
    (hd : ∀ l ∈ splitChar '\n' text, (¬ ∃ r, l = "include::".toList ++ r) ∧ ¬ ∃ r, l = "if".toList ++ r)
    (hd' : ∀ l ∈ splitChar '\n' body, (¬ ∃ r, l = "include::".toList ++ r) ∧ ¬ ∃ r, l = "if".toList ++ r)
    (hp : p.num.topmost = .normal) (hf : text.length < fuel) (hf' : (d ++ '\n' :: (body ++ (d ++ ['\n']))).length < fuel)
    (h1 : HeaderReads .start text hls stage rest) (h2 : SkipEmpty rest body) (h3 : HLine.telling hls = [])
    (h5 : Layout (renders (c.env fuel) p.store) true (leaves.map .leaf) (lines body)) (hn : WholeLines body)
    (hx : CompoundLine d context) (hm : ¬ ∃ n, 6 < n ∧ Marks n d) (hb : d ∉ lines body) :
    ∃ doc p₁ doc' p₁', c.parse fuel p text = .ok (doc, [], p₁) ∧
      c.parse fuel p (d ++ '\n' :: (body ++ (d ++ ['\n']))) = .ok (doc', [], p₁') ∧
      DocumentShows (renders (c.env fuel) p.store) leaves [] doc.blocks ∧
      DocumentShows (renders (c.env fuel) p.store) [.container context leaves] [] doc'.blocks := by
  have he : HeaderEffect (fun s t => (c.env fuel).subs s .header none t) c.renderer p.store hls p.store :=
    headerEffect_told (h3 ▸ .nil)
  obtain ⟨doc, p₁, m1, m2, _⟩ := C62_outline hc hd hp hf h1 h2 he (.nil (most := 5)) (by simpa using h5)
  obtain ⟨g1, g2⟩ := compound_head hx (body ++ (d ++ ['\n']))
  have g3 : lines (d ++ '\n' :: (body ++ (d ++ ['\n']))) = d :: lines body ++ d :: [] := by
    rw [compound_lines hx, lines_further _ hn, compound_lines hx]
    rfl
  have hchars := (compound_chars hx).2
  have hnl : '\n' ∉ d := fun h => absurd (hchars _ h) (by decide)
  have plain : (¬ ∃ r, d = "include::".toList ++ r) ∧ ¬ ∃ r, d = "if".toList ++ r := by
    constructor
    · rintro ⟨r, rfl⟩; exact absurd (hchars 'i' (by simp)) (by decide)
    · rintro ⟨r, rfl⟩; exact absurd (hchars 'i' (by simp)) (by decide)
  have tail : ∀ l ∈ splitChar '\n' (d ++ ['\n']), l = d ∨ l = [] := by
    intro l hl
    rw [splitChar_append hnl] at hl
    rcases List.mem_cons.mp hl with h | h
    · exact Or.inl h
    · exact Or.inr (by simpa [splitChar] using h)
  have hd2 : ∀ l ∈ splitChar '\n' (d ++ '\n' :: (body ++ (d ++ ['\n']))),
      (¬ ∃ r, l = "include::".toList ++ r) ∧ ¬ ∃ r, l = "if".toList ++ r := by
    have nil : (¬ ∃ r, ([] : Text) = "include::".toList ++ r) ∧ ¬ ∃ r, ([] : Text) = "if".toList ++ r :=
      ⟨(fun ⟨r, e⟩ => by cases e), (fun ⟨r, e⟩ => by cases e)⟩
    intro l hl
    rw [splitChar_append hnl] at hl
    rcases List.mem_cons.mp hl with rfl | hl
    · exact plain
    · rcases hn with rfl | ⟨a, rfl⟩
      · rcases tail l hl with rfl | rfl
        · exact plain
        · exact nil
      · rw [List.append_assoc, List.singleton_append, splitChar_mid] at hl
        rcases List.mem_append.mp hl with h | h
        · exact hd' l (by rw [splitChar_mid]; exact List.mem_append_left _ h)
        · rcases tail l h with rfl | rfl
          · exact plain
          · exact nil
  obtain ⟨doc', p', k1, k2, _⟩ := C62_outline (leaves := [.container context leaves]) (tokens := []) hc hd2 hp hf' g1 g2 .nil (.nil (most := 5))
    (by rw [g3]; exact .piece (.container hx hm hb h5 (by simp [styleOf])) .nil)
  exact ⟨doc, p₁, doc', p', m1, k1, m2, k2⟩

/-! ### Cases -/

omit [Uni] in
/-- C86, why the delimiter must not occur among the lines: an example between the delimiters of another one comes out as three
blocks, with delimiters of another length it stays in one. -/
theorem C86_same_delimiter : letI := asciiUni
    parsed ((Config.default .checked).parse 60 ParserState.default "====\n====\na\n====\n====\n".toList)
      (fun d => d.blocks.length == 3) = true ∧
    parsed ((Config.default .checked).parse 60 ParserState.default "=====\n====\na\n====\n=====\n".toList)
      (fun d => d.blocks.length == 1) = true := by
  letI := asciiUni
  refine ⟨by decide +kernel, by decide +kernel⟩

/-- Non-vacuity: a paragraph between the delimiters of a sidebar. -/
example : letI := asciiUni
    ∃ (rest body : Text) (leaves : List Leaf), leaves ≠ [] ∧
      HeaderReads .start "Hello\n".toList [] .start rest ∧ SkipEmpty rest body ∧ HLine.telling [] = [] ∧
      Layout (renders ((Config.default .checked).env 60) ParserState.default.store) true (leaves.map .leaf) (lines body) ∧
      WholeLines body ∧ CompoundLine "****".toList "sidebar".toList ∧ (¬ ∃ n, 6 < n ∧ Marks n "****".toList) ∧
      "****".toList ∉ lines body := by
  letI := asciiUni
  obtain ⟨rest, body, leaves, _, _, h1, _, h3, h4, _, h6, h7, h8, _⟩ := append_case
  have hf : FirstLine "Hello\n".toList "Hello".toList ['\n'] [] := ⟨rfl, by decide, Or.inl rfl, fun ⟨r, e⟩ => by
    have := congrArg List.getLast? e
    simp at this⟩
  have hr : rest = "Hello\n".toList := by
    cases h3
    rfl
  subst hr
  have hb : body = "Hello\n".toList := by
    cases h4 with
    | stop _ => rfl
    | skip _ h2 h3 _ =>
      rw [(h2.det hf).1] at h3
      exact absurd (h3 'H' (by decide)) (by decide)
  subst hb
  refine ⟨_, _, leaves, h1, h3, h4, rfl, h6, Or.inr h7, Or.inr ⟨0, Or.inr (Or.inl ⟨rfl, rfl⟩)⟩, ?_, by decide⟩
  rintro ⟨n, hn, m, r, hm, e, _⟩
  obtain ⟨k, rfl⟩ : ∃ k, n = k + 1 := ⟨n - 1, by omega⟩
  rw [List.replicate_succ] at e
  have := (List.cons.inj e).1
  rcases hm with rfl | rfl <;> exact absurd this (by decide)

end Adoc.Props
