import Verif.Props.Append
import Verif.Lemmas.Gaps
/-!
# C85: empty lines between blocks
-/

namespace Adoc.Props
open Adoc Span Spec Lemmas

variable [Uni]

omit [Uni] in
private theorem layout_gap {R : Rendering} {x : Token} {ps : List Token} {xs : List Text} (h : Layout R false (x :: ps) xs) :
    ∀ {g : List Text}, (∀ l ∈ g, l = []) → Layout R false (x :: ps) (g ++ xs) := by
  intro g hg
  induction g with
  | nil => exact h
  | cons a g ih => exact .blank (Or.inl (hg a (by simp))) (ih fun l hl => hg l (List.mem_cons_of_mem _ hl))

omit [Uni] in
private theorem gap_whole {gap : Text} (h : EmptyLines gap) : WholeLines gap := by
  induction h with
  | nil => exact Or.inl rfl
  | @cons sp e t _ h2 _ ih =>
    rcases ih with rfl | ⟨r, rfl⟩
    · rcases h2 with rfl | rfl
      · exact Or.inr ⟨sp, by simp⟩
      · exact Or.inr ⟨sp ++ ['\r'], by simp⟩
    · exact Or.inr ⟨sp ++ e ++ r, by simp⟩

omit [Uni] in
private theorem gap_lines {gap : Text} (h : EmptyLines gap) (hne : gap ≠ []) : ∃ g, lines gap = [] :: g ∧ ∀ l ∈ g, l = [] := by
  cases hx : lines gap with
  | nil =>
    cases h with
    | nil => exact absurd rfl hne
    | @cons sp e t h1 h2 _ =>
      have hf : FirstLine (sp ++ e ++ t) sp e t := lineEnd_first (fun hm => absurd (h1 _ hm) (by decide))
        (fun ⟨r, e⟩ => absurd (h1 '\r' (by rw [e]; simp)) (by decide)) h2
      rw [firstLine_lines hf hne] at hx
      cases hx
  | cons a g =>
    have := h.lines
    rw [hx] at this
    exact ⟨g, by rw [this a (by simp)], fun l hl => this l (List.mem_cons_of_mem _ hl)⟩

private theorem spaced {c : Config} {fuel : Nat} {p : ParserState} {text gap more rest body : Text} {hls : List HLine} {stage : Stage}
    {store : AttrStore} {toks toks2 : List Token} {leaves : List Leaf} {secs : List Sec} {tokens : List Token} (hc : c.primary = none)
    (hd : ∀ l ∈ splitChar '\n' text, (¬ ∃ r, l = "include::".toList ++ r) ∧ ¬ ∃ r, l = "if".toList ++ r)
    (hd' : ∀ l ∈ splitChar '\n' more, (¬ ∃ r, l = "include::".toList ++ r) ∧ ¬ ∃ r, l = "if".toList ++ r)
    (hp : p.num.topmost = .normal) (hf : (text ++ gap ++ more).length < fuel)
    (h1 : HeaderReads .start text hls stage rest) (h2 : SkipEmpty rest body)
    (h3 : HeaderEffect (fun s t => (c.env fuel).subs s .header none t) c.renderer p.store hls store)
    (h5 : Layout (renders (c.env fuel) store) true toks (lines body)) (hn : ∃ a, text = a ++ ['\n']) (hb : body ≠ [])
    (ha : ∀ l, (HLine.author l ∈ hls ∨ HLine.revision l ∈ hls) → l.head? ≠ some ':')
    (h6 : Layout (renders (c.env fuel) store) false toks2 (lines more)) (hm : toks2 ≠ [])
    (h4 : Flat 1 5 secs tokens) (he : toks ++ toks2 = leaves.map .leaf ++ tokens) (hg : EmptyLines gap) (hg' : gap ≠ []) :
    ∃ d p₁, c.parse fuel p (text ++ gap ++ more) = .ok (d, [], p₁) ∧
      DocumentShows (renders (c.env fuel) store) leaves secs d.blocks ∧
      HeaderShows (fun s t => (c.env fuel).subs s .header none t) c.renderer p.store hls (contentsOf d.header) := by
  have hr : rest ≠ [] := by
    rintro rfl
    cases h2 with
    | stop _ => exact hb rfl
    | skip h _ _ _ => exact h rfl
  rw [List.append_assoc] at hf ⊢
  obtain ⟨g1, g2⟩ := headerReads_further h1 (Or.inr hn) hr (rest_colon h2 h5) ha (gap ++ more)
  obtain ⟨g4, g5⟩ := skipEmpty_further h2 g2 hb (gap ++ more)
  have g6 : Layout (renders (c.env fuel) store) true (leaves.map .leaf ++ tokens) (lines (body ++ (gap ++ more))) := by
    obtain ⟨g, e1, e2⟩ := gap_lines hg hg'
    rw [lines_further _ g5, lines_further _ (gap_whole hg), ← he, e1]
    obtain ⟨x, xs, rfl⟩ := List.exists_cons_of_ne_nil hm
    exact layout_append h5 (layout_gap h6 e2) hm
  have hd2 : ∀ l ∈ splitChar '\n' (text ++ (gap ++ more)), (¬ ∃ r, l = "include::".toList ++ r) ∧ ¬ ∃ r, l = "if".toList ++ r := by
    obtain ⟨a, rfl⟩ := hn
    intro l hl
    rw [List.append_assoc, List.singleton_append, splitChar_mid] at hl
    rcases List.mem_append.mp hl with h | h
    · exact hd l (by rw [splitChar_mid]; exact List.mem_append_left _ h)
    · rcases split_front hg more l h with h | h
      · exact hd' l h
      · constructor
        · rintro ⟨r, rfl⟩; exact absurd (h 'i' (by simp)) (by decide)
        · rintro ⟨r, rfl⟩; exact absurd (h 'i' (by simp)) (by decide)
  obtain ⟨d, p', k1, k2, k3, _⟩ := C62_outline hc hd2 hp hf g1 g4 h3 h4 g6
  exact ⟨d, p', k1, k2, k3⟩

/-- C85. It does not matter how many empty lines there are between blocks.  Take a document written by the rules of C62 that
falls into two parts between two of its blocks or headings (outside containers): with any empty lines (or lines of spaces)
between the parts, at least one, it is parsed and shows the same blocks and sections with the same text, and the same contents
of the header. -/
theorem C85_gaps {c : Config} {fuel : Nat} {p : ParserState} {text gap gap' more rest body : Text} {hls : List HLine} {stage : Stage}
    {store : AttrStore} {toks toks2 : List Token} {leaves : List Leaf} {secs : List Sec} {tokens : List Token} (hc : c.primary = none)
    (hd : ∀ l ∈ splitChar '\n' text, (¬ ∃ r, l = "include::".toList ++ r) ∧ ¬ ∃ r, l = "if".toList ++ r)
    (hd' : ∀ l ∈ splitChar '\n' more, (¬ ∃ r, l = "include::".toList ++ r) ∧ ¬ ∃ r, l = "if".toList ++ r)
    (hp : p.num.topmost = .normal) (hf : (text ++ gap ++ more).length < fuel) (hf' : (text ++ gap' ++ more).length < fuel)
    (h1 : HeaderReads .start text hls stage rest) (h2 : SkipEmpty rest body)
    (h3 : HeaderEffect (fun s t => (c.env fuel).subs s .header none t) c.renderer p.store hls store)
    (h5 : Layout (renders (c.env fuel) store) true toks (lines body)) (hn : ∃ a, text = a ++ ['\n']) (hb : body ≠ [])
    (ha : ∀ l, (HLine.author l ∈ hls ∨ HLine.revision l ∈ hls) → l.head? ≠ some ':')
    (h6 : Layout (renders (c.env fuel) store) false toks2 (lines more)) (hm : toks2 ≠ [])
    (h4 : Flat 1 5 secs tokens) (he : toks ++ toks2 = leaves.map .leaf ++ tokens)
    (hg : EmptyLines gap) (hne : gap ≠ []) (hg' : EmptyLines gap') (hne' : gap' ≠ []) :
    ∃ d p₁ d' p₁', c.parse fuel p (text ++ gap ++ more) = .ok (d, [], p₁) ∧
      c.parse fuel p (text ++ gap' ++ more) = .ok (d', [], p₁') ∧
      DocumentShows (renders (c.env fuel) store) leaves secs d.blocks ∧
      DocumentShows (renders (c.env fuel) store) leaves secs d'.blocks ∧
      contentsOf d'.header = contentsOf d.header := by
  obtain ⟨d, p₁, m1, m2, m3⟩ := spaced hc hd hd' hp hf h1 h2 h3 h5 hn hb ha h6 hm h4 he hg hne
  obtain ⟨d', p', k1, k2, k3⟩ := spaced hc hd hd' hp hf' h1 h2 h3 h5 hn hb ha h6 hm h4 he hg' hne'
  exact ⟨d, p₁, d', p', m1, k1, m2, k2, k3.det m3⟩

/-- C85. The same everywhere at once, and also in containers: take a document written by the rules of C62 whose verbatim blocks
have no empty lines in them, and put more empty lines behind any of its empty lines (in its header it has the same lines except
for comments and empty lines): both texts are parsed, and show the same blocks and sections with the same text, and the same
contents of the header. -/
theorem C85_everywhere {c : Config} {fuel : Nat} {p : ParserState} {text text' rest rest' body body' : Text}
    {hls hls' : List HLine} {stage stage' : Stage} {store : AttrStore} {leaves : List Leaf} {secs : List Sec} {tokens : List Token}
    (hc : c.primary = none)
    (hd : ∀ l ∈ splitChar '\n' text, (¬ ∃ r, l = "include::".toList ++ r) ∧ ¬ ∃ r, l = "if".toList ++ r)
    (hd' : ∀ l ∈ splitChar '\n' text', (¬ ∃ r, l = "include::".toList ++ r) ∧ ¬ ∃ r, l = "if".toList ++ r)
    (hp : p.num.topmost = .normal) (hf : text.length < fuel) (hf' : text'.length < fuel)
    (h1 : HeaderReads .start text hls stage rest) (h2 : SkipEmpty rest body)
    (h1' : HeaderReads .start text' hls' stage' rest') (h2' : SkipEmpty rest' body')
    (h3 : HeaderEffect (fun s t => (c.env fuel).subs s .header none t) c.renderer p.store hls store)
    (h4 : Flat 1 5 secs tokens) (h5 : Layout (renders (c.env fuel) store) true (leaves.map .leaf ++ tokens) (lines body))
    (hh : HLine.telling hls' = HLine.telling hls) (hb : Spread (lines body) (lines body'))
    (hl : ∀ x ∈ leaves.map Token.leaf ++ tokens, x.Apart (· = [])) :
    ∃ d p₁ d' p₁', c.parse fuel p text = .ok (d, [], p₁) ∧ c.parse fuel p text' = .ok (d', [], p₁') ∧
      DocumentShows (renders (c.env fuel) store) leaves secs d.blocks ∧
      DocumentShows (renders (c.env fuel) store) leaves secs d'.blocks ∧
      contentsOf d'.header = contentsOf d.header := by
  have h3' := headerEffect_told (ls := hls') (hh ▸ headerEffect_telling h3)
  obtain ⟨d, p₁, m1, m2, m3, _⟩ := C62_outline hc hd hp hf h1 h2 h3 h4 h5
  obtain ⟨d', p', k1, k2, k3, _⟩ := C62_outline hc hd' hp hf' h1' h2' h3' h4 (layout_spread h5 hl hb)
  have k4 := headerShows_telling k3
  rw [hh] at k4
  exact ⟨d, p₁, d', p', m1, k1, m2, k2, k4.det (headerShows_telling m3)⟩

/-! ### Cases -/

/-- The texts of the paragraphs and of the blocks with verbatim content. -/
private def blockTexts (d : Document) : List Text :=
  d.blocks.map fun b => match b.kind with
    | .simple c _ => c.rendered
    | .raw c _ _ _ => c.rendered
    | _ => "?".toList

omit [Uni] in
/-- C85, why the lines must not have tabs: a line with a tab becomes a line of the paragraph in front of it, or of the one behind a
delimited block. -/
theorem C85_tab : letI := asciiUni
    parsed ((Config.default .checked).parse 60 ParserState.default "a\n\t\n\nb\n".toList)
      (fun d => decide (blockTexts d = ["a\n".toList, "b".toList])) = true ∧
    parsed ((Config.default .checked).parse 60 ParserState.default "----\na\n----\n\t\nb\n".toList)
      (fun d => decide (blockTexts d = ["a".toList, "\nb".toList])) = true := by
  letI := asciiUni
  refine ⟨by decide +kernel, by decide +kernel⟩

/-- Non-vacuity: a paragraph and a verbatim block, with one empty line between them, or with two, one of which has a space. -/
example : letI := asciiUni
    (∃ (rest body : Text) (toks toks2 : List Token) (leaves : List Leaf) (tokens : List Token), toks2 ≠ [] ∧
      HeaderReads .start "Hello\n".toList [] .start rest ∧ SkipEmpty rest body ∧
      HeaderEffect (fun s t => ((Config.default .checked).env 60).subs s .header none t) (Config.default .checked).renderer
        ParserState.default.store [] ParserState.default.store ∧
      Layout (renders ((Config.default .checked).env 60) ParserState.default.store) true toks (lines body) ∧ body ≠ [] ∧
      Layout (renders ((Config.default .checked).env 60) ParserState.default.store) false toks2 (lines "----\nx\n----\n".toList) ∧
      Flat 1 5 [] tokens ∧ toks ++ toks2 = leaves.map .leaf ++ tokens) ∧
    EmptyLines "\n".toList ∧ EmptyLines " \n\n".toList := by
  letI := asciiUni
  obtain ⟨rest, body, leaves, leaves2, tokens2, _, h2, h3, h4, h5, h6, _, h8, h9, h10⟩ := append_case
  exact ⟨⟨rest, body, leaves.map .leaf, leaves2.map .leaf ++ tokens2, leaves ++ leaves2, tokens2, by simp [h2], h3, h4, h5, h6, h8, h9, h10,
      by simp⟩, .cons (sp := []) (e := ['\n']) (by simp) (Or.inl rfl) .nil,
    .cons (sp := [' ']) (e := ['\n']) (by simp) (Or.inl rfl) (.cons (sp := []) (e := ['\n']) (by simp) (Or.inl rfl) .nil)⟩

/-- Non-vacuity of `C85_everywhere`: an example with two verbatim blocks in it, with one empty line between them, or with two. -/
example {R : Rendering} : ∃ leaves : List Leaf, leaves ≠ [] ∧ (∀ x ∈ leaves.map Token.leaf, x.Apart (· = [])) ∧
    Layout R true (leaves.map .leaf) (lines "====\n----\nx\n----\n\n....\ny\n....\n====\n".toList) ∧
    Spread (lines "====\n----\nx\n----\n\n....\ny\n....\n====\n".toList)
      (lines "====\n----\nx\n----\n\n \n....\ny\n....\n====\n".toList) := by
  refine ⟨[.container "example".toList [.verbatim '-' ["x".toList], .verbatim '.' ["y".toList]]], by simp, ?_, ?_, ?_⟩
  · intro x hx
    rw [List.map_cons, List.map_nil, List.mem_singleton] at hx
    subst hx
    refine .container fun b hb => ?_
    simp only [List.mem_cons, List.not_mem_nil, or_false] at hb
    rcases hb with rfl | rfl
    · exact .verbatim (by simp)
    · exact .verbatim (by simp)
  · refine .piece (.container (d := "====".toList) (body := ["----".toList, "x".toList, "----".toList, [], "....".toList, "y".toList, "....".toList])
      (rest := []) (Or.inr ⟨0, Or.inl ⟨rfl, rfl⟩⟩) ?_ (by decide) ?_ (by simp [styleOf])) .nil
    · rintro ⟨n, hn, m, r, _, e, _⟩
      have := congrArg List.length e
      simp at this
      omega
    · exact .piece (.verbatim (c := '-') (d := "----".toList) (body := ["x".toList]) (rest := [[], "....".toList, "y".toList, "....".toList])
          ⟨by simp, 0, rfl⟩ (by decide) (by simp [styleOf]) (fun h => absurd rfl h))
        (.blank (Or.inl rfl) (.piece (.verbatim (c := '.') (d := "....".toList) (body := ["y".toList]) (rest := [])
          ⟨by simp, 0, rfl⟩ (by decide) (by simp [styleOf]) (fun h => absurd rfl h)) .nil))
  · rw [show lines "====\n----\nx\n----\n\n....\ny\n....\n====\n".toList =
        ["====".toList, "----".toList, "x".toList, "----".toList, [], "....".toList, "y".toList, "....".toList, "====".toList] by decide,
      show lines "====\n----\nx\n----\n\n \n....\ny\n....\n====\n".toList =
        ["====".toList, "----".toList, "x".toList, "----".toList, [], [], "....".toList, "y".toList, "....".toList, "====".toList] by decide]
    have keep : ∀ {l ls ls'}, Spread ls ls' → Spread (l :: ls) (l :: ls') := fun h => .cons (g := []) (by simp) (by simp) h
    exact keep (keep (keep (keep (.cons (g := [[]]) (fun _ => rfl) (by simp) (keep (keep (keep (keep .nil))))))))

end Adoc.Props
