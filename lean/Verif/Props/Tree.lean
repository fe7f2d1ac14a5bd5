import Verif.Lemmas.Parse
/-!
# C23, C26: the tree of blocks of a document, and its preamble

The theorems are about `Parser::parse` with any renderer and any state of the parser.
-/

namespace Adoc.Props
open Adoc Adoc.Spec Span

variable [Uni]

/-! ### C23 -/

/-- The blocks of a document, and the blocks nested directly in any block of it, are in the order of the text: each ends
before the next ones begin. -/
theorem C23_order {c : Config} {fuel : Nat} {p p' : ParserState} {text : Text} {d : Document} {map : SourceMap}
    (h : c.parse fuel p text = .ok (d, map, p')) : InOrder d.blocks ∧ ∀ x, InDoc d x → InOrder x.children := by
  obtain ⟨t, _, hd⟩ := c.parse_parts h
  obtain ⟨h1, h2⟩ := document_tidy hd
  exact ⟨h1, fun x hx => (h2 x hx).order⟩

/-- Every visible character of a nested block lies in the block around it; unless the nested block is a delimited block
with verbatim content, all of it does.
Missing: white space at the end of verbatim blocks, which can reach beyond the parent (`C23_containment_fails`). -/
theorem C23_nested_partial {c : Config} {fuel : Nat} {p p' : ParserState} {text : Text} {d : Document} {map : SourceMap}
    (h : c.parse fuel p text = .ok (d, map, p')) {x y : Block} (hx : InDoc d x) (hy : y ∈ x.children) :
    Covers x.source y.source ∧ (¬ IsRaw y → Contains x.source y.source) := by
  obtain ⟨t, _, hd⟩ := c.parse_parts h
  have hn := (document_tidy hd).2 x hx
  exact ⟨hn.cover y hy, fun hr => hn.inside y hy (Or.inl hr)⟩

/-- All blocks of the preamble lie in the preamble. -/
theorem C23_preamble {c : Config} {fuel : Nat} {p p' : ParserState} {text : Text} {d : Document} {map : SourceMap}
    (h : c.parse fuel p text = .ok (d, map, p')) {x y : Block} (hx : InDoc d x) (hk : x.kind = .preamble)
    (hy : y ∈ x.children) : Contains x.source y.source := by
  obtain ⟨t, _, hd⟩ := c.parse_parts h
  exact ((document_tidy hd).2 x hx).inside y hy (Or.inr hk)

/-- Every span a block exposes describes a piece of the preprocessed text faithfully, and the piece of the block itself has
a visible character (so no block is empty). -/
theorem C23_spans {c : Config} {fuel : Nat} {p p' : ParserState} {text : Text} {d : Document} {map : SourceMap}
    (h : c.parse fuel p text = .ok (d, map, p')) :
    ∃ t, preprocess ⟨c.includes, fun s t => (c.env fuel).subs s .header none t⟩ fuel p.store c.primary text = .ok (t, map) ∧
      ∀ x, InDoc d x → (∀ s ∈ spans x, Faithful t s) ∧ ∃ ch ∈ x.source.data, isWhite ch = false := by
  obtain ⟨t, ht, hd⟩ := c.parse_parts h
  refine ⟨t, ht, fun x hx => ?_⟩
  have hn := (document_tidy hd).2 x hx
  exact ⟨fun s hs => (faithful_iff_sub t s).mpr (hn.own s hs), hn.vis⟩

private def findEscape (d : Document) : Bool :=
  d.blocks.any fun x => x.children.any fun y => decide (x.source.offset + blen x.source.data < y.source.offset + blen y.source.data)

omit [Uni] in
/-- The full claim is false: a verbatim block that is not closed can end behind the section it is in. -/
theorem C23_containment_fails : letI := asciiUni
    ∃ fuel text d map p, (Config.default .checked).parse fuel .default text = .ok (d, map, p) ∧
      ∃ x y, InDoc d x ∧ y ∈ x.children ∧ ¬ Contains x.source y.source := by
  letI := asciiUni
  have h : parsed ((Config.default .checked).parse 30 .default "== A\n\n----\nfoo\n\n".toList) findEscape = true := by
    decide +kernel
  obtain ⟨d, map, p, hp, hf⟩ := parsed_spec h
  unfold findEscape at hf
  simp only [List.any_eq_true, decide_eq_true_eq] at hf
  obtain ⟨x, hx, y, hy, hlt⟩ := hf
  refine ⟨30, _, d, map, p, hp, x, y, ⟨x, hx, .self _⟩, hy, ?_⟩
  rintro ⟨_, hc⟩
  rw [stopOf_eq, stopOf_eq] at hc
  omega

private def outline (d : Document) : List (Nat × List Nat) :=
  d.blocks.map fun b => (b.source.offset, b.children.map fun c => c.source.offset)

omit [Uni] in
/-- Non-vacuity: a document with a preamble, sections and nested delimited blocks. -/
example : letI := asciiUni
    parsed ((Config.default .checked).parse 60 .default
      "intro\n\n== A\n\n====\nin\n\nmore\n====\n\n.T\n----\nx\n----\n\n=== B\n\nend".toList)
      (fun d => outline d == [(0, [0]), (7, [13, 33, 49])]) = true := by
  decide +kernel

/-! ### C26 -/

/-- If blocks that are not all attribute entries stand in front of the first section, they become the preamble, in their
order, and the rest follows; otherwise the blocks stay as they are. -/
theorem C26_preamble {c : Config} {fuel : Nat} {p p' : ParserState} {text : Text} {d : Document} {map : SourceMap}
    (h : c.parse fuel p text = .ok (d, map, p')) :
    ∃ bs, withoutPreamble d.blocks = bs ∧ (∀ b ∈ bs, b.kind ≠ .preamble) ∧
      ((∃ front first back src, HasPreamble bs front first back ∧
        d.blocks = .mk .preamble src {} front :: first :: back) ∨
       ((¬ ∃ front first back, HasPreamble bs front first back) ∧ d.blocks = bs)) := by
  obtain ⟨t, _, hd⟩ := c.parse_parts h
  obtain ⟨mi, hw, store, bs, rest, ws, sw, q, h1, h2, h3, _⟩ := document_run hd
  have hk : ∀ b ∈ bs, b.kind ≠ .preamble := fun b hb => run_kinds h2 b hb b (.self _)
  have flat : ∀ {l : List Block}, (∀ b ∈ l, b.kind ≠ .preamble) → withoutPreamble l = l := by
    intro l
    induction l with
    | nil => intro _; rfl
    | cons b l ih =>
      intro hl
      unfold withoutPreamble at ih ⊢
      rw [List.flatMap_cons, if_neg (hl b (by simp)), ih (fun x hx => hl x (by simp [hx]))]
      rfl
  refine ⟨bs, ?_, hk, ?_⟩
  · rcases withPreamble_spec bs mi.after with ⟨front, first, back, ⟨rfl, _⟩, hp⟩ | ⟨_, hp⟩
    · rw [hp] at h3
      cases hpo : preambleOf front mi.after with
      | error x => rw [hpo] at h3; cases h3
      | ok b =>
        rw [hpo] at h3
        have hb : d.blocks = b :: first :: back := (Except.ok.inj h3).symm
        have hbk : b.kind = .preamble ∧ b.children = front := by
          obtain ⟨s, rfl⟩ := preambleOf_shape hpo; exact ⟨rfl, rfl⟩
        rw [hb]
        have := flat (l := first :: back) (fun x hx => hk x (List.mem_append_right _ hx))
        unfold withoutPreamble at this ⊢
        rw [List.flatMap_cons, if_pos hbk.1, hbk.2, this]
    · rw [hp] at h3
      rw [← Except.ok.inj h3]
      exact flat hk
  · rcases withPreamble_spec bs mi.after with ⟨front, first, back, hf, hp⟩ | ⟨hf, hp⟩
    · rw [hp] at h3
      cases hpo : preambleOf front mi.after with
      | error x => rw [hpo] at h3; cases h3
      | ok b =>
        rw [hpo] at h3
        refine Or.inl ⟨front, first, back, b.source, hf, ?_⟩
        rw [← Except.ok.inj h3]
        obtain ⟨s, rfl⟩ := preambleOf_shape hpo
        rfl
    · rw [hp] at h3
      exact Or.inr ⟨hf, (Except.ok.inj h3).symm⟩

/-- The preamble reaches from the text behind the header to the end of its last block. -/
theorem C26_source {bs : List Block} {src : Span} (hne : bs ≠ []) (hs : ∀ b ∈ bs, Sub b.source src) (ho : InOrder bs) :
    ∃ p, preambleOf bs src = .ok p ∧ p.source.offset = src.offset ∧ Sub p.source src ∧
      ∃ b ∈ bs, stopOf p.source = stopOf b.source ∧ ∀ x ∈ bs, stopOf x.source ≤ stopOf b.source := by
  obtain ⟨k, _, h1, h2, b, hb, _, h3⟩ := preambleOf_geo hne hs ho
  exact ⟨_, h1, takeN_offset _ _, takeN_sub _ _, b, hb, h3, fun x hx => h3 ▸ (h2 x hx).2⟩

omit [Uni] in
/-- Non-vacuity: a preamble; only attribute entries in front of a section; no section. -/
example : letI := asciiUni
    parsed ((Config.default .checked).parse 40 .default ":x: y\n\nintro\n\n== A".toList)
      (fun d => d.blocks.map (fun b => b.children.length) == [1, 0]) = true ∧
    parsed ((Config.default .checked).parse 40 .default "a\n\nb".toList)
      (fun d => d.blocks.map (fun b => b.children.length) == [0, 0]) = true := by
  decide +kernel

omit [Uni] in
/-- Finding: discrete headings count as sections here, although they begin none: one ends the preamble, and the text behind it, which is
in no section, is not in the preamble. -/
theorem C26_discrete_ends_preamble : letI := asciiUni
    parsed ((Config.default .checked).parse 60 .default "a\n\n[discrete]\n== B\n\nc\n\n== D".toList)
      (fun d => d.blocks.map (fun b => (b.kind == .preamble, b.isSection, b.source.data, b.children.map (·.source.data))) ==
        [(true, false, ['a'], [['a']]), (false, true, "[discrete]\n== B".toList, []), (false, false, ['c'], []),
          (false, true, "== D".toList, [])]) = true := by
  decide +kernel

end Adoc.Props
