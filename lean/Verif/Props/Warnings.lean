import Verif.Props.Refs
import Verif.Lemmas.Warranted
/-!
# C77, C78: the warnings about blocks
-/

namespace Adoc.Props
open Adoc Adoc.Spec Span

variable [Uni]

omit [Uni] in
private theorem preorderAll_append (a b : List Block) : preorderAll (a ++ b) = preorderAll a ++ preorderAll b := by
  induction a with
  | nil => simp [preorderAll]
  | cons x a ih => simp [preorderAll, ih]

private theorem reports_preamble {doc : Text} {bs bs' : List Block} {after : Span} {ws : List Warning}
    (h : withPreamble bs after = .ok bs') (hr : Reports doc ws (preorderAll bs)) : Reports doc ws (preorderAll bs') := by
  rcases withPreamble_spec bs after with ⟨front, first, back, ⟨rfl, _⟩, hp⟩ | ⟨_, hp⟩
  · rw [hp] at h
    cases hpo : preambleOf front after with
    | error x => rw [hpo] at h; cases h
    | ok b =>
      rw [hpo] at h
      rw [← Except.ok.inj h]
      obtain ⟨s, rfl⟩ := preambleOf_shape hpo
      rw [preorderAll, preorder, List.cons_append, ← preorderAll_append]
      exact free_block (b := .mk .preamble s {} front) (fun h => h) hr
  · rw [hp] at h
    rw [← Except.ok.inj h]
    exact hr

private theorem reports_none {doc : Text} {ws : List Warning} {bs : List Block} (h : Reports doc ws bs) :
    (∃ w ∈ ws, w.warning = .unterminatedDelimitedBlock) ↔ ∃ b ∈ bs, ∃ n d, Unclosed doc b n d := by
  induction h with
  | nil => simp
  | other hw _ ih => simp [hw, ih]
  | closed hb _ ih =>
    rw [ih]
    constructor
    · rintro ⟨b, h1, h2⟩; exact ⟨b, by simp [h1], h2⟩
    · rintro ⟨b, h1, h2⟩
      rcases List.mem_cons.mp h1 with rfl | h1
      · exact absurd h2 hb
      · exact ⟨b, h1, h2⟩
  | unclosed hw hb _ _ ih => exact ⟨fun _ => ⟨_, by simp, _, _, hb⟩, fun _ => ⟨_, by simp, hw⟩⟩

/-- The warnings of a document about unterminated blocks are, in document order, about its delimited blocks which are not
closed: each of these is reported once, at its opening delimiter, and no other block is. -/
theorem C77_unterminated {c : Config} {fuel : Nat} {p p' : ParserState} {text : Text} {d : Document} {map : SourceMap}
    (h : c.parse fuel p text = .ok (d, map, p')) :
    ∃ t, preprocess ⟨c.includes, fun s t => (c.env fuel).subs s .header none t⟩ fuel p.store c.primary text = .ok (t, map) ∧
      Reports t d.warnings (preorderAll d.blocks) := by
  obtain ⟨t, ht, hd⟩ := c.parse_parts h
  obtain ⟨mi, hw, store, bs, rest, ws, sw, q, h1, h2, h3, h4, h5, h6, h7, h8⟩ := document_run hd
  refine ⟨t, ht, ?_⟩
  have hreg : Region t (Span.new t) := ⟨0, t.length, by omega, by simp [takeN_all, Span.new], Or.inl (by omega)⟩
  have hsuf : Suf mi.after.discardEmptyLines (Span.new t) := (discardEmptyLines_suf _).trans (header_suf h1)
  have hr := (run_reports h2 (hreg.suf hsuf)).1
  rw [h5]
  refine Quiet.front (fun w hww => ?_) (reports_preamble h3 hr)
  rcases (C47_warnings h1 w hww).2 with g | ⟨n, g⟩ <;> rw [g] <;> nofun

/-- There is no warning about an unterminated block exactly when all blocks of the document are closed. -/
theorem C77_none {c : Config} {fuel : Nat} {p p' : ParserState} {text : Text} {d : Document} {map : SourceMap}
    (h : c.parse fuel p text = .ok (d, map, p')) :
    ∃ t, preprocess ⟨c.includes, fun s t => (c.env fuel).subs s .header none t⟩ fuel p.store c.primary text = .ok (t, map) ∧
      ((∀ w ∈ d.warnings, w.warning ≠ .unterminatedDelimitedBlock) ↔
        ∀ b ∈ preorderAll d.blocks, ¬ ∃ n o, Unclosed t b n o) := by
  obtain ⟨t, ht, hr⟩ := C77_unterminated h
  refine ⟨t, ht, ?_⟩
  have := reports_none hr
  constructor
  · intro h1 b hb hu
    obtain ⟨w, hw, he⟩ := this.mpr ⟨b, hb, hu⟩
    exact h1 w hw he
  · intro h1 w hw he
    obtain ⟨b, hb, hu⟩ := this.mp ⟨w, hw, he⟩
    exact h1 b hb hu

omit [Uni] in
/-- Non-vacuity: a listing block which ends with the example block around it, and a sidebar which is not closed, nor is the
example block that seems to be closed in it; the open block in the listing block is none. -/
example : letI := asciiUni
    parsed ((Config.default .checked).parse 80 .default
        "== A\n\n====\n.T\n----\nx\n\n--\ny\n--\n====\n\n[[a]]\n.T\n****\nz\n====\n".toList)
      (fun d => d.warnings.map (fun w => (w.warning, w.source.line, w.source.data)) ==
          [(.unterminatedDelimitedBlock, 5, "----".toList), (.unterminatedDelimitedBlock, 15, "****".toList),
            (.unterminatedDelimitedBlock, 17, "====".toList)] &&
        (preorderAll d.blocks).map (fun b => (b.source.line, b.fields.titleSource.isSome, b.children.length)) ==
          [(1, false, 2), (3, false, 1), (4, true, 0), (13, true, 2), (16, false, 0), (17, false, 0)]) = true := by
  decide +kernel

/-! ### C78 -/

/-- What a warning of a document about blocks says is true of the text to which it points, and the warnings about the
macros of media blocks do not occur.

Missing: a warning about a heading is about a heading (`C78_delimiter`), it points to it (`C78_pointer`), it occurs once
(`C78_twice`), and no heading which skips a level is passed over (`C78_first`); these claims are false. -/
theorem C78_warranted_partial {c : Config} {fuel : Nat} {p p' : ParserState} {text : Text} {d : Document} {map : SourceMap}
    (h : c.parse fuel p text = .ok (d, map, p')) : ∀ w ∈ d.warnings, Warranted c.ar w := by
  obtain ⟨t, ht, hd⟩ := c.parse_parts h
  obtain ⟨mi, hw, store, bs, rest, ws, sw, q, h1, h2, h3, h4, h5, h6, h7, h8⟩ := document_run hd
  rw [h5]
  refine Just.append (fun w hww => ?_) (run_just h2).1
  obtain ⟨sp, w⟩ := w
  rcases (C47_warnings h1 _ hww).2 with g | ⟨n, g⟩ <;> cases g <;> trivial

omit [Uni] in
/-- Non-vacuity: each of the five warnings about blocks. -/
example : letI := asciiUni
    parsed ((Config.default .checked).parse 80 .default
        "= D\n\n.T\n\n= E\n\n== A\n\n==== B\n\n======= C\n\n[a]\n|\n\n----\n".toList)
      (fun d => d.warnings.map (fun w => (w.warning, w.source.line)) ==
        [(.missingBlockAfterTitleOrAttributeList, 3), (.level0SectionHeadingNotSupported, 5), (.sectionHeadingLevelSkipped 1 3, 9),
          (.sectionHeadingLevelExceedsMaximum 6, 11), (.sectionHeadingLevelExceedsMaximum 6, 11),
          (.unterminatedDelimitedBlock, 16)]) = true := by
  decide +kernel

omit [Uni] in
/-- In a section, the delimiter of an example block with seven or more characters is reported as a heading. -/
theorem C78_delimiter : letI := asciiUni
    parsed ((Config.default .checked).parse 80 .default "== A\n\n=======\nx\n=======\n\ny".toList)
      (fun d => d.warnings.map (fun w => (w.warning, w.source.line, w.source.data)) ==
          [(.sectionHeadingLevelExceedsMaximum 6, 3, "=======".toList)] &&
        (preorderAll d.blocks).map (fun b => (b.rawContext, b.source.line)) ==
          [("section".toList, 1), ("example".toList, 3), ("paragraph".toList, 4), ("paragraph".toList, 7)]) = true := by
  decide +kernel

omit [Uni] in
/-- The warning about a heading which skips levels points to the metadata in front of the heading. -/
theorem C78_pointer : letI := asciiUni
    parsed ((Config.default .checked).parse 80 .default "== A\n\n[x]\n==== D\n".toList)
      (fun d => d.warnings.map (fun w => (w.warning, w.source.line, w.source.data)) ==
          [(.sectionHeadingLevelSkipped 1 3, 3, "[x]".toList)]) = true := by
  decide +kernel

omit [Uni] in
/-- In a section, a heading of level 0 is reported twice. -/
theorem C78_twice : letI := asciiUni
    parsed ((Config.default .checked).parse 80 .default "== A\n\n= D\n".toList)
      (fun d => d.warnings.map (fun w => (w.warning, w.source.line, w.source.data)) ==
          [(.level0SectionHeadingNotSupported, 3, "= D".toList), (.level0SectionHeadingNotSupported, 3, "= D".toList)]) = true := by
  decide +kernel

omit [Uni] in
/-- A heading of level 3 that no heading is in front of is not reported. -/
theorem C78_first : letI := asciiUni
    parsed ((Config.default .checked).parse 80 .default "= D\n\n==== B\n\nx\n".toList)
      (fun d => d.warnings == [] && d.blocks.map Block.rawContext == ["section".toList]) = true := by
  decide +kernel

end Adoc.Props
