import Verif.Lemmas.Refs
import Verif.Lemmas.Parse
import Verif.Props.Header
/-!
# C28, C52: the ids of a document, and the places of its warnings

The theorems are about `Parser::parse` with any renderer and any state of the parser in which its catalog is unused or
gone, as it is before the first parse and behind each parse (`C28_catalog_gone`).
-/

namespace Adoc.Props
open Adoc Adoc.Spec Span

variable [Uni]

private theorem refsAll_withPreamble {bs bs' : List Block} {src : Span} (h : withPreamble bs src = .ok bs') :
    refsAll bs' = refsAll bs := by
  rcases withPreamble_spec bs src with ⟨front, first, back, ⟨rfl, _⟩, hp⟩ | ⟨_, hp⟩
  · rw [hp] at h
    cases hpo : preambleOf front src with
    | error x => rw [hpo] at h; cases h
    | ok b =>
      rw [hpo] at h
      rw [← Except.ok.inj h]
      obtain ⟨s, rfl⟩ := preambleOf_shape hpo
      rw [refsAll_append, refsAll, refs]
      simp [ownRef, Block.kind]
  · rw [hp] at h
    rw [← Except.ok.inj h]

private theorem catalog_parts {c : Config} {fuel : Nat} {p p' : ParserState} {text : Text} {d : Document} {map : SourceMap}
    (hp : p.catalog = none ∨ p.catalog = some Catalog.new) (h : c.parse fuel p text = .ok (d, map, p')) :
    ∃ t cat hw ws,
      preprocess ⟨c.includes, fun s t => (c.env fuel).subs s .header none t⟩ fuel p.store c.primary text = .ok (t, map) ∧
      d.catalog = some cat ∧ Reg Catalog.new cat (refsAll d.blocks) ws ∧ d.warnings = hw ++ ws ∧
      (∀ w ∈ hw, Faithful t w.source ∧ Other w.warning) ∧ (∀ w ∈ ws, Faithful t w.source) ∧ p'.catalog = none := by
  obtain ⟨t, ht, hd⟩ := c.parse_parts h
  obtain ⟨mi, hw, store, bs, rest, ws, sw, q, h1, h2, h3, h4, h5, h6, h7, h8⟩ := document_run hd
  have hc : (p.fresh).catalog = some Catalog.new := by
    unfold ParserState.fresh
    rcases hp with hp | hp <;> simp [hp]
  obtain ⟨⟨cat, hq, hr⟩, hw', _⟩ := run_reg h2 Catalog.new hc
  have hsub : Sub mi.after.discardEmptyLines (Span.new t) :=
    (discardEmptyLines_suf _).sub.trans (header_after h1)
  refine ⟨t, cat, hw, ws, ht, by rw [h6, hq], by rwa [refsAll_withPreamble h3], h5, ?_, ?_, by rw [h7]⟩
  · intro w hww
    obtain ⟨f, g⟩ := C47_warnings h1 w hww
    refine ⟨f, fun i hi => ?_⟩
    rcases g with g | ⟨n, g⟩ <;> rw [g] at hi <;> cases hi
  · intro w hww
    exact (faithful_iff_sub _ _).mpr ((hw' w hww).1.trans hsub)

/-! ### C28 -/

/-- Behind a parse the parser has no catalog; the document has it. -/
theorem C28_catalog_gone {c : Config} {fuel : Nat} {p p' : ParserState} {text : Text} {d : Document} {map : SourceMap}
    (h : c.parse fuel p text = .ok (d, map, p')) : p'.catalog = none := by
  obtain ⟨t, ht, hd⟩ := c.parse_parts h
  obtain ⟨mi, hw, store, bs, rest, ws, sw, q, h1, h2, h3, h4, h5, h6, h7, h8⟩ := document_run hd
  rw [h7]

/-- The catalog of a document has the first of the entries of its blocks with each id, and no others.  (The blocks inside a
block come before it.) -/
theorem C28_catalog {c : Config} {fuel : Nat} {p p' : ParserState} {text : Text} {d : Document} {map : SourceMap}
    (hp : p.catalog = none ∨ p.catalog = some Catalog.new) (h : c.parse fuel p text = .ok (d, map, p')) :
    ∃ cat, d.catalog = some cat ∧ ∀ id, cat.getRef id = firstById (refsAll d.blocks) id := by
  obtain ⟨t, cat, hw, ws, _, h1, h2, _⟩ := catalog_parts hp h
  refine ⟨cat, h1, fun id => ?_⟩
  rw [(h2.2 id).1]
  rfl

/-- A reference text leads to the first of the entries in the catalog with this text. -/
theorem C28_reftext {c : Config} {fuel : Nat} {p p' : ParserState} {text : Text} {d : Document} {map : SourceMap}
    (hp : p.catalog = none ∨ p.catalog = some Catalog.new) (h : c.parse fuel p text = .ok (d, map, p')) :
    ∃ cat, d.catalog = some cat ∧ ∀ t, cat.resolveId t = firstByReftext (firsts (refsAll d.blocks)) t := by
  obtain ⟨t, cat, hw, ws, _, h1, h2, _⟩ := catalog_parts hp h
  exact ⟨cat, h1, (h2.1 [] knows_new).2⟩

/-- Each occurrence of an id but the first is reported as a duplicate, once. -/
theorem C28_warnings {c : Config} {fuel : Nat} {p p' : ParserState} {text : Text} {d : Document} {map : SourceMap}
    (hp : p.catalog = none ∨ p.catalog = some Catalog.new) (h : c.parse fuel p text = .ok (d, map, p')) (id : Text) :
    reported d.warnings id = occurrences (refsAll d.blocks) id - 1 := by
  obtain ⟨t, cat, hw, ws, _, h1, h2, h3, h4, _⟩ := catalog_parts hp h
  have := (h2.2 id).2
  rw [h3, reported_append, reported_other (fun w hw => (h4 w hw).2), Nat.zero_add]
  have hn : Catalog.new.getRef id = none := rfl
  rw [hn] at this
  simp only [true_and] at this
  split at this <;> omega

omit [Uni] in
/-- Non-vacuity: an id given four times (to a paragraph, to a section, to a block in it, and generated); the nested block
registers before the section. -/
example : letI := asciiUni
    parsed ((Config.default .checked).parse 60 .default "[#a]\nx\n\n[#b,reftext=B]\n== S\n\n[#b]\ny\n\n[[a]]\n====\nz\n====".toList)
      (fun d => (d.catalog.map fun c => [c.getRef "a".toList, c.getRef "b".toList]) ==
          some [some ⟨"a".toList, none, .anchor⟩, some ⟨"b".toList, none, .anchor⟩] &&
        d.warnings.map (·.warning) == [.duplicateId "b".toList, .duplicateId "a".toList] &&
        (refsAll d.blocks).map (·.id) == ["a".toList, "b".toList, "a".toList, "b".toList]) = true := by
  decide +kernel

/-! ### C52 -/

/-- Every warning of a document points to a piece of the preprocessed text, with the line, column and offset of that
piece. -/
theorem C52_warning_places {c : Config} {fuel : Nat} {p p' : ParserState} {text : Text} {d : Document} {map : SourceMap}
    (hp : p.catalog = none ∨ p.catalog = some Catalog.new) (h : c.parse fuel p text = .ok (d, map, p')) :
    ∃ t, preprocess ⟨c.includes, fun s t => (c.env fuel).subs s .header none t⟩ fuel p.store c.primary text = .ok (t, map) ∧
      ∀ w ∈ d.warnings, Faithful t w.source := by
  obtain ⟨t, cat, hw, ws, h0, h1, h2, h3, h4, h5, _⟩ := catalog_parts hp h
  refine ⟨t, h0, fun w hw => ?_⟩
  rw [h3] at hw
  rcases List.mem_append.mp hw with hw | hw
  · exact (h4 w hw).1
  · exact h5 w hw

omit [Uni] in
/-- Non-vacuity: warnings from the header, from metadata, from nested blocks. -/
example : letI := asciiUni
    parsed ((Config.default .checked).parse 60 .default "= T\nx\ny\nv1.0\n\n[a,,b]\n====\n----\nz".toList)
      (fun d => d.warnings.map (fun w => (w.source.line, w.source.data)) ==
        [(4, "v1.0".toList), (6, "a,,b".toList), (7, "====".toList), (8, "----".toList)]) = true := by
  decide +kernel

end Adoc.Props
