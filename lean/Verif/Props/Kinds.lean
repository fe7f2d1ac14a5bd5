import Verif.Lemmas.Kinds
import Verif.Lemmas.Parse
import Verif.Spec.IsBlock
/-!
# C58: every block is of the kind that its first line calls for

`LineForm` (Spec/Kinds) says what a line begins; it gives every line one form (`C58_one_form`).  It does not know block
macros for audio files, which the code does not recognise (`C58_audio_fails`).
-/

namespace Adoc.Props
open Adoc Adoc.Spec Span

/-- Every line has exactly one form. -/
theorem C58_one_form (l : Text) : ∃ f, LineForm l f ∧ ∀ g, LineForm l g → g = f := by
  obtain ⟨f, hf⟩ := lineForm_exists l
  exact ⟨f, hf, fun g hg => lineForm_unique hg hf⟩

private theorem prefix_unique {a b x y : Text} (h : a ++ x = b ++ y) (hl : blen a = blen b) : a = b := by
  rcases List.append_eq_append_iff.mp h with ⟨z, rfl, _⟩ | ⟨z, rfl, _⟩
  · rw [blen_append] at hl
    have : z = [] := blen_eq_zero.mp (by omega)
    simp [this]
  · rw [blen_append] at hl
    have : z = [] := blen_eq_zero.mp (by omega)
    simp [this]

variable [Uni]

private theorem before {t : Text} {s body : Span} (hs : Sub s (Span.new t)) (hal : Aligned s)
    (hb : body = s ∨ body = s.discardEmptyLines) (hne : body.data ≠ []) (hc : body ≠ s) :
    ∃ pre, At t pre body ∧ EndsBlank pre := by
  rcases hb with hb | hb
  · exact absurd hb hc
  subst hb
  rcases discard_blank s.data.length s with h | h | ⟨a, w, h, ha, hw⟩
  · exact absurd h hc
  · exact absurd h hne
  obtain ⟨pre, hp⟩ := (faithful_iff_sub t s).mpr hs
  obtain ⟨k, hk, e⟩ := discardEmptyLines_suf s
  obtain ⟨pre', hp'⟩ := (faithful_iff_sub t _).mpr ((discardEmptyLines_suf s).sub.trans hs)
  refine ⟨pre', hp', ?_⟩
  change s.data = a ++ w ++ '\n' :: s.discardEmptyLines.data at h
  have htake : s.data.take k = a ++ w ++ ['\n'] := by
    have h1 : s.data = s.data.take k ++ s.discardEmptyLines.data := by
      rw [e, dropN_data, List.take_append_drop]
    have h2 : a ++ w ++ ['\n'] ++ s.discardEmptyLines.data = s.data.take k ++ s.discardEmptyLines.data := by
      rw [← h1]; conv => rhs; rw [h]
      simp
    exact (List.append_cancel_right h2).symm
  have hpre : pre' = pre ++ (a ++ w ++ ['\n']) := by
    obtain ⟨post, e1⟩ := hp.piece
    obtain ⟨post', e2⟩ := hp'.piece
    have o1 := hp.offset
    have o2 := hp'.offset
    rw [← blen_eq_utf8ByteSize] at o1 o2
    rw [e, dropN_offset, htake, o1] at o2
    refine prefix_unique (x := s.discardEmptyLines.data ++ post') (y := s.discardEmptyLines.data ++ post) ?_ ?_
    · rw [← List.append_assoc, ← e2, e1]; conv => lhs; rw [h]
      simp
    · rw [← o2]; exact (blen_append _ _).symm
  have hpre0 : pre = [] ∨ ∃ x, pre = x ++ ['\n'] := by
    rcases hal with h0 | h1
    · rw [h0] at h; simp at h
    · obtain ⟨cur, ⟨x, g1, _, g3⟩, g4⟩ := hp.col
      have : cur = [] := List.length_eq_zero_iff.mp (by omega)
      subst this
      rw [List.append_nil] at g1
      subst g1
      exact g3
  refine ⟨pre ++ a, w, by rw [hpre]; simp, ?_, hw⟩
  rcases ha with rfl | ⟨a', rfl⟩
  · simpa using hpre0
  · exact Or.inr ⟨pre ++ a', by simp⟩

/-- Every block but attribute entries and the preamble is what its first line behind the metadata calls for.  The block
begins at `body`; its metadata `is` are the lines there that can be read as such; `rest` are the other lines.  A block with
the style `literal` is a paragraph whatever its first line is.  The block has the metadata in front of it, except for
metadata behind which no block begins: these lines become a paragraph without metadata. -/
theorem C58_kind_partial {c : Config} {fuel : Nat} {p p' : ParserState} {text : Text} {d : Document} {map : SourceMap}
    (h : c.parse fuel p text = .ok (d, map, p')) {x : Block} (hx : InDoc d x) (he : ¬ IsEntry x) (hp : x.kind ≠ .preamble) :
    ∃ t body k is rest,
      preprocess ⟨c.includes, fun s t => (c.env fuel).subs s .header none t⟩ fuel p.store c.primary text = .ok (t, map) ∧
      Faithful t body ∧ x.source = body.takeN k ∧ MetaItems [] (lines body.data) is rest ∧
      ((x.declaredStyle = some "literal".toList ∧ formOf x.kind = some .text) ∨
        (x.declaredStyle ≠ some "literal".toList ∧ ∃ f, LineForm (rest.headD []) f ∧ formOf x.kind = some f)) ∧
      (Describes is x.fields ∨
        (is ≠ [] ∧ NoParagraph rest ∧ formOf x.kind = some .text ∧ x.fields.titleSource = none ∧ x.fields.anchor = none ∧
          x.fields.attrlist = none)) := by
  obtain ⟨t, ht, hd⟩ := c.parse_parts h
  obtain ⟨s, body, k, is, rest, b⟩ := made_begun (document_made hd x hx) he hp
  refine ⟨t, body, k, is, rest, ht, ?_, b.source, b.items, b.form, b.described⟩
  rw [faithful_iff_sub]
  rcases b.start with h | h <;> rw [h]
  · exact b.within
  · exact (discardEmptyLines_suf s).sub.trans b.within

/-- An attribute entry is written as one, with the name and the value that are written. -/
theorem C58_entry {c : Config} {fuel : Nat} {p p' : ParserState} {text : Text} {d : Document} {map : SourceMap}
    (h : c.parse fuel p text = .ok (d, map, p')) {x : Block} (hx : InDoc d x) {a : Attribute} (he : x.kind = .docAttr a) :
    ∃ t body k,
      preprocess ⟨c.includes, fun s t => (c.env fuel).subs s .header none t⟩ fuel p.store c.primary text = .ok (t, map) ∧
      Faithful t body ∧ x.source = body.takeN k ∧ BodyEntry body.data ∧
      ∃ cont sep rest u kind store, Extent body.data cont sep rest ∧ StripSpaces cont u ∧ Entry u a.name.data kind ∧
        EntryValue (fun t => (c.env fuel).subs store .header none t) kind a.value := by
  obtain ⟨t, ht, hd⟩ := c.parse_parts h
  cases document_made hd x hx with
  | compound hm ho => cases he
  | «section» _ _ _ _ => cases he
  | preamble => cases he
  | @leaf q _ s _ _ _ h hs hal =>
    have hshape := leaf_shape h
    generalize hr : (some (⟨x, _⟩ : MI Block)) = r at h
    cases h with
    | fast hf => cases hr; cases he
    | raw hm hp => cases hr; cases he
    | media hm hp => cases hr; cases he
    | brk hm _ hp => cases hr; cases he
    | simple hfb hp =>
      subst hr
      obtain ⟨m', sb, _, _, rfl, _⟩ := parseSimple_some hp
      cases he
    | entry hb =>
      cases hr
      cases he
      unfold bodyEntryAt at hb
      simp only at hb
      split at hb
      · rename_i hl
        obtain ⟨_, k, g2⟩ := entry_lineSuf hb
        obtain ⟨cont, sep, rest, u, kind, e1, e2, e3, e4, e5⟩ := C51_only_entries hb
        obtain ⟨l, sep', rest', hf, hte⟩ := takeLine_first s
        refine ⟨t, s, k, ht, (faithful_iff_sub _ _).mpr hs, g2, ⟨cont, sep, rest, u, _, kind, e1, e2, e3, l, sep', rest', hf, ?_⟩,
          cont, sep, rest, u, kind, q.store, e1, e2, e3, e4⟩
        rw [(takeLine_data hf.eq hf.takeLine_eq).1, Bool.and_eq_true, Bool.or_eq_true, endsWith_iff, containsSub_iff] at hl
        rcases hl.2 with ⟨r, hr⟩ | ⟨a, b, hab⟩
        · exact Or.inl ⟨r, hr⟩
        · exact Or.inr ⟨a, b, by rw [hab]; simp⟩
      · cases hb

/-- An attribute entry is recognised, unless there is a blank line right in front of it. -/
theorem C58_entry_found_partial {c : Config} {fuel : Nat} {p p' : ParserState} {text : Text} {d : Document} {map : SourceMap}
    (h : c.parse fuel p text = .ok (d, map, p')) {x : Block} (hx : InDoc d x) (he : ¬ IsEntry x) (hp : x.kind ≠ .preamble) :
    ∃ t pre body k,
      preprocess ⟨c.includes, fun s t => (c.env fuel).subs s .header none t⟩ fuel p.store c.primary text = .ok (t, map) ∧
      At t pre body ∧ x.source = body.takeN k ∧ (BodyEntry body.data → EndsBlank pre) := by
  obtain ⟨t, ht, hd⟩ := c.parse_parts h
  obtain ⟨s, body, k, is, rest, b⟩ := made_begun (document_made hd x hx) he hp
  have hsub : Sub body (Span.new t) := by
    rcases b.start with h | h <;> rw [h]
    · exact b.within
    · exact (discardEmptyLines_suf s).sub.trans b.within
  by_cases hbs : body = s
  · obtain ⟨pre, hpre⟩ := (faithful_iff_sub t body).mpr hsub
    exact ⟨t, pre, body, k, ht, hpre, b.source, fun hb => absurd hb (b.entry hbs)⟩
  · have hne : body.data ≠ [] := by
      obtain ⟨ch, hc, _⟩ := ((document_tidy hd).2 x hx).vis
      intro h0
      rw [b.source, takeN_data, h0] at hc
      simp at hc
    obtain ⟨pre, h1, h2⟩ := before b.within b.aligned b.start hne hbs
    exact ⟨t, pre, body, k, ht, h1, b.source, fun _ => h2⟩

/-- Blocks of all forms, with and without metadata. -/
example : letI := asciiUni
    parsed ((Config.default .checked).parse 60 .default
        ".t\n[[a]]\n----\nx\n----\n\n[b]\n****\nz\n****\n\n[literal]\n== no\n\n.u\nimage::a[b]\n\n:n: v\n:m: w\n\n[c]\n---\n\n[d]\n\n[e]\n== S".toList)
      (fun d => (d.blocks.head?.toList.flatMap (·.children)).map (fun b => (formOf b.kind, b.fields.title, b.declaredStyle, b.fields.anchor.map Span.data)) ==
        [(some (.verbatim .verbatim "listing".toList), some ['t'], none, some ['a']),
         (some (.container "sidebar".toList), none, some ['b'], none),
         (some .text, none, some "literal".toList, none),
         (some (.media .image ['a'] ['b']), some ['u'], none, none), (none, none, none, none), (none, none, none, none),
         (some (.brk .thematic), none, some ['c'], none), (some .text, none, none, none)] &&
       (d.blocks.drop 1).map (fun b => (formOf b.kind, b.declaredStyle)) == [(some (.heading 1 ['S']), some ['e'])]) = true := by
  decide +kernel

omit [Uni] in
/-- Attribute entries behind a blank line that follows another entry or a delimited block are paragraphs, although the same
lines without the blank line are entries. -/
theorem C58_entry_missed : letI := asciiUni
    parsed ((Config.default .checked).parse 60 .default "x\n\n:a: 1\n\n:b: 2".toList)
      (fun d => d.blocks.map (·.rawContext) == ["paragraph".toList, "attribute".toList, "paragraph".toList]) = true ∧
    parsed ((Config.default .checked).parse 60 .default "----\nx\n----\n\n:b: 2".toList)
      (fun d => d.blocks.map (·.rawContext) == ["listing".toList, "paragraph".toList]) = true ∧
    parsed ((Config.default .checked).parse 60 .default "x\n\n:a: 1\n:b: 2".toList)
      (fun d => d.blocks.map (·.rawContext) == ["paragraph".toList, "attribute".toList, "attribute".toList]) = true ∧
    parsed ((Config.default .checked).parse 60 .default "----\nx\n----\n:b: 2".toList)
      (fun d => d.blocks.map (·.rawContext) == ["listing".toList, "attribute".toList]) = true := by
  decide +kernel

omit [Uni] in
/-- A block macro for an audio file is a paragraph. -/
theorem C58_audio_fails : letI := asciiUni
    MediaLine "audio::a[]".toList .audio ['a'] [] ∧
    parsed ((Config.default .checked).parse 60 .default "audio::a[]".toList)
      (fun d => d.blocks.map (·.rawContext) == ["paragraph".toList]) = true := by
  refine ⟨⟨by decide, by decide, by decide⟩, ?_⟩
  decide +kernel

end Adoc.Props
