import Verif.Lemmas.Reported
import Verif.Lemmas.Parse
import Verif.Props.Refs
import Verif.Lemmas.ShorthandList
/-!
# C80: a block reports what is written above it

`Spec.Relates` says what the title, the anchor, the text for references and the attributes are that some lines give to a block,
and `Spec.Keeps` which of them the block has.  It has all of them, with the exceptions shown by `C80_media_fails` and
`C80_lone_fails`; and the text for references is not used for references (`C80_unresolved_fails`).
-/

namespace Adoc.Props
open Adoc Adoc.Spec Span

variable [Uni]

/-- Every block but attribute entries and the preamble reports what is written above it.  The block begins at `body`, and `is` are
the metadata that the lines there say. -/
theorem C80_reported_partial {c : Config} {fuel : Nat} {p p' : ParserState} {text : Text} {d : Document} {map : SourceMap}
    (h : c.parse fuel p text = .ok (d, map, p')) {x : Block} (hx : InDoc d x) (he : ¬ IsEntry x) (hp : x.kind ≠ .preamble) :
    ∃ t body k is rest store f,
      preprocess ⟨c.includes, fun s t => (c.env fuel).subs s .header none t⟩ fuel p.store c.primary text = .ok (t, map) ∧
      Faithful t body ∧ x.source = body.takeN k ∧ MetaItems [] (lines body.data) is rest ∧
      Relates ((c.env fuel).subs store .normal none) store is f ∧ Keeps x is rest f := by
  obtain ⟨t, ht, hd⟩ := c.parse_parts h
  obtain ⟨body, k, is, rest, store, f, h1, h2, h3, h4, h5⟩ := made_reports (document_made hd x hx) he hp
  exact ⟨t, body, k, is, rest, store, f, ht, (faithful_iff_sub _ _).mpr h1, h2, h3, h4, h5⟩

/-- The text for references that a block reports is the one in the line with its anchor; a block that is neither an image nor a
video nor a break reports it if there is one. -/
theorem C80_reftext_partial {c : Config} {fuel : Nat} {p p' : ParserState} {text : Text} {d : Document} {map : SourceMap}
    (h : c.parse fuel p text = .ok (d, map, p')) {x : Block} (hx : InDoc d x) (he : ¬ IsEntry x) (hp : x.kind ≠ .preamble) :
    ∃ t body k is rest,
      preprocess ⟨c.includes, fun s t => (c.env fuel).subs s .header none t⟩ fuel p.store c.primary text = .ok (t, map) ∧
      Faithful t body ∧ x.source = body.takeN k ∧ MetaItems [] (lines body.data) is rest ∧
      (¬ Forgets x → x.fields.anchorReftext.map Span.data = (is.findSome? MetaItem.anchor?).bind Prod.snd) ∧
      (Forgets x → x.fields.anchorReftext = none) := by
  obtain ⟨t, body, k, is, rest, store, f, h1, h2, h3, h4, h5, h6⟩ := C80_reported_partial h hx he hp
  have hr : f.anchorReftext.map Span.data = (is.findSome? MetaItem.anchor?).bind Prod.snd := by
    rw [← h5.anchor]
    cases ha : f.anchor with
    | some a => rfl
    | none =>
      cases hf : f.anchorReftext with
      | none => rfl
      | some r =>
        have := h5.reftext (by rw [hf]; rfl)
        rw [ha] at this
        cases this
  refine ⟨t, body, k, is, rest, h1, h2, h3, h4, ?_, ?_⟩
  · intro hk
    rcases h6 with ⟨_, e⟩ | ⟨hk', _⟩ | ⟨_, _, _, e⟩
    · rw [e]; exact hr
    · exact absurd hk' hk
    · rw [e]; exact hr
  · intro hk
    rcases h6 with ⟨hk', _⟩ | ⟨_, e⟩ | ⟨_, _, ⟨content, style, e⟩, _⟩
    · exact absurd hk hk'
    · rw [e]
    · rcases hk with ⟨_, _, _, h⟩ | ⟨_, h⟩ <;> (rw [e] at h; cases h)

omit [Uni] in
/-- Non-vacuity: a paragraph with a title, an anchor with a text for references and attributes. -/
example : letI := asciiUni
    parsed ((Config.default .checked).parse 60 .default ".A *b*\n[[i,see, c]]\n[quote]\nText".toList) (fun d =>
      d.blocks.map (fun b => (b.fields.title, b.fields.anchor.map Span.data, b.fields.anchorReftext.map Span.data, b.declaredStyle)) ==
        [(some "A <strong>b</strong>".toList, some "i".toList, some "see, c".toList, some "quote".toList)]) = true := by
  decide +kernel

/-- The roles of a block are those of its attribute list: those in the shorthand of the first positional attribute and the words of
the attribute `role`.  A block without attribute list has none. -/
theorem C80_roles (x : Block) (r : Text) : r ∈ x.roles ↔ ∃ al, x.fields.attrlist = some al ∧
    ((∃ p, al.nthAttribute 1 = some p ∧ r ∈ p.roles) ∨ ∃ a, al.namedAttribute "role".toList = some a ∧ PieceOf ' ' a.value r) := by
  unfold Block.roles
  cases h : x.fields.attrlist with
  | none => simp
  | some al =>
    simp only [Option.some.injEq, exists_eq_left']
    exact C34_roles al r

/-- The options of a block are those in the shorthand of the first positional attribute and those listed in the attributes `opts` and
`options`; a block has an option if it is one of them. -/
theorem C80_options (x : Block) (o : Text) :
    (o ∈ x.options ↔ ∃ al, x.fields.attrlist = some al ∧
      ((∃ p, al.nthAttribute 1 = some p ∧ o ∈ p.options) ∨
        ∃ a, (al.namedAttribute "opts".toList = some a ∨ al.namedAttribute "options".toList = some a) ∧ PieceOf ',' a.value o)) ∧
    (x.hasOption o = true ↔ o ∈ x.options) := by
  unfold Block.options Block.hasOption
  cases h : x.fields.attrlist with
  | none => simp
  | some al =>
    have := C34_has_option al o
    unfold Attrlist.hasOption at this ⊢
    rw [List.contains_iff_mem] at this
    simp only [Option.some.injEq, exists_eq_left', List.contains_iff_mem]
    exact ⟨this, trivial⟩

/-- The style, the id, the roles and the options of a block are those written in shorthand above it: if the text of its attribute list
is a style followed by ids, roles and options, then the block has this style, the first of the ids (unless it has an anchor), exactly
these roles and exactly these options, in this order. -/
theorem C80_shorthand {c : Config} {fuel : Nat} {p p' : ParserState} {text : Text} {d : Document} {map : SourceMap}
    (h : c.parse fuel p text = .ok (d, map, p')) {x : Block} (hx : InDoc d x) (he : ¬ IsEntry x) (hp : x.kind ≠ .preamble)
    {al : Attrlist} (hal : x.fields.attrlist = some al) {style : Text} {items : List (Char × Text)}
    (hs : al.source.data = style ++ items.flatMap itemText) (hsh : Shorthand style items) :
    x.declaredStyle = (if style = [] then none else some style) ∧
    (x.fields.anchor = none → x.enumId = (partsOf '#' items).head?) ∧
    x.roles = partsOf '.' items ∧ x.options = partsOf '%' items ∧
    ∀ o, x.hasOption o = true ↔ o ∈ partsOf '%' items := by
  obtain ⟨t, body, k, is, rest, store, f, h1, h2, h3, h4, h5, h6⟩ := C80_reported_partial h hx he hp
  have hf : f.attrlist = some al := by
    rcases h6 with ⟨_, e⟩ | ⟨_, e⟩ | ⟨_, _, _, e⟩ <;> rw [e] at hal
    · exact hal
    · exact hal
    · cases hal
  obtain ⟨ws, hr⟩ := h5.read al (by rw [hf]; rfl)
  rw [shorthand_list hsh [] nofun _ _ _ _ hs (by simp)] at hr
  have hw : ∀ {t : Text}, ShortWord t → ∀ c r, t = r ++ [c] → isWhite c = false := by
    intro t ht c r e; exact (ht c (by rw [e]; simp)).2.1
  obtain ⟨k1, k2, k3, k4, k5⟩ := C35_roundtrip style items (fun c hc => (hsh.1 c hc).1)
    (fun i hi => ⟨(hsh.2.1 i hi).1, fun c hc => ((hsh.2.1 i hi).2.2 c hc).1⟩)
    ⟨(by
      intro c r e
      have := (hsh.1 c (by rw [e]; simp)).2.1
      constructor <;> (rintro rfl; exact absurd this (by decide))), hw hsh.1⟩
    (fun i hi => ⟨(hsh.2.1 i hi).2.1, hw (hsh.2.1 i hi).2.2⟩)
  rw [← hs] at k1 k2 k3 k4 k5
  have hattrs : al.attributes = [⟨none, al.source.data, (parseShorthandItems al.source.data).1⟩] ∧ al.anchor = none := by
    have e := congrArg Prod.fst (Except.ok.inj hr)
    simp only at e
    constructor
    · rw [← e]; rfl
    · rw [← e]
  have hnth : al.nthAttribute 1 = some ⟨none, al.source.data, (parseShorthandItems al.source.data).1⟩ := by
    unfold Attrlist.nthAttribute
    rw [hattrs.1]; rfl
  have hnamed : ∀ n, al.namedAttribute n = none := by
    intro n
    unfold Attrlist.namedAttribute
    rw [hattrs.1]; simp
  have hopt : x.options = partsOf '%' items := by
    unfold Block.options Attrlist.options
    rw [hal]
    simp only [hnth, hnamed, List.append_nil]
    exact k4
  refine ⟨?_, ?_, ?_, hopt, fun o => ?_⟩
  · unfold Block.declaredStyle
    rw [hal]
    simp only [Option.bind_some, hnth]
    exact k1
  · intro ha
    unfold Block.enumId Meta.id Attrlist.id
    rw [ha, hal]
    simp only [Option.map_none, Option.none_or, Option.bind_some, hnth, hattrs.2, hnamed, Option.or_none]
    exact k2
  · unfold Block.roles Attrlist.roles
    rw [hal]
    simp only [hnth, hnamed, List.append_nil]
    exact k3
  · rw [(C80_options x o).2, hopt]

omit [Uni] in
/-- Non-vacuity: a paragraph with a style, an id, two roles and an option. -/
example : Shorthand "quote".toList [('#', "i".toList), ('.', "a".toList), ('%', "o".toList), ('.', "b".toList)] ∧ letI := asciiUni
    parsed ((Config.default .checked).parse 60 .default "[quote#i.a%o.b]\nText".toList) (fun d =>
      d.blocks.map (fun b => (b.fields.attrlist.map (fun a => a.source.data), b.declaredStyle, b.enumId, b.roles, b.options)) ==
        [(some ("quote".toList ++ [('#', "i".toList), ('.', "a".toList), ('%', "o".toList), ('.', "b".toList)].flatMap itemText),
          some "quote".toList, some "i".toList, ["a".toList, "b".toList], ["o".toList])]) = true := by
  refine ⟨⟨?_, ?_, ?_⟩, by decide +kernel⟩
  · unfold ShortWord Delim; decide
  · unfold ShortWord Delim; decide
  · decide

omit [Uni] in
/-- An image does not keep the text for references. -/
theorem C80_media_fails : letI := asciiUni
    parsed ((Config.default .checked).parse 60 .default "[[i,c]]\nimage::d[]".toList) (fun d =>
      d.blocks.map (fun b => (b.fields.anchor.map Span.data, b.fields.anchorReftext.map Span.data)) == [(some "i".toList, none)]) = true := by
  decide +kernel

omit [Uni] in
/-- A paragraph that consists of metadata has a text for references, although it has no anchor. -/
theorem C80_lone_fails : letI := asciiUni
    parsed ((Config.default .checked).parse 60 .default "[[i,c]]\n.d".toList) (fun d =>
      d.blocks.map (fun b => (b.fields.anchor.map Span.data, b.fields.anchorReftext.map Span.data)) == [(none, some "c".toList)]) = true := by
  decide +kernel

omit [Uni] in
/-- The text for references in an anchor does not lead to the block: it is not in the catalog. -/
theorem C80_unresolved_fails : letI := asciiUni
    parsed ((Config.default .checked).parse 60 .default "[[i,c]]\nd".toList) (fun d =>
      d.catalog.map (fun cat => (cat.getRef "i".toList, cat.resolveId "c".toList)) == some (some ⟨"i".toList, none, .anchor⟩, none)) = true := by
  decide +kernel

end Adoc.Props
