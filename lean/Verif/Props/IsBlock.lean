import Verif.Lemmas.Made
import Verif.Lemmas.Media
import Verif.Lemmas.Rendered
import Verif.Spec.IsBlock
import Verif.Props.Refs
import Verif.Props.Tree
/-!
# C54, C55, C56, C57: what blocks tell about themselves

The theorems are about every block, at any depth, of every document a parser returns.
-/

namespace Adoc.Props
open Adoc Adoc.Spec Span

variable [Uni]

/-! ### C54 -/

/-- Every block begins in the first column of a line: in front of it the text is empty or ends with a newline. -/
theorem C54_line_start {c : Config} {fuel : Nat} {p p' : ParserState} {text : Text} {d : Document} {map : SourceMap}
    (h : c.parse fuel p text = .ok (d, map, p')) {x : Block} (hx : InDoc d x) :
    x.source.col = 1 ∧
    ∃ t pre, preprocess ⟨c.includes, fun s t => (c.env fuel).subs s .header none t⟩ fuel p.store c.primary text = .ok (t, map) ∧
      At t pre x.source ∧ (pre = [] ∨ ∃ a, pre = a ++ ['\n']) := by
  obtain ⟨t, ht, hd⟩ := c.parse_parts h
  have hn := (document_tidy hd).2 x hx
  have hcol : x.source.col = 1 := by
    rcases (document_made hd x hx).aligned with h0 | h1
    · obtain ⟨ch, hc, _⟩ := hn.vis
      rw [h0] at hc; cases hc
    · exact h1
  obtain ⟨pre, ha⟩ := (faithful_iff_sub t _).mpr (hn.own x.source (by simp [spans]))
  refine ⟨hcol, t, pre, ht, ha, ?_⟩
  obtain ⟨cur, ⟨a, h1, _, h3⟩, h4⟩ := ha.col
  have : cur = [] := List.length_eq_zero_iff.mp (by omega)
  subst this
  rw [List.append_nil] at h1
  subst h1
  exact h3

example : letI := asciiUni
    parsed ((Config.default .checked).parse 60 .default "= T\n\n x\n\n.t\n====\n[[a]]\ny\n\n:b: c\n====\n\n== S\nz".toList)
      (fun d => d.blocks.map (fun b => (b.source.line, b.source.col)) == [(3, 1), (13, 1)] &&
        (d.blocks.flatMap (·.children)).map (fun b => (b.source.line, b.source.col)) == [(3, 1), (5, 1), (14, 1)] &&
        ((d.blocks.flatMap (·.children)).flatMap (·.children)).map (fun b => (b.source.line, b.source.col)) ==
          [(7, 1), (10, 1)]) = true := by
  decide +kernel

/-! ### C56 -/

omit [Uni] in
private theorem model_cases (c : Char) : (rawBlockKind c).1 = .raw ∨ (rawBlockKind c).1 = .verbatim := by
  unfold rawBlockKind
  split
  · exact Or.inl rfl
  · split
    · exact Or.inr rfl
    · split
      · exact Or.inr rfl
      · exact Or.inl rfl

omit [Uni] in
private theorem raw_context (c : Char) : ∃ t ∈ contextsOf (rawBlockKind c).1, (rawBlockKind c).2.1 = t.toList := by
  unfold rawBlockKind
  split
  · exact ⟨"comment", by simp [contextsOf], rfl⟩
  · split
    · exact ⟨"listing", by simp [contextsOf], rfl⟩
    · split
      · exact ⟨"literal", by simp [contextsOf], rfl⟩
      · exact ⟨"pass", by simp [contextsOf], rfl⟩

/-- The fields of blocks of each kind. -/
private theorem made_context {e : BlockEnv} {T : Span} {b : Block} (h : Made e T b) :
    ∃ t ∈ contextsOf b.contentModel, b.rawContext = t.toList := by
  cases h with
  | leaf h =>
    cases leaf_shape h with
    | simple _ _ _ => exact ⟨"paragraph", by simp [Block.contentModel, Block.kind, contextsOf], rfl⟩
    | entry => exact ⟨"attribute", by simp [Block.contentModel, Block.kind, contextsOf], rfl⟩
    | @brk f ty src =>
      cases ty
      · exact ⟨"thematic_break", by simp [Block.contentModel, Block.kind, contextsOf], rfl⟩
      · exact ⟨"page_break", by simp [Block.contentModel, Block.kind, contextsOf], rfl⟩
    | raw _ hp =>
      obtain ⟨c, _, h1, h2⟩ := rawBlock_shape hp
      obtain ⟨t, h3, h4⟩ := raw_context c
      refine ⟨t, ?_, ?_⟩
      · simpa [Block.contentModel, Block.kind, h1] using h3
      · simpa [Block.rawContext, Block.kind, h2] using h4
    | @media m mb after ws h1 h2 =>
      have := not_audio h1 (media_reads h2).1
      cases ht : mb.type with
      | image => exact ⟨"image", by simp [Block.contentModel, Block.kind, contextsOf], by simp [Block.rawContext, Block.kind]⟩
      | video => exact ⟨"video", by simp [Block.contentModel, Block.kind, contextsOf], by simp [Block.rawContext, Block.kind]⟩
      | audio => exact absurd ht this
  | @compound _ _ _ _ context _ _ _ _ _ _ hm ho =>
    have := compoundLine_iff.mp ⟨ho.kind, ho.delim⟩
    rcases this with ⟨_, rfl⟩ | ⟨n, ⟨_, rfl⟩ | ⟨_, rfl⟩ | ⟨_, rfl⟩⟩
    · exact ⟨"open", by simp [Block.contentModel, Block.kind, contextsOf], rfl⟩
    · exact ⟨"example", by simp [Block.contentModel, Block.kind, contextsOf], rfl⟩
    · exact ⟨"sidebar", by simp [Block.contentModel, Block.kind, contextsOf], rfl⟩
    · exact ⟨"quote", by simp [Block.contentModel, Block.kind, contextsOf], rfl⟩
  | «section» _ _ _ _ => exact ⟨"section", by simp [Block.contentModel, Block.kind, contextsOf], rfl⟩
  | preamble => exact ⟨"preamble", by simp [Block.contentModel, Block.kind, contextsOf], rfl⟩

/-- The context of a block is one that its content model allows. -/
theorem C56_context {c : Config} {fuel : Nat} {p p' : ParserState} {text : Text} {d : Document} {map : SourceMap}
    (h : c.parse fuel p text = .ok (d, map, p')) {x : Block} (hx : InDoc d x) :
    ∃ t ∈ contextsOf x.contentModel, x.rawContext = t.toList := by
  obtain ⟨t, _, hd⟩ := c.parse_parts h
  exact made_context (document_made hd x hx)

/-- A block has rendered content, or none, as its content model says; and only compound blocks have nested blocks. -/
theorem C56_content {c : Config} {fuel : Nat} {p p' : ParserState} {text : Text} {d : Document} {map : SourceMap}
    (h : c.parse fuel p text = .ok (d, map, p')) {x : Block} (hx : InDoc d x) :
    (x.renderedContent = none ↔ x.contentModel = .compound ∨ x.contentModel = .empty) ∧
    (x.children ≠ [] → x.contentModel = .compound) := by
  obtain ⟨t, _, hd⟩ := c.parse_parts h
  cases document_made hd x hx with
  | leaf h =>
    cases leaf_shape h with
    | simple _ _ _ => simp [Block.renderedContent, Block.contentModel, Block.kind, Block.children]
    | entry => simp [Block.renderedContent, Block.contentModel, Block.kind, Block.children]
    | brk => simp [Block.renderedContent, Block.contentModel, Block.kind, Block.children]
    | raw _ hp =>
      obtain ⟨c, _, h1, h2⟩ := rawBlock_shape hp
      have := model_cases c
      rw [← h1] at this
      rcases this with h | h <;> simp [Block.renderedContent, Block.contentModel, Block.kind, Block.children, h]
    | media h1 h2 => simp [Block.renderedContent, Block.contentModel, Block.kind, Block.children]
  | compound hm ho => simp [Block.renderedContent, Block.contentModel, Block.kind, Block.children]
  | «section» _ _ _ _ => simp [Block.renderedContent, Block.contentModel, Block.kind, Block.children]
  | preamble => simp [Block.renderedContent, Block.contentModel, Block.kind, Block.children]

omit [Uni] in
private theorem builtIn_iff {t : Text} : isBuiltInContext t = true ↔ ∃ s ∈ builtInContexts, t = s.toList := by
  unfold isBuiltInContext
  simp only [Bool.or_eq_true, beq_iff_eq, builtInContexts, List.mem_cons, List.not_mem_nil, or_false, exists_eq_or_imp,
    exists_eq_left, or_assoc]

omit [Uni] in
/-- The resolved context is the declared style, if that names a context, and else the context the block has by its
form. -/
theorem C56_resolved (x : Block) :
    (∃ s ∈ builtInContexts, x.declaredStyle = some s.toList ∧ x.resolvedContext = s.toList) ∨
    ((∀ s ∈ builtInContexts, x.declaredStyle ≠ some s.toList) ∧ x.resolvedContext = x.rawContext) := by
  unfold Block.resolvedContext
  cases hs : x.declaredStyle with
  | none => right; exact ⟨fun _ _ => nofun, rfl⟩
  | some s =>
    simp only
    by_cases hb : isBuiltInContext s = true
    · obtain ⟨t, h1, rfl⟩ := builtIn_iff.mp hb
      left; exact ⟨t, h1, rfl, by rw [if_pos hb]⟩
    · right
      refine ⟨fun t ht e => hb (builtIn_iff.mpr ⟨t, ht, by simpa using e⟩), by rw [if_neg hb]⟩

/-- Attribute entries and preambles have no title, anchor and attribute list. -/
theorem C56_bare {c : Config} {fuel : Nat} {p p' : ParserState} {text : Text} {d : Document} {map : SourceMap}
    (h : c.parse fuel p text = .ok (d, map, p')) {x : Block} (hx : InDoc d x) (hk : IsEntry x ∨ x.kind = .preamble) :
    x.fields = {} := by
  obtain ⟨t, _, hd⟩ := c.parse_parts h
  cases document_made hd x hx with
  | leaf h =>
    cases leaf_shape h with
    | entry => rfl
    | simple _ _ _ => rcases hk with ⟨_, h⟩ | h <;> cases h
    | brk => rcases hk with ⟨_, h⟩ | h <;> cases h
    | raw _ hp => rcases hk with ⟨_, h⟩ | h <;> cases h
    | media h1 h2 => rcases hk with ⟨_, h⟩ | h <;> cases h
  | compound hm ho => rcases hk with ⟨_, h⟩ | h <;> cases h
  | «section» _ _ _ _ => rcases hk with ⟨_, h⟩ | h <;> cases h
  | preamble => rfl

/-- All kinds of blocks, and a style that names a context.  An audio macro is not recognised: it becomes a paragraph. -/
example : letI := asciiUni
    parsed ((Config.default .checked).parse 60 .default
        "= T\n\n[quote]\nx\n\n////\ny\n////\n----\ny\n----\n\nimage::a[]\n\nvideo::a[]\n\naudio::a[]\n\n'''\n\n:n: v\n\n== S\n\n____\nz\n____\n".toList)
      (fun d => (d.blocks ++ d.blocks.flatMap (·.children)).map
          (fun b => (b.contentModel, b.rawContext, b.resolvedContext == b.rawContext, b.renderedContent)) ==
        [(.compound, "preamble".toList, true, none), (.compound, "section".toList, true, none),
         (.simple, "paragraph".toList, false, some ['x']), (.raw, "comment".toList, true, some ['y']),
         (.verbatim, "listing".toList, true, some ['y']), (.empty, "image".toList, true, none),
         (.empty, "video".toList, true, none), (.simple, "paragraph".toList, true, some "audio::a[]".toList),
         (.empty, "thematic_break".toList, true, none), (.empty, "attribute".toList, true, none),
         (.compound, "quote".toList, true, none)] &&
        d.blocks.head?.bind (fun b => b.children.head?.map (·.resolvedContext)) == some "quote".toList) = true := by
  decide +kernel

/-! ### C55 -/

/-- The substitutions a closed delimited block reports are the ones its content went through. -/
theorem C55_delimited {c : Config} {fuel : Nat} {p p' : ParserState} {text : Text} {d : Document} {map : SourceMap}
    (h : c.parse fuel p text = .ok (d, map, p')) {x : Block} (hx : InDoc d x) {content : Content} {model ctx g}
    (hk : x.kind = .raw content model ctx g) (hclosed : stopOf content.original < stopOf x.source) :
    ∃ store, (c.env fuel).subs store x.substitutionGroup x.fields.attrlist content.original.data = .ok content.rendered := by
  obtain ⟨t, _, hd⟩ := c.parse_parts h
  cases document_made hd x hx with
  | compound hm ho => cases hk
  | «section» _ _ _ _ => cases hk
  | preamble => cases hk
  | @leaf q _ _ _ _ _ h =>
    cases leaf_shape h with
    | entry => cases hk
    | simple _ _ _ => cases hk
    | brk => cases hk
    | media h1 h2 => cases hk
    | @raw m rb after ws hs hp =>
      cases hk
      refine ⟨q.store, ?_⟩
      rcases raw_shown hs hp with h | ⟨h, _⟩
      · exact h
      · simp only [Block.source] at hclosed
        omega

/-- So are those of a paragraph that has neither the attribute `subs` nor the style `pass`: its lines (without comments and
with the indentation of a literal paragraph removed) went through the substitutions it reports. -/
theorem C55_paragraph_partial {c : Config} {fuel : Nat} {p p' : ParserState} {text : Text} {d : Document} {map : SourceMap}
    (h : c.parse fuel p text = .ok (d, map, p')) {x : Block} (hx : InDoc d x) {content : Content} {style}
    (hk : x.kind = .simple content style)
    (hsubs : x.fields.attrlist.bind (·.namedAttribute "subs".toList) = none) (hpass : x.declaredStyle ≠ some "pass".toList) :
    ∃ store n raw texts, content.original.data = trimEnd raw ∧ ParagraphText n (lines raw) texts ∧
      (c.env fuel).subs store x.substitutionGroup x.fields.attrlist (joinWith ['\n'] texts) = .ok content.rendered := by
  obtain ⟨t, _, hd⟩ := c.parse_parts h
  cases document_made hd x hx with
  | compound hm ho => cases hk
  | «section» _ _ _ _ => cases hk
  | preamble => cases hk
  | @leaf q _ _ _ _ _ h =>
    cases leaf_shape h with
    | entry => cases hk
    | brk => cases hk
    | media h1 h2 => cases hk
    | raw _ _ => cases hk
    | @simple n raw texts _ _ _ f h1 h2 h3 =>
      cases hk
      refine ⟨q.store, n, raw, texts, h1, h2, ?_⟩
      have : Group.normal.overrideViaAttrlist f.attrlist = .normal := by
        change f.attrlist.bind (·.namedAttribute "subs".toList) = none at hsubs
        change (f.attrlist.bind (·.nthAttribute 1)).bind ElemAttr.blockStyle ≠ some "pass".toList at hpass
        cases ha : f.attrlist with
        | none => rfl
        | some a =>
          rw [ha] at hsubs hpass
          unfold Group.overrideViaAttrlist
          simp only
          rw [show a.namedAttribute "subs".toList = none from hsubs]
          simp only [Option.bind_none]
          change (a.nthAttribute 1).bind ElemAttr.blockStyle ≠ _ at hpass
          cases hb : (a.nthAttribute 1).bind ElemAttr.blockStyle with
          | none => rfl
          | some s =>
            simp only
            rw [if_neg]
            rintro rfl
            exact hpass hb
      rw [this] at h3
      exact h3

example : letI := asciiUni
    parsed ((Config.default .checked).parse 60 .default "<\n\n[subs=none]\n----\n<\n----\n\n----\n<\n----\n".toList)
      (fun d => d.blocks.map (fun b => (b.substitutionGroup, b.renderedContent)) ==
          [(.normal, some "&lt;".toList), (.none, some ['<']), (.verbatim, some "&lt;".toList)] &&
        d.blocks.all (fun b => match b.kind with
          | .raw c _ _ _ => decide (stopOf c.original < stopOf b.source)
          | _ => true)) = true := by
  decide +kernel

/-- Whether the blocks of a document have content that is the outcome of the substitutions they report. -/
def agree (c : Config) (fuel : Nat) (r : Res (Document × SourceMap × ParserState)) : List Bool :=
  match r with
  | .ok (d, _, p) => d.blocks.map fun b =>
    match b.kind with
    | .raw t _ _ _ | .simple t _ =>
      match (c.env fuel).subs p.store b.substitutionGroup b.fields.attrlist t.original.data with
      | .ok x => x == t.rendered
      | .error _ => false
    | _ => true
  | .error _ => []

omit [Uni] in
/-- A paragraph with the attribute `subs` reports the normal substitutions, whatever it went through. -/
theorem C55_paragraph_fails : letI := asciiUni
    parsed ((Config.default .checked).parse 60 .default "[subs=none]\n<".toList)
      (fun d => d.blocks.map (fun b => (b.substitutionGroup, b.renderedContent)) == [(.normal, some ['<'])]) = true ∧
    agree (Config.default .checked) 60 ((Config.default .checked).parse 60 .default "[subs=none]\n<".toList) = [false] := by
  decide +kernel

omit [Uni] in
/-- A delimited block that is not closed reports substitutions its content did not go through. -/
theorem C55_unclosed_fails : letI := asciiUni
    parsed ((Config.default .checked).parse 60 .default "----\n<".toList)
      (fun d => d.blocks.map (fun b => (b.substitutionGroup, b.renderedContent)) == [(.verbatim, some ['<'])]) = true ∧
    agree (Config.default .checked) 60 ((Config.default .checked).parse 60 .default "----\n<".toList) = [false] := by
  decide +kernel

/-! ### C57 -/

omit [Uni] in
private theorem refs_mem {x : Block} {r : RefEntry} (hr : ownRef x = some r) :
    ∀ b, Within x b → r ∈ refs b := by
  intro b h
  induction h with
  | self =>
    cases x
    simp [refs, hr]
  | @child c b hc _ ih =>
    cases b with
    | mk k s f cs =>
      have hall : ∀ cs : List Block, c ∈ cs → r ∈ refsAll cs := by
        intro cs hcs
        induction cs with
        | nil => cases hcs
        | cons y ys ihc =>
          unfold refsAll
          rcases List.mem_cons.mp hcs with rfl | hcs
          · exact List.mem_append_left _ ih
          · exact List.mem_append_right _ (ihc hcs)
      unfold refs
      exact List.mem_append_left _ (hall cs hc)

omit [Uni] in
private theorem refs_mem_doc {x : Block} {r : RefEntry} (hr : ownRef x = some r) : ∀ bs : List Block,
    (∃ b ∈ bs, Within x b) → r ∈ refsAll bs := by
  intro bs
  induction bs with
  | nil => rintro ⟨b, hb, _⟩; cases hb
  | cons y ys ih =>
    rintro ⟨b, hb, hx⟩
    unfold refsAll
    rcases List.mem_cons.mp hb with rfl | hb
    · exact List.mem_append_left _ (refs_mem hr b hx)
    · exact List.mem_append_right _ (ih ⟨b, hb, hx⟩)

/-- The id of a block is in the catalog of the document, unless the block is a break or a section with two ids. -/
theorem C57_registered_partial {c : Config} {fuel : Nat} {p p' : ParserState} {text : Text} {d : Document}
    {map : SourceMap} (hp : p.catalog = none ∨ p.catalog = some Catalog.new)
    (h : c.parse fuel p text = .ok (d, map, p')) {x : Block} (hx : InDoc d x) {i : Text} (hi : x.id = some i)
    (hbreak : ¬ IsBreak x) (htwo : ¬ (IsSection x ∧ TwoIds x)) :
    ∃ cat, d.catalog = some cat ∧ cat.getRef i ≠ none := by
  obtain ⟨cat, h1, h2⟩ := C28_catalog hp h
  refine ⟨cat, h1, ?_⟩
  rw [h2]
  suffices ∃ r, ownRef x = some r ∧ r.id = i by
    obtain ⟨r, hr, rfl⟩ := this
    have hm := refs_mem_doc hr d.blocks hx
    intro hn
    have := List.find?_eq_none.mp hn r hm
    simp at this
  have hbare : IsEntry x ∨ x.kind = .preamble → x.fields = {} := C56_bare h hx
  cases x with
  | mk k s f cs =>
    unfold ownRef
    cases k with
    | simple _ _ => exact ⟨⟨i, f.title, .anchor⟩, by
        change f.id = some i at hi
        change (f.id).map _ = _
        rw [hi]; rfl, rfl⟩
    | raw _ _ _ _ => exact ⟨⟨i, f.title, .anchor⟩, by
        change f.id = some i at hi
        change (f.id).map _ = _
        rw [hi]; rfl, rfl⟩
    | media _ _ _ => exact ⟨⟨i, f.title, .anchor⟩, by
        change f.id = some i at hi
        change (f.id).map _ = _
        rw [hi]; rfl, rfl⟩
    | compound _ => exact ⟨⟨i, f.title, .anchor⟩, by
        change f.id = some i at hi
        change (f.id).map _ = _
        rw [hi]; rfl, rfl⟩
    | brk t => exact absurd ⟨t, rfl⟩ hbreak
    | docAttr a =>
      have := hbare (Or.inl ⟨a, rfl⟩)
      change f = {} at this
      subst this
      cases hi
    | preamble =>
      have := hbare (Or.inr rfl)
      change f = {} at this
      subst this
      cases hi
    | «section» l title ty gen num =>
      suffices sectionId? (.mk (.section l title ty gen num) s f cs) gen = some i by
        simp only [Block.kind]
        rw [this]
        exact ⟨_, rfl, rfl⟩
      change f.id.or gen = some i at hi
      unfold Meta.id at hi
      change ((f.attrlist.bind Attrlist.id).or (f.anchor.map Span.data)).or gen = some i
      cases ha : f.anchor with
      | none => rw [ha] at hi; simpa using hi
      | some a =>
        cases hb : f.attrlist.bind Attrlist.id with
        | none => rw [ha, hb] at hi; simpa using hi
        | some j =>
          rw [ha, hb] at hi
          by_cases e : a.data = j
          · rw [← e]; simpa using hi
          · exact absurd ⟨⟨l, title, ty, gen, num, rfl⟩, a, j, ha, hb, e⟩ htwo

omit [Uni] in
/-- Asked through `Block`, a block tells the same id, except for sections with no id but the generated one. -/
theorem C57_forwarded_partial (x : Block) :
    x.enumId = x.id ∨ (IsSection x ∧ x.enumId = none ∧ x.fields.anchor = none ∧ x.fields.attrlist.bind Attrlist.id = none) := by
  cases x with
  | mk k s f cs =>
    cases k with
    | «section» l title ty gen num =>
      by_cases h : f.id = none
      · right
        refine ⟨⟨l, title, ty, gen, num, rfl⟩, h, ?_⟩
        unfold Meta.id at h
        rw [Option.or_eq_none_iff] at h
        exact ⟨Option.map_eq_none_iff.mp h.1, h.2⟩
      · left
        show f.id = f.id.or gen
        cases hf : f.id with
        | none => exact absurd hf h
        | some _ => rfl
    | _ => exact Or.inl rfl

/-- Of the two ids of a section, the one in the attribute list is in the catalog. -/
theorem C57_two_ids {c : Config} {fuel : Nat} {p p' : ParserState} {text : Text} {d : Document}
    {map : SourceMap} (hp : p.catalog = none ∨ p.catalog = some Catalog.new)
    (h : c.parse fuel p text = .ok (d, map, p')) {x : Block} (hx : InDoc d x) (hs : IsSection x) {i : Text}
    (hi : x.fields.attrlist.bind Attrlist.id = some i) :
    ∃ cat, d.catalog = some cat ∧ cat.getRef i ≠ none := by
  obtain ⟨cat, h1, h2⟩ := C28_catalog hp h
  refine ⟨cat, h1, ?_⟩
  rw [h2]
  obtain ⟨l, title, ty, gen, num, hk⟩ := hs
  have hr : ownRef x = some ⟨i, some (sectionReftext x title), .section⟩ := by
    unfold ownRef
    rw [hk]
    simp only [sectionId?]
    rw [hi]
    rfl
  have hm := refs_mem_doc hr d.blocks hx
  intro hn
  have := List.find?_eq_none.mp hn _ hm
  simp at this

example : letI := asciiUni
    parsed ((Config.default .checked).parse 60 .default "[[a]]\nx\n\n== S\n\n[#b]\n====\n[[c]]\ny\n====".toList)
      (fun d => (d.blocks.map (·.id) ++ (d.blocks.flatMap (·.children)).map (·.id)) ==
          [none, some "_s".toList, some ['a'], some ['b']] &&
        (d.catalog.map fun c => ["_s".toList, ['a'], ['b'], ['c']].map fun i => (c.getRef i).isSome) ==
          some [true, true, true, true]) = true := by
  decide +kernel

omit [Uni] in
/-- The id of a break is not in the catalog; nor is that in the anchor of a section, if its attribute list has another one.
Asked through `Block`, a section does not tell the id generated for it, although that is in the catalog. -/
theorem C57_fails : letI := asciiUni
    parsed ((Config.default .checked).parse 60 .default "[[a]]\n'''".toList)
      (fun d => d.blocks.map (·.id) == [some ['a']] && (d.catalog.map fun c => (c.getRef ['a']).isSome) == some false) = true ∧
    parsed ((Config.default .checked).parse 60 .default "[[a]]\n[#b]\n== S".toList)
      (fun d => d.blocks.map (·.id) == [some ['a']] && (d.catalog.map fun c => (c.getRef ['a']).isSome) == some false) = true ∧
    parsed ((Config.default .checked).parse 60 .default "== S".toList)
      (fun d => d.blocks.map (fun b => (b.id, b.enumId)) == [(some "_s".toList, none)] &&
        (d.catalog.map fun c => (c.getRef "_s".toList).isSome) == some true) = true := by
  decide +kernel

end Adoc.Props
