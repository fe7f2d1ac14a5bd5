import Verif.Lemmas.MarkupHeader
import Verif.Props.Rendered
import Verif.Lemmas.Harmless
import Verif.Lemmas.Drawn
/-!
# C75: the text of a document cannot write tags
-/

namespace Adoc.Props
open Adoc Adoc.Spec Span

variable [Uni]

/-- C75. With every renderer that has no use of `<` and `>` itself, whatever the text, the group of substitutions and the
attributes are: if the group replaces special characters first, so do the passthroughs in the text, and the attributes of the
passthroughs and the values of attributes have no `<` and `>`, then there is no `<` and no `>` in what is rendered.
Missing: attributes of passthroughs (`C75_passthrough_attributes`), and renderers that write tags. -/
theorem C75_text_partial {e : Env} (hr : AddsNone e.r) (hs : PlainStore e.store) {g : Group} {t : Text} (h : Escaped g t) {fuel : Nat}
    {al : Option Attrlist} {out : Text} (ho : Group.apply fuel e g al t = .ok out) : Tagless out :=
  apply_escaped hr hs h fuel al out ho

/-- C75. A text has to go through the replacement of special characters only if there is a `<` or `>` in it: no substitution
brings them out of anything else, neither in the text nor in its passthroughs, with whatever group of substitutions. -/
theorem C75_none_appears {e : Env} (hr : AddsNone e.r) (hs : PlainStore e.store) {g : Group} {t : Text} (h : Tagless t) {fuel : Nat}
    {al : Option Attrlist} {out : Text} (ho : Group.apply fuel e g al t = .ok out) : Tagless out :=
  apply_escaped hr hs (.plain h) fuel al out ho

/-- C75. Verbatim text: there is no `<` and no `>` in what is rendered of any text, with any renderer that replaces the special
characters by something else, whatever else it does. -/
theorem C75_verbatim {e : Env} (hr : ∀ s, Tagless (e.r.special s)) (t : Text) {fuel : Nat} {al : Option Attrlist} {out : Text}
    (ho : Group.apply fuel e .verbatim al t = .ok out) : Tagless out := by
  cases fuel with
  | zero => rw [Group.apply] at ho; cases ho
  | succ fuel =>
    rw [Group.apply, if_neg (by decide), show Group.verbatim.steps = [.specialCharacters] from rfl, applySteps] at ho
    obtain ⟨u, hu, ho⟩ := ok_of_bind ho
    cases ho
    exact specialText_plain hr hu

/-- C75. Nothing gets around the replacement of special characters in a text without passthroughs, in a group which replaces
special characters first. -/
theorem C75_no_passthrough {g : Group} {t : Text} (hg : EscapesFirst g) (h : NoPassthrough t) : Escaped g t :=
  .around (ps := []) hg (extract_iff.mp (extract_harmless h.1 h.2.1 h.2.2)) (fun _ h => by cases h) (fun _ h => by cases h)

/-- C75. The values of attributes and the title of the document, with any renderer that replaces the special characters by
something else: there are no `<` and `>` in them, if there is nothing in the text that could be a passthrough and the attributes
it refers to have none. -/
theorem C75_value {e : Env} (hr : ∀ s, Tagless (e.r.special s)) (hs : PlainStore e.store) {t : Text} (h : NoPassthrough t)
    {fuel : Nat} {al : Option Attrlist} {out : Text} (ho : Group.apply fuel e .header al t = .ok out) : Tagless out := by
  cases fuel with
  | zero => rw [Group.apply] at ho; cases ho
  | succ fuel =>
    rw [Group.apply, if_pos (by decide), extract_harmless h.1 h.2.1 h.2.2,
      show Group.header.steps = [.specialCharacters, .attributeReferences] from rfl] at ho
    obtain ⟨v, hv, ho⟩ := ok_of_bind (show (applySteps e al [.specialCharacters, .attributeReferences] t >>= fun v => .ok v) = .ok out from ho)
    cases ho
    rw [applySteps] at hv
    obtain ⟨u, hu, hv⟩ := ok_of_bind hv
    rw [applySteps] at hv
    obtain ⟨w, hw, hv⟩ := ok_of_bind hv
    cases hv
    exact applyAttributes_plain hs (specialText_plain hr hu) hw

/-- C75. A header whose lines define no attributes with `<` or `>` (`SafeLine`): title and attribute entries in which nothing
gets around the replacement of special characters, authors in which there are none but around the address, and a revision line
without any.  Then there are none in the values of the attributes behind it.
Missing: what `SafeLine` excludes; the code does not escape it (`C75_header_unescaped`). -/
theorem C75_header_partial [LawfulUni] {e : Env} (hr : AddsNone e.r) {fuel : Nat} {store store' : AttrStore} (hs : PlainStore store)
    {source : Span} {mi : MI Header} {ws : List Warning}
    (h : Header.parse (fun s t => Group.apply fuel { e with store := s } .header none t) e.r store source = .ok (mi, ws, store'))
    (hl : ∀ lines stage rest, HeaderReads .start source.data lines stage rest → ∀ l ∈ lines, SafeLine l) : PlainStore store' := by
  obtain ⟨lines, stage, rest, h1, _, _, _, _, _, _, _, _, h2⟩ := C47_reads h
  exact effect_plain hr (fun s t x hs' ht hx => apply_escaped (e := { e with store := s }) hr hs' ht fuel none x hx) hs (hl _ _ _ h1) h2

omit [Uni] in
/-- A block is followed by the blocks in it. -/
private theorem preorder_prefix : ∀ (n : Nat) (bs : List Block), (preorderAll bs).length ≤ n → ∀ pre b post,
    preorderAll bs = pre ++ b :: post → ∃ post', preorderAll bs = pre ++ preorder b ++ post' := by
  intro n
  induction n with
  | zero =>
    intro bs hn pre b post h
    rw [h] at hn
    simp at hn
  | succ n ih =>
    intro bs
    induction bs with
    | nil => intro _ pre b post h; rw [preorderAll] at h; exact absurd h.symm (by simp)
    | cons x bs ihb =>
      intro hn pre b post h
      obtain ⟨k, s, f, cs⟩ := x
      rw [preorderAll, preorder] at h hn ⊢
      cases pre with
      | nil =>
        rw [List.nil_append, List.cons_append] at h
        obtain ⟨rfl, _⟩ := List.cons.inj h
        exact ⟨preorderAll bs, by rw [preorder]; rfl⟩
      | cons y pre =>
        rw [List.cons_append, List.cons_append] at h
        obtain ⟨rfl, h0⟩ := List.cons.inj h
        have h : preorderAll (cs ++ bs) = pre ++ b :: post := by rw [preorderAll_append]; exact h0
        obtain ⟨post', h'⟩ := ih (cs ++ bs) (by rw [preorderAll_append]; simpa using hn) pre b post h
        rw [preorderAll_append] at h'
        exact ⟨post', by rw [List.cons_append, h']; simp⟩

/-- What is shown of a block where nothing gets around the replacement of special characters has no `<` and no `>`: paragraphs,
delimited blocks that are closed, titles of sections and blocks, and the values of attribute entries. -/
structure TaglessBlock (b : Block) : Prop where
  paragraph : ∀ c style, b.kind = .simple c style → ∃ n raw texts, c.original.data = trimEnd raw ∧ ParagraphText n (lines raw) texts ∧
    (Escaped (Group.normal.overrideViaAttrlist b.fields.attrlist) (joinWith ['\n'] texts) → Tagless c.rendered)
  delimited : ∀ c model ctx g, b.kind = .raw c model ctx g → stopOf c.original < stopOf b.source → Escaped g c.original.data →
    Tagless c.rendered
  «section» : ∀ l c t i n, b.kind = .section l c t i n → Escaped .title c.original.data → Tagless c.rendered
  entry : ∀ a v, b.kind = .docAttr a → a.value = .value v → Tagless v
  title : ∀ src t, b.fields.titleSource = some src → b.fields.title = some t → Escaped .normal src.data → Tagless t

/-- C75. A document whose header and attribute entries define no attributes with `<` or `>` (see `C75_header_partial`), read with
a renderer that has no use of them itself: every block is rendered without `<` and `>` as far as nothing in its text gets around
the replacement of special characters.
Missing: attributes of passthroughs (`C75_passthrough_attributes`), what is not escaped in the header (`C75_header_unescaped`),
delimited blocks that are not closed (C55), and renderers that write tags. -/
theorem C75_document_partial [LawfulUni] {c : Config} (hr : AddsNone c.renderer) {fuel : Nat} {p p' : ParserState} {text : Text}
    {d : Document} {map : SourceMap} (h : c.parse fuel p text = .ok (d, map, p')) (hs : PlainStore p.store)
    (hl : ∀ t m lines stage rest, preprocess ⟨c.includes, fun s t => (c.env fuel).subs s .header none t⟩ fuel p.store c.primary text =
      .ok (t, m) → HeaderReads .start t lines stage rest → ∀ l ∈ lines, SafeLine l)
    (hb : ∀ b ∈ preorderAll d.blocks, ∀ a src, b.kind = .docAttr a → a.valueSource = some src → Escaped .header (joinValue src.data)) :
    ∀ b ∈ preorderAll d.blocks, TaglessBlock b := by
  obtain ⟨store, hbh, hshown⟩ := C61_document h
  obtain ⟨t, m, mi, ws, ht, hh⟩ := hbh
  have h0 : PlainStore store := C75_header_partial (e := { store := p.store, sep := c.sep, r := c.renderer }) (fuel := fuel) hr hs hh
    fun lines stage rest hl' => hl t m lines stage rest ht hl'
  have sub : ∀ {s : AttrStore} {g : Group} {al : Option Attrlist} {t out : Text}, PlainStore s → Escaped g t →
      (c.env fuel).subs s g al t = .ok out → Tagless out := fun {s g al t out} hs hE ho =>
    apply_escaped (e := { store := s, sep := c.sep, r := c.renderer }) hr hs hE fuel al out ho
  have hval : ∀ {s : AttrStore} {b : Block} {a : Attribute}, b ∈ preorderAll d.blocks → PlainStore s → b.kind = .docAttr a →
      EntryShown (c.env fuel).subs s a → ∀ v, a.value = .value v → Tagless v := by
    intro s b a hm hs hk hE v hv
    rcases hE with ⟨_, h1 | h1⟩ | ⟨src, x, h1, h2, h3⟩
    · rw [hv] at h1; cases h1
    · rw [hv] at h1; cases h1
    · rw [hv] at h2
      cases h2
      exact sub hs (hb b hm a src hk h1) h3
  have entryOf : ∀ {s s' : AttrStore} {b : Block} {a : Attribute}, Shown (c.env fuel).subs s s' b → b.kind = .docAttr a →
      EntryShown (c.env fuel).subs s a := by
    intro s s' b a hS hk
    cases hS with
    | entry hk' h => rw [hk] at hk'; cases hk'; exact h
    | paragraph hk' _ _ _ _ => rw [hk] at hk'; cases hk'
    | delimited hk' _ => rw [hk] at hk'; cases hk'
    | unclosed hk' _ _ => rw [hk] at hk'; cases hk'
    | «section» hk' _ => rw [hk] at hk'; cases hk'
    | media hk' _ => rw [hk] at hk'; cases hk'
    | compound hk' => rw [hk] at hk'; cases hk'
    | preamble hk' => rw [hk] at hk'; cases hk'
    | brk hk' => rw [hk] at hk'; cases hk'
  have stores : ∀ (n : Nat) (pre post : List Block), pre.length = n → preorderAll d.blocks = pre ++ post →
      PlainStore (attrsBehind store pre) := by
    intro n
    induction n with
    | zero => intro pre post hn _; rw [List.length_eq_zero_iff.mp hn]; exact h0
    | succ n ih =>
      intro pre post hn he
      rcases List.eq_nil_or_concat pre with rfl | ⟨init, b, rfl⟩
      · cases hn
      rw [List.concat_eq_append] at hn he ⊢
      have he : preorderAll d.blocks = init ++ b :: post := by rw [he, List.append_assoc]; rfl
      have hi := ih init (b :: post) (by simpa using hn) he
      rw [attrsBehind_append]
      have hm : b ∈ preorderAll d.blocks := by rw [he]; simp
      show PlainStore (match b.kind with | .docAttr a => ((attrsBehind store init).setFromBody a).1 | _ => attrsBehind store init)
      split
      · next a hk => exact hi.setFromBody (hval hm hi hk (entryOf (hshown init b post he).1 hk))
      · exact hi
  intro b hm
  obtain ⟨pre, post, he⟩ := List.append_of_mem hm
  have hp := stores pre.length pre (b :: post) rfl he
  obtain ⟨hS, hM⟩ := hshown pre b post he
  have hp' : PlainStore (attrsBehind store (pre ++ preorder b)) := by
    obtain ⟨post', he'⟩ := preorder_prefix _ d.blocks (Nat.le_refl _) pre b post he
    exact stores _ _ post' rfl he'
  refine ⟨fun ct style hk => ?_, fun ct model ctx g hk hc hE => ?_, fun l ct ty i n hk hE => ?_, fun a v hk hv => ?_,
    fun src x h1 h2 hE => ?_⟩
  · cases hS with
    | paragraph hk' h1 _ h3 h4 =>
      rw [hk] at hk'
      cases hk'
      exact ⟨_, _, _, h1, h3, fun hE => sub hp hE h4⟩
    | entry hk' h => rw [hk] at hk'; cases hk'
    | delimited hk' _ => rw [hk] at hk'; cases hk'
    | unclosed hk' _ _ => rw [hk] at hk'; cases hk'
    | «section» hk' _ => rw [hk] at hk'; cases hk'
    | media hk' _ => rw [hk] at hk'; cases hk'
    | compound hk' => rw [hk] at hk'; cases hk'
    | preamble hk' => rw [hk] at hk'; cases hk'
    | brk hk' => rw [hk] at hk'; cases hk'
  · cases hS with
    | delimited hk' h => rw [hk] at hk'; cases hk'; exact sub hp hE h
    | unclosed hk' h _ => rw [hk] at hk'; cases hk'; exact absurd hc (by omega)
    | paragraph hk' _ _ _ _ => rw [hk] at hk'; cases hk'
    | entry hk' h => rw [hk] at hk'; cases hk'
    | «section» hk' _ => rw [hk] at hk'; cases hk'
    | media hk' _ => rw [hk] at hk'; cases hk'
    | compound hk' => rw [hk] at hk'; cases hk'
    | preamble hk' => rw [hk] at hk'; cases hk'
    | brk hk' => rw [hk] at hk'; cases hk'
  · cases hS with
    | «section» hk' h => rw [hk] at hk'; cases hk'; exact sub hp' hE h
    | paragraph hk' _ _ _ _ => rw [hk] at hk'; cases hk'
    | delimited hk' _ => rw [hk] at hk'; cases hk'
    | unclosed hk' _ _ => rw [hk] at hk'; cases hk'
    | entry hk' h => rw [hk] at hk'; cases hk'
    | media hk' _ => rw [hk] at hk'; cases hk'
    | compound hk' => rw [hk] at hk'; cases hk'
    | preamble hk' => rw [hk] at hk'; cases hk'
    | brk hk' => rw [hk] at hk'; cases hk'
  · exact hval hm hp hk (entryOf hS hk) v hv
  · rcases hM.title with ⟨h, _⟩ | ⟨src', y, e1, e2, e3⟩
    · rw [h1] at h; cases h
    · rw [h1] at e1
      rw [h2] at e2
      cases e1
      cases e2
      exact sub hp hE e3

omit [Uni] in
private theorem noPass_of_mem {t u : Text} (h : NoPassthrough t) (hu : ∀ c ∈ u, c ∈ t ∨ c = '\n' ∨ c = ' ') : NoPassthrough u := by
  refine ⟨fun hc => ?_, fun hc => ?_, fun hc => ?_⟩
  · rcases hu _ hc with hc | hc | hc
    · exact h.1 hc
    · exact absurd hc (by decide)
    · exact absurd hc (by decide)
  · rcases hu _ hc with hc | hc | hc
    · exact h.2.1 hc
    · exact absurd hc (by decide)
    · exact absurd hc (by decide)
  · rcases hu _ hc with hc | hc | hc
    · exact h.2.2 hc
    · exact absurd hc (by decide)
    · exact absurd hc (by decide)

omit [Uni] in
private theorem noPass_join {raw : Text} (h : NoPassthrough raw) : NoPassthrough (joinValue raw) := by
  refine noPass_of_mem h fun c hc => ?_
  unfold joinValue at hc
  split at hc
  · rcases interpretLines_mem hc with ⟨l, hl, h⟩ | h
    · exact Or.inl (strLines_mem hl c h)
    · exact Or.inr h
  · exact Or.inl hc

omit [Uni] in
private theorem noPass_paragraph {n : Nat} {raw : Text} {texts : List Text} (h : NoPassthrough (trimEnd raw))
    (hp : ParagraphText n (lines raw) texts) : NoPassthrough (joinWith ['\n'] texts) := by
  have h0 : NoPassthrough raw := by
    obtain ⟨w, e, hw⟩ := trimEndP_spec isWhite raw
    have e : raw = trimEnd raw ++ w := e
    have key : ∀ d, isWhite d = false → d ∉ trimEnd raw → d ∉ raw := by
      intro d hd hn hm
      rw [e] at hm
      rcases List.mem_append.mp hm with hm | hm
      · exact hn hm
      · have := List.all_eq_true.mp hw d hm
        rw [hd] at this
        cases this
    exact ⟨key _ (by decide) h.1, key _ (by decide) h.2.1, key _ (by decide) h.2.2⟩
  have key : ∀ {ls ts : List Text}, ParagraphText n ls ts → ∀ t ∈ ts, ∀ c ∈ t, ∃ l ∈ ls, c ∈ l := by
    intro ls ts hp
    induction hp with
    | nil => intro t ht; cases ht
    | comment _ _ ih =>
      intro t ht c hc
      obtain ⟨l, hl, hc⟩ := ih t ht c hc
      exact ⟨l, List.mem_cons_of_mem _ hl, hc⟩
    | line _ hs _ ih =>
      intro t ht c hc
      rcases List.mem_cons.mp ht with rfl | ht
      · refine ⟨_, List.mem_cons_self, ?_⟩
        cases hs with
        | blank _ => exact trimEndP_mem hc
        | indented _ _ _ _ => exact List.mem_append_right _ (trimEndP_mem hc)
      · obtain ⟨l, hl, hc⟩ := ih t ht c hc
        exact ⟨l, List.mem_cons_of_mem _ hl, hc⟩
  refine noPass_of_mem h0 fun c hc => ?_
  rcases joinWith_mem hc with ⟨t, ht, hc⟩ | hc
  · obtain ⟨l, hl, hc⟩ := key hp t ht c hc
    exact .inl (lines_mem hl c hc)
  · exact .inr (.inl (List.mem_singleton.mp hc))

/-- C75. The same in terms of the document only, for a document without passthroughs, authors and revision: if there is no `[`,
`+` or `$` in the title and in the values of the attribute entries, then every paragraph, every delimited block that is closed
and replaces special characters first, every title of a section or block is rendered without `<` and `>`, if there is no `[`,
`+` or `$` in it, and so are all values of attribute entries.
Missing: as for `C75_document_partial`. -/
theorem C75_no_passthroughs_partial [LawfulUni] {c : Config} (hr : AddsNone c.renderer) {fuel : Nat} {p p' : ParserState} {text : Text}
    {d : Document} {map : SourceMap} (h : c.parse fuel p text = .ok (d, map, p')) (hs : PlainStore p.store)
    (ht : ∀ t, d.header.titleSource = some t → NoPassthrough t.data) (ha : d.header.authorLine = none)
    (hv : d.header.revisionLine = none)
    (he : ∀ a ∈ d.header.attributes, a.name.data.map Char.toLower ≠ "author".toList ∧
      ∀ src, a.valueSource = some src → NoPassthrough src.data)
    (hb : ∀ b ∈ preorderAll d.blocks, ∀ a src, b.kind = .docAttr a → a.valueSource = some src → NoPassthrough src.data) :
    ∀ b ∈ preorderAll d.blocks,
      (∀ c style, b.kind = .simple c style → b.fields.attrlist = none → NoPassthrough c.original.data → Tagless c.rendered) ∧
      (∀ c model ctx g, b.kind = .raw c model ctx g → stopOf c.original < stopOf b.source → EscapesFirst g →
        NoPassthrough c.original.data → Tagless c.rendered) ∧
      (∀ l c t i n, b.kind = .section l c t i n → NoPassthrough c.original.data → Tagless c.rendered) ∧
      (∀ a v, b.kind = .docAttr a → a.value = .value v → Tagless v) ∧
      (∀ src t, b.fields.titleSource = some src → b.fields.title = some t → NoPassthrough src.data → Tagless t) := by
  have hdr : EscapesFirst .header := ⟨_, rfl⟩
  have key := C75_document_partial hr h hs (fun t m lines stage rest hpre hreads l hl => by
    obtain ⟨t', ht', hd⟩ := c.parse_parts h
    rw [hpre] at ht'
    cases ht'
    obtain ⟨mi, hw, store, bs, rest', ws, sw, q, k1, _, _, k4, _⟩ := document_run hd
    obtain ⟨lines', stage', rest'', r1, _, e1, e2, e3, _, e5, _⟩ := C47_reads k1
    obtain ⟨rfl, _, _⟩ := r1.det hreads
    rw [← k4] at e1 e2 e3 e5
    cases l with
    | blank => trivial
    | comment x => trivial
    | title x =>
      have : x ∈ lines'.filterMap HLine.title? := List.mem_filterMap.mpr ⟨_, hl, rfl⟩
      rw [← e1] at this
      obtain ⟨s, h1, rfl⟩ := List.mem_map.mp this
      exact C75_no_passthrough hdr (ht s (Option.mem_toList.mp h1))
    | author x =>
      have : x ∈ lines'.filterMap HLine.author? := List.mem_filterMap.mpr ⟨_, hl, rfl⟩
      rw [← e2, ha] at this
      cases this
    | revision x =>
      have : x ∈ lines'.filterMap HLine.revision? := List.mem_filterMap.mpr ⟨_, hl, rfl⟩
      rw [← e3, hv] at this
      cases this
    | entry n k =>
      cases k with
      | set => trivial
      | unset => trivial
      | value raw =>
        have : (n, some raw) ∈ lines'.filterMap HLine.entry? := List.mem_filterMap.mpr ⟨_, hl, rfl⟩
        rw [← e5] at this
        obtain ⟨a, h1, h2⟩ := List.mem_map.mp this
        obtain ⟨g1, g2⟩ := he a h1
        obtain ⟨h3, h4⟩ := Prod.mk.inj h2
        cases hsrc : a.valueSource with
        | none => rw [hsrc] at h4; cases h4
        | some src =>
          rw [hsrc] at h4
          cases h4
          exact ⟨C75_no_passthrough hdr (noPass_join (g2 src hsrc)), fun hn => absurd hn (by rw [← h3]; exact g1)⟩)
    (fun b hm a src hk hsrc => C75_no_passthrough hdr (noPass_join (hb b hm a src hk hsrc)))
  intro b hm
  have k := key b hm
  refine ⟨fun ct style hk hal hno => ?_, fun ct model ctx g hk hc hg hno => k.delimited _ _ _ _ hk hc (C75_no_passthrough hg hno),
    fun l ct t i n hk hno => k.section _ _ _ _ _ hk (C75_no_passthrough ⟨_, rfl⟩ hno), fun a v hk hv => k.entry a v hk hv,
    fun src t h1 h2 hno => k.title src t h1 h2 (C75_no_passthrough ⟨_, rfl⟩ hno)⟩
  obtain ⟨n, raw, texts, e1, e2, e3⟩ := k.paragraph _ _ hk
  rw [hal] at e3
  rw [e1] at hno
  exact e3 (C75_no_passthrough ⟨_, rfl⟩ (noPass_paragraph hno e2))

/-! ### The code -/

/-- What the paragraphs of a document show. -/
private def paragraphs (bs : List Block) : List Text :=
  (preorderAll bs).filterMap fun b => match b.kind with
    | .simple c _ => some c.rendered
    | _ => none

omit [Uni] in
/-- The code: the attributes in front of a passthrough are written as they are.  Here the text writes a `<b>` of its own, though
all of it is escaped otherwise. -/
theorem C75_passthrough_attributes : letI := asciiUni
    parsed ((Config.default .checked).parse 60 .default "a [.\"><b>]+<i>+ b\n".toList)
      (fun d => paragraphs d.blocks == ["a <span class=\"\"><b>\">&lt;i&gt;</span> b".toList]) = true := by
  decide +kernel

omit [Uni] in
/-- The code: what a revision line says, the address of an author, and a name with `<` but without `>` become values of
attributes as they are, and references to them bring them into the text. -/
theorem C75_header_unescaped : letI := asciiUni
    parsed ((Config.default .checked).parse 60 .default
        "= T\nA B <x<i>; C! <u\nv1<b>, 2<s>: <tt>\n\n{revnumber}|{revdate}|{revremark}|{email}|{author_2}|<b>\n".toList)
      (fun d => paragraphs d.blocks == ["1<b>|2<s>|<tt>|x<i|C! <u|&lt;b&gt;".toList]) = true := by
  decide +kernel

/-! ### Non-vacuity -/

private def untag (t : Text) : Text := t.map fun c => if c = '<' then '(' else if c = '>' then ')' else c

omit [Uni] in
private theorem untag_tagless (t : Text) : Tagless (untag t) := by
  intro c hc
  obtain ⟨d, _, rfl⟩ := List.mem_map.mp hc
  split
  · decide
  · split
    · decide
    · constructor <;> assumption

/-- A renderer that writes parentheses where the renderer of the library writes `<` and `>`. -/
private def round (r : Renderer) : Renderer :=
  ⟨fun s => untag (r.special s), fun a b c d e => untag (r.quoted a b c d e), fun k => untag (r.charRepl k), untag r.lineBreak,
    fun p i => (r.image p i).map untag, fun p i => (r.icon p i).map untag, fun p l => untag (r.link p l), fun a b => untag (r.anchor a b)⟩

omit [Uni] in
private theorem round_addsNone (r : Renderer) : AddsNone (round r) where
  special _ := untag_tagless _
  quoted _ _ _ _ _ _ _ _ := untag_tagless _
  charRepl _ _ := untag_tagless _
  lineBreak := untag_tagless _
  image _ _ _ _ _ _ _ _ _ h := by
    obtain ⟨x, _, rfl⟩ := map_ok' h
    exact untag_tagless _
  icon _ _ _ _ _ _ _ _ h := by
    obtain ⟨x, _, rfl⟩ := map_ok' h
    exact untag_tagless _
  link _ _ _ _ _ _ _ _ := untag_tagless _
  anchor _ _ _ _ := untag_tagless _

/-- A renderer that writes what it is given. -/
private def bare (r : Renderer) : Renderer :=
  { round r with
    quoted := fun _ _ _ _ body => body
    charRepl := fun k => match k with | .characterReference n => '&' :: n ++ [';'] | _ => ['-']
    link := fun _ l => l.linkText }

omit [Uni] in
private theorem bare_addsNone (r : Renderer) : AddsNone (bare r) where
  special _ := untag_tagless _
  quoted _ _ _ _ _ _ _ h := h
  charRepl k h := by
    cases k with
    | characterReference n => exact plain_append (plain_cons (by decide) (h n rfl)) (plain_lit (by decide))
    | _ => exact plain_lit (t := ['-']) (by decide)
  lineBreak := untag_tagless _
  image _ _ _ _ _ _ _ _ _ h := by
    obtain ⟨x, _, rfl⟩ := map_ok' h
    exact untag_tagless _
  icon _ _ _ _ _ _ _ _ h := by
    obtain ⟨x, _, rfl⟩ := map_ok' h
    exact untag_tagless _
  link _ _ _ _ h _ _ _ := h
  anchor _ _ _ _ := untag_tagless _

omit [Uni] in
private theorem get_mem {V : Type} {m : AMap V} {n : Text} {v : V} (h : m.get n = some v) : ∃ k, (k, v) ∈ m.entries := by
  unfold AMap.get at h
  obtain ⟨p, hp, rfl⟩ := Option.map_eq_some_iff.mp h
  exact ⟨p.1, List.mem_of_find?_eq_some hp⟩

omit [Uni] in
/-- The attributes every parser knows from the start have no `<` and no `>` in their values. -/
theorem C75_default_store : PlainStore ParserState.default.store := by
  refine ⟨fun n av h v hv => ?_, fun n v h => ?_⟩
  · obtain ⟨k, h⟩ := get_mem h
    have : ∀ q ∈ ParserState.default.store.values.entries, (match q.2.value with
      | .value v => v.all (fun c => c != '<' && c != '>')
      | _ => true) = true := by decide +kernel
    have := this _ h
    dsimp only at this
    rw [hv] at this
    exact plain_lit this
  · obtain ⟨k, h⟩ := get_mem h
    have : ∀ q ∈ ParserState.default.store.defaults.entries, q.2.all (fun c => c != '<' && c != '>') = true := by decide +kernel
    exact plain_lit (this _ h)

private def roundConfig : Config := { Config.default .checked with renderer := round Html.renderer }

private def sample : Text :=
  "= A <b> c\n:x: <i>\n\n*p* <q> {x} -- {sp}\n\n:y: {x}<j>\n\n{y}\n\n== S <t>\n\n.u <u>\n----\n<v>\n----\n".toList

private def noPass (t : Text) : Bool := t.all fun c => c != '[' && c != '+' && c != '$'

private def sampleOk (d : Document) : Bool :=
  (match d.header.titleSource with | some t => noPass t.data | none => true) &&
  d.header.authorLine == none && d.header.revisionLine == none &&
  d.header.attributes.all (fun a => a.name.data.map Char.toLower != "author".toList &&
    (match a.valueSource with | some t => noPass t.data | none => true)) &&
  (preorderAll d.blocks).all (fun b => match b.kind with
    | .docAttr a => (match a.valueSource with | some t => noPass t.data | none => true)
    | _ => true) &&
  paragraphs d.blocks == ["(strong)p(/strong) &lt;q&gt; &lt;i&gt;&#8201;&#8212;&#8201; ".toList, "&lt;i&gt;&lt;j&gt;".toList]

omit [Uni] in
/-- Non-vacuity: a document with `<` and `>` in its title, an entry, a paragraph, a section, a block title and a listing, and the
default parser with such a renderer. -/
example : letI := asciiUni
    ∃ d map p', roundConfig.parse 60 .default sample = .ok (d, map, p') ∧ AddsNone roundConfig.renderer ∧ PlainStore ParserState.default.store ∧
      (∀ t, d.header.titleSource = some t → NoPassthrough t.data) ∧ d.header.authorLine = none ∧ d.header.revisionLine = none ∧
      (∀ a ∈ d.header.attributes, a.name.data.map Char.toLower ≠ "author".toList ∧
        ∀ src, a.valueSource = some src → NoPassthrough src.data) ∧
      (∀ b ∈ preorderAll d.blocks, ∀ a src, b.kind = .docAttr a → a.valueSource = some src → NoPassthrough src.data) ∧
      paragraphs d.blocks = ["(strong)p(/strong) &lt;q&gt; &lt;i&gt;&#8201;&#8212;&#8201; ".toList, "&lt;i&gt;&lt;j&gt;".toList] := by
  letI := asciiUni
  have np : ∀ t : Text, noPass t = true → NoPassthrough t := by
    intro t h
    have h := List.all_eq_true.mp h
    exact ⟨fun hc => absurd (h _ hc) (by decide), fun hc => absurd (h _ hc) (by decide), fun hc => absurd (h _ hc) (by decide)⟩
  have hx : parsed (roundConfig.parse 60 .default sample) sampleOk = true := by decide +kernel
  obtain ⟨d, map, p', h1, h2⟩ := parsed_spec hx
  simp only [sampleOk, Bool.and_eq_true, beq_iff_eq] at h2
  obtain ⟨⟨⟨⟨⟨k1, k2⟩, k3⟩, k4⟩, k5⟩, k6⟩ := h2
  refine ⟨d, map, p', h1, round_addsNone _, C75_default_store, fun t ht => ?_, k2, k3, fun a ha => ?_, fun b hb a src hk hs => ?_, k6⟩
  · rw [ht] at k1; exact np _ k1
  · have := List.all_eq_true.mp k4 a ha
    simp only [Bool.and_eq_true, bne_iff_ne, ne_eq] at this
    refine ⟨this.1, fun src hs => ?_⟩
    have h := this.2
    rw [hs] at h
    exact np _ h
  · have := List.all_eq_true.mp k5 b hb
    rw [hk] at this
    dsimp only at this
    rw [hs] at this
    exact np _ this

omit [Uni] in
/-- Non-vacuity: a text with passthroughs which replace special characters, and one with plain text as it is; an author with an
address. -/
example : letI := asciiUni
    Escaped .normal "<a> ++<b>++ [.c]+<d>+ pass:[e]".toList ∧ AddsNone (bare Html.renderer) ∧
    (Group.apply 60 ⟨⟨ParserState.default.store, '/'⟩, bare Html.renderer⟩ .normal none "<a> ++<b>++ [.c]+<d>+ pass:[e]".toList) =
      .ok "&lt;a&gt; &lt;b&gt; &lt;d&gt; e".toList ∧
    SafeLine (.author "A B <a@b.c>".toList) := by
  letI := asciiUni
  have direct : ∀ t, Escaped .verbatim t := fun t => .direct ⟨[], rfl⟩ (by decide) (by decide)
  refine ⟨.around ⟨_, rfl⟩ (ps := [⟨"<b>".toList, .verbatim, none, none⟩, ⟨['e'], .none, none, none⟩,
      ⟨"<d>".toList, .verbatim, some .unquoted, some ".c".toList⟩])
      (out := "<a> \u00960\u0097 \u00962\u0097 \u00961\u0097".toList) (extract_iff.mp (by decide +kernel)) ?_ ?_, bare_addsNone _, by decide +kernel,
      fun authors h1 h2 a ha => ?_⟩
  · intro p hp a h
    simp only [List.mem_cons, List.not_mem_nil, or_false] at hp
    rcases hp with rfl | rfl | rfl
    · cases h
    · cases h
    · cases h; exact plain_lit (by decide)
  · intro p hp
    simp only [List.mem_cons, List.not_mem_nil, or_false] at hp
    rcases hp with rfl | rfl | rfl
    · exact direct _
    · exact .plain (plain_lit (by decide))
    · exact direct _
  · have hno : ¬ ';' ∈ "A B <a@b.c>".toList := by decide
    have : authors = ["A B <a@b.c>".toList] := by
      cases authors with
      | nil => cases ha
      | cons x xs =>
        cases xs with
        | nil => rw [joinWith] at h1; rw [h1]
        | cons y ys =>
          rw [← h1] at hno
          exact absurd (by simp [joinWith]) hno
    rw [this] at ha
    rw [List.mem_singleton.mp ha]
    exact .mail (n := "A B ".toList) (e := "a@b.c".toList) (trimmed_iff.mpr (by decide)) (plain_lit (by decide)) (plain_lit (by decide))
      (by decide) (by decide)

end Adoc.Props
