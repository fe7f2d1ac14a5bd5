import Verif.Spec.Rendered
import Verif.Lemmas.Made
import Verif.Lemmas.Numbers
import Verif.Props.Leaf
/-!
# Lemmas about what the blocks of a document show
-/

namespace Adoc
open Span Spec

variable [Uni]

theorem attrsBehind_append (s : AttrStore) (xs ys : List Block) :
    attrsBehind s (xs ++ ys) = attrsBehind (attrsBehind s xs) ys := by
  unfold attrsBehind; rw [List.foldl_append]

theorem attrsBehind_skip {b : Block} (h : ¬ IsEntry b) (s : AttrStore) (bs : List Block) :
    attrsBehind s (b :: bs) = attrsBehind s bs := by
  unfold attrsBehind
  rw [List.foldl_cons]
  split
  · rename_i a hk; exact absurd ⟨a, hk⟩ h
  · rfl

/-- Something holds of every one of the blocks, given the attributes at its beginning and at its end. -/
def Everywhere (Q : AttrStore → AttrStore → Block → Prop) (s : AttrStore) (bs : List Block) : Prop :=
  ∀ pre b post, preorderAll bs = pre ++ b :: post → Q (attrsBehind s pre) (attrsBehind s (pre ++ preorder b)) b

theorem Everywhere.nil {Q : AttrStore → AttrStore → Block → Prop} {s : AttrStore} : Everywhere Q s [] := by
  intro pre b post h
  cases pre <;> cases h

theorem Everywhere.cons {Q : AttrStore → AttrStore → Block → Prop} {s s1 s2 : AttrStore} {b : Block} {bs : List Block}
    (e1 : attrsBehind s [b] = s1) (e2 : attrsBehind s1 (preorderAll b.children) = s2) (h : Q s s2 b)
    (h1 : Everywhere Q s1 b.children) (h2 : Everywhere Q s2 bs) : Everywhere Q s (b :: bs) := by
  have hb : preorder b = b :: preorderAll b.children := by cases b; rfl
  intro pre x post hx
  rw [preorderAll, hb, List.cons_append] at hx
  cases pre with
  | nil =>
    simp only [List.nil_append, List.cons.injEq] at hx
    obtain ⟨rfl, _⟩ := hx
    rw [List.nil_append, hb, show b :: preorderAll b.children = [b] ++ preorderAll b.children from rfl, attrsBehind_append,
      e1, e2]
    exact h
  | cons y pre =>
    simp only [List.cons_append, List.cons.injEq] at hx
    obtain ⟨rfl, hx⟩ := hx
    have step : ∀ l, attrsBehind s (b :: l) = attrsBehind s1 l := by
      intro l
      rw [show b :: l = [b] ++ l from rfl, attrsBehind_append, e1]
    rw [List.cons_append, step, step]
    rcases List.append_eq_append_iff.mp hx with ⟨m, rfl, hm⟩ | ⟨m, hm, hm'⟩
    · rw [List.append_assoc, attrsBehind_append, e2, attrsBehind_append, e2]
      exact h2 m x post hm
    · cases m with
      | nil =>
        simp only [List.append_nil, List.nil_append] at hm hm'
        subst hm
        rw [attrsBehind_append, e2]
        have := h2 [] x post hm'.symm
        exact this
      | cons z m =>
        simp only [List.cons_append, List.cons.injEq] at hm'
        obtain ⟨rfl, _⟩ := hm'
        exact h1 pre x m hm

theorem Everywhere.split {Q : AttrStore → AttrStore → Block → Prop} {s : AttrStore} {xs ys : List Block}
    (h : Everywhere Q s (xs ++ ys)) : Everywhere Q s xs ∧ Everywhere Q (attrsBehind s (preorderAll xs)) ys := by
  constructor
  · intro pre b post e
    refine h pre b (post ++ preorderAll ys) ?_
    rw [preorderAll_append, e]; simp
  · intro pre b post e
    have := h (preorderAll xs ++ pre) b post (by rw [preorderAll_append, e]; simp)
    rw [attrsBehind_append, List.append_assoc, attrsBehind_append] at this
    exact this

/-! ### Single blocks -/

theorem meta_shown {subs : Subs} {store : AttrStore} {s : Span} {m : BlockMetadata} {ws : List Warning}
    (h : BlockMetadata.parse subs store s = .ok (m, ws)) : MetaShown subs store m.fields := by
  obtain ⟨h1, w1, w2, _, h2, _⟩ := Props.C27_values h
  exact ⟨h1, fun a ha => ⟨w1, h2 a ha⟩⟩

theorem meta_shown_none {subs : Subs} {store : AttrStore} {r : Option Span} :
    MetaShown subs store { anchorReftext := r } := ⟨Or.inl ⟨rfl, rfl⟩, fun _ h => (by cases h)⟩

theorem meta_shown_media {subs : Subs} {store : AttrStore} {f : Meta} {r : Option Span} (h : MetaShown subs store f) :
    MetaShown subs store { f with anchorReftext := r } := ⟨h.title, h.attrlist⟩

omit [Uni] in
theorem entry_shown {subs : Subs} {store : AttrStore} {s : Span} {mi : MI Attribute}
    (h : Attribute.parse (subs store .header none) s = .ok (some mi)) : EntryShown subs store mi.item := by
  unfold Attribute.parse at h
  split at h
  · cases h
  · split at h
    · cases h
    · rename_i name unset line _
      have key : ∀ {v : IVal × Option Span} {src : Option Span} {after : Span},
          (match src with
            | none => (.error .panic : Res (Option (MI Attribute)))
            | some src => .ok (some ⟨⟨name, v.2, v.1, src.trimTrailingWhitespace⟩, after⟩)) = .ok (some mi) →
          mi.item.valueSource = v.2 ∧ mi.item.value = v.1 := by
        intro v src after h
        cases src with
        | none => cases h
        | some src => cases h; exact ⟨rfl, rfl⟩
      simp only [bind, Except.bind] at h
      split at h
      · obtain ⟨h1, h2⟩ := key (v := (IVal.unset, none)) h
        exact Or.inl ⟨h1, Or.inr h2⟩
      · split at h
        · obtain ⟨h1, h2⟩ := key (v := (IVal.set, none)) h
          exact Or.inl ⟨h1, Or.inl h2⟩
        · unfold fromRawValue at h
          cases hq : subs store .header none (joinValue line.takeWhitespace.after.data) with
          | error x => rw [hq] at h; cases h
          | ok t =>
            rw [hq] at h
            obtain ⟨h1, h2⟩ := key (v := (IVal.value t, some line.takeWhitespace.after)) h
            exact Or.inr ⟨_, t, h1, h2, hq⟩

omit [Uni] in
theorem parseLines_shown {subs : Subs} {store : AttrStore} {source : Span} {al : Option Attrlist} {c : Content}
    {style : SimpleStyle} {after : Span} (hcol : Aligned source)
    (h : parseLines subs store source al = .ok (some ⟨(c, style), after⟩)) :
    ∃ n raw texts, c.original.data = trimEnd raw ∧ IndentedBy n c.original.data ∧ ParagraphText n (lines raw) texts ∧
      subs store (Group.normal.overrideViaAttrlist al) al (joinWith ['\n'] texts) = .ok c.rendered := by
  obtain ⟨k, raw, taken, texts, h1, h2, _, _, _, h6, h7⟩ := parseLines_spec subs store source al
  rw [h7] at h
  split at h
  · cases h
  · rename_i hne
    cases hs : subs store (Group.normal.overrideViaAttrlist al) al (joinWith ['\n'] texts) with
    | error x => rw [hs] at h; cases h
    | ok r =>
      rw [hs] at h
      cases h
      obtain ⟨sp, e, _⟩ := trimEndP_spec isWhite raw
      have e0 : source.data = trimEnd raw ++ (sp ++ (source.skip k).data) := by
        rw [h1]
        conv => lhs; rw [e]
        simp [trimEnd]
      have e1 : (source.takeN (trimEnd raw).length).data = trimEnd raw := takeN_prefix e0
      refine ⟨_, raw, texts, e1, ?_, h2 ▸ h6, hs⟩
      rw [e1]
      have hcol : source.col = 1 := by
        rcases hcol with h0 | h0
        · rw [h0] at e0
          exact absurd (List.append_eq_nil_iff.mp e0.symm).1 hne
        · exact h0
      have hb := @List.takeWhile_append_dropWhile _ isBlank (trimEnd raw)
      have hrest : (trimEnd raw).dropWhile isBlank ≠ [] := by
        intro hn
        rw [hn, List.append_nil] at hb
        obtain ⟨r, x, hx⟩ : ∃ r x, trimEnd raw = r ++ [x] := by
          rcases List.eq_nil_or_concat (trimEnd raw) with h | ⟨r, x, h⟩
          · exact absurd h hne
          · exact ⟨r, x, by simpa using h⟩
        have h1 : isBlank x = true := by
          have : x ∈ (trimEnd raw).takeWhile isBlank := by rw [hb, hx]; simp
          exact List.all_eq_true.mp (List.all_takeWhile (p := isBlank) (l := trimEnd raw)) x this
        have h2 := trimEndP_last isWhite raw x r hx
        rcases Adoc.isBlank_iff.mp h1 with rfl | rfl <;> cases h2
      have hhead : ∀ r, (((trimEnd raw).dropWhile isBlank) ++ r).head? ≠ some ' ' ∧
          (((trimEnd raw).dropWhile isBlank) ++ r).head? ≠ some '\t' := by
        intro r
        cases hd : (trimEnd raw).dropWhile isBlank with
        | nil => exact absurd hd hrest
        | cons y ys =>
          have : isBlank y = false := by
            have := List.head_dropWhile_not (l := trimEnd raw) isBlank (by rw [hd]; simp)
            simpa [hd] using this
          simp only [List.cons_append, List.head?_cons, ne_eq, Option.some.injEq]
          constructor <;> (rintro rfl; cases this)
      have hn := (Props.indent_col (ind := (trimEnd raw).takeWhile isBlank)
        (rest := (trimEnd raw).dropWhile isBlank ++ (sp ++ (source.skip k).data)) hcol
        (by rw [← List.append_assoc, hb]; exact e0) (fun c hc => Adoc.isBlank_iff.mp
          (List.all_eq_true.mp (List.all_takeWhile (p := isBlank) (l := trimEnd raw)) c hc)) (hhead _)).1
      refine ⟨_, _, hb.symm, hn.symm, fun c hc => Adoc.isBlank_iff.mp
          (List.all_eq_true.mp (List.all_takeWhile (p := isBlank) (l := trimEnd raw)) c hc), ?_⟩
      have := hhead []
      rwa [List.append_nil] at this

omit [Uni] in
/-- Without their line end, a text ends no later than a part at its end. -/
theorem trim_stop {x a : Span} {i : Text} (h : x.data = i ++ a.data) (hs : stopOf x = stopOf a) :
    stopOf x.trimTrailingLineEnd ≤ stopOf a.trimTrailingLineEnd := by
  obtain ⟨k, _, e1, w1⟩ := trimTrailingLineEnd_spec x
  obtain ⟨l, _, e2, w2⟩ := trimTrailingLineEnd_spec a
  rw [e1, e2]
  rw [stopOf_eq, stopOf_eq] at hs ⊢
  rw [takeN_offset, takeN_offset, takeN_data, takeN_data]
  generalize x.data.take k = bx at w1
  generalize a.data.take l = ba at w2
  have hx : blen ['\r', '\n'] = 2 := by decide
  have hn : blen ['\n'] = 1 := by decide
  rcases w2 with w2 | ⟨w2, n2⟩ | ⟨w2, n2⟩
  · rw [w2] at h
    rcases w1 with w1 | ⟨w1, n1⟩ | ⟨w1, n1⟩
    · rw [w1, w2, blen_append, blen_append] at hs; omega
    · exfalso
      rw [w1] at h
      have : bx ++ ['\n'] = (i ++ ba ++ ['\r']) ++ ['\n'] := by rw [h]; simp
      exact n1 _ (List.append_cancel_right this)
    · exfalso
      exact n1 (i ++ ba ++ ['\r']) (by rw [← w1, h]; simp)
  · rw [w2] at h
    rcases w1 with w1 | ⟨w1, n1⟩ | ⟨w1, n1⟩
    · rw [w1, w2, blen_append, blen_append] at hs; omega
    · rw [w1, w2, blen_append, blen_append] at hs; omega
    · exfalso
      exact n1 (i ++ ba) (by rw [← w1, h]; simp)
  · rw [w2] at hs
    rcases w1 with w1 | ⟨w1, n1⟩ | ⟨w1, n1⟩
    · rw [w1, blen_append] at hs; omega
    · rw [w1, blen_append] at hs; omega
    · rw [w1] at hs; omega

omit [Uni] in
/-- The content of a delimited block that is closed went through the substitutions it reports. -/
theorem raw_shown {subs : Subs} {store : AttrStore} {m : BlockMetadata} {rb : RawBlock} {after : Span} {ws : List Warning}
    (hs : Suf m.blockStart m.source) (hp : RawBlock.parse subs store m = .ok (some (⟨rb, after⟩, ws))) :
    subs store rb.group m.fields.attrlist rb.content.original.data = .ok rb.content.rendered ∨
      (stopOf rb.source ≤ stopOf rb.content.original ∧ rb.content.rendered = rb.content.original.data) := by
  obtain ⟨ch, hc, _⟩ := rawBlock_shape hp
  rcases rawBlock_spec (subs := subs) (store := store) rfl hc hs with
    ⟨_, _, _, body, src, after, _, _, _, _, _, _, _, _, _, e⟩ | ⟨k, body, src, after, e1, _, e2, e3, _, e4, e5, e6⟩
  · left
    rw [e] at hp
    cases hr : subs store ((rawBlockKind ch).2.2.overrideViaAttrlist m.fields.attrlist) m.fields.attrlist body.data with
    | error x => rw [hr] at hp; cases hp
    | ok r => rw [hr] at hp; cases hp; exact hr
  · right
    rw [e6] at hp
    cases hp
    refine ⟨?_, rfl⟩
    have hafter : Suf after m.source := by rw [e3]; exact (skip_suf _ _).trans hs
    obtain ⟨i, hi, e7, e8⟩ := trimRemainder?_suf hafter
    rw [e8] at e5
    have hlen : m.source.data.length ≤ i := by
      rw [e7, dropN_data] at e4
      exact List.drop_eq_nil_iff.mp e4
    have hsrc : src = m.source := by
      rw [← Option.some.inj e5]; exact takeN_all _ hlen
    obtain ⟨j, hj, e9⟩ := (takeLine_lineSuf m.blockStart).1.trans hs
    have h1 : m.source.data = m.source.data.take j ++ m.blockStart.takeLine.after.data := by
      rw [e9, dropN_data, List.take_append_drop]
    have := trim_stop (x := src) (a := m.blockStart.takeLine.after) (i := m.source.data.take j)
      (by rw [hsrc]; exact h1)
      (by rw [hsrc, stopOf_eq, stopOf_eq]
          conv => lhs; rw [h1, blen_append]
          rw [e9, dropN_offset]; omega)
    simp only
    rw [e2]
    omega

theorem media_shown {subs : Subs} {store : AttrStore} {m : BlockMetadata} {mb : MediaBlock} {after : Span}
    {ws : List Warning} (h : MediaBlock.parse subs store m = .ok (some (⟨mb, after⟩, ws))) :
    ∃ w, Attrlist.parse (subs store .normal none) store mb.attrs.source .inline = .ok (mb.attrs, w) := by
  unfold MediaBlock.parse at h
  simp only [bind, Except.bind] at h
  repeat' split at h
  all_goals first
    | (cases h; done)
    | (cases h; rename_i v hq _ _ _ _ _ _; exact ⟨v.2, by rw [show v.1.source = _ from attrlist_source hq]; exact hq⟩)

/-- A block without nested blocks. -/
theorem leaf_shown {e : BlockEnv} {p p' : ParserState} {s after : Span} {b : Block} {ws : List Warning} (hs : Aligned s)
    (h : LeafStep e p s (some ⟨b, after⟩) ws p') (s' : AttrStore) :
    Shown e.subs p.store s' b ∧ MetaShown e.subs p.store b.fields ∧ b.children = [] ∧
      attrsBehind p.store [b] = p'.store := by
  generalize hr : (some (⟨b, after⟩ : MI Block)) = r at h
  have reg : ∀ (m : Meta) (sp : Span), (registerBlockId p m sp).1.store = p.store := by
    intro m sp
    exact congrArg Tally.attrs (registerBlockId_rest p m sp).1
  cases h with
  | fast hf =>
    cases hr
    obtain ⟨c, r, mi, _, _, _, hp, rfl, rfl⟩ := fast_some hf
    obtain ⟨n, raw, texts, h1, h2, h3, h4⟩ := parseLines_shown hs hp
    exact ⟨.paragraph rfl h1 h2 h3 h4, meta_shown_none, rfl, rfl⟩
  | entry hb =>
    cases hr
    unfold bodyEntryAt at hb
    simp only at hb
    split at hb
    · exact ⟨.entry rfl (entry_shown hb), meta_shown_none, rfl, rfl⟩
    · cases hb
  | raw hm hp =>
    cases hr
    refine ⟨?_, meta_shown hm.parse, rfl, (reg _ _).symm⟩
    rcases raw_shown (meta_suf hm.parse).2 hp with h | ⟨h1, h2⟩
    · exact .delimited rfl h
    · exact .unclosed rfl h1 h2
  | media hm hp =>
    cases hr
    obtain ⟨w, h⟩ := media_shown (mediaAt_some hp).2
    exact ⟨.media rfl h, meta_shown_media (meta_shown hm.parse), rfl, (reg _ _).symm⟩
  | brk hm _ _ =>
    cases hr
    exact ⟨.brk rfl, meta_shown_media (meta_shown hm.parse), rfl, rfl⟩
  | simple hf hp =>
    subst hr
    obtain ⟨m', sb, _, hq, rfl, hm', rfl⟩ := parseSimple_some hp
    obtain ⟨l1, l2⟩ := meta_lineSuf hf.parse
    have hb : Aligned m'.blockStart ∧ MetaShown e.subs p.store m'.fields := by
      rcases hm' with ⟨rfl, _⟩ | ⟨rfl, _⟩
      · exact ⟨hs.of_lineSuf (l2.trans l1), meta_shown hf.parse⟩
      · exact ⟨hs.of_lineSuf l1, meta_shown_none⟩
    unfold SimpleBlock.parse at hq
    simp only [bind, Except.bind] at hq
    cases hpl : parseLines e.subs p.store m'.blockStart m'.fields.attrlist with
    | error x => rw [hpl] at hq; cases hq
    | ok q =>
      rw [hpl] at hq
      cases q with
      | none => cases hq
      | some mi =>
        obtain ⟨⟨c, style⟩, mid⟩ := mi
        obtain ⟨n, raw, texts, h1, h2, h3, h4⟩ := parseLines_shown hb.1 hpl
        simp only at hq
        cases ht : m'.source.trimRemainder? mid with
        | none => rw [ht] at hq; cases hq
        | some src =>
          rw [ht] at hq
          cases hq
          exact ⟨.paragraph rfl h1 h2 h3 h4, hb.2, rfl, (reg _ _).symm⟩

/-- What holds of every block, and the attributes behind. -/
theorem run_shown {e : BlockEnv} {stop : Stop} {p p' : ParserState} {s s' : Span} {bs : List Block} {ws sw : List Warning}
    (h : Run e stop p s bs s' ws sw p') : Aligned s →
    p'.store = attrsBehind p.store (preorderAll bs) ∧
      Everywhere (fun a a' b => Shown e.subs a a' b ∧ MetaShown e.subs a b.fields) p.store bs := by
  induction h with
  | done _ => exact fun _ => ⟨rfl, .nil⟩
  | halt _ _ => exact fun _ => ⟨rfl, .nil⟩
  | @leaf stop stop' p p1 p2 s s' sw sw' ws ws' b after bs _ _ hl _ ih =>
    intro hs
    have ha := (leaf_lineSuf hl).1
    obtain ⟨i1, i2⟩ := ih (hs.of_lineSuf ha)
    obtain ⟨l1, l2, l3, l4⟩ := leaf_shown hs hl p1.store
    constructor
    · rw [i1, preorderAll, attrsBehind_append]
      have : preorder b = [b] := by cases b; simp only [Block.children] at l3; subst l3; rfl
      rw [this, l4]
    · exact .cons l4 (by rw [l3]; rfl) ⟨l1, l2⟩ (by rw [l3]; exact .nil) i2
  | stuck _ _ hl _ ih =>
    obtain rfl := leaf_none hl
    exact ih
  | @compound stop stop' p p1 p2 s s' sw sw' ws' bs m mw context inside closing after src cbs cs cws csw h1 hk hm ho r1 r2
      ih1 ih2 =>
    intro hs
    obtain ⟨l1, l2⟩ := meta_lineSuf hm.parse
    obtain ⟨g1, ⟨k, g2⟩, k', rfl⟩ := compound_lineSuf ho
    have ha := g1.trans (l2.trans l1)
    have hin : LineSuf m.blockStart.takeLine.after s := (takeLine_lineSuf _).trans (l2.trans l1)
    have hi : Aligned inside := by rw [g2]; exact (hs.of_lineSuf hin).takeN k
    obtain ⟨a1, a2⟩ := ih1 (hi.of_lineSuf (discardEmptyLines_lineSuf inside))
    obtain ⟨b1, b2⟩ := ih2 (hs.of_lineSuf ha)
    have reg := congrArg Tally.attrs (registerBlockId_rest p1 m.fields (m.source.takeN k').trimTrailingWhitespace).1
    change (registerBlockId p1 m.fields (m.source.takeN k').trimTrailingWhitespace).1.store = p1.store at reg
    rw [reg] at b1 b2
    constructor
    · rw [b1, a1, preorderAll, preorder, List.cons_append, attrsBehind_skip (not_entry_mk (fun _ h => (by cases h))), attrsBehind_append]
    · exact .cons (attrsBehind_skip (not_entry_mk (fun _ h => (by cases h))) _ _) a1.symm ⟨.compound rfl, meta_shown hm.parse⟩ a2 b2
  | @«section» stop stop' p p1 p2 p3 s s' sw sw' ws' bs m mw mi tw cbs cs cws csw src dupSrc title base id dup h1 hk hm
      hstart ht r1 hclose r2 ih1 ih2 =>
    intro hs
    obtain ⟨l1, l2⟩ := meta_lineSuf hm.parse
    have ha : LineSuf mi.after.discardEmptyLines s := by
      rw [(titleLine_geo ht).2.1]
      exact (discardEmptyLines_lineSuf _).trans ((takeLine_lineSuf _).trans
        ((discardEmptyLines_lineSuf _).trans (l2.trans l1)))
    have hcs := (run_made r1).1.trans ha
    obtain ⟨a1, a2⟩ := ih1 (hs.of_lineSuf ha)
    obtain ⟨b1, b2⟩ := ih2 (hs.of_lineSuf hcs)
    have ho : (openSection p m mi.item.1).2.2.store = p.store := by
      unfold openSection sectionNumber
      simp only
      split <;> rfl
    have hc : (closeSection p2 m mi.item.1).store = p1.store := by
      have hr := congrArg Tally.attrs (registerSection_rest hclose.register).1
      unfold closeSection
      split <;> exact hr
    rw [ho] at a1 a2
    rw [hc] at b1 b2
    constructor
    · rw [b1, a1, preorderAll, preorder, List.cons_append, attrsBehind_skip (not_entry_mk (fun _ h => (by cases h))), attrsBehind_append]
    · exact .cons (attrsBehind_skip (not_entry_mk (fun _ h => (by cases h))) _ _) a1.symm ⟨.section rfl hclose.subst, meta_shown hm.parse⟩ a2 b2

/-- What holds of every block of a document. -/
theorem document_shown {e : BlockEnv} {hr : Renderer} {fuel : Nat} {p p' : ParserState} {text : Text} {d : Document}
    (h : Document.parse e hr fuel p text = .ok (d, p')) :
    ∃ mi ws store, Header.parse (fun s t => e.subs s .header none t) hr p.store (Span.new text) = .ok (mi, ws, store) ∧
      p'.store = attrsBehind store (preorderAll d.blocks) ∧
      Everywhere (fun a a' b => Shown e.subs a a' b ∧ MetaShown e.subs a b.fields) store d.blocks := by
  obtain ⟨mi, hw, store, bs, rest, ws, sw, q, k1, k2, k3, k4, k5, k6, rfl, k8⟩ := document_run h
  obtain ⟨h1, h2⟩ := run_shown k2 ((header_aligned k1).of_lineSuf (discardEmptyLines_lineSuf mi.after))
  refine ⟨mi, hw, store, k1, ?_⟩
  rcases withPreamble_spec bs mi.after with ⟨front, first, back, ⟨rfl, _⟩, hp⟩ | ⟨_, hp⟩
  · rw [hp] at k3
    cases hq : preambleOf front mi.after with
    | error x => rw [hq] at k3; cases k3
    | ok b =>
      rw [hq] at k3
      obtain ⟨k, rfl⟩ := preambleOf_front hq
      have e1 : d.blocks = .mk .preamble (mi.after.takeN k) {} front :: first :: back := (Except.ok.inj k3).symm
      rw [e1]
      constructor
      · rw [preorderAll, preorder, List.cons_append, attrsBehind_skip (not_entry_mk (fun _ h => (by cases h))), ← preorderAll_append]
        exact h1
      · exact .cons (attrsBehind_skip (not_entry_mk (fun _ h => (by cases h))) _ _) rfl ⟨.preamble rfl, meta_shown_none⟩ h2.split.1 h2.split.2
  · rw [hp] at k3
    injection k3 with k3
    rw [← k3]
    exact ⟨h1, h2⟩

end Adoc
