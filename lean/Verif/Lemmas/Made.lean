import Verif.Lemmas.Begin
/-!
# Where the blocks of a document come from

Facts about single blocks are carried to all the blocks of a document by `document_made`.
-/

namespace Adoc
open Span Spec

variable [Uni]

/-- How a block was made out of a text. -/
inductive Made (e : BlockEnv) (T : Span) : Block → Prop
  | leaf {p p' s b after ws} : LeafStep e p s (some ⟨b, after⟩) ws p' → Sub s T → Aligned s → Made e T b
  | compound {p : ParserState} {s m mw context inside closing after src k cbs} :
      Ahead e p s m mw → CompoundOpen m context inside closing after src → Sub s T → Aligned s →
      Made e T (.mk (.compound context) (m.source.takeN k) m.fields cbs)
  | section {p p1 p2 : ParserState} {s m mw mi tw src dupSrc k title base id dup after sectids ty num cbs} :
      Ahead e p s m mw → (startsWith m.line ['='] || startsWith m.line ['#']) = true →
      parseTitleLine e.ar m.blockStart.discardEmptyLines = .ok (some mi, tw) →
      SectionClose e m mi sectids after p1 p2 src dupSrc title base id dup → Sub s T → Aligned s →
      Made e T (.mk (.section mi.item.1 ⟨mi.item.2, title⟩ ty id num) (m.source.takeN k) m.fields cbs)
  | preamble {s k cbs} : Sub s T → Aligned s → Made e T (.mk .preamble (s.takeN k) {} cbs)

theorem run_made {e : BlockEnv} {stop : Stop} {p p' : ParserState} {s s' : Span} {bs : List Block} {ws sw : List Warning}
    (h : Run e stop p s bs s' ws sw p') :
    LineSuf s' s ∧ ∀ T, Sub s T → Aligned s → ∀ b ∈ bs, ∀ x, Within x b → Made e T x := by
  have front : ∀ {T : Span} {b : Block} {cs bs : List Block}, b.children = cs → Made e T b →
      (∀ c ∈ cs, ∀ x, Within x c → Made e T x) → (∀ b ∈ bs, ∀ x, Within x b → Made e T x) →
      ∀ x ∈ b :: bs, ∀ y, Within y x → Made e T y := by
    intro T b cs bs h1 h2 h3 h4 x hx y hy
    rcases List.mem_cons.mp hx with rfl | hx
    · rcases hy.cases with rfl | ⟨c, hc, hy⟩
      · exact h2
      · exact h3 c (h1 ▸ hc) y hy
    · exact h4 x hx y hy
  induction h with
  | done _ => exact ⟨LineSuf.refl _, by simp⟩
  | halt _ _ => exact ⟨LineSuf.refl _, by simp⟩
  | leaf _ _ hl _ ih =>
    have ha := (leaf_lineSuf hl).1
    refine ⟨ih.1.trans ha, fun T hT hs => ?_⟩
    exact front (leaf_kind hl).1 (.leaf hl hT hs) (by simp) (ih.2 T (ha.1.sub.trans hT) (hs.of_lineSuf ha))
  | stuck _ _ _ _ ih => exact ih
  | @compound _ _ _ _ _ s s' _ _ _ bs m mw context inside closing after src cbs cs cws csw _ _ hm ho _ _ ih1 ih2 =>
    obtain ⟨l1, l2⟩ := meta_lineSuf hm.parse
    obtain ⟨g1, ⟨k, g2⟩, k', rfl⟩ := compound_lineSuf ho
    have ha := g1.trans (l2.trans l1)
    refine ⟨ih2.1.trans ha, fun T hT hs => ?_⟩
    have hin : LineSuf m.blockStart.takeLine.after s := (takeLine_lineSuf _).trans (l2.trans l1)
    have hi : Aligned inside := by rw [g2]; exact (hs.of_lineSuf hin).takeN k
    have hde := discardEmptyLines_lineSuf inside
    have hsub : Sub inside T := by rw [g2]; exact (takeN_sub _ _).trans (hin.1.sub.trans hT)
    refine front rfl ?_ (ih1.2 T (hde.1.sub.trans hsub) (hi.of_lineSuf hde))
      (ih2.2 T (ha.1.sub.trans hT) (hs.of_lineSuf ha))
    unfold Span.trimTrailingWhitespace
    rw [takeN_takeN]
    exact .compound hm ho hT hs
  | @«section» _ _ _ _ _ _ s s' _ _ _ bs m mw mi tw cbs cs cws csw src dupSrc title base id dup _ _ hm hi ht _ hc _ ih1 ih2 =>
    obtain ⟨l1, l2⟩ := meta_lineSuf hm.parse
    have ha : LineSuf mi.after.discardEmptyLines s := by
      rw [(titleLine_geo ht).2.1]
      exact (discardEmptyLines_lineSuf _).trans ((takeLine_lineSuf _).trans
        ((discardEmptyLines_lineSuf _).trans (l2.trans l1)))
    have hcs := ih1.1.trans ha
    refine ⟨ih2.1.trans hcs, fun T hT hs => ?_⟩
    refine front rfl ?_ (ih1.2 T (ha.1.sub.trans hT) (hs.of_lineSuf ha)) (ih2.2 T (hcs.1.sub.trans hT) (hs.of_lineSuf hcs))
    obtain ⟨k, _, e⟩ := trimRemainder?_some hc.whole
    have e2 : src.trimTrailingWhitespace = m.source.takeN (min (trimEnd src.data).length k) := by
      unfold Span.trimTrailingWhitespace
      conv => lhs; rw [e, takeN_takeN]
      rw [← e]
    rw [e2]
    exact .section hm hi ht hc hT hs

theorem preambleOf_front {bs : List Block} {src : Span} {b : Block} (h : preambleOf bs src = .ok b) :
    ∃ k, b = .mk .preamble (src.takeN k) {} bs := by
  unfold preambleOf at h
  simp only [bind, Except.bind] at h
  split at h
  · rename_i l _
    cases hs : src.trimRemainder? l.source.discardAll with
    | none => rw [hs] at h; cases h
    | some x => rw [hs] at h; cases h; obtain ⟨k, _, rfl⟩ := trimRemainder?_some hs; exact ⟨k, rfl⟩
  · cases hs : src.trimRemainder? src with
    | none => rw [hs] at h; cases h
    | some x => rw [hs] at h; cases h; obtain ⟨k, _, rfl⟩ := trimRemainder?_some hs; exact ⟨k, rfl⟩

theorem document_made {e : BlockEnv} {hr : Renderer} {fuel : Nat} {p p' : ParserState} {text : Text} {d : Document}
    (h : Document.parse e hr fuel p text = .ok (d, p')) : ∀ x, InDoc d x → Made e (Span.new text) x := by
  obtain ⟨mi, hw, store, bs, rest, ws, sw, q, h1, h2, h3, _⟩ := document_run h
  have hsub := header_after h1
  have hal := header_aligned h1
  have hde := discardEmptyLines_lineSuf mi.after
  have hm := (run_made h2).2 (Span.new text) (hde.1.sub.trans hsub) (hal.of_lineSuf hde)
  rcases withPreamble_spec bs mi.after with ⟨front, first, back, ⟨rfl, _⟩, hp⟩ | ⟨_, hp⟩
  · rw [hp] at h3
    cases hpo : preambleOf front mi.after with
    | error x => rw [hpo] at h3; cases h3
    | ok b =>
      rw [hpo] at h3
      obtain ⟨k, rfl⟩ := preambleOf_front hpo
      have hb : d.blocks = .mk .preamble (mi.after.takeN k) {} front :: first :: back := (Except.ok.inj h3).symm
      rintro x ⟨b, hbm, hx⟩
      rw [hb] at hbm
      rcases List.mem_cons.mp hbm with rfl | hbm
      · rcases hx.cases with rfl | ⟨c, hc, hx⟩
        · exact .preamble hsub hal
        · exact hm c (List.mem_append_left _ hc) x hx
      · exact hm b (List.mem_append_right _ hbm) x hx
  · rw [hp] at h3
    rintro x ⟨b, hbm, hx⟩
    rw [← Except.ok.inj h3] at hbm
    exact hm b hbm x hx

/-- Every block begins in the first column. -/
theorem Made.aligned {e : BlockEnv} {T : Span} {b : Block} (h : Made e T b) : Aligned b.source := by
  cases h with
  | leaf hl _ hs =>
    obtain ⟨_, body, k, h1, h2⟩ := leaf_lineSuf hl
    rw [h2]; exact (hs.of_lineSuf h1).takeN k
  | compound hm _ _ hs => exact (hs.of_lineSuf (meta_lineSuf hm.parse).1).takeN _
  | «section» hm _ _ _ _ hs => exact (hs.of_lineSuf (meta_lineSuf hm.parse).1).takeN _
  | preamble _ hs => exact hs.takeN _

omit [Uni] in
theorem parseLines_rendered {subs : Subs} {store : AttrStore} {source : Span} {al : Option Attrlist} {c : Content}
    {style : SimpleStyle} {after : Span} (h : parseLines subs store source al = .ok (some ⟨(c, style), after⟩)) :
    ∃ n raw texts, c.original.data = trimEnd raw ∧ ParagraphText n (lines raw) texts ∧
      subs store (Group.normal.overrideViaAttrlist al) al (joinWith ['\n'] texts) = .ok c.rendered := by
  obtain ⟨k, raw, taken, texts, h1, h2, _, _, _, h6, h7⟩ := parseLines_spec subs store source al
  rw [h7] at h
  split at h
  · cases h
  · cases hs : subs store (Group.normal.overrideViaAttrlist al) al (joinWith ['\n'] texts) with
    | error x => rw [hs] at h; cases h
    | ok r =>
      rw [hs] at h
      cases h
      refine ⟨_, raw, texts, ?_, h2 ▸ h6, hs⟩
      obtain ⟨sp, e, _⟩ := trimEndP_spec isWhite raw
      apply takeN_prefix (r := sp ++ (source.skip k).data)
      rw [h1]
      conv => lhs; rw [e]
      simp [trimEnd]

/-- What a block without nested blocks looks like. -/
inductive LeafShape (e : BlockEnv) (store : AttrStore) : Block → Prop
  | simple {n raw texts c style src f} : c.original.data = trimEnd raw → ParagraphText n (lines raw) texts →
      e.subs store (Group.normal.overrideViaAttrlist f.attrlist) f.attrlist (joinWith ['\n'] texts) = .ok c.rendered →
      LeafShape e store (.mk (.simple c style) src f [])
  | entry {a : Attribute} : LeafShape e store (.mk (.docAttr a) a.source {} [])
  | raw {m : BlockMetadata} {rb after ws} : Suf m.blockStart m.source → RawBlock.parse e.subs store m = .ok (some (⟨rb, after⟩, ws)) →
      LeafShape e store (.mk (.raw rb.content rb.model rb.context rb.group) rb.source m.fields [])
  | media {m : BlockMetadata} {mb : MediaBlock} {after ws} :
      (startsWith m.line "image::".toList || startsWith m.line "video::".toList) = true →
      MediaBlock.parse e.subs store m = .ok (some (⟨mb, after⟩, ws)) →
      LeafShape e store (.mk (.media mb.type mb.target mb.attrs) mb.source { m.fields with anchorReftext := none } [])
  | brk {f : Meta} {ty src} : LeafShape e store (.mk (.brk ty) src { f with anchorReftext := none } [])

theorem leaf_shape {e : BlockEnv} {p p' : ParserState} {s after : Span} {b : Block} {ws : List Warning}
    (h : LeafStep e p s (some ⟨b, after⟩) ws p') : LeafShape e p.store b := by
  generalize hr : (some (⟨b, after⟩ : MI Block)) = r at h
  cases h with
  | @fast sb _ hf =>
    cases hr
    unfold fastPath at hf
    cases hd : s.data.head? with
    | none => rw [hd] at hf; cases hf
    | some c =>
      rw [hd] at hf
      simp only at hf
      split at hf
      · unfold SimpleBlock.parseFast at hf
        simp only [bind, Except.bind] at hf
        cases hp : parseLines e.subs p.store s none with
        | error x => rw [hp] at hf; cases hf
        | ok q =>
          rw [hp] at hf
          cases q with
          | none => cases hf
          | some mi =>
            obtain ⟨⟨c, style⟩, mid⟩ := mi
            obtain ⟨n, raw, texts, h1, h2, h3⟩ := parseLines_rendered hp
            cases hf
            exact .simple (f := {}) h1 h2 h3
      · cases hf
  | entry _ => cases hr; exact .entry
  | raw hm hp => cases hr; exact .raw (meta_suf hm.parse).2 hp
  | media _ hp => cases hr; exact .media (mediaAt_some hp).1 (mediaAt_some hp).2
  | brk _ _ _ => cases hr; exact .brk
  | simple _ hp =>
    subst hr
    obtain ⟨m', sb, _, hs, rfl, _⟩ := parseSimple_some hp
    unfold SimpleBlock.parse at hs
    simp only [bind, Except.bind] at hs
    cases hp : parseLines e.subs p.store m'.blockStart m'.fields.attrlist with
    | error x => rw [hp] at hs; cases hs
    | ok q =>
      rw [hp] at hs
      cases q with
      | none => cases hs
      | some mi =>
        obtain ⟨⟨c, style⟩, mid⟩ := mi
        obtain ⟨n, raw, texts, h1, h2, h3⟩ := parseLines_rendered hp
        simp only at hs
        cases ht : m'.source.trimRemainder? mid with
        | none => rw [ht] at hs; cases hs
        | some src =>
          rw [ht] at hs
          cases hs
          exact .simple h1 h2 h3

omit [Uni] in
/-- What a delimited block with verbatim content looks like. -/
theorem rawBlock_shape {subs : Subs} {store : AttrStore} {m : BlockMetadata} {rb : RawBlock} {after : Span}
    {ws : List Warning} (h : RawBlock.parse subs store m = .ok (some (⟨rb, after⟩, ws))) :
    ∃ c, RawDelim c m.line ∧ rb.model = (rawBlockKind c).1 ∧ rb.context = (rawBlockKind c).2.1 := by
  by_cases hd : ∃ c, RawDelim c m.line
  · obtain ⟨c, hc⟩ := hd
    refine ⟨c, hc, ?_⟩
    unfold RawBlock.parse at h
    simp only at h
    have hk := rawKind_iff hc
    unfold BlockMetadata.line at hk hc
    rw [hk] at h
    simp only [isRawDelimiter_iff.mpr ⟨c, hc⟩, Bool.not_true, Bool.false_eq_true, if_false] at h
    generalize findClosing _ _ _ = q at h
    obtain ⟨l, next⟩ := q
    cases l with
    | none =>
      simp only [bind, Except.bind] at h
      generalize Res.ofOption (Span.trimRemainder? _ _) = a at h
      cases a with
      | error x => cases h
      | ok body =>
        simp only at h
        generalize Res.ofOption (Span.trimRemainder? _ _) = a at h
        cases a with
        | error x => cases h
        | ok src => cases h; exact ⟨rfl, rfl⟩
    | some l =>
      simp only [bind, Except.bind] at h
      generalize Res.ofOption (Span.trimRemainder? _ _) = a at h
      cases a with
      | error x => cases h
      | ok body =>
        simp only at h
        generalize subs _ _ _ _ = a at h
        cases a with
        | error x => cases h
        | ok r =>
          simp only at h
          generalize Res.ofOption (Span.trimRemainder? _ _) = a at h
          cases a with
          | error x => cases h
          | ok src => cases h; exact ⟨rfl, rfl⟩
  · rw [rawBlock_none hd] at h; cases h

end Adoc
