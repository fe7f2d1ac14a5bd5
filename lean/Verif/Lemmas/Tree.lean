import Verif.Lemmas.Geometry
/-!
# The tree of blocks
-/

namespace Adoc
open Span Spec

theorem stopOf_eq (s : Span) : stopOf s = s.offset + blen s.data := by
  unfold stopOf bytes; rw [← blen_eq_utf8ByteSize]

theorem bytes_eq (t : Text) : bytes t = blen t := by
  unfold bytes; rw [← blen_eq_utf8ByteSize]

theorem Span.Sub.bounds {r s : Span} (h : Sub r s) : s.offset ≤ r.offset ∧ stopOf r ≤ stopOf s := by
  obtain ⟨a, b, e, ho⟩ := h.data
  rw [stopOf_eq, stopOf_eq, e, ho, blen_append, blen_append]; omega

/-- What lies in a text lies, as far as it is visible, in the text without trailing white space. -/
theorem covers_trim {r s : Span} (h : Sub r s) : Covers s.trimTrailingWhitespace r := by
  obtain ⟨a, b, e, ho⟩ := h.data
  have hoff : s.trimTrailingWhitespace.offset = s.offset := takeN_offset _ _
  refine ⟨by rw [hoff, ho]; omega, ?_⟩
  intro x c y hx hc
  rw [stopOf_eq, hoff, trimTrailingWhitespace_data, bytes_eq, ho]
  obtain ⟨sp, hs, hall⟩ := trimEndP_spec isWhite s.data
  have hs : s.data = trimEnd s.data ++ sp := hs
  have e2 : s.data = (a ++ x ++ [c]) ++ (y ++ b) := by rw [e, hx]; simp
  have : (a ++ x ++ [c]) <+: trimEnd s.data := by
    rcases List.prefix_or_prefix_of_prefix (l₁ := a ++ x ++ [c]) (l₂ := trimEnd s.data) (l₃ := s.data)
      ⟨_, e2.symm⟩ ⟨_, hs.symm⟩ with hp | hp
    · exact hp
    · obtain ⟨w, hw⟩ := hp
      rcases List.eq_nil_or_concat w with rfl | ⟨w', d, rfl⟩
      · rw [List.append_nil] at hw; rw [hw]; exact List.prefix_refl _
      · exfalso
        rw [List.concat_eq_append, ← List.append_assoc] at hw
        have hd : d = c := (List.append_inj' hw rfl).2 |> fun h => (List.cons.inj h).1
        have h3 : s.data = trimEnd s.data ++ ((w' ++ [d]) ++ (y ++ b)) :=
          e2.trans (by rw [← hw]; simp)
        have h4 : (w' ++ [d]) ++ (y ++ b) = sp := List.append_cancel_left (h3.symm.trans hs)
        have := List.all_eq_true.mp hall d (by rw [← h4]; simp)
        rw [hd, hc] at this; cases this
  obtain ⟨w, hw⟩ := this
  rw [← hw]
  simp only [blen_append]
  omega

theorem Covers.of_trimmed {outer inner : Span} (h : Covers outer inner) (hl : LastVis inner.data) : Contains outer inner := by
  obtain ⟨a, c, e, hw⟩ := hl
  refine ⟨h.1, ?_⟩
  have := h.2 a c [] e hw
  rw [← e] at this
  exact this

/-- Blocks as they should be, in the text `D`. -/
inductive Tidy (D : Span) : Block → Prop
  | mk {b : Block} : (∀ x ∈ spans b, Sub x D) → Vis b.source.data → (IsRaw b ∨ LastVis b.source.data) →
      InOrder b.children → (∀ c ∈ b.children, Covers b.source c.source) → (∀ c ∈ b.children, Tidy D c) → Tidy D b

variable [Uni]

theorem meta_spans {subs : Subs} {store : AttrStore} {s : Span} {m : BlockMetadata} {ws : List Warning}
    (h : BlockMetadata.parse subs store s = .ok (m, ws)) :
    ∀ x ∈ m.fields.titleSource.toList ++ m.fields.anchor.toList ++ m.fields.anchorReftext.toList ++
      (m.fields.attrlist.map Attrlist.source).toList, Sub x m.source := by
  obtain ⟨_, _, h1, h2, h3, h4⟩ := Props.C27_spans h
  intro x hx
  simp only [List.mem_append, Option.mem_toList, Option.map_eq_some_iff, Option.mem_def] at hx
  rcases hx with ((hx | hx) | hx) | ⟨a, ha, rfl⟩
  · exact h1 x hx
  · exact h2 x hx
  · exact h3 x hx
  · exact h4 a ha

theorem parseSimple_some {e : BlockEnv} {p p' : ParserState} {m : BlockMetadata} {lit : Bool} {b : Block} {after : Span}
    {ws : List Warning} (h : parseSimple e p m lit = .ok (some ⟨b, after⟩, ws, p')) :
    ∃ m' sb, m'.source = m.source ∧ SimpleBlock.parse e.subs p.store m' = .ok (some ⟨sb, after⟩) ∧
      b = .mk (.simple sb.content sb.style) sb.source m'.fields [] ∧
      ((m' = m ∧ ws = (registerBlockId p m'.fields sb.source).2) ∨
        (m' = { m with fields := { anchorReftext := m.fields.anchorReftext }, blockStart := m.source } ∧
          lit = false ∧ m.isEmpty = false ∧ SimpleBlock.parse e.subs p.store m = .ok none ∧
          ws = ⟨m.source, .missingBlockAfterTitleOrAttributeList⟩ :: (registerBlockId p m'.fields sb.source).2)) ∧
      p' = (registerBlockId p m'.fields sb.source).1 := by
  unfold parseSimple at h
  have key : ∀ (missing : Bool), finishSimple e p m missing = .ok (some ⟨b, after⟩, ws, p') →
      ∃ m' sb, m'.source = m.source ∧ SimpleBlock.parse e.subs p.store m' = .ok (some ⟨sb, after⟩) ∧
      b = .mk (.simple sb.content sb.style) sb.source m'.fields [] ∧
      ((missing = false ∧ m' = m ∧ ws = (registerBlockId p m'.fields sb.source).2) ∨
        (missing = true ∧
          m' = { m with fields := { anchorReftext := m.fields.anchorReftext }, blockStart := m.source } ∧
          ws = ⟨m.source, .missingBlockAfterTitleOrAttributeList⟩ :: (registerBlockId p m'.fields sb.source).2)) ∧
      p' = (registerBlockId p m'.fields sb.source).1 := by
    intro missing h
    unfold finishSimple at h
    cases missing with
    | false =>
      simp only [Bool.false_eq_true, if_false, bind, Except.bind] at h
      cases hs : SimpleBlock.parse e.subs p.store m with
      | error x => rw [hs] at h; cases h
      | ok q =>
        rw [hs] at h
        cases q with
        | none => cases h
        | some mi =>
          cases h
          exact ⟨m, mi.item, rfl, hs, rfl, Or.inl ⟨rfl, rfl, rfl⟩, rfl⟩
    | true =>
      simp only [if_true, bind, Except.bind] at h
      obtain ⟨m', hm'⟩ : ∃ m' : BlockMetadata,
          { m with fields := { anchorReftext := m.fields.anchorReftext }, blockStart := m.source } = m' := ⟨_, rfl⟩
      rw [hm'] at h
      have hf : ({ anchorReftext := m.fields.anchorReftext } : Meta) = m'.fields := by rw [← hm']
      rw [hf] at h
      cases hs : SimpleBlock.parse e.subs p.store m' with
      | error x => rw [hs] at h; cases h
      | ok q =>
        rw [hs] at h
        cases q with
        | none => cases h
        | some mi =>
          cases h
          exact ⟨m', mi.item, by rw [← hm'], hs, rfl, Or.inr ⟨rfl, hm'.symm, rfl⟩, rfl⟩
  cases lit with
  | true =>
    obtain ⟨m', sb, h1, h2, h3, h4 | ⟨h4, _⟩, h5⟩ := key false h
    · exact ⟨m', sb, h1, h2, h3, Or.inl h4.2, h5⟩
    · cases h4
  | false =>
    simp only [Bool.false_eq_true, if_false, bind, Except.bind] at h
    cases hs : SimpleBlock.parse e.subs p.store m with
    | error x => rw [hs] at h; cases h
    | ok q =>
      rw [hs] at h
      obtain ⟨m', sb, h1, h2, h3, h4 | ⟨h4, h6, h7⟩, h5⟩ := key _ h
      · exact ⟨m', sb, h1, h2, h3, Or.inl h4.2, h5⟩
      · rw [Bool.and_eq_true, Option.isNone_iff_eq_none] at h4
        exact ⟨m', sb, h1, h2, h3, Or.inr ⟨h6, rfl, by simpa using h4.2, by rw [h4.1], h7⟩, h5⟩

theorem leaf_geo {e : BlockEnv} {p p' : ParserState} {s : Span} {b : Block} {after : Span} {ws : List Warning}
    (h : LeafStep e p s (some ⟨b, after⟩) ws p') :
    Placed s b.source after ∧ b.children = [] ∧ (IsRaw b ∨ LastVis b.source.data) ∧ ∀ x ∈ spans b, Sub x s := by
  generalize hr : some (⟨b, after⟩ : MI Block) = r at h
  cases h with
  | fast hf =>
    cases hr
    rename_i sb
    unfold fastPath at hf
    cases hd : s.data.head? with
    | none => rw [hd] at hf; cases hf
    | some c =>
      rw [hd] at hf
      simp only at hf
      split at hf
      · obtain ⟨h1, h2, h3⟩ := fast_placed hf
        refine ⟨h1, rfl, Or.inr h2, ?_⟩
        intro x hx
        simp [spans, Block.source, Block.fields, Block.kind] at hx
        rcases hx with rfl | rfl
        · exact h1.sub
        · rw [h3]; exact h1.sub
      · cases hf
  | entry hb =>
    cases hr
    unfold bodyEntryAt at hb
    simp only at hb
    split at hb
    · obtain ⟨h1, h2, h3, h4⟩ := entry_placed hb
      refine ⟨h1, rfl, Or.inr h2, ?_⟩
      intro x hx
      simp [spans, Block.source, Block.fields, Block.kind] at hx
      rcases hx with rfl | rfl | hx
      · exact h1.sub
      · exact h3
      · exact h4 x hx
    · cases hb
  | simple hfb hp =>
    have hm := hfb.parse
    subst hr
    obtain ⟨m', sb, h1, h2, rfl, h3, _⟩ := parseSimple_some hp
    have hs := meta_suf hm
    have hsuf : Suf m'.blockStart m'.source := by
      rcases h3 with ⟨rfl, _⟩ | ⟨rfl, _⟩
      · exact hs.2
      · exact Suf.refl _
    obtain ⟨g1, g2, g3⟩ := simple_placed hsuf h2
    rw [h1] at g1 g3
    refine ⟨g1.of_suf hs.1, rfl, Or.inr g2, ?_⟩
    intro x hx
    have hmeta := meta_spans hm
    simp only [spans, Block.source, Block.fields, Block.kind, List.mem_append, List.mem_cons, List.not_mem_nil, or_false] at hx
    rcases hx with (rfl | hx) | rfl
    · exact g1.sub.trans hs.1.sub
    · refine (hmeta x ?_).trans hs.1.sub
      rcases h3 with ⟨rfl, _⟩ | ⟨rfl, _⟩
      · simpa only [List.mem_append] using hx
      · simp at hx
        simp [hx]
    · exact g3.trans hs.1.sub
  | raw hm hp =>
    replace hm := hm.parse
    cases hr
    have hs := meta_suf hm
    obtain ⟨g1, g2⟩ := raw_placed hm hp
    refine ⟨g1.of_suf hs.1, rfl, Or.inl ⟨_, _, _, _, rfl⟩, ?_⟩
    intro x hx
    have hmeta := meta_spans hm
    simp only [spans, Block.source, Block.fields, Block.kind, List.mem_append, List.mem_cons, List.not_mem_nil, or_false] at hx
    rcases hx with (rfl | hx) | rfl
    · exact g1.sub.trans hs.1.sub
    · exact (hmeta x (by simpa only [List.mem_append] using hx)).trans hs.1.sub
    · exact g2.trans hs.1.sub
  | media hm hp =>
    replace hm := hm.parse
    cases hr
    have hs := meta_suf hm
    obtain ⟨g1, g2, g3, g4⟩ := media_placed hm (mediaAt_some hp).2
    refine ⟨g1.of_suf hs.1, rfl, Or.inr g2, ?_⟩
    intro x hx
    have hmeta := meta_spans hm
    simp only [spans, Block.source, Block.fields, Block.kind, List.mem_append, List.mem_cons, List.not_mem_nil, or_false] at hx
    rcases hx with (rfl | hx) | rfl | rfl
    · exact g1.sub.trans hs.1.sub
    · refine (hmeta x ?_).trans hs.1.sub
      simp only [List.mem_append]
      rcases hx with ((hx | hx) | hx) | hx
      · simp [hx]
      · simp [hx]
      · cases hx
      · exact Or.inr hx
    · exact g3.trans hs.1.sub
    · exact g4.trans hs.1.sub
  | brk hm _ hp =>
    replace hm := hm.parse
    replace hp := breakAt_some hp
    cases hr
    have hs := meta_suf hm
    obtain ⟨g1, g2⟩ := break_placed hm hp
    refine ⟨g1.of_suf hs.1, rfl, Or.inr g2, ?_⟩
    intro x hx
    have hmeta := meta_spans hm
    simp only [spans, Block.source, Block.fields, Block.kind, List.mem_append, List.mem_cons, List.not_mem_nil, or_false] at hx
    rcases hx with rfl | hx
    · exact g1.sub.trans hs.1.sub
    · refine (hmeta x ?_).trans hs.1.sub
      simp only [List.mem_append]
      rcases hx with ((hx | hx) | hx) | hx
      · simp [hx]
      · simp [hx]
      · cases hx
      · exact Or.inr hx

/-- Where a delimited block with nested blocks lies. -/
theorem compound_geo {subs : Subs} {store : AttrStore} {s : Span} {m : BlockMetadata} {mw : List Warning} {context : Text}
    {inside closing after src : Span} (hm : BlockMetadata.parse subs store s = .ok (m, mw))
    (ho : CompoundOpen m context inside closing after src) :
    Placed m.source src after ∧ Sub inside src ∧ Vis src.data ∧ inside.data.length < m.blockStart.data.length ∧
      Suf after m.blockStart.takeLine.after := by
  obtain ⟨_, hdel, hclose, hbody, hwhole⟩ := ho
  have hsuf := (meta_suf hm).2
  have hhead : ∃ c r, m.blockStart.takeNormalizedLine.item.data = c :: r ∧ isWhite c = false := by
    rcases isCompoundDelimiter_iff.mp hdel with h | ⟨c, n, hc, h⟩
    · rw [h]; exact ⟨_, _, rfl, by decide⟩
    · rw [h]
      exact ⟨c, _, List.replicate_succ, by rcases hc with rfl | rfl | rfl <;> decide⟩
  obtain ⟨c, r, hline, hw⟩ := hhead
  obtain ⟨r', hstart⟩ := line_head hline
  have hne : m.blockStart.data ≠ [] := by rw [hstart]; simp
  rw [normLine_after] at hclose hbody
  generalize hX : m.blockStart.takeLine.after = X at hclose hbody
  have hXs : Suf X m.blockStart := by rw [← hX]; exact takeLine_after_suf _
  have hXl : X.data.length < m.blockStart.data.length := by rw [← hX]; exact takeLine_progress _ hne
  -- the closing delimiter is a prefix of a later text
  have hC : ∃ (n i : Nat), i ≤ (X.skip n).data.length ∧ closing = (X.skip n).takeN i ∧
      Suf after ((X.skip n).dropN i) := by
    rcases findClosing_spec m.blockStart.takeNormalizedLine.item.data X.data.length X (Nat.le_refl _) with
      ⟨k, pre, post, l, e1, e2, e3, e4, e5, e6⟩ | ⟨k, e1, e2, e3⟩
    · rcases hclose with ⟨rest, hc⟩ | ⟨hc, _⟩
      · rw [e1] at hc
        have hl : l = ⟨closing, after⟩ := by cases hc; rfl
        rw [hl] at e2
        obtain ⟨i, k', h1, h2, h3⟩ := normLine_shape (X.skip k)
        rw [h1] at e2
        cases e2
        refine ⟨k, i, by omega, rfl, ?_⟩
        have : (X.skip k).dropN k' = ((X.skip k).dropN i).dropN (k' - i) := by rw [dropN_dropN]; congr 1; omega
        rw [this]; exact dropN_suf _ _
      · rw [e1] at hc; cases hc
    · rcases hclose with ⟨rest, hc⟩ | ⟨hc, hac⟩
      · rw [e1] at hc; cases hc
      · rw [e1] at hc
        have hl : closing = X.skip k := by cases hc; rfl
        refine ⟨k, 0, by omega, ?_, ?_⟩
        · rw [hl, takeN_all]; rw [e2]; simp
        · rw [hac, hl, dropN_zero]; exact Suf.refl _
  obtain ⟨n, i, hi, hcl, haft⟩ := hC
  obtain ⟨j, hj, hjk⟩ := skip_suf X n
  have hi' : j + i ≤ X.data.length := by
    rw [hjk, dropN_data, List.length_drop] at hi; omega
  -- inside
  have hins : inside = X.takeN j := by
    have := trimRemainder?_offset (s := X) (a := closing) (b := X.dropN j) (by rw [hcl, takeN_offset, hjk])
    rw [this, trimRemainder?_dropN X hj] at hbody
    cases hbody; rfl
  -- the whole block
  have hy : (X.skip n).dropN i = X.dropN (j + i) := by rw [hjk, dropN_dropN]
  have hoff : closing.discardAll.offset = (X.dropN (j + i)).offset := by
    rw [← hy, hcl]
    unfold Span.discardAll Span.discard Span.cut
    simp only
    rw [dropN_offset, dropN_offset, takeN_offset, takeN_data]
    congr 2
    exact List.take_of_length_le (Nat.le_refl _)
  rw [trimRemainder?_offset hoff] at hwhole
  have hys : Suf (X.dropN (j + i)) m.blockStart := (dropN_suf _ _).trans hXs
  obtain ⟨hp, _, _⟩ := placed_upto hsuf hys
    (by rw [dropN_data, List.length_drop]; omega) ⟨c, r', hstart, hw⟩ hwhole
  have haft' : Suf after (X.dropN (j + i)) := by rw [← hy]; exact haft
  have hV : Vis src.data := by obtain ⟨_, _, _, _, hv⟩ := hp; exact hv
  refine ⟨hp.later haft', ?_, hV, ?_, haft'.trans (dropN_suf _ _)⟩
  · obtain ⟨k, hk, he, ht⟩ := trimRemainder?_suf (hys.trans hsuf)
    rw [ht] at hwhole
    cases hwhole
    refine sub_takeN_of_suf (hXs.trans hsuf) rfl he hk hi' ?_
    rw [hins]
    exact takeN_sub_takeN _ (by omega)
  · rw [hins, takeN_data, List.length_take]; omega

omit [Uni] in
/-- Where a section title lies. -/
theorem titleLine_geo {ar : Arith} {s : Span} {mi : MI (Nat × Span)} {tw : List Warning}
    (h : parseTitleLine ar s = .ok (some mi, tw)) :
    s.data ≠ [] ∧ mi.after = s.takeLine.after ∧ Sub mi.item.2 s ∧ tw = [] := by
  unfold parseTitleLine at h
  rw [takeNonEmptyLine_eq] at h
  by_cases h0 : s.takeNormalizedLine.item.data = []
  · rw [if_pos h0] at h; cases h
  rw [if_neg h0] at h
  simp only at h
  have hne : s.data ≠ [] := by
    intro hd
    obtain ⟨w, e, _⟩ := normLine_rest s
    rw [hd] at e
    exact h0 (List.append_eq_nil_iff.mp e.symm).1
  by_cases h1 : markCount s.takeNormalizedLine.item.data = 1
  · rw [if_pos h1] at h; cases h
  rw [if_neg h1] at h
  by_cases h2 : markCount s.takeNormalizedLine.item.data > 6
  · rw [if_pos h2] at h; cases h
  rw [if_neg h2] at h
  cases h3 : (s.takeNormalizedLine.item.dropN (markCount s.takeNormalizedLine.item.data)).takeRequiredWhitespace with
  | none => rw [h3] at h; cases h
  | some t =>
    rw [h3] at h
    simp only [bind, Except.bind] at h
    cases h4 : ar.pred (markCount s.takeNormalizedLine.item.data) with
    | error x => rw [h4] at h; cases h
    | ok l =>
      rw [h4] at h
      cases h
      refine ⟨hne, rfl, ?_, rfl⟩
      show Sub t.after s
      generalize hu : s.takeNormalizedLine.item.dropN (markCount s.takeNormalizedLine.item.data) = u at h3
      have hsub : Sub u s := by rw [← hu]; exact (dropN_suf _ _).sub.trans (normLine_item_sub _)
      unfold takeRequiredWhitespace at h3
      simp only at h3
      split at h3
      · cases h3
      · rw [← Option.some.inj h3]
        exact (dropN_suf _ _).sub.trans hsub

theorem run_tidy {e : BlockEnv} {stop : Stop} {p p' : ParserState} {s s' : Span} {bs : List Block} {ws sw : List Warning}
    (h : Run e stop p s bs s' ws sw p') :
    ∃ k, k ≤ s.data.length ∧ s' = s.dropN k ∧ (∀ b ∈ bs, Sub b.source (s.takeN k)) ∧ InOrder bs ∧
      ∀ D, Sub s D → ∀ b ∈ bs, Tidy D b := by
  have here : ∀ (s : Span), ∃ k, k ≤ s.data.length ∧ s = s.dropN k ∧ (∀ b ∈ ([] : List Block), Sub b.source (s.takeN k)) ∧
      InOrder [] ∧ ∀ D, Sub s D → ∀ b ∈ ([] : List Block), Tidy D b := fun s =>
    ⟨0, by omega, by simp, by simp, List.Pairwise.nil, by simp⟩
  -- a block in front of others
  have front : ∀ {s after s' : Span} {b : Block} {bs : List Block}, Placed s b.source after →
      (∀ D, Sub s D → Tidy D b) →
      (∃ k, k ≤ after.data.length ∧ s' = after.dropN k ∧ (∀ b ∈ bs, Sub b.source (after.takeN k)) ∧ InOrder bs ∧
        ∀ D, Sub after D → ∀ b ∈ bs, Tidy D b) →
      ∃ k, k ≤ s.data.length ∧ s' = s.dropN k ∧ (∀ x ∈ b :: bs, Sub x.source (s.takeN k)) ∧ InOrder (b :: bs) ∧
        ∀ D, Sub s D → ∀ x ∈ b :: bs, Tidy D x := by
    rintro s after s' b bs hp ht ⟨k, hk, he, h1, h2, h3⟩
    have hsuf := hp.suf
    obtain ⟨i, hi, rfl, hsub, hv⟩ := hp
    rw [dropN_data, List.length_drop] at hk
    refine ⟨i + k, by omega, by rw [he, dropN_dropN], ?_, ?_, ?_⟩
    · intro x hx
      rcases List.mem_cons.mp hx with rfl | hx
      · exact hsub.trans (takeN_sub_takeN _ (by omega))
      · exact sub_takeN_of_suf (dropN_suf s i) rfl (dropN_dropN s i k) (by omega)
          (by rw [dropN_data, List.length_drop]; omega) (h1 x hx)
    · refine List.pairwise_cons.mpr ⟨?_, h2⟩
      intro x hx
      have b1 := hsub.bounds.2
      have b2 := (h1 x hx).bounds.1
      have e1 : stopOf (s.takeN i) = (s.dropN i).offset := by
        rw [stopOf_eq, takeN_offset, takeN_data, dropN_offset]
      rw [takeN_offset] at b2
      omega
    · intro D hD x hx
      rcases List.mem_cons.mp hx with rfl | hx
      · exact ht D hD
      · exact h3 D (hsuf.sub.trans hD) x hx
  induction h with
  | done _ => exact here _
  | halt _ _ => exact here _
  | leaf _ _ hl _ ih =>
    obtain ⟨g1, g2, g3, g4⟩ := leaf_geo hl
    refine front g1 (fun D hD => .mk (fun x hx => (g4 x hx).trans hD) ?_ g3 ?_ ?_ ?_) ih
    · obtain ⟨_, _, _, _, hv⟩ := g1; exact hv
    · rw [g2]; exact List.Pairwise.nil
    · rw [g2]; simp
    · rw [g2]; simp
  | stuck _ _ _ _ ih => exact ih
  | @compound _ _ _ _ _ s s' _ _ _ bs m mw context inside closing after src cbs cs cws csw _ _ hm ho _ _ ih1 ih2 =>
    have hs := meta_suf hm.parse
    obtain ⟨g1, g2, g3, _⟩ := compound_geo hm.parse ho
    obtain ⟨k, hk, he, h1, h2, h3⟩ := ih1
    have hin : Sub inside m.source := g2.trans g1.sub
    have hde : Sub inside.discardEmptyLines inside := (discardEmptyLines_suf _).sub
    have hcs : ∀ c ∈ cbs, Sub c.source src := fun c hc => (h1 c hc).trans ((takeN_sub _ _).trans (hde.trans g2))
    refine front ((g1.of_suf hs.1).smaller (trimTrailingWhitespace_sub _) g3.trimTrailingWhitespace) ?_ ih2
    intro D hD
    refine .mk ?_ g3.trimTrailingWhitespace (Or.inr g3.lastVis_trim) h2 (fun c hc => covers_trim (hcs c hc))
      (h3 D (hde.trans (hin.trans (hs.1.sub.trans hD))))
    intro x hx
    have hmeta := meta_spans hm.parse
    simp only [spans, Block.source, Block.fields, Block.kind, List.mem_append, List.mem_cons, List.not_mem_nil, or_false] at hx
    rcases hx with rfl | hx
    · exact (trimTrailingWhitespace_sub _).trans (g1.sub.trans (hs.1.sub.trans hD))
    · exact (hmeta x (by simpa only [List.mem_append] using hx)).trans (hs.1.sub.trans hD)
  | @«section» _ _ _ _ _ _ s s' _ _ _ bs m mw mi tw cbs cs cws csw src dupSrc title base id dup _ _ hm hstart ht _ hc _
      ih1 ih2 =>
    have hs := meta_suf hm.parse
    obtain ⟨k, hk, he, h1, h2, h3⟩ := ih1
    obtain ⟨t1, t2, t3, t4⟩ := titleLine_geo ht
    have hbs : Suf m.blockStart.discardEmptyLines m.blockStart := discardEmptyLines_suf _
    have hline : ∃ c r, m.blockStart.data = c :: r ∧ isWhite c = false := by
      rw [Bool.or_eq_true] at hstart
      rcases hstart with hstart | hstart
      · obtain ⟨r, hr⟩ := startsWith_iff.mp hstart
        obtain ⟨r', hr'⟩ := line_head (show m.blockStart.takeNormalizedLine.item.data = '=' :: r from hr)
        exact ⟨_, _, hr', by decide⟩
      · obtain ⟨r, hr⟩ := startsWith_iff.mp hstart
        obtain ⟨r', hr'⟩ := line_head (show m.blockStart.takeNormalizedLine.item.data = '#' :: r from hr)
        exact ⟨_, _, hr', by decide⟩
    have hsufA : Suf mi.after m.blockStart := by rw [t2]; exact (takeLine_after_suf _).trans hbs
    have hde : Suf mi.after.discardEmptyLines mi.after := discardEmptyLines_suf _
    have hcs : Suf cs mi.after := by rw [he]; exact (dropN_suf _ _).trans hde
    have hlt : cs.data.length < m.blockStart.data.length := by
      have l1 := takeLine_progress _ t1
      obtain ⟨i1, _, e1⟩ := hbs
      obtain ⟨i2, _, e2⟩ := hcs
      have l2 : m.blockStart.discardEmptyLines.data.length ≤ m.blockStart.data.length := by
        rw [e1, dropN_data, List.length_drop]; omega
      have l3 : cs.data.length ≤ mi.after.data.length := by rw [e2, dropN_data, List.length_drop]; omega
      rw [t2] at l3
      omega
    obtain ⟨g1, _, _⟩ := placed_upto hs.2 (hcs.trans hsufA) hlt hline hc.whole
    have g3 : Vis src.data := by obtain ⟨_, _, _, _, hv⟩ := g1; exact hv
    have hcb : ∀ c ∈ cbs, Sub c.source src := by
      intro c hc'
      obtain ⟨k2, hk2, he2, ht2⟩ := trimRemainder?_suf ((hcs.trans hsufA).trans hs.2)
      have := hc.whole
      rw [ht2] at this
      cases this
      exact sub_takeN_of_suf ((hde.trans hsufA).trans hs.2) he he2 hk2 hk (h1 c hc')
    refine front ((g1.of_suf hs.1).smaller (trimTrailingWhitespace_sub _) g3.trimTrailingWhitespace) ?_ ih2
    intro D hD
    have hmD : Sub m.source D := hs.1.sub.trans hD
    refine .mk ?_ g3.trimTrailingWhitespace (Or.inr g3.lastVis_trim) h2 (fun c hc => covers_trim (hcb c hc))
      (h3 D ((hde.trans (hsufA.trans hs.2)).sub.trans hmD))
    intro x hx
    have hmeta := meta_spans hm.parse
    simp only [spans, Block.source, Block.fields, Block.kind, List.mem_append, List.mem_cons, List.not_mem_nil, or_false] at hx
    rcases hx with (rfl | hx) | rfl
    · exact (trimTrailingWhitespace_sub _).trans (g1.sub.trans hmD)
    · exact (hmeta x (by simpa only [List.mem_append] using hx)).trans hmD
    · exact t3.trans (hbs.sub.trans (hs.2.sub.trans hmD))

theorem Tidy.within {D : Span} {x b : Block} (h : Within x b) (ht : Tidy D b) : Tidy D x := by
  induction h with
  | self => exact ht
  | child hc _ ih =>
    cases ht with
    | mk _ _ _ _ _ h => exact ih (h _ hc)

end Adoc
