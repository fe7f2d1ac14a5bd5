import Verif.Spec.Numbers
import Verif.Lemmas.Levels
import Verif.Lemmas.Section
/-!
# Lemmas about the numbers of the sections of a document
-/

namespace Adoc
open Span Spec

/-- What holds of the numbering at any time. -/
structure NumOk (n : Numbering) : Prop where
  topmost : n.topmost ≠ .discrete
  last : n.last.ty = .normal
  appendix : n.lastAppendix.ty = .appendix

/-- What the numbers to come depend on. -/
def tally (p : ParserState) : Tally := ⟨p.store, p.num.last.components, p.num.lastAppendix.components⟩

theorem preorderAll_append (xs ys : List Block) : preorderAll (xs ++ ys) = preorderAll xs ++ preorderAll ys := by
  induction xs with
  | nil => rfl
  | cons x xs ih => simp only [List.cons_append, preorderAll, ih, List.append_assoc]

variable [Uni]

theorem Counted.append {levels : Nat} {t t1 t2 : Tally} {xs ys : List Block} (h1 : Counted levels t xs t1)
    (h2 : Counted levels t1 ys t2) : Counted levels t (xs ++ ys) t2 := by
  induction h1 with
  | nil => exact h2
  | entry h _ ih => exact .entry h (ih h2)
  | normal a b c d _ ih => exact .normal a b c d (ih h2)
  | appendix a b c d _ ih => exact .appendix a b c d (ih h2)
  | plain a b _ ih => exact .plain a b (ih h2)
  | other a b _ ih => exact .other a b (ih h2)

omit [Uni] in
theorem not_section_mk {k : BlockKind} {s : Span} {f : Meta} {cs : List Block}
    (h : ∀ l c t i n, k ≠ .section l c t i n) : ¬ IsSection (.mk k s f cs) := by
  rintro ⟨l, c, t, i, n, e⟩
  exact h l c t i n e

omit [Uni] in
theorem not_entry_mk {k : BlockKind} {s : Span} {f : Meta} {cs : List Block} (h : ∀ a, k ≠ .docAttr a) :
    ¬ IsEntry (.mk k s f cs) := by
  rintro ⟨a, e⟩
  exact h a e

omit [Uni] in
theorem registerBlockId_rest (p : ParserState) (m : Meta) (sp : Span) :
    tally (registerBlockId p m sp).1 = tally p ∧ (registerBlockId p m sp).1.sectnumlevels = p.sectnumlevels ∧
      (registerBlockId p m sp).1.num = p.num := by
  unfold registerBlockId
  split
  · split <;> exact ⟨rfl, rfl, rfl⟩
  · exact ⟨rfl, rfl, rfl⟩

omit [Uni] in
theorem registerSection_rest {p p' : ParserState} {sectids : Bool} {base : Text} {manual : Option Text}
    {reftext : Text} {id dup : Option Text} (h : registerSection p sectids base manual reftext = .ok (id, p', dup)) :
    tally p' = tally p ∧ p'.sectnumlevels = p.sectnumlevels ∧ p'.num = p.num := by
  unfold registerSection at h
  repeat' split at h
  all_goals (cases h; try exact ⟨rfl, rfl, rfl⟩)

/-- A step with a block and no nested blocks. -/
theorem leaf_counted {e : BlockEnv} {p p' : ParserState} {s : Span} {b : Block} {after : Span} {ws : List Warning}
    (h : LeafStep e p s (some ⟨b, after⟩) ws p') :
    p'.num = p.num ∧ p'.sectnumlevels = p.sectnumlevels ∧ Counted p.sectnumlevels (tally p) (preorder b) (tally p') ∧
      ¬ IsSection b ∧ b.children = [] := by
  have other : ∀ {q : ParserState} {k : BlockKind} {sp : Span} {f : Meta}, tally q = tally p →
      (∀ l c t i n, k ≠ .section l c t i n) → (∀ a, k ≠ .docAttr a) →
      Counted p.sectnumlevels (tally p) (preorder (.mk k sp f [])) (tally q) := by
    intro q k sp f hq h1 h2
    rw [hq]
    exact .other (not_section_mk h1) (not_entry_mk h2) .nil
  cases h with
  | fast _ => exact ⟨rfl, rfl, other rfl nofun nofun, not_section_mk nofun, rfl⟩
  | entry _ => exact ⟨rfl, rfl, .entry rfl .nil, not_section_mk nofun, rfl⟩
  | raw _ _ =>
    obtain ⟨h1, h2, h3⟩ := registerBlockId_rest p _ _
    exact ⟨h3, h2, other h1 nofun nofun, not_section_mk nofun, rfl⟩
  | media _ _ =>
    obtain ⟨h1, h2, h3⟩ := registerBlockId_rest p _ _
    exact ⟨h3, h2, other h1 nofun nofun, not_section_mk nofun, rfl⟩
  | brk _ _ _ => exact ⟨rfl, rfl, other rfl nofun nofun, not_section_mk nofun, rfl⟩
  | simple _ hp =>
    obtain ⟨m', sb, _, _, rfl, _, rfl⟩ := parseSimple_some hp
    obtain ⟨h1, h2, h3⟩ := registerBlockId_rest p m'.fields sb.source
    exact ⟨h3, h2, other h1 nofun nofun, not_section_mk nofun, rfl⟩

/-- A step without a block. -/
theorem leaf_none {e : BlockEnv} {p p' : ParserState} {s : Span} {ws : List Warning}
    (h : LeafStep e p s none ws p') : p' = p := by
  cases h with
  | simple _ hp => exact (parseSimple_none hp).1

/-- Opening a section. -/
theorem openSection_counted {p : ParserState} {m : BlockMetadata} {level : Nat} (title : Content) (id : Option Text)
    (s : Span) (cs : List Block) (hn : NumOk p.num) (hl : 1 ≤ level) :
    NumOk (openSection p m level).2.2.num ∧ (openSection p m level).2.2.sectnumlevels = p.sectnumlevels ∧
    (openSection p m level).2.2.store = p.store ∧
    (∀ {bs t}, Counted p.sectnumlevels (tally (openSection p m level).2.2) bs t →
      Counted p.sectnumlevels (tally p)
        (.mk (.section level title (openSection p m level).1 id (openSection p m level).2.1) s m.fields cs :: bs) t) ∧
    (openSection p m level).2.2.num.topmost =
      if m.isDiscrete then p.num.topmost else if level = 1 then (openSection p m level).1 else p.num.topmost := by
  obtain ⟨store, cat, ⟨last, app, top⟩, lv⟩ := p
  obtain ⟨h1, h2, h3⟩ := hn
  simp only at h1 h2 h3
  have e1 : ∀ x : SectionNumber, x.ty = .normal → x = ⟨.normal, x.components⟩ := by rintro ⟨_, _⟩ rfl; rfl
  have e2 : ∀ x : SectionNumber, x.ty = .appendix → x = ⟨.appendix, x.components⟩ := by rintro ⟨_, _⟩ rfl; rfl
  have key : ∀ ty, ty ≠ .discrete → ∀ (q : ParserState) (b : Bool), b = false → q = ⟨store, cat, ⟨last, app, ty⟩, lv⟩ →
      NumOk (sectionNumber q b level).2.num ∧ (sectionNumber q b level).2.sectnumlevels = lv ∧
      (sectionNumber q b level).2.store = store ∧
      (∀ {bs t}, Counted lv (tally (sectionNumber q b level).2) bs t →
        Counted lv (tally ⟨store, cat, ⟨last, app, top⟩, lv⟩)
          (.mk (.section level title ty id (sectionNumber q b level).1) s m.fields cs :: bs) t) ∧
      (sectionNumber q b level).2.num.topmost = ty := by
    rintro ty hty q b rfl rfl
    unfold sectionNumber
    by_cases hc : (store.isAttributeSet "sectnums".toList && decide (level ≤ lv) && !false) = true
    · rw [if_pos hc]
      simp only [Bool.not_false, Bool.and_true, Bool.and_eq_true, decide_eq_true_eq] at hc
      cases ty with
      | discrete => exact absurd rfl hty
      | normal =>
        refine ⟨⟨nofun, (assignNext_ty _ _).trans h2, h3⟩, rfl, rfl, fun hb => ?_, rfl⟩
        refine .normal (c := title) (i := id) (n := (last.assignNext level).components) ?_ hc.2 hc.1 (assignNext_next _ hl) hb
        show BlockKind.section level title .normal id (some (last.assignNext level)) = _
        rw [e1 _ ((assignNext_ty last level).trans h2)]
      | appendix =>
        refine ⟨⟨nofun, h2, (assignNext_ty _ _).trans h3⟩, rfl, rfl, fun hb => ?_, rfl⟩
        refine .appendix (c := title) (i := id) (n := (app.assignNext level).components) ?_ hc.2 hc.1 (assignNext_next _ hl) hb
        show BlockKind.section level title .appendix id (some (app.assignNext level)) = _
        rw [e2 _ ((assignNext_ty app level).trans h3)]
    · rw [if_neg hc]
      refine ⟨⟨hty, h2, h3⟩, rfl, rfl, fun hb => .plain rfl ?_ hb, rfl⟩
      by_cases k : store.isAttributeSet "sectnums".toList = true
      · refine Or.inr (Or.inl ?_)
        rw [k] at hc
        simpa using hc
      · exact Or.inr (Or.inr (Bool.eq_false_iff.mpr k))
  unfold openSection sectionType
  by_cases hd : m.isDiscrete = true
  · simp only [if_pos hd]
    unfold sectionNumber
    rw [if_neg (by rw [hd]; simp)]
    exact ⟨⟨h1, h2, h3⟩, rfl, rfl, fun hb => .plain rfl (Or.inl rfl) hb, rfl⟩
  · simp only [if_neg hd]
    by_cases hl1 : level = 1
    · simp only [if_pos hl1]
      exact key _ (by split <;> nofun) _ _ (by simpa using hd) rfl
    · simp only [if_neg hl1]
      exact key top h1 _ _ (by simpa using hd) rfl

omit [Uni] in
theorem openSection_type (p : ParserState) (m : BlockMetadata) (level : Nat) :
    (openSection p m level).1 = if m.isDiscrete then .discrete else if level = 1 then
      (if m.fields.style = some "appendix".toList then .appendix else .normal) else p.num.topmost := by
  unfold openSection sectionType
  by_cases hd : m.isDiscrete = true
  · simp only [if_pos hd]
  · simp only [if_neg hd]
    by_cases hl : level = 1
    · simp only [if_pos hl]
    · simp only [if_neg hl]

omit [Uni] in
theorem closeSection_rest (p : ParserState) (m : BlockMetadata) (level : Nat) (h : NumOk p.num) :
    tally (closeSection p m level) = tally p ∧ (closeSection p m level).sectnumlevels = p.sectnumlevels ∧
      NumOk (closeSection p m level).num ∧ (closeSection p m level).num.topmost =
        if m.isDiscrete then p.num.topmost else if level = 1 then .normal else p.num.topmost := by
  unfold closeSection
  by_cases hc : level = 1 ∧ m.isDiscrete = false
  · rw [if_pos hc, if_neg (by simp [hc.2]), if_pos hc.1]
    exact ⟨rfl, rfl, ⟨nofun, h.last, h.appendix⟩, rfl⟩
  · rw [if_neg hc]
    refine ⟨rfl, rfl, h, ?_⟩
    by_cases hd : m.isDiscrete = true
    · rw [if_pos hd]
    · rw [if_neg hd, if_neg fun h => hc ⟨h, by simpa using hd⟩]

theorem run_counted {e : BlockEnv} {stop : Stop} {p p' : ParserState} {s s' : Span} {bs : List Block} {ws sw : List Warning}
    (h : Run e stop p s bs s' ws sw p') : NumOk p.num →
    NumOk p'.num ∧ p'.sectnumlevels = p.sectnumlevels ∧
    Counted p.sectnumlevels (tally p) (preorderAll bs) (tally p') ∧ Typed p.num.topmost bs p'.num.topmost := by
  induction h with
  | done _ => exact fun h => ⟨h, rfl, .nil, .nil⟩
  | halt _ _ => exact fun h => ⟨h, rfl, .nil, .nil⟩
  | leaf _ _ hl _ ih =>
    intro hn
    obtain ⟨l1, l2, l3, l4, l5⟩ := leaf_counted hl
    obtain ⟨a, b, c, d⟩ := ih (l1 ▸ hn)
    rw [l2] at b c
    rw [l1] at d
    refine ⟨a, b, Counted.append l3 c, .other l4 ?_ d⟩
    rw [l5]
    exact .nil
  | stuck _ _ hl _ ih =>
    obtain rfl := leaf_none hl
    exact ih
  | @compound stop stop' p p1 p2 s s' sw sw' ws' bs m mw context inside closing after src cbs cs cws csw h1 hk hm ho r1 r2
      ih1 ih2 =>
    intro hn
    obtain ⟨a, b, c, d⟩ := ih1 hn
    obtain ⟨q1, q2, q3⟩ := registerBlockId_rest p1 m.fields src.trimTrailingWhitespace
    rw [q1, q2, q3] at ih2
    obtain ⟨a', b', c', d'⟩ := ih2 a
    rw [b] at b' c'
    exact ⟨a', b', Counted.append (.other (not_section_mk nofun) (not_entry_mk nofun) c) c',
      .other (not_section_mk nofun) d d'⟩
  | @«section» stop stop' p p1 p2 p3 s s' sw sw' ws' bs m mw mi tw cbs cs cws csw src dupSrc title base id dup h1 hk hm
      hstart ht r1 hclose r2 ih1 ih2 =>
    intro hn
    rw [discard_marked hstart] at ht
    have hlev := titleLine_level ht hstart
    obtain ⟨o1, o2, o3, o4, o5⟩ :=
      openSection_counted (m := m) ⟨mi.item.2, title⟩ id src.trimTrailingWhitespace cbs hn hlev.1
    obtain ⟨a, b, c, d⟩ := ih1 o1
    obtain ⟨q1, q2, q3⟩ := registerSection_rest hclose.register
    obtain ⟨k1, k2, k3, k4⟩ := closeSection_rest p2 m mi.item.1 (q3 ▸ a)
    rw [k1, k2, q1, q2] at ih2
    obtain ⟨a', b', c', d'⟩ := ih2 k3
    rw [o2] at b c
    rw [b] at b' c'
    rw [o5] at d
    rw [k4, q3] at d'
    refine ⟨a', b', Counted.append (o4 c) c', ?_⟩
    have hty := openSection_type p m mi.item.1
    by_cases hd : m.isDiscrete = true
    · rw [if_pos hd] at d d' hty
      refine .discrete (l := mi.item.1) (c := ⟨mi.item.2, title⟩) (i := id) (n := (openSection p m mi.item.1).2.1) ?_ ?_ d d'
      · rw [hty]; rfl
      · show m.fields.style = _ ∨ m.fields.style = _
        simpa [BlockMetadata.isDiscrete] using hd
    · have hnd : ¬ (m.fields.style = some "discrete".toList ∨ m.fields.style = some "float".toList) := by
        simpa [BlockMetadata.isDiscrete] using hd
      rw [if_neg hd] at d d' hty
      by_cases hl : mi.item.1 = 1
      · rw [if_pos hl] at d d' hty
        refine .first (c := ⟨mi.item.2, title⟩) (ty := (openSection p m mi.item.1).1) (i := id)
          (n := (openSection p m mi.item.1).2.1) ?_ hnd hty d d'
        conv => lhs; unfold Block.kind
        simp only [hl]
      · rw [if_neg hl] at d d' hty
        refine .deeper (l := mi.item.1) (c := ⟨mi.item.2, title⟩) (i := id) (n := (openSection p m mi.item.1).2.1) ?_ hl
          hnd hn.topmost d d'
        rw [hty]; rfl

/-! ### Documents -/

omit [Uni] in
theorem Typed.split {t t' : SectionType} {xs ys : List Block} (h : Typed t (xs ++ ys) t') :
    ∃ t1, Typed t xs t1 ∧ Typed t1 ys t' := by
  induction xs generalizing t with
  | nil => exact ⟨t, .nil, h⟩
  | cons x xs ih =>
    rw [List.cons_append] at h
    cases h with
    | first a b b' c d => obtain ⟨u, h1, h2⟩ := ih d; exact ⟨u, .first a b b' c h1, h2⟩
    | deeper a b b' b2 c d => obtain ⟨u, h1, h2⟩ := ih d; exact ⟨u, .deeper a b b' b2 c h1, h2⟩
    | discrete a b c d => obtain ⟨u, h1, h2⟩ := ih d; exact ⟨u, .discrete a b c h1, h2⟩
    | other a c d => obtain ⟨u, h1, h2⟩ := ih d; exact ⟨u, .other a c h1, h2⟩

omit [Uni] in
theorem preambleOf_kind {front : List Block} {src : Span} {b : Block} (h : preambleOf front src = .ok b) :
    b.kind = .preamble ∧ b.children = front ∧ preorder b = b :: preorderAll front := by
  unfold preambleOf at h
  simp only [bind, Except.bind] at h
  repeat' split at h
  all_goals first | (cases h; done) | (cases h; exact ⟨rfl, rfl, rfl⟩)

/-- The sections of a document. -/
theorem document_counted {e : BlockEnv} {hr : Renderer} {fuel : Nat} {p p' : ParserState} {text : Text} {d : Document}
    (h : Document.parse e hr fuel p text = .ok (d, p')) (hn : NumOk p.num) :
    ∃ mi ws store, Header.parse (fun s t => e.subs s .header none t) hr p.store (Span.new text) = .ok (mi, ws, store) ∧
      NumOk p'.num ∧
      Counted (sectnumlevelsOf store) ⟨store, p.num.last.components, p.num.lastAppendix.components⟩ (preorderAll d.blocks)
        (tally p') ∧ Typed p.num.topmost d.blocks p'.num.topmost := by
  obtain ⟨mi, hw, store, bs, rest, ws, sw, q, k1, k2, k3, k4, k5, k6, rfl, k8⟩ := document_run h
  obtain ⟨a, b, c, t⟩ := run_counted k2 hn
  refine ⟨mi, hw, store, k1, a, ?_⟩
  rcases withPreamble_spec bs mi.after with ⟨front, first, back, ⟨rfl, _⟩, hp⟩ | ⟨_, hp⟩
  · rw [hp] at k3
    cases hq : preambleOf front mi.after with
    | error x => rw [hq] at k3; cases k3
    | ok b =>
      rw [hq] at k3
      obtain ⟨p1, p2, p3⟩ := preambleOf_kind hq
      have e1 : d.blocks = b :: first :: back := by injection k3 with k3; exact k3.symm
      have n1 : ¬ IsSection b := by rintro ⟨_, _, _, _, _, h⟩; rw [p1] at h; cases h
      have n2 : ¬ IsEntry b := by rintro ⟨_, h⟩; rw [p1] at h; cases h
      rw [e1]
      constructor
      · rw [preorderAll, p3, List.cons_append, ← preorderAll_append]
        exact .other n1 n2 c
      · obtain ⟨t1, h1, h2⟩ := Typed.split t
        exact .other n1 (p2.symm ▸ h1) h2
  · rw [hp] at k3
    injection k3 with k3
    rw [← k3]
    exact ⟨c, t⟩

end Adoc
