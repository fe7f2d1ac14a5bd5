import Verif.Spec.History
import Verif.Lemmas.Parse
import Verif.Lemmas.Refs
/-!
# The numbering of sections over several parses
-/

namespace Adoc
open Span Spec

/-- No section in the blocks has the number of an appendix. -/
def Unnumbered (bs : List Block) : Prop := ∀ b ∈ bs, ∀ x, Within x b → ¬ NumberedAppendix x

theorem unnumbered_nil : Unnumbered [] := by simp [Unnumbered]

theorem unnumbered_cons {b : Block} {bs : List Block} :
    Unnumbered (b :: bs) ↔ ¬ NumberedAppendix b ∧ Unnumbered b.children ∧ Unnumbered bs := by
  constructor
  · intro h
    exact ⟨h b (by simp) b (.self _), fun c hc x hx => h b (by simp) x (.child hc hx),
      fun x hx => h x (by simp [hx])⟩
  · rintro ⟨h1, h2, h3⟩ x hx y hy
    rcases List.mem_cons.mp hx with rfl | hx
    · rcases hy.cases with rfl | ⟨c, hc, hy⟩
      · exact h1
      · exact h2 c hc y hy
    · exact h3 x hx y hy

theorem unnumbered_append {a b : List Block} : Unnumbered (a ++ b) ↔ Unnumbered a ∧ Unnumbered b := by
  unfold Unnumbered
  simp only [List.mem_append]
  constructor
  · exact fun h => ⟨fun x hx => h x (Or.inl hx), fun x hx => h x (Or.inr hx)⟩
  · rintro ⟨h1, h2⟩ x (hx | hx)
    · exact h1 x hx
    · exact h2 x hx

theorem registerBlockId_num (p : ParserState) (m : Meta) (sp : Span) : (registerBlockId p m sp).1.num = p.num := by
  unfold registerBlockId
  split
  · split <;> rfl
  · rfl

theorem registerSection_num {p p' : ParserState} {sectids : Bool} {base : Text} {manual : Option Text}
    {reftext : Text} {id dup : Option Text} (h : registerSection p sectids base manual reftext = .ok (id, p', dup)) :
    p'.num = p.num := by
  unfold registerSection at h
  repeat' split at h
  all_goals (cases h; try rfl)

variable [Uni]

theorem leaf_num {e : BlockEnv} {p p' : ParserState} {s : Span} {b : Option (MI Block)} {ws : List Warning}
    (h : LeafStep e p s b ws p') : p'.num = p.num := by
  cases h with
  | fast _ => rfl
  | entry _ => rfl
  | raw _ _ => exact registerBlockId_num _ _ _
  | media _ _ => exact registerBlockId_num _ _ _
  | brk _ _ _ => rfl
  | simple _ hp =>
    cases b with
    | none =>
      rw [(parseSimple_none hp).1]
    | some mi =>
      obtain ⟨_, _, _, _, _, _, rfl⟩ := parseSimple_some hp
      exact registerBlockId_num _ _ _

/-- Opening a section. -/
theorem openSection_num (p : ParserState) (m : BlockMetadata) (level : Nat) (title : Content) (id : Option Text) (s : Span)
    (f : Meta) (cs : List Block) (ht : p.num.topmost ≠ .discrete) (hty : p.num.lastAppendix.ty = .appendix) :
    (openSection p m level).2.2.num.topmost ≠ .discrete ∧
    (openSection p m level).2.2.num.lastAppendix.ty = .appendix ∧
    (¬ NumberedAppendix (.mk (.section level title (openSection p m level).1 id (openSection p m level).2.1) s f cs) →
      (openSection p m level).2.2.num.lastAppendix = p.num.lastAppendix) ∧
    ((level = 1 ∧ m.isDiscrete = false) ∨ (openSection p m level).2.2.num.topmost = p.num.topmost) := by
  unfold openSection sectionType sectionNumber
  have hassign : ∀ (n : Numbering), n.topmost ≠ .discrete → n.lastAppendix.ty = .appendix →
      (n.assign level).1.topmost = n.topmost ∧ (n.assign level).1.lastAppendix.ty = .appendix ∧
      ((n.assign level).2.ty ≠ .appendix → (n.assign level).1.lastAppendix = n.lastAppendix) := by
    rintro ⟨l, a, t⟩ h1 h2
    have hk : (a.assignNext level).ty = a.ty := by
      unfold SectionNumber.assignNext; simp only; repeat' split
      all_goals rfl
    cases t with
    | normal => exact ⟨rfl, h2, fun _ => rfl⟩
    | appendix => exact ⟨rfl, hk.trans h2, fun h => absurd (hk.trans h2) h⟩
    | discrete => exact absurd rfl h1
  have step : ∀ (ty : SectionType) (n : Numbering), n.topmost ≠ .discrete → n.lastAppendix = p.num.lastAppendix →
      ((level = 1 ∧ m.isDiscrete = false) ∨ n.topmost = p.num.topmost) →
      let q := sectionNumber { p with num := n } m.isDiscrete level
      q.2.num.topmost ≠ .discrete ∧ q.2.num.lastAppendix.ty = .appendix ∧
      (¬ NumberedAppendix (.mk (.section level title ty id q.1) s f cs) → q.2.num.lastAppendix = p.num.lastAppendix) ∧
      ((level = 1 ∧ m.isDiscrete = false) ∨ q.2.num.topmost = p.num.topmost) := by
    intro ty n h1 h2 h3
    unfold sectionNumber
    split
    · obtain ⟨a, b, c⟩ := hassign n h1 (h2 ▸ hty)
      refine ⟨a ▸ h1, b, fun hn => ?_, ?_⟩
      · rw [← h2]
        exact c fun hx => hn ⟨_, _, _, _, _, rfl, hx⟩
      · simp only; rw [a]; exact h3
    · exact ⟨h1, h2 ▸ hty, fun _ => h2, h3⟩
  by_cases hd : m.isDiscrete = true
  · rw [if_pos hd]
    exact step _ _ ht rfl (Or.inr rfl)
  · rw [if_neg hd]
    by_cases hl : level = 1
    · rw [if_pos hl]
      refine step _ _ ?_ rfl (Or.inl ⟨hl, by simpa using hd⟩)
      simp only
      split <;> nofun
    · rw [if_neg hl]
      exact step _ _ ht rfl (Or.inr rfl)

theorem run_num {e : BlockEnv} {stop : Stop} {p p' : ParserState} {s s' : Span} {bs : List Block} {ws sw : List Warning}
    (h : Run e stop p s bs s' ws sw p') : p.num.topmost ≠ .discrete → p.num.lastAppendix.ty = .appendix →
    (p'.num.topmost = p.num.topmost ∨ p'.num.topmost = .normal) ∧ p'.num.lastAppendix.ty = .appendix ∧
    (Unnumbered bs → p'.num.lastAppendix = p.num.lastAppendix) := by
  induction h with
  | done _ => exact fun _ h2 => ⟨Or.inl rfl, h2, fun _ => rfl⟩
  | halt _ _ => exact fun _ h2 => ⟨Or.inl rfl, h2, fun _ => rfl⟩
  | leaf _ _ hl _ ih =>
    rw [← leaf_num hl]
    intro h1 h2
    obtain ⟨a, b, c⟩ := ih h1 h2
    exact ⟨a, b, fun h => c (unnumbered_cons.mp h).2.2⟩
  | stuck _ _ hl _ ih =>
    rw [← leaf_num hl]
    exact ih
  | @compound stop stop' p p1 p2 s s' sw sw' ws' bs m mw context inside closing after src cbs cs cws csw h1 hk hm ho r1 r2
      ih1 ih2 =>
    intro h1 h2
    obtain ⟨a, b, c⟩ := ih1 h1 h2
    rw [registerBlockId_num] at ih2
    obtain ⟨a', b', c'⟩ := ih2 (by rcases a with a | a <;> rw [a]; exact h1; nofun) b
    refine ⟨?_, b', fun h => ?_⟩
    · rcases a' with a' | a'
      · rw [a']; exact a
      · exact Or.inr a'
    · obtain ⟨_, u1, u2⟩ := unnumbered_cons.mp h
      rw [c' u2, c u1]
  | @«section» stop stop' p p1 p2 p3 s s' sw sw' ws' bs m mw mi tw cbs cs cws csw src dupSrc title base id dup h1 hk hm
      hstart ht r1 hclose r2 ih1 ih2 =>
    intro h1 h2
    obtain ⟨o1, o2, o3, o4⟩ := openSection_num p m mi.item.1 ⟨mi.item.2, title⟩ id src.trimTrailingWhitespace m.fields cbs h1 h2
    obtain ⟨a, b, c⟩ := ih1 o1 o2
    rw [← registerSection_num hclose.register] at a b c
    have k1 : (closeSection p2 m mi.item.1).num.lastAppendix = p2.num.lastAppendix := by
      unfold closeSection; split <;> rfl
    have k2 : (closeSection p2 m mi.item.1).num.topmost = p.num.topmost ∨
        (closeSection p2 m mi.item.1).num.topmost = .normal := by
      unfold closeSection
      split
      · exact Or.inr rfl
      · rename_i hn
        rcases o4 with o4 | o4
        · exact absurd o4 hn
        · rw [o4] at a; exact a
    rw [k1] at ih2
    obtain ⟨a', b', c'⟩ := ih2 (by rcases k2 with a | a <;> rw [a]; exact h1; nofun) b
    refine ⟨?_, b', fun h => ?_⟩
    · rcases a' with a' | a'
      · rw [a']; exact k2
      · exact Or.inr a'
    · obtain ⟨u0, u1, u2⟩ := unnumbered_cons.mp h
      rw [c' u2, c u1, o3 u0]

/-! ### The same parse with other numbers of appendices -/

/-- The same but for the number of the last appendix. -/
structure Ren (n n' : Numbering) : Prop where
  last : n'.last = n.last
  topmost : n'.topmost = n.topmost
  ty : n.lastAppendix.ty = .appendix

/-- A parser with other numbers. -/
abbrev ParserState.renum (p : ParserState) (x : Numbering) : ParserState := { p with num := x }

omit [Uni] in
theorem registerBlockId_renum (p : ParserState) (m : Meta) (sp : Span) (x : Numbering) :
    registerBlockId (p.renum x) m sp = ((registerBlockId p m sp).1.renum x, (registerBlockId p m sp).2) := by
  obtain ⟨st, cat, n, l⟩ := p
  unfold registerBlockId ParserState.renum
  cases m.id with
  | none => rfl
  | some id =>
    cases cat with
    | none => rfl
    | some c =>
      simp only
      cases c.registerRef id m.title .anchor <;> rfl

omit [Uni] in
theorem registerSection_renum {p p' : ParserState} {sectids : Bool} {base : Text} {manual : Option Text}
    {reftext : Text} {id dup : Option Text} (h : registerSection p sectids base manual reftext = .ok (id, p', dup))
    (x : Numbering) : registerSection (p.renum x) sectids base manual reftext = .ok (id, p'.renum x, dup) := by
  obtain ⟨st, cat, n, l⟩ := p
  unfold registerSection at h ⊢
  cases cat with
  | none => cases h; rfl
  | some c =>
    simp only at h ⊢
    cases manual with
    | some id =>
      simp only at h ⊢
      cases hr : c.registerRef id (some reftext) .section with
      | none => rw [hr] at h; cases h; rfl
      | some c' => rw [hr] at h; cases h; rfl
    | none =>
      simp only at h ⊢
      cases sectids with
      | false => cases h; rfl
      | true =>
        simp only [if_true] at h ⊢
        cases hg : c.generate base (some reftext) .section with
        | none => rw [hg] at h; cases h
        | some q => rw [hg] at h; cases h; rfl

omit [Uni] in
theorem finishSimple_renum {e : BlockEnv} {p p' : ParserState} {m : BlockMetadata} {missing : Bool} {b : Option (MI Block)}
    {ws : List Warning} (h : finishSimple e p m missing = .ok (b, ws, p')) (x : Numbering) :
    finishSimple e (p.renum x) m missing = .ok (b, ws, p'.renum x) := by
  unfold finishSimple at h ⊢
  simp only [bind, Except.bind] at h ⊢
  generalize SimpleBlock.parse e.subs p.store _ = q at h ⊢
  cases q with
  | error _ => cases h
  | ok q =>
    cases q with
    | none => cases h; rfl
    | some mi =>
      simp only [registerBlockId_renum] at h ⊢
      cases h
      rfl

omit [Uni] in
theorem parseSimple_renum {e : BlockEnv} {p p' : ParserState} {m : BlockMetadata} {lit : Bool} {b : Option (MI Block)}
    {ws : List Warning} (h : parseSimple e p m lit = .ok (b, ws, p')) (x : Numbering) :
    parseSimple e (p.renum x) m lit = .ok (b, ws, p'.renum x) := by
  unfold parseSimple at h ⊢
  cases lit with
  | true => exact finishSimple_renum h x
  | false =>
    simp only [Bool.false_eq_true, if_false, bind, Except.bind] at h ⊢
    cases hs : SimpleBlock.parse e.subs p.store m with
    | error _ => rw [hs] at h; cases h
    | ok q =>
      rw [hs] at h
      exact finishSimple_renum h x

/-- Nested parses can be repeated with other numbers of appendices. -/
def NestedRen (nested : Nested) : Prop :=
  ∀ stop p s r x, nested stop p s = .ok r → Unnumbered r.blocks → Ren p.num x →
    ∃ y, Ren r.state.num y ∧ nested stop (p.renum x) s = .ok { r with state := r.state.renum y }

/-- What is found has no numbered appendix. -/
def Fine : Option (MI Block) → Prop
  | none => True
  | some mi => ¬ NumberedAppendix mi.item ∧ Unnumbered mi.item.children

omit [Uni] in
theorem parseCompound_renum {nested : Nested} (hn : NestedRen nested) {p : ParserState} {m : BlockMetadata}
    {r : Option (MI Block × List Warning × ParserState)} (h : parseCompound nested p m = .ok r)
    (hf : Fine (r.map (·.1))) {x : Numbering} (hx : Ren p.num x) :
    (r = none ∧ parseCompound nested (p.renum x) m = .ok none) ∨
    ∃ mi ws p' y, r = some (mi, ws, p') ∧ Ren p'.num y ∧
      parseCompound nested (p.renum x) m = .ok (some (mi, ws, p'.renum y)) := by
  unfold parseCompound at h ⊢
  simp only at h ⊢
  cases hk : compoundKind m.blockStart.takeNormalizedLine.item.data with
  | none => rw [hk] at h; cases h; exact Or.inl ⟨rfl, rfl⟩
  | some context =>
    rw [hk] at h
    simp only at h ⊢
    cases hd : isCompoundDelimiter m.blockStart.takeNormalizedLine.item.data with
    | false => rw [hd] at h; cases h; exact Or.inl ⟨rfl, rfl⟩
    | true =>
      rw [hd] at h
      simp only [Bool.not_true, Bool.false_eq_true, if_false, bind, Except.bind] at h ⊢
      generalize findClosing m.blockStart.takeNormalizedLine.item.data
            m.blockStart.takeNormalizedLine.after.data.length m.blockStart.takeNormalizedLine.after = fc at h ⊢
      obtain ⟨c, next⟩ := fc
      cases c with
      | none =>
        simp only at h ⊢
        cases hi : m.blockStart.takeNormalizedLine.after.trimRemainder? next with
        | none => rw [hi] at h; cases h
        | some inside =>
          rw [hi] at h
          simp only [Res.ofOption] at h ⊢
          cases hq : nested .never p inside with
          | error e => rw [hq] at h; cases h
          | ok maw =>
            rw [hq] at h
            simp only at h
            cases hs : m.source.trimRemainder? (next).discardAll with
            | none => rw [hs] at h; cases h
            | some src =>
              rw [hs] at h
              simp only at h
              cases h
              obtain ⟨y, hy, hy'⟩ := hn _ _ _ _ x hq hf.2 hx
              rw [hy']
              exact Or.inr ⟨_, _, _, y, rfl, hy, rfl⟩
      | some l =>
        simp only at h ⊢
        cases hi : m.blockStart.takeNormalizedLine.after.trimRemainder? l.item with
        | none => rw [hi] at h; cases h
        | some inside =>
          rw [hi] at h
          simp only [Res.ofOption] at h ⊢
          cases hq : nested .never p inside with
          | error e => rw [hq] at h; cases h
          | ok maw =>
            rw [hq] at h
            simp only at h
            cases hs : m.source.trimRemainder? (l.item).discardAll with
            | none => rw [hs] at h; cases h
            | some src =>
              rw [hs] at h
              simp only at h
              cases h
              obtain ⟨y, hy, hy'⟩ := hn _ _ _ _ x hq hf.2 hx
              rw [hy']
              exact Or.inr ⟨_, _, _, y, rfl, hy, rfl⟩

omit [Uni] in
theorem openSection_renum {p : ParserState} {x : Numbering} (hx : Ren p.num x) (m : BlockMetadata) (level : Nat)
    (title : Content) (id : Option Text) (s : Span) (f : Meta) (cs : List Block)
    (hf : ¬ NumberedAppendix (.mk (.section level title (openSection p m level).1 id (openSection p m level).2.1) s f cs)) :
    ∃ y, Ren (openSection p m level).2.2.num y ∧
      openSection (p.renum x) m level =
        ((openSection p m level).1, (openSection p m level).2.1, (openSection p m level).2.2.renum y) := by
  obtain ⟨store, catalog, ⟨l, a, t⟩, lv⟩ := p
  obtain ⟨l', a', t'⟩ := x
  obtain ⟨rfl, rfl, h3⟩ := hx
  simp only at h3
  unfold openSection sectionType at hf ⊢
  simp only [ParserState.renum] at hf ⊢
  have step : ∀ ty : SectionType, ∀ t : SectionType,
      ¬ NumberedAppendix (.mk (.section level title ty id
        (sectionNumber ⟨store, catalog, ⟨l', a, t⟩, lv⟩ m.isDiscrete level).1) s f cs) →
      ∃ y, Ren (sectionNumber ⟨store, catalog, ⟨l', a, t⟩, lv⟩ m.isDiscrete level).2.num y ∧
        sectionNumber ⟨store, catalog, ⟨l', a', t⟩, lv⟩ m.isDiscrete level =
          ((sectionNumber ⟨store, catalog, ⟨l', a, t⟩, lv⟩ m.isDiscrete level).1,
            (sectionNumber ⟨store, catalog, ⟨l', a, t⟩, lv⟩ m.isDiscrete level).2.renum y) := by
    intro ty t hf
    unfold sectionNumber at hf ⊢
    simp only at hf ⊢
    split
    · rename_i hc
      rw [if_pos hc] at hf
      cases t with
      | normal => exact ⟨⟨_, a', _⟩, ⟨rfl, rfl, h3⟩, rfl⟩
      | appendix =>
        refine absurd ⟨_, _, _, _, _, rfl, ?_⟩ hf
        show (a.assignNext level).ty = .appendix
        unfold SectionNumber.assignNext; simp only; repeat' split
        all_goals exact h3
      | discrete => exact ⟨⟨_, a', _⟩, ⟨rfl, rfl, h3⟩, rfl⟩
    · exact ⟨⟨_, a', _⟩, ⟨rfl, rfl, h3⟩, rfl⟩
  by_cases hd : m.isDiscrete = true
  · simp only [if_pos hd] at hf ⊢
    obtain ⟨y, hy, e⟩ := step _ _ hf
    exact ⟨y, hy, by rw [e]⟩
  · simp only [if_neg hd] at hf ⊢
    by_cases hl : level = 1
    · simp only [if_pos hl] at hf ⊢
      obtain ⟨y, hy, e⟩ := step _ _ hf
      exact ⟨y, hy, by rw [e]⟩
    · simp only [if_neg hl] at hf ⊢
      obtain ⟨y, hy, e⟩ := step _ _ hf
      exact ⟨y, hy, by rw [e]⟩

omit [Uni] in
theorem closeSection_renum {p : ParserState} {y : Numbering} (hy : Ren p.num y) (m : BlockMetadata) (level : Nat) :
    ∃ z, Ren (closeSection p m level).num z ∧ closeSection (p.renum y) m level = (closeSection p m level).renum z := by
  unfold closeSection
  split
  · exact ⟨{ y with topmost := .normal }, ⟨hy.last, rfl, hy.ty⟩, rfl⟩
  · exact ⟨y, hy, rfl⟩

/-- A section, put together. -/
theorem parseSection_intro {e : BlockEnv} {nested : Nested} {p p2 : ParserState} {m : BlockMetadata} {mi : MI (Nat × Span)}
    {tw : List Warning} {maw : Blocks} {src dupSrc : Span} {title base : Text} {id dup : Option Text}
    (ht : parseTitleLine e.ar m.blockStart.discardEmptyLines = .ok (some mi, tw))
    (hn : nested (if m.isDiscrete then .always else .peer mi.item.1 mi.item.1) (openSection p m mi.item.1).2.2 mi.after =
      .ok maw)
    (hc : SectionClose e m mi (p.store.isAttributeSet "sectids".toList) maw.after maw.state p2 src dupSrc title base id dup) :
    parseSection e nested p m = .ok (some ⟨.mk (.section mi.item.1 ⟨mi.item.2, title⟩ (openSection p m mi.item.1).1 id
          (openSection p m mi.item.1).2.1) src.trimTrailingWhitespace m.fields maw.blocks, maw.after⟩,
      tw ++ maw.stopWarnings ++ (dup.toList.map fun i => ⟨dupSrc, .duplicateId i⟩) ++ maw.warnings,
      closeSection p2 m mi.item.1) := by
  obtain ⟨h1, h2, h3, h4, h5⟩ := hc
  unfold parseSection
  simp only [bind, Except.bind]
  rw [ht]
  simp only
  have e1 : openSection p m mi.item.1 =
    ((sectionType p.num m.isDiscrete mi.item.1 m.fields.style).1,
     (sectionNumber { p with num := (sectionType p.num m.isDiscrete mi.item.1 m.fields.style).2 } m.isDiscrete mi.item.1).1,
     (sectionNumber { p with num := (sectionType p.num m.isDiscrete mi.item.1 m.fields.style).2 } m.isDiscrete mi.item.1).2) := rfl
  rw [e1] at hn ⊢
  rw [hn]
  simp only [h1, Res.ofOption, h2, h3, h4, h5]
  rfl

theorem parseSection_renum {e : BlockEnv} {nested : Nested} (hn : NestedRen nested) {p p' : ParserState} {m : BlockMetadata}
    {r : Option (MI Block)} {ws : List Warning} (h : parseSection e nested p m = .ok (r, ws, p')) (hf : Fine r)
    {x : Numbering} (hx : Ren p.num x) :
    ∃ y, Ren p'.num y ∧ parseSection e nested (p.renum x) m = .ok (r, ws, p'.renum y) := by
  rcases parseSection_ok h with ⟨rfl, rfl, h3⟩ | ⟨mi, tw, maw, p2, src, dupSrc, title, base, id, dup, h1, h2, h3, rfl, rfl, rfl⟩
  · refine ⟨x, hx, ?_⟩
    unfold parseSection
    simp only [bind, Except.bind, h3]
  · obtain ⟨y, hy, ho⟩ := openSection_renum hx m mi.item.1 _ _ _ _ _ hf.1
    obtain ⟨z, hz, hz'⟩ := hn _ _ _ _ y h2 hf.2 hy
    obtain ⟨k1, k2, k3, k4, k5⟩ := h3
    have hreg := registerSection_num k4
    obtain ⟨u, hu, hu'⟩ := closeSection_renum (p := p2) (by rw [hreg]; exact hz) m mi.item.1
    refine ⟨u, hu, ?_⟩
    have := parseSection_intro (p := p.renum x) (p2 := p2.renum z) (maw := { maw with state := maw.state.renum z }) h1
      (by rw [ho]; exact hz') (dup := dup) (id := id) ⟨k1, k2, k3, registerSection_renum k4 z, k5⟩
    rw [this, ho, hu']

theorem parseBehind_renum {e : BlockEnv} {nested : Nested} (hn : NestedRen nested) {p p1 : ParserState} {m : BlockMetadata}
    {ws : List Warning} {r : Option (MI Block)} (h : parseBehind e nested p m = .ok (r, ws, p1)) (hf : Fine r)
    {x : Numbering} (hx : Ren p.num x) :
    ∃ y, Ren p1.num y ∧ parseBehind e nested (p.renum x) m = .ok (r, ws, p1.renum y) := by
  unfold parseBehind at h ⊢
  simp only [bind, Except.bind] at h ⊢
  cases hr : RawBlock.parse e.subs p.store m with
  | error x => rw [hr] at h; cases h
  | ok q =>
    rw [hr] at h
    simp only at h ⊢
    cases q with
    | some q =>
      obtain ⟨⟨rb, after⟩, ws'⟩ := q
      simp only [registerBlockId_renum] at h ⊢
      cases h
      exact ⟨x, by rwa [registerBlockId_num], rfl⟩
    | none =>
      simp only at h ⊢
      cases hc : parseCompound nested p m with
      | error x => rw [hc] at h; cases h
      | ok q =>
        rw [hc] at h
        simp only at h
        have hfine : Fine (q.map (·.1)) := by
          cases q with
          | none => trivial
          | some q => cases h; exact hf
        rcases parseCompound_renum hn hc hfine hx with ⟨rfl, hq⟩ | ⟨mi, ws', p', y, rfl, hy, hq⟩
        · rw [hq]
          simp only at h ⊢
          have e0 : mediaAt e (p.renum x) m = mediaAt e p m := rfl
          rw [e0]
          cases hq : mediaAt e p m with
          | error x => rw [hq] at h; cases h
          | ok q =>
            rw [hq] at h
            simp only at h ⊢
            cases q with
            | some q =>
              obtain ⟨⟨mb, after⟩, ws'⟩ := q
              simp only [registerBlockId_renum] at h ⊢
              cases h
              exact ⟨x, by rwa [registerBlockId_num], rfl⟩
            | none =>
              simp only at h ⊢
              cases hsq : sectionAt e nested p m with
              | error x => rw [hsq] at h; cases h
              | ok sq =>
                obtain ⟨sec, sw, p2⟩ := sq
                rw [hsq] at h
                simp only at h
                have hfine : Fine sec := by
                  cases sec with
                  | none => trivial
                  | some mi => cases h; exact hf
                have hsec : ∃ y, Ren p2.num y ∧ sectionAt e nested (p.renum x) m = .ok (sec, sw, p2.renum y) := by
                  unfold sectionAt at hsq ⊢
                  by_cases hi : (startsWith m.line ['='] || startsWith m.line ['#']) = true
                  · rw [if_pos hi] at hsq ⊢; exact parseSection_renum hn hsq hfine hx
                  · rw [if_neg hi] at hsq ⊢; cases hsq; exact ⟨x, hx, rfl⟩
                obtain ⟨y, hy, hsec⟩ := hsec
                rw [hsec]
                simp only
                cases sec with
                | some mi => cases h; exact ⟨y, hy, rfl⟩
                | none =>
                  simp only at h ⊢
                  cases hbq : breakAt m with
                  | error x => rw [hbq] at h; cases h
                  | ok bq =>
                    rw [hbq] at h
                    simp only at h ⊢
                    cases bq with
                    | some mi => cases h; exact ⟨y, hy, rfl⟩
                    | none =>
                      simp only at h ⊢
                      cases hp : parseSimple e p2 m false with
                      | error x => rw [hp] at h; cases h
                      | ok q =>
                        obtain ⟨b, ws', p'⟩ := q
                        rw [hp] at h
                        rw [parseSimple_renum hp y]
                        simp only at h ⊢
                        cases h
                        refine ⟨y, ?_, rfl⟩
                        cases r with
                        | none => rwa [(parseSimple_none hp).1]
                        | some mi =>
                          obtain ⟨_, _, _, _, _, _, rfl⟩ := parseSimple_some hp
                          rwa [registerBlockId_num]
        · rw [hq]
          simp only [registerBlockId_renum] at h ⊢
          cases h
          exact ⟨y, by rwa [registerBlockId_num], rfl⟩

theorem parseBlock_renum {e : BlockEnv} {nested : Nested} (hn : NestedRen nested) {p p1 : ParserState} {s : Span}
    {ws : List Warning} {r : Option (MI Block)} (h : parseBlock e nested p s = .ok (r, ws, p1)) (hf : Fine r)
    {x : Numbering} (hx : Ren p.num x) :
    ∃ y, Ren p1.num y ∧ parseBlock e nested (p.renum x) s = .ok (r, ws, p1.renum y) := by
  unfold parseBlock at h ⊢
  simp only [bind, Except.bind] at h ⊢
  have e0 : fastPath e (p.renum x) s = fastPath e p s := rfl
  rw [e0]
  cases hq : fastPath e p s with
  | error x => rw [hq] at h; cases h
  | ok q =>
    rw [hq] at h
    simp only at h ⊢
    cases q with
    | some mi =>
      simp only [registerBlockId_renum] at h ⊢
      cases h
      exact ⟨x, by rwa [registerBlockId_num], rfl⟩
    | none =>
      simp only at h ⊢
      have e0 : bodyEntryAt e (p.renum x) s = bodyEntryAt e p s := rfl
      rw [e0]
      cases hq : bodyEntryAt e p s with
      | error x => rw [hq] at h; cases h
      | ok q =>
        rw [hq] at h
        simp only at h ⊢
        cases q with
        | some mi => cases h; exact ⟨x, hx, rfl⟩
        | none =>
          simp only at h ⊢
          cases hm : BlockMetadata.parse e.subs p.store s with
          | error x => rw [hm] at h; cases h
          | ok q =>
            obtain ⟨m, mw⟩ := q
            rw [hm] at h
            simp only at h ⊢
            by_cases hl : m.fields.style = some "literal".toList
            · simp only [if_pos hl] at h ⊢
              cases hp : parseSimple e p m true with
              | error x => rw [hp] at h; cases h
              | ok q =>
                obtain ⟨b, ws', p'⟩ := q
                rw [hp] at h
                rw [parseSimple_renum hp x]
                simp only at h ⊢
                cases h
                refine ⟨x, ?_, rfl⟩
                cases r with
                | none => rwa [(parseSimple_none hp).1]
                | some mi =>
                  obtain ⟨_, _, _, _, _, _, rfl⟩ := parseSimple_some hp
                  rwa [registerBlockId_num]
            · simp only [if_neg hl] at h ⊢
              cases hp : parseBehind e nested p m with
              | error x => rw [hp] at h; cases h
              | ok q =>
                obtain ⟨b, ws', p'⟩ := q
                rw [hp] at h
                simp only at h
                cases h
                obtain ⟨y, hy, hy'⟩ := parseBehind_renum hn hp hf hx
                rw [hy']
                exact ⟨y, hy, rfl⟩

/-- The blocks of the result extend those collected before. -/
theorem blocksLoop_prefix {e : BlockEnv} : ∀ (n : Nat) {stop : Stop} {acc r : Blocks}, blocksLoop e n stop acc = .ok r →
    ∃ bs, r.blocks = acc.blocks ++ bs
  | 0, _, _, _, h => by cases h
  | n + 1, stop, acc, r, h => by
    rw [blocksLoop] at h
    split at h
    · cases h; exact ⟨[], by simp⟩
    · simp only [bind, Except.bind] at h
      split at h
      · cases h
      · split at h
        · cases h; exact ⟨[], by simp⟩
        · split at h
          · cases h
          · split at h
            · obtain ⟨bs, hbs⟩ := blocksLoop_prefix n h
              exact ⟨_, by rw [hbs, List.append_assoc]⟩
            · obtain ⟨bs, hbs⟩ := blocksLoop_prefix n h
              exact ⟨bs, hbs⟩

theorem blocksLoop_renum {e : BlockEnv} : ∀ (n : Nat) {stop : Stop} {acc r : Blocks} {x : Numbering},
    blocksLoop e n stop acc = .ok r → Unnumbered r.blocks → Ren acc.state.num x →
    ∃ y, Ren r.state.num y ∧
      blocksLoop e n stop { acc with state := acc.state.renum x } = .ok { r with state := r.state.renum y }
  | 0, _, _, _, _, h, _, _ => by cases h
  | n + 1, stop, acc, r, x, h, hu, hx => by
    rw [blocksLoop] at h ⊢
    by_cases h0 : acc.after.data = []
    · rw [if_pos h0] at h ⊢
      cases h
      exact ⟨x, hx, rfl⟩
    · rw [if_neg h0] at h ⊢
      simp only [bind, Except.bind] at h ⊢
      cases hk : stop.check e acc.after with
      | error _ => rw [hk] at h; cases h
      | ok q =>
        obtain ⟨halt, stop', sw⟩ := q
        rw [hk] at h
        simp only at h ⊢
        cases halt with
        | true => cases h; exact ⟨x, hx, rfl⟩
        | false =>
          simp only [Bool.false_eq_true, if_false] at h ⊢
          have hn : NestedRen fun stop p source => blocksLoop e n stop ⟨[], source.discardEmptyLines, [], [], p⟩ :=
            fun stop p s r x h hu hx => blocksLoop_renum n h hu hx
          generalize hq : parseBlock e (fun stop p source => blocksLoop e n stop ⟨[], source.discardEmptyLines, [], [], p⟩)
            acc.state acc.after = q at h
          cases q with
          | error _ => cases h
          | ok q =>
            obtain ⟨b, ws, p⟩ := q
            simp only at h
            cases b with
            | none =>
              simp only at h
              obtain ⟨y, hy, hy'⟩ := parseBlock_renum hn hq trivial hx
              rw [hy']
              exact blocksLoop_renum n h hu hy
            | some mi =>
              simp only at h
              obtain ⟨bs, hbs⟩ := blocksLoop_prefix n h
              have hf : Fine (some mi) := by
                rw [hbs] at hu
                have := (unnumbered_append.mp (unnumbered_append.mp hu).1).2
                exact ⟨(unnumbered_cons.mp this).1, (unnumbered_cons.mp this).2.1⟩
              obtain ⟨y, hy, hy'⟩ := parseBlock_renum hn hq hf hx
              rw [hy']
              exact blocksLoop_renum n h hu hy

omit [Uni] in
theorem unnumbered_withPreamble {bs bs' : List Block} {src : Span} (h : withPreamble bs src = .ok bs')
    (hu : Unnumbered bs') : Unnumbered bs := by
  rcases withPreamble_spec bs src with ⟨front, first, back, ⟨rfl, _⟩, hp⟩ | ⟨_, hp⟩
  · rw [hp] at h
    cases hpo : preambleOf front src with
    | error x => rw [hpo] at h; cases h
    | ok b =>
      rw [hpo] at h
      rw [← Except.ok.inj h] at hu
      obtain ⟨s, rfl⟩ := preambleOf_shape hpo
      exact unnumbered_append.mpr ⟨(unnumbered_cons.mp hu).2.1, (unnumbered_cons.mp hu).2.2⟩
  · rw [hp] at h
    rwa [← Except.ok.inj h] at hu

omit [Uni] in
theorem unnumbered_doc {d : Document} (h : NoNumberedAppendix d) : Unnumbered d.blocks :=
  fun b hb x hx => h x ⟨b, hb, hx⟩

theorem document_renum {e : BlockEnv} {hr : Renderer} {fuel : Nat} {p p' : ParserState} {text : Text} {d : Document}
    (h : Document.parse e hr fuel p text = .ok (d, p')) (hd : NoNumberedAppendix d) {x : Numbering} (hx : Ren p.num x) :
    ∃ y, Document.parse e hr fuel (p.renum x) text = .ok (d, p'.renum y) := by
  unfold Document.parse at h ⊢
  simp only [bind, Except.bind] at h ⊢
  cases h1 : Header.parse (fun s t => e.subs s .header none t) hr p.store (Span.new text) with
  | error x => rw [h1] at h; cases h
  | ok y =>
    obtain ⟨mi, hw, store⟩ := y
    rw [h1] at h
    simp only at h ⊢
    cases h2 : parseBlocksUntil e fuel .never { p with store := store, sectnumlevels := sectnumlevelsOf store } mi.after with
    | error x => rw [h2] at h; cases h
    | ok r =>
      rw [h2] at h
      simp only at h
      cases h3 : withPreamble r.blocks mi.after with
      | error x => rw [h3] at h; cases h
      | ok bs =>
        rw [h3] at h
        cases h
        obtain ⟨y, _, hy'⟩ := blocksLoop_renum fuel h2 (unnumbered_withPreamble h3 (unnumbered_doc hd)) hx
        refine ⟨y, ?_⟩
        have : parseBlocksUntil e fuel .never { p with store := store, num := x, sectnumlevels := sectnumlevelsOf store }
          mi.after = .ok { r with state := r.state.renum y } := hy'
        rw [this]
        simp only [h3]

theorem document_num {e : BlockEnv} {hr : Renderer} {fuel : Nat} {p p' : ParserState} {text : Text} {d : Document}
    (h : Document.parse e hr fuel p text = .ok (d, p')) (h1 : p.num.topmost = .normal)
    (h2 : p.num.lastAppendix.ty = .appendix) :
    p'.num.topmost = .normal ∧ p'.num.lastAppendix.ty = .appendix ∧
      (NoNumberedAppendix d → p'.num.lastAppendix = p.num.lastAppendix) := by
  obtain ⟨mi, hw, store, bs, rest, ws, sw, q, k1, k2, k3, k4, k5, k6, rfl, k8⟩ := document_run h
  obtain ⟨a, b, c⟩ := run_num k2 (by rw [h1]; nofun) h2
  refine ⟨?_, b, fun hd => c (unnumbered_withPreamble k3 (unnumbered_doc hd))⟩
  rcases a with a | a
  · exact a.trans h1
  · exact a

/-- The numbering of a parser that has parsed some texts. -/
theorem used_num {c : Config} {fuel : Nat} {P : Document → Prop} {p : ParserState} (h : Used c fuel P p) :
    p.num.topmost = .normal ∧ p.num.lastAppendix.ty = .appendix := by
  induction h with
  | new h _ => rw [h]; exact ⟨rfl, rfl⟩
  | parse _ h _ ih =>
    obtain ⟨t, _, hd⟩ := Config.parse_parts h
    exact ⟨(document_num hd ih.1 ih.2).1, (document_num hd ih.1 ih.2).2.1⟩

end Adoc
