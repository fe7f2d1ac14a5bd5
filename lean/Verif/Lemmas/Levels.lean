import Verif.Lemmas.History
import Verif.Spec.Levels
/-!
# The levels of sections
-/

namespace Adoc
open Span Spec

/-! ### Attribute lists without substitutions -/

theorem suffix_mem {a b : Text} (h : ∃ x, b = x ++ a) {c : Char} (hc : c ∈ a) : c ∈ b := by
  obtain ⟨x, rfl⟩ := h
  exact List.mem_append_right _ hc

theorem elemParse_same {nrm nrm' : Text → Res Text} {rest : Text} (h : '\'' ∉ rest) (sh : Bool) (ctx : AttrlistCtx) :
    ElemAttr.parse nrm rest sh ctx = ElemAttr.parse nrm' rest sh ctx := by
  unfold ElemAttr.parse
  simp only
  have hs : ∃ x, rest = x ++ (attrNamePart (Span.new rest)).2.takeWhitespaceWithNewline.after.data := by
    have hb := attrNamePart_body rest
    generalize (attrNamePart (Span.new rest)).1 = n at hb
    cases n with
    | some n => obtain ⟨w1, w2, e, _⟩ := hb; exact ⟨n ++ (w1 ++ '=' :: w2), by rw [List.append_assoc, List.append_assoc, List.cons_append]; exact e⟩
    | none => obtain ⟨_, w, e, _⟩ := hb; exact ⟨w, e⟩
  have : attrUnquote nrm ctx (attrNamePart (Span.new rest)).2.takeWhitespaceWithNewline.after.data.head? =
      attrUnquote nrm' ctx (attrNamePart (Span.new rest)).2.takeWhitespaceWithNewline.after.data.head? := by
    funext v
    unfold attrUnquote
    cases hh : (attrNamePart (Span.new rest)).2.takeWhitespaceWithNewline.after.data.head? with
    | none => rfl
    | some q =>
      have : q ≠ '\'' := by
        rintro rfl
        exact h (suffix_mem hs (List.mem_of_mem_head? hh))
      simp [this]
  rw [this]

theorem elemParse_rest {nrm : Text → Res Text} {rest after : Text} {sh : Bool} {ctx : AttrlistCtx} {a : ElemAttr}
    {ws : List WarningType} (h : ElemAttr.parse nrm rest sh ctx = .ok (a, after, ws)) : ∃ x, rest = x ++ after := by
  obtain ⟨_, h⟩ := elemAt_reads (elem_at h)
  exact reads_prefix h

theorem separator_rest {after next : Text} {d : Bool} (h : Attrlist.separator after = .inl (next, d)) :
    ∃ x, after = x ++ next := by
  obtain ⟨x, h, _⟩ := separator_inl h
  exact ⟨x, h⟩

theorem loop_same {nrm nrm' : Text → Res Text} {source : Span} {ctx : AttrlistCtx} : ∀ (n : Nat) (rest : Text) (sh : Bool)
    (attrs : List ElemAttr) (ws : List Warning), '\'' ∉ rest →
    Attrlist.loop nrm source ctx n rest sh attrs ws = Attrlist.loop nrm' source ctx n rest sh attrs ws
  | 0, _, _, _, _, _ => rfl
  | n + 1, rest, sh, attrs, ws, h => by
    rw [Attrlist.loop, Attrlist.loop, elemParse_same (nrm' := nrm') h]
    simp only [bind, Except.bind]
    cases hp : ElemAttr.parse nrm' rest sh ctx with
    | error _ => rfl
    | ok q =>
      obtain ⟨a, after, wts⟩ := q
      obtain ⟨x, hx⟩ := elemParse_rest hp
      simp only
      split
      · rfl
      · split
        · rename_i next d hd
          obtain ⟨y, hy⟩ := separator_rest hd
          refine loop_same n _ _ _ _ fun hc => h ?_
          rw [hx, hy]
          simp [hc]
        · rfl

theorem attrlist_same [Uni] {nrm nrm' : Text → Res Text} {store store' : AttrStore} {source : Span} {ctx : AttrlistCtx}
    (h : NoSubst source.data) : Attrlist.parse nrm store source ctx = Attrlist.parse nrm' store' source ctx := by
  unfold Attrlist.parse
  have : source.data.contains '{' = false := by
    rw [← Bool.not_eq_true, List.contains_iff_mem]; exact h.1
  simp only [this, Bool.false_and, Bool.false_eq_true, if_false, bind, Except.bind]
  split
  · rfl
  · rw [loop_same (nrm' := nrm') _ _ _ _ _ h.2]

/-! ### Metadata -/

/-- The same but for what is substituted in the attribute list. -/
structure SameMeta (a b : MetaState) : Prop where
  title : a.titleSource = b.titleSource
  anchor : a.anchor = b.anchor
  start : a.blockStart = b.blockStart
  list : (a.attrlist = none ∧ b.attrlist = none) ∨ ∃ x y, a.attrlist = some x ∧ b.attrlist = some y ∧
    x.source = y.source ∧ (NoSubst x.source.data → x = y)

variable [Uni]

theorem attrlist_source {nrm : Text → Res Text} {store : AttrStore} {source : Span} {ctx : AttrlistCtx} {al : Attrlist}
    {ws : List Warning} (h : Attrlist.parse nrm store source ctx = .ok (al, ws)) : al.source = source := by
  obtain ⟨_, _, h, _⟩ := Props.C33_elements h
  exact h

theorem metaStep_same {subs subs' : Subs} {store store' : AttrStore} {st st' r r' : MetaState} {f f' : Bool}
    (hs : SameMeta st st') (h : metaStep subs store st = .ok (f, r)) (h' : metaStep subs' store' st' = .ok (f', r')) :
    f = f' ∧ SameMeta r r' := by
  obtain ⟨ts, an, rt, al, bs, ws⟩ := st
  obtain ⟨ts', an', rt', al', bs', ws'⟩ := st'
  obtain ⟨e1, e2, e3, hl⟩ := hs
  simp only at e1 e2 e3 hl
  subst e1 e2 e3
  unfold metaStep at h h'
  simp only at h h'
  generalize (if ts.isNone then maybeTitle bs else none) = t at h h'
  cases t with
  | some t => cases h; cases h'; exact ⟨rfl, rfl, rfl, rfl, hl⟩
  | none =>
    simp only at h h'
    have tail : ∀ {w w' : List Warning}, (if al.isNone then do
          match ← maybeAttrlistLine subs store bs with
          | some (mi, ws) =>
            Except.ok (true, ({ titleSource := ts, anchor := an, reftext := rt, attrlist := some mi.item,
                                blockStart := mi.after, warnings := w ++ ws } : MetaState))
          | none => Except.ok (false, ⟨ts, an, rt, al, bs, w⟩)
        else Except.ok (false, ⟨ts, an, rt, al, bs, w⟩)) = (.ok (f, r) : Res _) →
        (if al'.isNone then do
          match ← maybeAttrlistLine subs' store' bs with
          | some (mi, ws) =>
            Except.ok (true, ({ titleSource := ts, anchor := an, reftext := rt', attrlist := some mi.item,
                                blockStart := mi.after, warnings := w' ++ ws } : MetaState))
          | none => Except.ok (false, ⟨ts, an, rt', al', bs, w'⟩)
        else Except.ok (false, ⟨ts, an, rt', al', bs, w'⟩)) = (.ok (f', r') : Res _) → f = f' ∧ SameMeta r r' := by
      intro w w' h h'
      rcases hl with ⟨rfl, rfl⟩ | ⟨x, y, rfl, rfl, hl⟩
      · simp only [Option.isNone_none, if_true, bind, Except.bind] at h h'
        unfold maybeAttrlistLine at h h'
        cases c1 : startsWith bs.data ['['] with
        | false => rw [c1] at h h'; cases h; cases h'; exact ⟨rfl, rfl, rfl, rfl, Or.inl ⟨rfl, rfl⟩⟩
        | true =>
          rw [c1] at h h'
          cases c2 : endsWith bs.takeNormalizedLine.item.data [']'] with
          | false => simp only [c2] at h h'; cases h; cases h'; exact ⟨rfl, rfl, rfl, rfl, Or.inl ⟨rfl, rfl⟩⟩
          | true =>
            simp only [c2, Bool.not_true, Bool.false_eq_true, if_false, bind, Except.bind] at h h'
            generalize (bs.takeNormalizedLine.item.dropN 1).takeN (bs.takeNormalizedLine.item.data.length - 2) = a at h h'
            by_cases c3 : (startsWith a.data [' '] || startsWith a.data ['\t'] ||
                (startsWith a.data ['['] && endsWith a.data [']'])) = true
            · rw [if_pos c3] at h h'
              cases h; cases h'; exact ⟨rfl, rfl, rfl, rfl, Or.inl ⟨rfl, rfl⟩⟩
            · rw [if_neg c3] at h h'
              cases hq : Attrlist.parse (subs store .normal none) store a .block with
              | error _ => rw [hq] at h; cases h
              | ok q =>
                cases hq' : Attrlist.parse (subs' store' .normal none) store' a .block with
                | error _ => rw [hq'] at h'; cases h'
                | ok q' =>
                  obtain ⟨x, wx⟩ := q
                  obtain ⟨y, wy⟩ := q'
                  rw [hq] at h
                  rw [hq'] at h'
                  cases h; cases h'
                  refine ⟨rfl, rfl, rfl, rfl, Or.inr ⟨x, y, rfl, rfl, ?_, fun hn => ?_⟩⟩
                  · rw [attrlist_source hq, attrlist_source hq']
                  · rw [attrlist_source hq] at hn
                    rw [attrlist_same hn (nrm' := subs' store' .normal none) (store' := store')] at hq
                    rw [hq] at hq'
                    cases hq'; rfl
      · cases h; cases h'
        exact ⟨rfl, rfl, rfl, rfl, Or.inr ⟨x, y, rfl, rfl, hl⟩⟩
    unfold anchorStep at h h'
    cases an with
    | some an => exact tail h h'
    | none =>
      simp only [Option.isNone_none, if_true] at h h'
      generalize maybeBlockAnchor bs = ba at h h'
      obtain ⟨mi, aw⟩ := ba
      cases mi with
      | none => exact tail h h'
      | some mi =>
        simp only at h h'
        by_cases hx : (splitAnchor mi.item).1.isXmlName = true
        · simp only [if_pos hx] at h h'
          cases h; cases h'
          exact ⟨rfl, rfl, rfl, rfl, hl⟩
        · simp only [if_neg hx] at h h'
          exact tail h h'

theorem metaLoop_same {subs subs' : Subs} {store store' : AttrStore} : ∀ (n : Nat) {st st' r r' : MetaState},
    SameMeta st st' → metaLoop subs store n st = .ok r → metaLoop subs' store' n st' = .ok r' → SameMeta r r'
  | 0, _, _, _, _, _, h, _ => by cases h
  | n + 1, st, st', r, r', hs, h, h' => by
    rw [metaLoop] at h h'
    simp only [bind, Except.bind] at h h'
    cases hq : metaStep subs store st with
    | error _ => rw [hq] at h; cases h
    | ok q =>
      cases hq' : metaStep subs' store' st' with
      | error _ => rw [hq'] at h'; cases h'
      | ok q' =>
        obtain ⟨f, st1⟩ := q
        obtain ⟨f', st1'⟩ := q'
        rw [hq] at h
        rw [hq'] at h'
        simp only at h h'
        obtain ⟨rfl, hs'⟩ := metaStep_same hs hq hq'
        cases f with
        | true => exact metaLoop_same n hs' h h'
        | false => cases h; cases h'; exact hs'

/-- The metadata read with other substitutions. -/
theorem meta_same {subs subs' : Subs} {store store' : AttrStore} {s : Span} {m m' : BlockMetadata} {ws ws' : List Warning}
    (h : BlockMetadata.parse subs store s = .ok (m, ws)) (h' : BlockMetadata.parse subs' store' s = .ok (m', ws')) :
    m.blockStart = m'.blockStart ∧ ((∀ a, m.fields.attrlist = some a → NoSubst a.source.data) → m.isDiscrete = m'.isDiscrete) := by
  unfold BlockMetadata.parse at h h'
  simp only [bind, Except.bind] at h h'
  cases hq : metaLoop subs store 4 { blockStart := s.discardEmptyLines } with
  | error _ => rw [hq] at h; cases h
  | ok st =>
    cases hq' : metaLoop subs' store' 4 { blockStart := s.discardEmptyLines } with
    | error _ => rw [hq'] at h'; cases h'
    | ok st' =>
      have hs := metaLoop_same 4 ⟨rfl, rfl, rfl, Or.inl ⟨rfl, rfl⟩⟩ hq hq'
      rw [hq] at h
      rw [hq'] at h'
      simp only at h h'
      split at h
      · cases h
      · split at h'
        · cases h'
        · cases h
          cases h'
          refine ⟨hs.start, fun hn => ?_⟩
          unfold BlockMetadata.isDiscrete Meta.style
          have : st.attrlist = st'.attrlist := by
            rcases hs.list with ⟨a, b⟩ | ⟨x, y, a, b, _, c⟩
            · rw [a, b]
            · rw [a, b, c (hn x a)]
          rw [this]

/-! ### Title lines -/

omit [Uni] in
/-- The level of a heading. -/
theorem titleLine_level {ar : Arith} {s : Span} {mi : MI (Nat × Span)} {tw : List Warning}
    (h : parseTitleLine ar s = .ok (some mi, tw))
    (hs : (startsWith s.takeNormalizedLine.item.data ['='] || startsWith s.takeNormalizedLine.item.data ['#']) = true) :
    1 ≤ mi.item.1 ∧ mi.item.1 ≤ 5 := by
  unfold parseTitleLine at h
  rw [takeNonEmptyLine_eq] at h
  by_cases h0 : s.takeNormalizedLine.item.data = []
  · rw [if_pos h0] at h; cases h
  rw [if_neg h0] at h
  simp only at h
  by_cases h1 : markCount s.takeNormalizedLine.item.data = 1
  · rw [if_pos h1] at h; cases h
  rw [if_neg h1] at h
  by_cases h2 : markCount s.takeNormalizedLine.item.data > 6
  · rw [if_pos h2] at h; cases h
  rw [if_neg h2] at h
  have h0 : markCount s.takeNormalizedLine.item.data ≠ 0 := by
    have hp : ∀ (c : Char) (t : Text), startsWith t [c] = true → prefLen (· == c) t ≠ 0 := by
      intro c t ht
      obtain ⟨r, rfl⟩ := startsWith_iff.mp ht
      simp [prefLen]
    unfold markCount
    split
    · exact hp _ _ (by assumption)
    · rename_i hn
      rw [Bool.or_eq_true] at hs
      exact hp _ _ (hs.resolve_left hn)
  cases h3 : (s.takeNormalizedLine.item.dropN (markCount s.takeNormalizedLine.item.data)).takeRequiredWhitespace with
  | none => rw [h3] at h; cases h
  | some t =>
    rw [h3] at h
    simp only [bind, Except.bind] at h
    generalize markCount s.takeNormalizedLine.item.data = n at *
    cases n with
    | zero => exact absurd rfl h0
    | succ n =>
      cases h
      simp only
      omega

omit [Uni] in
/-- A line with a mark is not empty. -/
theorem discard_marked {s : Span}
    (hs : (startsWith s.takeNormalizedLine.item.data ['='] || startsWith s.takeNormalizedLine.item.data ['#']) = true) :
    s.discardEmptyLines = s := by
  have : ∃ c r, s.takeNormalizedLine.item.data = c :: r ∧ isBlank c = false := by
    rw [Bool.or_eq_true] at hs
    rcases hs with hs | hs
    · obtain ⟨r, hr⟩ := startsWith_iff.mp hs
      exact ⟨_, r, hr, by decide⟩
    · obtain ⟨r, hr⟩ := startsWith_iff.mp hs
      exact ⟨_, r, hr, by decide⟩
  obtain ⟨c, r, e, hc⟩ := this
  have he : s.takeEmptyLine = none := by
    unfold takeEmptyLine
    simp only
    have : s.takeLine.item.data.all isBlank = false := by
      rw [normLine_item_data] at e
      obtain ⟨w, hw⟩ : ∃ w, s.takeLine.item.data = trimEndP (· == ' ') s.takeLine.item.data ++ w :=
        by
        obtain ⟨w, h, _⟩ := trimEndP_spec (· == ' ') s.takeLine.item.data
        exact ⟨w, h⟩
      rw [hw, e]
      simp [hc]
    rw [this]
    rfl
  unfold discardEmptyLines
  cases s.data.length with
  | zero => rfl
  | succ n =>
    rw [discardEmptyLinesAux, he]
    split <;> rfl

/-! ### The test in front of every block -/

theorem check_false {e : BlockEnv} {stop stop' : Stop} {s : Span} {sw : List Warning}
    (h : stop.check e s = .ok (false, stop', sw)) :
    stop ≠ .always ∧ ∀ l mr, stop = .peer l mr → (∃ mr', stop' = .peer l mr') ∧
      ∃ m mw, BlockMetadata.parse e.dsubs AttrStore.default s = .ok (m, mw) ∧
        (m.isDiscrete = true ∨ ∀ mi tw, parseTitleLine e.ar m.blockStart = .ok (some mi, tw) → l < mi.item.1) := by
  cases stop with
  | never => exact ⟨nofun, nofun⟩
  | always => cases h
  | peer l mr =>
    refine ⟨nofun, fun l' mr' he => ?_⟩
    cases he
    unfold Stop.check peerOrAncestor at h
    simp only [bind, Except.bind] at h
    cases hm : BlockMetadata.parse e.dsubs AttrStore.default s with
    | error x => rw [hm] at h; cases h
    | ok q =>
      obtain ⟨m, mw⟩ := q
      rw [hm] at h
      simp only at h
      by_cases hd : m.isDiscrete = true
      · rw [if_pos hd] at h
        cases h
        exact ⟨⟨_, rfl⟩, m, mw, rfl, Or.inl hd⟩
      rw [if_neg hd] at h
      cases ht : parseTitleLine e.ar m.blockStart with
      | error x => rw [ht] at h; cases h
      | ok q =>
        obtain ⟨mi, tw⟩ := q
        rw [ht] at h
        cases mi with
        | none =>
          cases h
          exact ⟨⟨_, rfl⟩, m, mw, rfl, Or.inr fun mi tw h => by rw [ht] at h; cases h⟩
        | some mi =>
          simp only at h
          cases ha : e.ar.succ mr with
          | error x => rw [ha] at h; cases h
          | ok lim =>
            rw [ha] at h
            simp only at h
            injection h with h
            injection h with h1 h
            injection h with h2 h
            refine ⟨⟨_, h2.symm⟩, m, mw, rfl, Or.inr fun mi' tw' h => ?_⟩
            rw [ht] at h
            cases h
            simpa using h1

/-! ### Executions -/

omit [Uni] in
theorem Spec.Within.trans {x y z : Block} (h : Within y z) (h' : Within x y) : Within x z := by
  induction h with
  | self => exact h'
  | child hc _ ih => exact .child hc ih

/-- What is shown about every block. -/
structure Levels (b : Block) : Prop where
  level : ∀ l, level? b = some l → 1 ≤ l ∧ l ≤ 5
  discrete : IsDiscrete b → b.children = []
  nested : ∀ l, level? b = some l → ∀ c ∈ b.children, ∀ l', level? c = some l' → PlainList c → ¬ IsDiscrete c → l < l'

omit [Uni] in
theorem levels_none {b : Block} (h : ¬ IsSection b) : Levels b := by
  have : level? b = none := by
    unfold level?
    split
    · rename_i h'; exact absurd ⟨_, _, _, _, _, h'⟩ h
    · rfl
  refine ⟨fun l hl => ?_, fun ⟨_, _, _, _, h'⟩ => absurd ⟨_, _, _, _, _, h'⟩ h, fun l hl => ?_⟩
  · rw [this] at hl; cases hl
  · rw [this] at hl; cases hl

omit [Uni] in
theorem level_section {b : Block} {l : Nat} (h : level? b = some l) : IsSection b := by
  unfold level? at h
  split at h
  · rename_i h'; exact ⟨_, _, _, _, _, h'⟩
  · cases h

omit [Uni] in
theorem openSection_discrete {p : ParserState} {m : BlockMetadata} {l : Nat} (ht : p.num.topmost ≠ .discrete) :
    (openSection p m l).1 = .discrete ↔ m.isDiscrete = true := by
  unfold openSection sectionType
  by_cases hd : m.isDiscrete = true
  · simp [hd]
  · simp only [if_neg hd]
    refine ⟨fun h => ?_, fun h => absurd h hd⟩
    by_cases hl : l = 1
    · simp only [if_pos hl] at h
      split at h <;> cases h
    · simp only [if_neg hl] at h
      exact absurd h ht

theorem run_levels {e : BlockEnv} {stop : Stop} {p p' : ParserState} {s s' : Span} {bs : List Block} {ws sw : List Warning}
    (h : Run e stop p s bs s' ws sw p') : p.num.topmost ≠ .discrete → p.num.lastAppendix.ty = .appendix →
    (∀ b ∈ bs, ∀ x, Within x b → Levels x) ∧ (stop = .always → bs = []) ∧
    ∀ l mr, stop = .peer l mr → ∀ b ∈ bs, ∀ l', level? b = some l' → PlainList b → ¬ IsDiscrete b → l < l' := by
  induction h with
  | done _ => exact fun _ _ => ⟨nofun, fun _ => rfl, nofun⟩
  | halt _ _ => exact fun _ _ => ⟨nofun, fun _ => rfl, nofun⟩
  | leaf _ hk hl _ ih =>
    intro h1 h2
    rw [← leaf_num hl] at h1 h2
    obtain ⟨a, b, c⟩ := ih h1 h2
    obtain ⟨hc, hn, _⟩ := leaf_kind hl
    obtain ⟨k1, k2⟩ := check_false hk
    refine ⟨?_, fun h => absurd h k1, fun l mr he => ?_⟩
    · intro x hx y hy
      rcases List.mem_cons.mp hx with rfl | hx
      · rcases hy.cases with rfl | ⟨z, hz, hy⟩
        · exact levels_none hn
        · rw [hc] at hz; cases hz
      · exact a x hx y hy
    · obtain ⟨⟨mr', he'⟩, _⟩ := k2 l mr he
      intro x hx l' hl'
      rcases List.mem_cons.mp hx with rfl | hx
      · exact absurd (level_section hl') hn
      · exact c l mr' he' x hx l' hl'
  | stuck _ hk hl _ ih =>
    intro h1 h2
    rw [← leaf_num hl] at h1 h2
    obtain ⟨a, b, c⟩ := ih h1 h2
    obtain ⟨k1, k2⟩ := check_false hk
    refine ⟨a, fun h => absurd h k1, fun l mr he => ?_⟩
    obtain ⟨⟨mr', he'⟩, _⟩ := k2 l mr he
    exact c l mr' he'
  | @compound stop stop' p p1 p2 s s' sw sw' ws' bs m mw context inside closing after src cbs cs cws csw h1 hk hm ho r1 r2
      ih1 ih2 =>
    intro h1 h2
    obtain ⟨a, b, _⟩ := run_num r1 h1 h2
    obtain ⟨a1, _, _⟩ := ih1 h1 h2
    rw [registerBlockId_num] at ih2
    obtain ⟨a2, _, c2⟩ := ih2 (by rcases a with a | a <;> rw [a]; exact h1; nofun) b
    obtain ⟨k1, k2⟩ := check_false hk
    refine ⟨?_, fun h => absurd h k1, fun l mr he => ?_⟩
    · intro x hx y hy
      rcases List.mem_cons.mp hx with rfl | hx
      · rcases hy.cases with rfl | ⟨z, hz, hy⟩
        · exact levels_none fun ⟨_, _, _, _, _, h⟩ => nomatch h
        · exact a1 z hz y hy
      · exact a2 x hx y hy
    · obtain ⟨⟨mr', he'⟩, _⟩ := k2 l mr he
      intro x hx l' hl'
      rcases List.mem_cons.mp hx with rfl | hx
      · cases hl'
      · exact c2 l mr' he' x hx l' hl'
  | @«section» stop stop' p p1 p2 p3 s s' sw sw' ws' bs m mw mi tw cbs cs cws csw src dupSrc title base id dup h1 hk hm
      hstart ht r1 hclose r2 ih1 ih2 =>
    intro h1 h2
    obtain ⟨o1, o2, _, o4⟩ :=
      openSection_num p m mi.item.1 ⟨mi.item.2, title⟩ id src.trimTrailingWhitespace m.fields cbs h1 h2
    obtain ⟨a, b, _⟩ := run_num r1 o1 o2
    obtain ⟨a1, b1, c1⟩ := ih1 o1 o2
    rw [← registerSection_num hclose.register] at a b
    have k1 : (closeSection p2 m mi.item.1).num.lastAppendix = p2.num.lastAppendix := by
      unfold closeSection; split <;> rfl
    have k2 : (closeSection p2 m mi.item.1).num.topmost = p.num.topmost ∨
        (closeSection p2 m mi.item.1).num.topmost = .normal := by
      unfold closeSection
      split
      · exact Or.inr rfl
      · rename_i hn
        rcases o4 with o4 | o4
        · exact absurd o4 hn
        · rw [o4] at a; exact a
    rw [k1] at ih2
    obtain ⟨a2, _, c2⟩ := ih2 (by rcases k2 with a | a <;> rw [a]; exact h1; nofun) b
    have hdisc := openSection_discrete (m := m) (l := mi.item.1) h1
    rw [discard_marked hstart] at ht
    have hlev := titleLine_level ht hstart
    obtain ⟨q1, q2⟩ := check_false hk
    refine ⟨?_, fun h => absurd h q1, fun l mr he => ?_⟩
    · intro x hx y hy
      rcases List.mem_cons.mp hx with rfl | hx
      · rcases hy.cases with rfl | ⟨z, hz, hy⟩
        · refine ⟨?_, ?_, ?_⟩
          · rintro l ⟨⟩; exact hlev
          · rintro ⟨_, _, _, _, h⟩
            injection h with _ _ h
            exact b1 (by rw [if_pos (hdisc.mp h)])
          · rintro l ⟨⟩ c hc
            by_cases hd : m.isDiscrete = true
            · have : cbs = [] := b1 (by rw [if_pos hd])
              subst this
              cases hc
            · exact c1 _ _ (if_neg hd) c hc
        · exact a1 z hz y hy
      · exact a2 x hx y hy
    · obtain ⟨⟨mr', he'⟩, m', mw', hm', hor⟩ := q2 l mr he
      intro x hx l' hl'
      rcases List.mem_cons.mp hx with rfl | hx
      · intro hp hnd
        cases hl'
        obtain ⟨e1, e2⟩ := meta_same hm.parse hm'
        rcases hor with hor | hor
        · refine absurd ?_ hnd
          rw [← e2 hp] at hor
          exact ⟨_, _, _, _, by rw [hdisc.mpr hor]; rfl⟩
        · rw [← e1] at hor
          exact hor _ _ ht
      · exact c2 l mr' he' x hx l' hl'

/-- The same for whole documents. -/
theorem document_levels {e : BlockEnv} {hr : Renderer} {fuel : Nat} {p p' : ParserState} {text : Text} {d : Document}
    (h : Document.parse e hr fuel p text = .ok (d, p')) (h1 : p.num.topmost ≠ .discrete)
    (h2 : p.num.lastAppendix.ty = .appendix) {x : Block} (hx : InDoc d x) : Levels x := by
  obtain ⟨mi, hw, store, bs, rest, ws, sw, q, _, hrun, hpre, _⟩ := document_run h
  have hl := (run_levels hrun h1 h2).1
  obtain ⟨b, hb, hx⟩ := hx
  rcases withPreamble_spec bs mi.after with ⟨front, first, back, ⟨rfl, _⟩, hp⟩ | ⟨_, hp⟩
  · rw [hp] at hpre
    cases hpo : preambleOf front mi.after with
    | error x => rw [hpo] at hpre; cases hpre
    | ok pb =>
      rw [hpo] at hpre
      rw [← Except.ok.inj hpre] at hb
      rcases List.mem_cons.mp hb with rfl | hb
      · obtain ⟨s, rfl⟩ := preambleOf_shape hpo
        rcases hx.cases with rfl | ⟨z, hz, hx⟩
        · exact levels_none fun ⟨_, _, _, _, _, h⟩ => nomatch h
        · exact hl z (List.mem_append_left _ hz) x hx
      · exact hl b (List.mem_append_right _ hb) x hx
  · rw [hp] at hpre
    rw [← Except.ok.inj hpre] at hb
    exact hl b hb x hx

end Adoc
