import Verif.Lemmas.Outline
import Verif.Lemmas.Station
/-!
# Documents written from an outline: one block

Each form of block and heading, read behind any number of empty lines.
-/

namespace Adoc
open Span Spec Props

variable [Uni]

/-! ### Lines that begin a block -/

/-- A line that is not blank, not metadata, no attribute entry, not indented, and that does not look like the heading of an
unsupported level. -/
structure Opens (l : Text) : Prop where
  nonblank : l.all isBlank = false
  colon : l.head? ≠ some ':'
  title : ¬ ∃ t, l = '.' :: t ∧ t.head? ≠ some '.' ∧ t.head? ≠ some ' ' ∧ t.head? ≠ some '\t'
  bracket : ¬ ∃ a, l = '[' :: a ++ [']']
  indent : ¬ Indented l
  mark : ¬ ∃ n, (n = 1 ∨ 6 < n) ∧ Marks n l

omit [Uni] in
theorem begins_opens {l : Text} (h : Begins l) : Opens l := by
  obtain ⟨h1, h2, h3, h4⟩ := begins_head h
  exact ⟨h1, h2, h.title, h.bracket, fun hi => hi.elim h3 h4, h.mark⟩

omit [Uni] in
theorem no_marks {c : Char} {r : Text} (h1 : c ≠ '=') (h2 : c ≠ '#') : ¬ ∃ n, (n = 1 ∨ 6 < n) ∧ Marks n (c :: r) := by
  rintro ⟨n, hn, m, rest, hm, e, _⟩
  cases n with
  | zero => omega
  | succ n =>
    rw [List.replicate_succ] at e
    cases e
    rcases hm with rfl | rfl
    · exact h1 rfl
    · exact h2 rfl

omit [Uni] in
theorem opens_of {c : Char} {r : Text} (hb : isBlank c = false) (hc : c ≠ ':') (h1 : c ≠ '=') (h2 : c ≠ '#')
    (h3 : c ≠ '.' ∨ r.head? = some '.') (h4 : c ≠ '[') : Opens (c :: r) where
  nonblank := by simp [hb]
  colon := by simpa using hc
  title := by
    rintro ⟨t, e, h, _⟩
    cases e
    rcases h3 with h3 | h3
    · exact h3 rfl
    · exact h h3
  bracket := by rintro ⟨a, e⟩; cases e; exact h4 rfl
  indent := by
    rintro (h | h) <;> (simp only [List.head?_cons, Option.some.injEq] at h; subst h; revert hb; decide)
  mark := no_marks h1 h2

omit [Uni] in
theorem opens_raw {c : Char} {d : Text} (h : RawDelim c d) : Opens d ∧ ∃ r, d = c :: r ∧ isMarker c = true := by
  obtain ⟨hc, n, rfl⟩ := h
  refine ⟨?_, _, List.replicate_succ, ?_⟩
  · rw [List.replicate_succ, List.replicate_succ]
    rcases hc with rfl | rfl | rfl | rfl <;> exact opens_of (by decide) (by decide) (by decide) (by decide) (by simp) (by decide)
  · rcases hc with rfl | rfl | rfl | rfl <;> decide

omit [Uni] in
theorem opens_brk {l : Text} {ty : BreakType} (h : BreakLine l ty) : Opens l ∧ ∃ c r, l = c :: r ∧ isMarker c = true := by
  cases ty with
  | thematic =>
    obtain ⟨x, hx, rfl⟩ := h
    simp only [List.mem_cons, List.not_mem_nil, or_false] at hx
    rcases hx with rfl | rfl | rfl | rfl | rfl <;>
      exact ⟨opens_of (by decide) (by decide) (by decide) (by decide) (by decide) (by decide), _, _, rfl, by decide⟩
  | page =>
    cases h
    exact ⟨opens_of (by decide) (by decide) (by decide) (by decide) (by decide) (by decide), _, _, rfl, by decide⟩

omit [Uni] in
theorem opens_compound {context d : Text} (h : CompoundLine d context) (h6 : ¬ ∃ n, 6 < n ∧ Marks n d) :
    Opens d ∧ ∃ c r, d = c :: r ∧ isMarker c = true := by
  rcases h with ⟨rfl, _⟩ | ⟨n, ⟨rfl, _⟩ | ⟨rfl, _⟩ | ⟨rfl, _⟩⟩
  · exact ⟨opens_of (by decide) (by decide) (by decide) (by decide) (by decide) (by decide), _, _, rfl, by decide⟩
  · refine ⟨⟨?_, ?_, ?_, ?_, ?_, ?_⟩, _, _, List.replicate_succ, by decide⟩
    · rw [List.replicate_succ, List.all_cons]; rfl
    · rw [List.replicate_succ]; simp
    · rw [List.replicate_succ]; rintro ⟨t, e, _⟩; cases e
    · rw [List.replicate_succ]; rintro ⟨t, e⟩; cases e
    · rw [List.replicate_succ]; simp [Indented]
    · rintro ⟨k, rfl | hk, hm⟩
      · have := (marks_iff (Nat.le_refl 1)).mp hm
        have h4 : Marks (n + 4) (List.replicate (n + 4) '=') := ⟨'=', [], Or.inl rfl, by simp, by simp⟩
        have := (marks_iff (by omega)).mp h4
        omega
      · exact h6 ⟨k, hk, hm⟩
  · rw [List.replicate_succ]
    exact ⟨opens_of (by decide) (by decide) (by decide) (by decide) (Or.inl (by decide)) (by decide), _, _, rfl, by decide⟩
  · rw [List.replicate_succ]
    exact ⟨opens_of (by decide) (by decide) (by decide) (by decide) (Or.inl (by decide)) (by decide), _, _, rfl, by decide⟩

omit [Uni] in
theorem opens_heading {n : Nat} {t l : Text} (h : Heading n t l) : Opens l ∧ ∃ c r, l = c :: r ∧ isMarker c = true ∧
    (c = '=' ∨ c = '#') := by
  obtain ⟨_, hk, hi, _⟩ := heading_marks h
  obtain ⟨h1, h2, m, gap, hm, _, _, _, rfl⟩ := h
  rw [List.replicate_succ, List.cons_append, List.cons_append] at *
  refine ⟨⟨?_, ?_, ?_, ?_, hi, ?_⟩, _, _, rfl, by rcases hm with rfl | rfl <;> decide, hm⟩
  · rcases hm with rfl | rfl <;> (rw [List.all_cons]; rfl)
  · rcases hm with rfl | rfl <;> simp
  · rcases hm with rfl | rfl <;> (rintro ⟨t, e, _⟩; cases e)
  · rcases hm with rfl | rfl <;> (rintro ⟨t, e⟩; cases e)
  · rintro ⟨k, hk', hM⟩
    have := (marks_iff (by omega)).mp hM
    omega

/-! ### Steps -/

/-- A block behind empty lines that begins with a mark. -/
theorem marked_step {e : BlockEnv} {nested : Nested} {p : ParserState} {s : Span} {k : Nat} {l : Text} {r : List Text}
    (hk : lines s.data = List.replicate k [] ++ l :: r) (ho : Opens l) (hm : ∃ c r, l = c :: r ∧ isMarker c = true) :
    parseBlock e nested p s = parseBehind e nested p ⟨{}, s.discardEmptyLines, s.discardEmptyLines⟩ ∧
    lines s.discardEmptyLines.data = l :: r ∧ s.discardEmptyLines.takeNormalizedLine.item.data = l ∧
    ∀ subs store, BlockMetadata.parse subs store s = .ok (⟨{}, s.discardEmptyLines, s.discardEmptyLines⟩, []) := by
  obtain ⟨g1, g2, g3⟩ := behind_blanks hk ho.nonblank
  refine ⟨?_, g1, g2, fun subs store => meta_absent subs store g2 ho.title ho.bracket⟩
  obtain ⟨c, r', hc, hm⟩ := hm
  refine parse_ahead g2 ?_ ?_ ho.title ho.bracket
  · rcases g3 with ⟨_, h⟩ | ⟨r', h⟩
    · rw [h] at g2; exact fast_marked (g2.trans hc) hm
    · exact fast_blank h
  · rcases g3 with ⟨_, h⟩ | ⟨r', h⟩
    · rw [h] at g2; rw [g2]; exact ho.colon
    · rw [(line_of h).1]; simp

/-- The loop over the metadata ends at a line that is not metadata. -/
theorem meta_end {subs : Subs} {store : AttrStore} {n : Nat} {st : MetaState} {l : Text}
    (hl : st.blockStart.takeNormalizedLine.item.data = l) (ho : Opens l) : metaLoop subs store (n + 1) st = .ok st := by
  have ht : maybeTitle st.blockStart = none := by
    cases h : maybeTitle st.blockStart with
    | none => rfl
    | some mi =>
      obtain ⟨⟨t, e, h⟩, _⟩ := (maybeTitle_iff _).mp h
      exact absurd ⟨t, hl.symm.trans e, h⟩ ho.title
  have ha : maybeBlockAnchor st.blockStart = (none, []) := by
    refine (maybeBlockAnchor_spec _).2 fun a ha => ho.bracket ⟨'[' :: a ++ [']'], ?_⟩
    rw [← hl, ha]; simp
  have hb : maybeAttrlistLine subs store st.blockStart = .ok none :=
    (maybeAttrlistLine_spec _ subs store).2 fun a ha => absurd ⟨a, hl.symm.trans ha⟩ ho.bracket
  have hs : anchorStep st = (false, st) := by
    unfold anchorStep
    split
    · simp only [ha, List.append_nil]
    · rfl
  have : metaStep subs store st = .ok (false, st) := by
    unfold metaStep
    simp only [ht, ite_self, hs, hb, bind, Except.bind]
  rw [metaLoop]
  simp only [this, bind, Except.bind, Bool.false_eq_true, if_false]

/-- A title. -/
theorem meta_title {subs : Subs} {store : AttrStore} {n : Nat} {st : MetaState} {s0 : Span} {t : Text}
    (h0 : st.blockStart = s0) (hl : s0.takeNormalizedLine.item.data = '.' :: t) (h1 : t.head? ≠ some '.') (h2 : t.head? ≠ some ' ')
    (h3 : t.head? ≠ some '\t') (hn : st.titleSource = none) :
    ∃ sp, sp.data = t ∧ metaLoop subs store (n + 1) st =
      metaLoop subs store n { st with titleSource := some sp, blockStart := s0.takeLine.after } := by
  subst h0
  have ht := (maybeTitle_iff st.blockStart
    (m := ⟨st.blockStart.takeNormalizedLine.item.dropN 1, st.blockStart.takeLine.after⟩)).mpr ⟨⟨t, hl, h1, h2, h3⟩, rfl⟩
  refine ⟨st.blockStart.takeNormalizedLine.item.dropN 1, by rw [dropN_data, hl]; rfl, ?_⟩
  rw [metaLoop]
  unfold metaStep
  simp only [hn, Option.isNone_none, if_true, ht, bind, Except.bind]

/-- Attributes. -/
theorem meta_attrs {subs : Subs} {store : AttrStore} {n : Nat} {st : MetaState} {s0 : Span} {a : Text}
    (h0 : st.blockStart = s0) (hl : s0.takeNormalizedLine.item.data = '[' :: a ++ [']']) (h1 : a.head? ≠ some ' ') (h2 : a.head? ≠ some '\t')
    (h3 : ∀ r, a ≠ '[' :: r ++ [']']) (hn : st.attrlist = none) :
    ∃ sp, sp.data = a ∧ ∀ al ws, Attrlist.parse (subs store .normal none) store sp .block = .ok (al, ws) →
      metaLoop subs store (n + 1) st = metaLoop subs store n
        { st with attrlist := some al, blockStart := s0.takeLine.after, warnings := st.warnings ++ ws } := by
  subst h0
  have ht : maybeTitle st.blockStart = none := by
    cases h : maybeTitle st.blockStart with
    | none => rfl
    | some mi =>
      obtain ⟨⟨t, e, h⟩, _⟩ := (maybeTitle_iff _).mp h
      rw [hl] at e; cases e
  have ha : maybeBlockAnchor st.blockStart = (none, []) := by
    refine (maybeBlockAnchor_spec _).2 fun r ha => h3 r ?_
    rw [hl] at ha
    have : a ++ [']'] = ('[' :: r ++ [']']) ++ [']'] := by simpa using ha
    exact List.append_cancel_right this
  obtain ⟨sp, _, e1, _, e2⟩ := (maybeAttrlistLine_spec _ subs store).1 a hl h1 h2 h3
  refine ⟨sp, e1, fun al ws hp => ?_⟩
  rw [hp] at e2
  have hs : anchorStep st = (false, st) := by
    unfold anchorStep
    split
    · simp only [ha, List.append_nil]
    · rfl
  rw [metaLoop]
  unfold metaStep
  simp only [ht, ite_self, hs, e2, hn, Option.isNone_none, if_true, bind, Except.bind, Except.map]

omit [Uni] in
theorem firstComma_det : ∀ {x y x' y' : Text}, ',' ∉ x → ',' ∉ x' → x ++ ',' :: y = x' ++ ',' :: y' → x = x' ∧ y = y'
  | [], _, [], _, _, _, e => ⟨rfl, (List.cons.inj e).2⟩
  | [], _, _ :: _, _, _, h', e => absurd (by rw [(List.cons.inj e).1]; exact List.mem_cons_self) h'
  | _ :: _, _, [], _, h, _, e => absurd (by rw [(List.cons.inj e).1]; exact List.mem_cons_self) h
  | c :: x, _, c' :: x', _, h, h', e => by
    obtain ⟨e1, e2⟩ := List.cons.inj e
    obtain ⟨e3, e4⟩ := firstComma_det (fun k => h (.tail _ k)) (fun k => h' (.tail _ k)) e2
    exact ⟨by rw [e1, e3], e4⟩

/-- An anchor. -/
theorem meta_anchor {subs : Subs} {store : AttrStore} {n : Nat} {st : MetaState} {s0 : Span} {a : BlockAnchor}
    (h0 : st.blockStart = s0) (hl : s0.takeNormalizedLine.item.data = '[' :: '[' :: a.inside ++ [']', ']']) (h1 : ',' ∉ a.id)
    (h2 : XmlName a.id) (h3 : a.reftext ≠ some []) (hn : st.anchor = none) :
    ∃ (sp : Span) (t : Option Span), sp.data = a.id ∧ t.map Span.data = a.reftext ∧ metaLoop subs store (n + 1) st =
      metaLoop subs store n { st with anchor := some sp, reftext := t.or st.reftext, blockStart := s0.takeLine.after } := by
  subst h0
  have ht : maybeTitle st.blockStart = none := by
    cases h : maybeTitle st.blockStart with
    | none => rfl
    | some mi =>
      obtain ⟨⟨t, e, h⟩, _⟩ := (maybeTitle_iff _).mp h
      rw [hl] at e; cases e
  obtain ⟨sp, _, e1, _, e2⟩ := (maybeBlockAnchor_spec st.blockStart).1 a.inside hl
  obtain ⟨id, reftext⟩ := a
  dsimp only at h1 h2 h3
  have hne : BlockAnchor.inside ⟨id, reftext⟩ ≠ [] := by obtain ⟨c, cs, rfl, _⟩ := h2; exact List.cons_ne_nil _ _
  rw [if_neg hne] at e2
  have hsp : ∃ (i : Span) (t : Option Span), splitAnchor sp = (i, t) ∧ i.data = id ∧ t.map Span.data = reftext := by
    rcases splitAnchor_spec sp with ⟨x, y, e, hc, hy, hs⟩ | ⟨hno, e⟩
    · rw [e1] at e
      cases reftext with
      | none =>
        rw [BlockAnchor.inside, List.append_nil] at e
        exact absurd (show ',' ∈ id from (show id = _ from e) ▸ by simp) h1
      | some t =>
        obtain ⟨rfl, rfl⟩ := firstComma_det h1 hc e
        have hd : sp.data = id ++ ',' :: t := e1
        refine ⟨_, _, hs, ?_, ?_⟩
        · rw [takeN_data, hd, List.take_left]
        · rw [Option.map_some, dropN_data, hd, List.append_cons, List.drop_left' (by simp)]
    · cases reftext with
      | none => exact ⟨_, _, e, e1.trans (List.append_nil _), rfl⟩
      | some t => exact absurd (congrArg some (hno id t e1 h1)) h3
  obtain ⟨sp', t, hsp, e3, e4⟩ := hsp
  have hx : sp'.isXmlName = true := (isXmlName_iff _).mpr (by rw [e3]; exact h2)
  refine ⟨sp', t, e3, e4, ?_⟩
  have hs : anchorStep st = (true, { st with anchor := some sp', reftext := t.or st.reftext, blockStart := st.blockStart.takeLine.after }) := by
    unfold anchorStep
    simp only [hn, Option.isNone_none, if_true, e2, hsp, hx, List.append_nil]
  rw [metaLoop]
  unfold metaStep
  simp only [ht, ite_self, hs, bind, Except.bind, if_true]

theorem meta_done {subs : Subs} {store : AttrStore} {s : Span} {st : MetaState} {title : Option Text}
    (h : metaLoop subs store 4 { blockStart := s.discardEmptyLines } = .ok st)
    (ht : st.titleSource.mapM (fun s => subs store .normal none s.data) = .ok title) :
    BlockMetadata.parse subs store s =
      .ok (⟨⟨st.titleSource, title, st.anchor, st.reftext, st.attrlist⟩, s.discardEmptyLines, st.blockStart⟩, st.warnings) := by
  unfold BlockMetadata.parse
  simp only [bind, Except.bind, h, ht]

/-- What is read of what stands above a block. -/
def Labelled (subs : Subs) (store : AttrStore) (Q : Text → Text → Prop) (Q' : List ElemAttr → Attrlist → List Warning → Prop)
    (s : Span) (label : Label) (ls : List Text) : Prop :=
  ∃ m mw, BlockMetadata.parse subs store s = .ok (m, mw) ∧ lines m.blockStart.data = ls ∧ LineSuf m.blockStart s ∧
    Suf m.blockStart m.source ∧ ∃ ts tr i t x, m.fields = ⟨ts, tr, i, t, x.map Prod.fst⟩ ∧ mw = (x.map Prod.snd).getD [] ∧
      ts.isSome = label.title.isSome ∧ Option.Rel Q label.title tr ∧ i.map Span.data = label.anchorId ∧ t.map Span.data = label.reftext ∧
      Option.Rel (fun as x => Q' as x.1 x.2) label.attrs x

section
attribute [local irreducible] metaLoop BlockMetadata.parse Span.takeLine Span.takeNormalizedLine Span.discardEmptyLines
  Attrlist.parse lines
variable {R : Rendering} {subs : Subs} {store : AttrStore} {Q : Text → Text → Prop}
  {Q' : List ElemAttr → Attrlist → List Warning → Prop} {s : Span} {l : Text} {r : List Text}

private theorem labels_loop (hT : ∀ t r, R.text none .normal t r → R.ahead t → ∃ r', subs store .normal none t = .ok r' ∧ Q r r')
    (hA : ∀ a as, R.attrs a as → ∀ source : Span, source.data = a →
      ∃ al ws, Attrlist.parse (subs store .normal none) store source .block = .ok (al, ws) ∧ Q' as al ws)
    (hN : ∀ i, R.name i → XmlName i) (ho : Opens l) {label : Label} {mls : List Text} (hm : LabelLines R label mls) :
    ∀ (n : Nat) (st : MetaState), (label.title.isSome → st.titleSource = none) → (label.attrs.isSome → st.attrlist = none) →
      (label.anchor.isSome → st.anchor = none) → lines st.blockStart.data = mls ++ l :: r → mls.length < n →
      ∃ (s' : Span) (ts : Option Span) (tr : Option Text) (i t : Option Span) (x : Option (Attrlist × List Warning)),
        lines s'.data = l :: r ∧ LineSuf s' st.blockStart ∧ Suf s' st.blockStart ∧
        ts.isSome = label.title.isSome ∧ (ts.mapM fun s => subs store .normal none s.data) = .ok tr ∧
        Option.Rel Q label.title tr ∧ i.map Span.data = label.anchorId ∧ t.map Span.data = label.reftext ∧
        Option.Rel (fun as x => Q' as x.1 x.2) label.attrs x ∧
        metaLoop subs store n st = .ok ⟨ts.or st.titleSource, i.or st.anchor, t.or st.reftext, (x.map Prod.fst).or st.attrlist, s',
          st.warnings ++ (x.map Prod.snd).getD []⟩ := by
  induction hm with
  | nil =>
    intro n st _ _ _ hl hn
    cases n with
    | zero => omega
    | succ n =>
    refine ⟨st.blockStart, none, none, none, none, none, hl, LineSuf.refl _, Suf.refl _, rfl, rfl, .none, rfl, rfl, .none, ?_⟩
    rw [meta_end (line_of hl).1 ho]
    simp
  | @title l0 tr attrs anchor ls h _ ih =>
    intro n st h1 h2 h3 hl hn
    cases n with
    | zero => omega
    | succ n =>
    obtain ⟨t, rfl, t1, t2, t3, t4, t5⟩ := h
    obtain ⟨r', hr, hq⟩ := hT t tr t4 t5
    rw [List.cons_append] at hl
    obtain ⟨g1, g2⟩ := line_of hl
    obtain ⟨sp, hsp, hlp⟩ := meta_title (subs := subs) (store := store) (n := n) (st := st) rfl g1 t1 t2 t3 (h1 rfl)
    obtain ⟨s', ts, tr', i, y, x, e1, e2, e3, e4, e5, e6, e7, e7', e8, e9⟩ := ih n
      { st with titleSource := some sp, blockStart := st.blockStart.takeLine.after } nofun h2 h3 g2
      (by simpa using hn)
    have : ts = none := by cases ts with | none => rfl | some _ => cases e4
    subst this
    refine ⟨s', some sp, some r', i, y, x, e1, e2.trans (takeLine_lineSuf _), e3.trans (takeLine_after_suf _), rfl, ?_, .some hq,
      e7, e7', e8, ?_⟩
    · rw [Option.mapM_some, hsp, hr]; rfl
    · exact hlp.trans e9
  | @attrs l0 as title anchor ls h _ ih =>
    intro n st h1 h2 h3 hl hn
    cases n with
    | zero => omega
    | succ n =>
    obtain ⟨a, rfl, a1, a2, a3, a4⟩ := h
    rw [List.cons_append] at hl
    obtain ⟨g1, g2⟩ := line_of hl
    obtain ⟨sp, hsp, hlp⟩ := meta_attrs (subs := subs) (store := store) (n := n) (st := st) rfl g1 a1 a2 a3 (h2 rfl)
    obtain ⟨al, ws, hp, hq⟩ := hA a as a4 sp hsp
    obtain ⟨s', ts, tr', i, y, x, e1, e2, e3, e4, e5, e6, e7, e7', e8, e9⟩ := ih n
      { st with attrlist := some al, blockStart := st.blockStart.takeLine.after, warnings := st.warnings ++ ws } h1 nofun h3 g2
      (by simpa using hn)
    cases e8
    refine ⟨s', ts, tr', i, y, some (al, ws), e1, e2.trans (takeLine_lineSuf _), e3.trans (takeLine_after_suf _), e4, e5, e6, e7,
      e7', .some hq, ?_⟩
    rw [hlp al ws hp, e9]
    simp
  | @anchor l0 i title attrs ls h _ ih =>
    intro n st h1 h2 h3 hl hn
    cases n with
    | zero => omega
    | succ n =>
    obtain ⟨rfl, i1, i2, i3⟩ := h
    rw [List.cons_append] at hl
    obtain ⟨g1, g2⟩ := line_of hl
    obtain ⟨sp, t, hsp, htx, hlp⟩ := meta_anchor (subs := subs) (store := store) (n := n) (st := st) rfl g1 i1 (hN _ i2) i3 (h3 rfl)
    obtain ⟨s', ts, tr', i', t', x, e1, e2, e3, e4, e5, e6, e7, e7', e8, e9⟩ := ih n
      { st with anchor := some sp, reftext := t.or st.reftext, blockStart := st.blockStart.takeLine.after } h1 h2 nofun g2
      (by simpa using hn)
    have : i' = none := by cases i' with | none => rfl | some _ => cases e7
    subst this
    have : t' = none := by cases t' with | none => rfl | some _ => cases e7'
    subst this
    refine ⟨s', ts, tr', some sp, t, x, e1, e2.trans (takeLine_lineSuf _), e3.trans (takeLine_after_suf _), e4, e5, e6,
      congrArg some hsp, htx, e8, ?_⟩
    exact hlp.trans e9

omit [Uni] in
theorem labels_few {label : Label} {mls : List Text} (h : LabelLines R label mls) :
    mls.length = label.title.toList.length + label.attrs.toList.length + label.anchor.toList.length := by
  induction h with
  | nil => rfl
  | title _ _ ih => simp at ih ⊢; omega
  | attrs _ _ ih => simp at ih ⊢; omega
  | anchor _ _ ih => simp at ih ⊢; omega

omit [Uni] in
theorem labels_first {label : Label} {mls : List Text} (h : LabelLines R label mls) :
    mls = [] ∨ ∃ c r ls, mls = (c :: r) :: ls ∧ (c = '.' ∨ c = '[') := by
  induction h with
  | nil => exact Or.inl rfl
  | title h _ => obtain ⟨t, rfl, _⟩ := h; exact Or.inr ⟨_, _, _, rfl, Or.inl rfl⟩
  | attrs h _ => obtain ⟨a, rfl, _⟩ := h; exact Or.inr ⟨_, _, _, rfl, Or.inr rfl⟩
  | anchor h _ => obtain ⟨rfl, _⟩ := h; exact Or.inr ⟨_, _, _, rfl, Or.inr rfl⟩

/-- What stands in front of a line that is not metadata. -/
theorem meta_labels (hT : ∀ t r, R.text none .normal t r → R.ahead t → ∃ r', subs store .normal none t = .ok r' ∧ Q r r')
    (hA : ∀ a as, R.attrs a as → ∀ source : Span, source.data = a →
      ∃ al ws, Attrlist.parse (subs store .normal none) store source .block = .ok (al, ws) ∧ Q' as al ws)
    (hN : ∀ i, R.name i → XmlName i) {k : Nat} {label : Label} {mls : List Text}
    (hm : LabelLines R label mls) (hk : lines s.data = List.replicate k [] ++ (mls ++ l :: r)) (ho : Opens l) :
    Labelled subs store Q Q' s label (l :: r) := by
  have g1 : lines s.discardEmptyLines.data = mls ++ l :: r := by
    rcases labels_first hm with rfl | ⟨c, r', ls, rfl, hc⟩
    · exact (behind_blanks (l := l) (r := r) hk ho.nonblank).1
    · rw [List.cons_append] at hk
      exact (behind_blanks hk (by rcases hc with rfl | rfl <;> (rw [List.all_cons]; rfl))).1
  have hlen : mls.length < 4 := by
    rw [labels_few hm]
    have : ∀ {α : Type} (o : Option α), o.toList.length ≤ 1 := fun o => by cases o <;> simp
    have a := this label.title
    have b := this label.attrs
    have c := this label.anchor
    omega
  obtain ⟨s', ts, tr, i, t, x, e1, e2, e3, e4, e5, e6, e7, e7', e8, e9⟩ := labels_loop hT hA hN ho hm 4
    { blockStart := s.discardEmptyLines } (fun _ => rfl) (fun _ => rfl) (fun _ => rfl) g1 hlen
  simp only [Option.or_none, List.nil_append] at e9
  have hd := meta_done (title := tr) e9 e5
  exact ⟨_, _, hd, e1, e2.trans (discardEmptyLines_lineSuf s), e3, ts, tr, i, t, x, rfl, rfl, e4, e6, e7, e7', e8⟩

end

/-- A block behind empty lines and what stands above it. -/
theorem labelled_step {e : BlockEnv} {p : ParserState} {s : Span} {k : Nat} {label : Label}
    {l : Text} {mls r : List Text} (hm : LabelLines (renders e p.store) label mls) (hne : mls ≠ [])
    (hk : lines s.data = List.replicate k [] ++ (mls ++ l :: r)) (ho : Opens l) :
    ∃ m ts i t source, m.fields = ⟨ts, label.title, i, t, label.attrs.map (attrlistOf · source)⟩ ∧
      ts.isSome = label.title.isSome ∧ i.map Span.data = label.anchorId ∧ t.map Span.data = label.reftext ∧
      Fronted e p s m label.attrs (l :: r) ∧ ∀ nested, parseBlock e nested p s = parseLabelled e nested p m := by
  have hfirst := labels_first hm
  rcases hfirst with h | ⟨c, r0, ls0, hfirst, hc⟩
  · exact absurd h hne
  obtain ⟨m, mw, hp, hb, hsuf, hsource, ts, tr, i, t, x, hf, hw, hts, hQ, hi, hti, hQ'⟩ := meta_labels (R := renders e p.store) (subs := e.subs)
    (store := p.store) (Q := fun r r' => r = r') (Q' := fun as al ws => (∃ source, al = attrlistOf as source) ∧ ws = [])
    (fun t r h _ => ⟨r, h s, rfl⟩)
    (fun a as h source hs => ⟨_, _, (h source hs).1, ⟨source, rfl⟩, rfl⟩) (fun _ h => h) hm hk ho
  obtain ⟨title, attrs, anchor⟩ := label
  have htr : tr = title := by cases hQ with
    | none => rfl
    | some h => rw [h]
  have hx : (∃ source, x.map Prod.fst = attrs.map (attrlistOf · source)) ∧ mw = [] := by
    cases hQ' with
    | none => exact ⟨⟨s, rfl⟩, hw⟩
    | some h =>
      obtain ⟨⟨source, h1⟩, h2⟩ := h
      exact ⟨⟨source, by rw [Option.map_some, Option.map_some, h1]⟩, by rw [hw]; exact h2⟩
  obtain ⟨⟨source, hx⟩, rfl⟩ := hx
  subst htr
  rw [hx] at hf
  refine ⟨m, ts, i, t, source, hf, hts, hi, hti, ⟨hp, ⟨source, by rw [hf]⟩, hb, hsuf, hsource⟩, fun nested => ?_⟩
  rw [hfirst, List.cons_append] at hk
  have hnb : (c :: r0).all isBlank = false := by rcases hc with rfl | rfl <;> (rw [List.all_cons]; rfl)
  obtain ⟨_, g2, g3⟩ := behind_blanks hk hnb
  have hfp : fastPath e p s = .ok none := by
    rcases g3 with ⟨_, h⟩ | ⟨r', h⟩
    · rw [h] at g2; exact fast_marked g2 (by rcases hc with rfl | rfl <;> decide)
    · exact fast_blank h
  have he : s.takeNormalizedLine.item.data.head? ≠ some ':' := by
    rcases g3 with ⟨_, h⟩ | ⟨r', h⟩
    · rw [h] at g2; rw [g2]; rcases hc with rfl | rfl <;> simp
    · rw [(line_of h).1]; simp
  unfold parseBlock
  simp only [bind, Except.bind, hfp, entry_none he, hp]
  unfold parseLabelled
  split
  · generalize parseSimple e p m true = q
    cases q <;> rfl
  · generalize parseBehind e nested p m = q
    cases q <;> rfl

omit [Uni] in
theorem split_unique {d : Text} {a b a' b' : List Text} (h : a ++ d :: b = a' ++ d :: b') (h1 : d ∉ a) (h2 : d ∉ a') :
    a = a' ∧ b = b' := by
  induction a generalizing a' with
  | nil =>
    cases a' with
    | nil => cases h; exact ⟨rfl, rfl⟩
    | cons x a' => cases h; exact absurd (by simp) h2
  | cons x a ih =>
    cases a' with
    | nil => cases h; exact absurd (by simp) h1
    | cons y a' =>
      rw [List.cons_append, List.cons_append, List.cons.injEq] at h
      obtain ⟨rfl, h⟩ := h
      obtain ⟨rfl, rfl⟩ := ih h (fun hm => h1 (List.mem_cons_of_mem _ hm)) (fun hm => h2 (List.mem_cons_of_mem _ hm))
      exact ⟨rfl, rfl⟩

theorem brk_step {e : BlockEnv} {nested : Nested} {p : ParserState} {s : Span} {m : BlockMetadata}
    {as : Option (List ElemAttr)} {l : Text} {ty : BreakType} {rest : List Text} (hA : Fronted e p s m as (l :: rest)) (hb : BreakLine l ty) :
    ∃ src after, parseBehind e nested p m = .ok (some ⟨.mk (.brk ty) src { m.fields with anchorReftext := none } [], after⟩, [], p) ∧
      lines after.data = rest.dropWhile (·.all isBlank) ∧ LineSuf after s := by
  obtain ⟨ho, hmk⟩ := opens_brk hb
  have hm := hA.parsed
  have h3 := (line_of hA.behind).1
  have hline : m.line = l := h3
  have hf : LineForm m.line (.brk ty) := by rw [hline]; exact .brk hb
  obtain ⟨n1, n2⟩ := no_delimiter hm hf nofun nofun
  have nh : ¬ ∃ n t, Heading n t m.line := by
    rintro ⟨n, t, h⟩
    cases lineForm_unique hf (.heading h)
  have hat : breakAt m = Break.parse m := by
    unfold breakAt
    rw [if_pos]
    rw [hline]
    cases ty with
    | thematic =>
      obtain ⟨x, hx, rfl⟩ := hb
      simp only [List.mem_cons, List.not_mem_nil, or_false] at hx
      rcases hx with rfl | rfl | rfl | rfl | rfl <;> decide
    | page => cases hb; decide
  have hpb : ∃ src, Break.parse m = .ok (some ⟨(ty, src), m.blockStart.takeNormalizedLine.after.discardEmptyLines⟩) := by
    cases hq : Break.parse m with
    | error x => exact absurd (hat.trans hq) (noBreakError hm)
    | ok q =>
      unfold Break.parse at hq
      simp only [h3, breakType_iff.mpr hb, bind, Except.bind] at hq
      cases hs : m.source.trimRemainder? m.blockStart.takeNormalizedLine.after with
      | none => rw [hs] at hq; cases hq
      | some src =>
        rw [hs] at hq
        simp only [Res.ofOption] at hq
        cases ht : trimmedLength src with
        | error x => rw [ht] at hq; cases hq
        | ok src' => rw [ht] at hq; cases hq; exact ⟨_, rfl⟩
  obtain ⟨src, hpb⟩ := hpb
  refine ⟨src, m.blockStart.takeNormalizedLine.after.discardEmptyLines, ?_, ?_, ?_⟩
  · unfold parseBehind
    simp only [bind, Except.bind, n1, n2, no_media hm hf nofun,
      no_section (e := e) (nested := nested) (p := p) (m := m) nh (by rw [hline]; exact ho.mark), hat, hpb]
  · rw [lines_discardEmptyLines, normLine_after, (line_of hA.behind).2]
  · exact (discardEmptyLines_lineSuf _).trans ((takeLine_lineSuf _).trans hA.suf)

omit [Uni] in
theorem opens_media {l target a : Text} {ty : MediaType} (h : MediaLine l ty target a) : Opens l := by
  obtain ⟨rfl, _⟩ := h
  cases ty
  · rw [show (macroName .image).toList = 'i' :: "mage".toList by decide]
    exact opens_of (by decide) (by decide) (by decide) (by decide) (Or.inl (by decide)) (by decide)
  · rw [show (macroName .video).toList = 'v' :: "ideo".toList by decide]
    exact opens_of (by decide) (by decide) (by decide) (by decide) (Or.inl (by decide)) (by decide)
  · rw [show (macroName .audio).toList = 'a' :: "udio".toList by decide]
    exact opens_of (by decide) (by decide) (by decide) (by decide) (Or.inl (by decide)) (by decide)

/-- A macro without metadata. -/
theorem media_ahead {e : BlockEnv} {nested : Nested} {p : ParserState} {s : Span} {k : Nat} {l target a : Text} {ty : MediaType}
    {r : List Text} (hk : lines s.data = List.replicate k [] ++ l :: r) (hl : MediaLine l ty target a) :
    parseBlock e nested p s = parseBehind e nested p ⟨{}, s.discardEmptyLines, s.discardEmptyLines⟩ ∧
    lines s.discardEmptyLines.data = l :: r ∧
    ∀ subs store, BlockMetadata.parse subs store s = .ok (⟨{}, s.discardEmptyLines, s.discardEmptyLines⟩, []) := by
  have ho := opens_media hl
  obtain ⟨g1, g2, g3⟩ := behind_blanks hk ho.nonblank
  refine ⟨?_, g1, fun subs store => meta_absent subs store g2 ho.title ho.bracket⟩
  refine parse_ahead g2 ?_ ?_ ho.title ho.bracket
  · rcases g3 with ⟨_, h⟩ | ⟨r', h⟩
    · rw [h] at g2
      have : containsSub s.takeLine.item.data [':', ':'] = true := by
        rw [containsSub_iff]
        obtain ⟨w, hw, _⟩ := trimEndP_spec (· == ' ') s.takeLine.item.data
        rw [← normLine_item_data, g2, hl.1] at hw
        exact ⟨(macroName ty).toList, target ++ '[' :: a ++ [']'] ++ w, by rw [hw]; simp⟩
      unfold fastPath
      simp only [this]
      cases s.data.head? with
      | none => rfl
      | some c => simp
    · exact fast_blank h
  · rcases g3 with ⟨_, h⟩ | ⟨r', h⟩
    · rw [h] at g2; rw [g2]; exact ho.colon
    · rw [(line_of h).1]; simp

theorem media_step {e : BlockEnv} {nested : Nested} {p : ParserState} {s : Span} {m : BlockMetadata}
    {as : Option (List ElemAttr)} {l target a : Text} {ty : MediaType} {attrs : List ElemAttr} {rest : List Text}
    (hA : Fronted e p s m as (l :: rest)) (hl : MediaLine l ty target a) (hty : ty ≠ .audio)
    (ha : (renders e p.store).inner a attrs) :
    ∃ t source src after p' ws, t.data = target ∧
      parseBehind e nested p m = .ok (some ⟨.mk (.media ty t (attrlistOf attrs source)) src { m.fields with anchorReftext := none } [], after⟩, ws, p') ∧
      Led m.ids p p' ws ∧
      lines after.data = rest.dropWhile (·.all isBlank) ∧ LineSuf after s := by
  have hm := hA.parsed
  have hline : m.line = l := (line_of hA.behind).1
  have hf : LineForm m.line (.media ty target a) := by rw [hline]; exact .media hl hty
  obtain ⟨n1, n2⟩ := no_delimiter hm hf nofun nofun
  have hat : mediaAt e p m = MediaBlock.parse e.subs p.store m := by
    unfold mediaAt
    rw [if_pos]
    rw [hline, hl.1, Bool.or_eq_true]
    cases ty with
    | image => exact Or.inl (startsWith_iff.mpr ⟨target ++ '[' :: a ++ [']'], by
        rw [show "image::".toList = (macroName .image).toList ++ [':', ':'] by decide]; simp⟩)
    | video => exact Or.inr (startsWith_iff.mpr ⟨target ++ '[' :: a ++ [']'], by
        rw [show "video::".toList = (macroName .video).toList ++ [':', ':'] by decide]; simp⟩)
    | audio => exact absurd rfl hty
  cases hq : MediaBlock.parse e.subs p.store m with
  | error x => exact (media_error hm hq).elim
  | ok q =>
    cases q with
    | none => exact absurd hq (media_found (by rw [hline]; exact hl))
    | some q =>
      obtain ⟨⟨mb, after⟩, ws⟩ := q
      obtain ⟨g1, g2, g3⟩ := media_reads hq
      rw [hline] at g1
      obtain ⟨e1, e2, e3⟩ := mediaLine_det g1 hl
      have hp := ha mb.attrs.source e3
      rw [g2] at hp
      have hpair := Except.ok.inj hp
      rw [Prod.mk.injEq] at hpair
      obtain ⟨hattrs, rfl⟩ := hpair
      obtain ⟨p', ws, hreg, hled⟩ := hA.registered p mb.source
      have hreg : registerBlockId p { m.fields with anchorReftext := none } mb.source = (p', ws) := hreg
      refine ⟨mb.target, mb.attrs.source, mb.source, after, p', ws, e2, ?_, hled, ?_, ?_⟩
      · unfold parseBehind
        rw [hq] at hat
        simp only [bind, Except.bind, n1, n2, hat, hreg, List.nil_append, e1]
        rw [← hattrs]
      · rw [g3, lines_discardEmptyLines, normLine_after, (line_of hA.behind).2]
      · rw [g3]
        exact (discardEmptyLines_lineSuf _).trans ((takeLine_lineSuf _).trans hA.suf)

theorem raw_step {e : BlockEnv} {nested : Nested} {p : ParserState} {s : Span} {m : BlockMetadata}
    {as : Option (List ElemAttr)} {c : Char} {d : Text} {body rest : List Text} (hA : Fronted e p s m as (d :: body ++ d :: rest))
    (hd : RawDelim c d) (hb : d ∉ body) 
    (hv : ∀ raw t, lines raw = body → WithoutLineEnd raw t →
      ∃ r, ∀ source, e.subs p.store (chosen as (rawBlockKind c).2.2) (as.map (attrlistOf · source)) t = .ok r) :
    ∃ raw content src after p' ws, parseBehind e nested p m =
        .ok (some ⟨.mk (.raw content (rawBlockKind c).1 (rawBlockKind c).2.1 (chosen as (rawBlockKind c).2.2)) src m.fields [], after⟩, ws, p') ∧
      Led m.ids p p' ws ∧
      lines raw = body ∧ WithoutLineEnd raw content.original.data ∧
      (∀ source, e.subs p.store (chosen as (rawBlockKind c).2.2) (as.map (attrlistOf · source)) content.original.data = .ok content.rendered) ∧
      lines after.data = rest ∧ LineSuf after s := by
  have h2 := hA.behind
  have h3 := (line_of h2).1
  have hls0 := hA.suf
  rcases rawBlock_spec (subs := e.subs) (store := p.store) (m := m) h3 hd hA.source with
    ⟨pre, post, raw, bd, src, after, e1, e2, e3, e4, e5, e6, e7, _, _, e8⟩ | ⟨_, _, _, _, e1, e2, _⟩
  · have e1 : d :: body ++ d :: rest = d :: pre ++ d :: post := h2.symm.trans e1
    rw [List.cons_append, List.cons_append, List.cons.injEq] at e1
    obtain ⟨rfl, rfl⟩ := split_unique e1.2 hb e2
    have hbd : WithoutLineEnd raw bd.data := by
      have e3 : m.blockStart.takeLine.after.data = raw ++ _ := e3
      obtain ⟨k', _, hk1, hk2⟩ := trimTrailingLineEnd_spec (m.blockStart.takeLine.after.takeN raw.length)
      have hraw := takeN_prefix e3
      have e6 : bd = (m.blockStart.takeLine.after.takeN raw.length).trimTrailingLineEnd := e6
      rw [e6, hk1, takeN_data, hraw]
      rw [hraw] at hk2; exact hk2
    obtain ⟨r, hr⟩ := hv raw bd.data e5 hbd
    obtain ⟨source, hsource⟩ := hA.attrs
    have e8' : RawBlock.parse e.subs p.store m = _ := e8
    rw [hA.group, show e.subs p.store (chosen as (rawBlockKind c).2.2) m.fields.attrlist bd.data = .ok r by
      rw [hsource]; exact hr source] at e8'
    obtain ⟨p', ws, hreg, hled⟩ := hA.registered p src.trimTrailingLineEnd
    refine ⟨raw, ⟨bd, r⟩, src.trimTrailingLineEnd, after, p', ws, ?_, hled, e5, hbd, hr, ?_, ?_⟩
    · unfold parseBehind
      simp only [bind, Except.bind, e8', Except.map, hreg, List.nil_append]
    · rw [e7, lines_skip]
      show (lines m.blockStart.data).drop _ = _
      rw [h2]
      show (body ++ d :: rest).drop (body.length + 1) = rest
      rw [List.drop_append]; simp
    · rw [e7]; exact (skip_lineSuf _ _).trans hls0
  · have e1 : d :: body ++ d :: rest = d :: lines m.blockStart.takeLine.after.data := h2.symm.trans e1
    have e2 : d ∉ lines m.blockStart.takeLine.after.data := e2
    rw [List.cons_append, List.cons.injEq] at e1
    rw [← e1.2] at e2
    exact absurd (by simp) e2

theorem compound_step {e : BlockEnv} {p : ParserState} {s : Span} {m : BlockMetadata}
    {as : Option (List ElemAttr)} {context d : Text} {body rest : List Text} (hal : Aligned s) (hA : Fronted e p s m as (d :: body ++ d :: rest))
    (hd : CompoundLine d context) (h6 : ¬ ∃ n, 6 < n ∧ Marks n d) (hb : d ∉ body) :
    ∃ inside src after, lines inside.data = body ∧ Aligned inside ∧ lines after.data = rest ∧ LineSuf after s ∧
      ∀ nested maw, nested .never p inside = .ok maw → ∃ p' ws, Led m.ids maw.state p' ws ∧
        parseBehind e nested p m = .ok (some ⟨.mk (.compound context) src m.fields maw.blocks, after⟩, maw.warnings ++ ws, p') := by
  obtain ⟨ho, hmk⟩ := opens_compound hd h6
  have h2 := hA.behind
  have h3 := (line_of h2).1
  have hls0 := hA.suf
  have hX := (line_of h2).2
  obtain ⟨hkind, hdel⟩ := compoundLine_iff.mpr hd
  have nraw : RawBlock.parse e.subs p.store m = .ok none := by
    refine rawBlock_none ?_
    rintro ⟨c, hc⟩
    have hc : RawDelim c m.blockStart.takeNormalizedLine.item.data := hc
    rw [h3] at hc
    cases lineForm_unique (.verbatim hc) (.container hd)
  rcases findClosing_spec d m.blockStart.takeLine.after.data.length m.blockStart.takeLine.after (Nat.le_refl _) with
    ⟨j, pre, post, l, e1, e2, e3, e4, e5, e6⟩ | ⟨j, e1, e2, e3⟩
  · rw [hX] at e3
    obtain ⟨rfl, rfl⟩ := split_unique e3 hb e4
    obtain ⟨raw, r1, r2, r3, r4⟩ := trimRemainder?_skip m.blockStart.takeLine.after j
    have hoff : m.blockStart.takeLine.after.trimRemainder? l.item = some (m.blockStart.takeLine.after.takeN raw.length) := by
      rw [← r2]; apply trimRemainder?_offset; rw [e2, normLine_offset]
    have hcl : l.item.data = d := by
      rw [e2]
      have : lines (m.blockStart.takeLine.after.skip j).data = d :: rest := by rw [lines_skip, hX, e5]; simp
      exact (line_of this).1
    have hdne : d ≠ [] := by obtain ⟨c, r, rfl, _⟩ := hmk; simp
    have hsub : Sub l.item m.blockStart.takeLine.after := by
      rw [e2]; exact (normLine_item_sub _).trans (skip_suf _ _).sub
    obtain ⟨src, hs⟩ := trimRemainder?_ne_none (Sub.refl m.source)
      ((cut_misub l.item l.item.data.length).2.sub.trans (hsub.trans ((takeLine_after_suf m.blockStart).trans hA.source).sub))
    have hs : m.source.trimRemainder? l.item.discardAll = some src := hs
    refine ⟨m.blockStart.takeLine.after.takeN raw.length, src.trimTrailingWhitespace, l.after, ?_, ?_, ?_, ?_, ?_⟩
    · rw [takeN_prefix r1, r3, hX, e5]; simp
    · exact (hal.of_lineSuf ((takeLine_lineSuf _).trans hls0)).takeN _
    · rw [e2, normLine_after]
      have : lines (m.blockStart.takeLine.after.skip j).data = d :: rest := by rw [lines_skip, hX, e5]; simp
      exact (line_of this).2
    · rw [e2, normLine_after]
      exact (takeLine_lineSuf _).trans ((skip_lineSuf _ _).trans ((takeLine_lineSuf _).trans hls0))
    · intro nested maw hn
      have hp : parseCompound nested p m =
          .ok (some (⟨.mk (.compound context) src.trimTrailingWhitespace m.fields maw.blocks, l.after⟩, maw.warnings, maw.state)) := by
        unfold parseCompound
        simp only [h3, hkind, hdel, Bool.not_true, Bool.false_eq_true, if_false, normLine_after, e1, hoff, hs, bind,
          Except.bind, Res.ofOption, hn, hcl, if_neg hdne]
      obtain ⟨p', ws, hreg, hled⟩ := hA.registered maw.state src.trimTrailingWhitespace
      refine ⟨p', ws, hled, ?_⟩
      unfold parseBehind
      simp only [bind, Except.bind, nraw, hp, Block.source, hreg]
  · rw [hX] at e3
    exact absurd (by simp) e3

/-- What stands above a heading is read as its metadata. -/
theorem front_step {e : BlockEnv} {p : ParserState} {s : Span} {k : Nat} {label : Label} {l : Text} {mls r : List Text}
    (hm : LabelLines (renders e p.store) label mls) (hk : lines s.data = List.replicate k [] ++ (mls ++ l :: r)) (ho : Opens l)
    (hc : ∃ c r, l = c :: r ∧ isMarker c = true) (hst : styleOf label.attrs ≠ some "literal".toList) :
    ∃ m ts i t source, m.fields = ⟨ts, label.title, i, t, label.attrs.map (attrlistOf · source)⟩ ∧
      ts.isSome = label.title.isSome ∧ i.map Span.data = label.anchorId ∧ t.map Span.data = label.reftext ∧
      Fronted e p s m label.attrs (l :: r) ∧
      ∀ nested, parseBlock e nested p s = parseBehind e nested p m := by
  by_cases hne : mls = []
  · subst hne
    cases hm
    have h0 := fun nested => marked_step (e := e) (nested := nested) (p := p) hk ho hc
    obtain ⟨_, h2, _, h4⟩ := h0 (fun _ _ _ => .error .fuel)
    exact ⟨_, none, none, none, s, rfl, rfl, rfl, rfl, fronted_plain (h4 _ _) h2, fun nested => (h0 nested).1⟩
  · obtain ⟨m, ts, i, t, source, g1, g2, g3, g4, g5, g6⟩ := labelled_step hm hne hk ho
    exact ⟨m, ts, i, t, source, g1, g2, g3, g4, g5, fun nested => (g6 nested).trans (g5.behind_eq hst)⟩

theorem heading_step {e : BlockEnv} {p : ParserState} {store : AttrStore} {s : Span} {k n : Nat} {label : Label}
    {l title r : Text} {mls rest : List Text} (hl : HeadLines (renders e store) label mls)
    (hk : lines s.data = List.replicate k [] ++ (mls ++ l :: rest)) (hh : Heading n title l)
    {ty : SectionType} (hst : Still store ty p) (hlow : n = 1 → ty = .normal)
    (hr : (renders e store).text label.attrs .title title r) :
    ∃ p1 t after, Still store (typeOf n ty label.attrs) p1 ∧ lines after.data = rest ∧ LineSuf after s ∧
      ∀ nested maw, nested (.peer n n) p1 after = .ok maw →
        Suf maw.after after → Still store (typeOf n ty label.attrs) maw.state →
        ∃ src id number ts an at' source p2 dw, Still store ty p2 ∧ ts.isSome = label.title.isSome ∧ an.map Span.data = label.anchorId ∧
          at'.map Span.data = label.reftext ∧
          (∀ w ∈ dw, ∃ i ∈ label.ids, w.warning = .duplicateId i) ∧
          parseBlock e nested p s =
            .ok (some ⟨.mk (.section n ⟨t, r⟩ (typeOf n ty label.attrs) id number) src
              ⟨ts, label.title, an, at', label.attrs.map (attrlistOf · source)⟩ maw.blocks, maw.after⟩,
              maw.stopWarnings ++ dw ++ maw.warnings, p2) := by
  obtain ⟨ho, c, r', hc, hmk, hceq⟩ := opens_heading hh
  obtain ⟨m, ts, an, at', source, hfields, hts, han, hat', hA, h1⟩ := front_step (hst.store.symm ▸ hl.written) hk ho ⟨c, r', hc, hmk⟩
    (by
      unfold styleOf
      have h := hl.sectional
      generalize label.attrs = as at h
      cases as with
      | none => nofun
      | some a => exact h a rfl _ "literal" (by simp))
  have h2 := hA.behind
  have hls0 := hA.suf
  have hm := hA.parsed
  have hstyle' : ∀ style ∈ ["discrete", "float", "literal"], m.fields.style ≠ some style.toList := by
    intro style hs
    unfold Meta.style
    rw [hfields]
    have h := hl.sectional
    generalize label.attrs = as at h
    cases as with
    | none => nofun
    | some a => exact h a rfl source style hs
  simp only [h1]
  have hline : BlockMetadata.line m = l := (line_of h2).1
  have hf : LineForm (BlockMetadata.line m) (.heading n title) := by rw [hline]; exact .heading hh
  obtain ⟨n1, n2⟩ := no_delimiter hm hf nofun nofun
  have hmark : (startsWith (BlockMetadata.line m) ['='] || startsWith (BlockMetadata.line m) ['#']) = true := by
    rw [hline, hc, Bool.or_eq_true]
    rcases hceq with rfl | rfl
    · exact Or.inl (startsWith_iff.mpr ⟨r', rfl⟩)
    · exact Or.inr (startsWith_iff.mpr ⟨r', rfl⟩)
  obtain ⟨t, ht, htl⟩ := C22_recognised e.ar (s := m.blockStart) (by rw [show m.blockStart.takeNormalizedLine.item.data = l from hline]; exact hh)
  have hdisc : m.isDiscrete = false := by
    unfold BlockMetadata.isDiscrete
    rw [Bool.or_eq_false_iff, beq_eq_false_iff_ne, beq_eq_false_iff_ne]
    exact ⟨hstyle' "discrete" (by simp), hstyle' "float" (by simp)⟩
  have hsty : m.fields.style = styleOf label.attrs := by
    unfold Meta.style styleOf
    rw [hfields]
    cases label.attrs <;> rfl
  have hid : ∀ i ∈ (m.fields.attrlist.bind Attrlist.id).or (m.fields.anchor.map Span.data), i ∈ label.ids := by
    intro i hi
    rw [← BlockMetadata.ids_eq hfields han]
    unfold BlockMetadata.ids
    rw [List.mem_append, Option.mem_toList, Option.mem_toList]
    cases h : m.fields.attrlist.bind Attrlist.id with
    | none => rw [h] at hi; exact Or.inl hi
    | some a => rw [h] at hi; exact Or.inr hi
  have hanchor : m.fields.anchor = an := by rw [hfields]
  have hattrs : m.fields.attrlist = label.attrs.map (attrlistOf · source) := by rw [hfields]
  have hty : ∃ num, sectionType p.num false n m.fields.style = (typeOf n ty label.attrs, num) ∧
      num.topmost = typeOf n ty label.attrs := by
    unfold sectionType typeOf
    simp only [Bool.false_eq_true, if_false, hsty]
    split
    · exact ⟨_, rfl, rfl⟩
    · exact ⟨_, by rw [hst.num], hst.num⟩
  obtain ⟨num, hty, hnum⟩ := hty
  have hp1 : ∃ number p1, sectionNumber { p with num := num } false n = (number, p1) ∧ Still store (typeOf n ty label.attrs) p1 := by
    unfold sectionNumber
    split
    · refine ⟨_, _, rfl, hst.store, ?_⟩
      rw [← hnum]
      unfold Numbering.assign
      dsimp only
      split <;> rfl
    · exact ⟨_, _, rfl, hst.store, hnum⟩
  obtain ⟨number, p1, hsn, hst1⟩ := hp1
  refine ⟨p1, t, m.blockStart.takeLine.after, hst1, (line_of h2).2, (takeLine_lineSuf _).trans hls0, ?_⟩
  intro nested maw hn hsuf hst2
  obtain ⟨src, hsrc⟩ := trimRemainder?_ne_none (Sub.refl m.source) (hsuf.trans ((takeLine_after_suf m.blockStart).trans hA.source)).sub
  obtain ⟨dupSrc, hds⟩ := trimRemainder?_ne_none (Sub.refl m.source) ((takeLine_after_suf m.blockStart).trans hA.source).sub
  obtain ⟨base, hbase⟩ := generateSectionId_total store r
  generalize href : (((label.attrs.map (attrlistOf · source)).bind (·.namedAttribute "reftext".toList)).map ElemAttr.value).getD r = ref
  generalize hman : (m.fields.attrlist.bind Attrlist.id).or (m.fields.anchor.map Span.data) = manual at hid
  have hreg : ∃ id p2 dup, registerSection maw.state (p.store.isAttributeSet "sectids".toList) base manual ref = .ok (id, p2, dup) ∧
      Still store (typeOf n ty label.attrs) p2 ∧ ∀ i ∈ dup, i ∈ label.ids := by
    obtain ⟨⟨id, p2, dup⟩, hx⟩ := registerSection_total maw.state (p.store.isAttributeSet "sectids".toList) base manual ref
    rw [hx]
    unfold registerSection at hx
    split at hx
    · cases hx; exact ⟨_, _, _, rfl, hst2, nofun⟩
    · split at hx
      · split at hx
        · cases hx; exact ⟨_, _, _, rfl, ⟨hst2.store, hst2.num⟩, nofun⟩
        · cases hx; exact ⟨_, _, _, rfl, hst2, hid⟩
      · split at hx
        · split at hx
          · cases hx; exact ⟨_, _, _, rfl, ⟨hst2.store, hst2.num⟩, nofun⟩
          · cases hx
        · cases hx; exact ⟨_, _, _, rfl, hst2, nofun⟩
  obtain ⟨id, p2, dup, hreg, hst3, hdup⟩ := hreg
  have hsec : ∃ p3, Still store ty p3 ∧ parseSection e nested p m =
      .ok (some ⟨.mk (.section n ⟨t, r⟩ (typeOf n ty label.attrs) id number) src.trimTrailingWhitespace
        ⟨ts, label.title, an, at', label.attrs.map (attrlistOf · source)⟩ maw.blocks, maw.after⟩,
        maw.stopWarnings ++ (dup.toList.map fun i => ⟨dupSrc, .duplicateId i⟩) ++ maw.warnings, p3) := by
    refine ⟨if n = 1 ∧ false = false then { p2 with num := { p2.num with topmost := .normal } } else p2, ?_, ?_⟩
    · split
      · rename_i h1
        exact ⟨hst3.store, (hlow h1.1).symm⟩
      · rename_i h1
        refine ⟨hst3.store, hst3.num.trans ?_⟩
        unfold typeOf
        rw [if_neg fun h => h1 ⟨h, rfl⟩]
    · unfold parseSection
      have hde : m.blockStart.discardEmptyLines = m.blockStart := discard_marked hmark
      have hr' : e.subs store .title (label.attrs.map (attrlistOf · source)) title = .ok r := hr source
      rw [hattrs, hanchor] at hman
      simp only [bind, Except.bind, hdisc, hde, htl, hty, hsn, hn, hsrc, Res.ofOption, hst2.store, Bool.false_eq_true,
        if_false, ht, hattrs, hr', hbase, hman, hanchor, href, hreg, hds, List.nil_append]
      rw [hfields]
  obtain ⟨p3, hst4, hsec⟩ := hsec
  refine ⟨src.trimTrailingWhitespace, id, number, ts, an, at', source, p3, dup.toList.map fun i => ⟨dupSrc, .duplicateId i⟩, hst4, hts, han,
    hat', ?_, ?_⟩
  · intro w hw
    obtain ⟨i, hi, rfl⟩ := List.mem_map.mp hw
    exact ⟨i, hdup i (by simpa using hi), rfl⟩
  unfold parseBehind
  have hat : sectionAt e nested p m = parseSection e nested p m := by
    unfold sectionAt; rw [if_pos hmark]
  rw [hsec] at hat
  simp only [bind, Except.bind, n1, n2, no_media hm hf nofun, hat]

/-- A discrete heading behind its metadata. -/
theorem discrete_step {e : BlockEnv} {nested : Nested} {p : ParserState} {s : Span} {m : BlockMetadata}
    {as : Option (List ElemAttr)} {l title r : Text} {n : Nat} {rest : List Text} (hA : Fronted e p s m as (l :: rest))
    (hs : styleOf as = some "discrete".toList ∨ styleOf as = some "float".toList) (hh : Heading n title l)
    (hr : (renders e p.store).text as .title title r)
    (hn : ∀ inside, nested .always p inside = .ok ⟨[], inside.discardEmptyLines, [], [], p⟩) :
    ∃ t src id after p' ws, parseBehind e nested p m =
        .ok (some ⟨.mk (.section n ⟨t, r⟩ .discrete id none) src m.fields [], after⟩, ws, p') ∧
      Led m.ids p p' ws ∧ lines after.data = rest.dropWhile (·.all isBlank) ∧ LineSuf after s := by
  obtain ⟨ho, c, r', hc, hmk, hceq⟩ := opens_heading hh
  have h2 := hA.behind
  have hm := hA.parsed
  obtain ⟨source, hattrs⟩ := hA.attrs
  have hdisc : m.isDiscrete = true := by
    unfold BlockMetadata.isDiscrete Meta.style
    rw [hattrs, Bool.or_eq_true, beq_iff_eq, beq_iff_eq]
    cases as with
    | none => rcases hs with h | h <;> cases h
    | some a => exact hs
  have hline : BlockMetadata.line m = l := (line_of h2).1
  have hf : LineForm (BlockMetadata.line m) (.heading n title) := by rw [hline]; exact .heading hh
  obtain ⟨n1, n2⟩ := no_delimiter hm hf nofun nofun
  have hmark : (startsWith (BlockMetadata.line m) ['='] || startsWith (BlockMetadata.line m) ['#']) = true := by
    rw [hline, hc, Bool.or_eq_true]
    rcases hceq with rfl | rfl
    · exact Or.inl (startsWith_iff.mpr ⟨r', rfl⟩)
    · exact Or.inr (startsWith_iff.mpr ⟨r', rfl⟩)
  obtain ⟨t, ht, htl⟩ := C22_recognised e.ar (s := m.blockStart) (by rw [show m.blockStart.takeNormalizedLine.item.data = l from hline]; exact hh)
  have hid : ∀ i ∈ (m.fields.attrlist.bind Attrlist.id).or (m.fields.anchor.map Span.data), i ∈ m.ids := by
    intro i hi
    unfold BlockMetadata.ids
    rw [List.mem_append, Option.mem_toList, Option.mem_toList]
    cases h : m.fields.attrlist.bind Attrlist.id with
    | none => rw [h] at hi; exact Or.inl hi
    | some a => rw [h] at hi; exact Or.inr hi
  have hsuf : LineSuf m.blockStart.takeLine.after.discardEmptyLines s :=
    (discardEmptyLines_lineSuf _).trans ((takeLine_lineSuf _).trans hA.suf)
  have hsuf' : Suf m.blockStart.takeLine.after.discardEmptyLines m.source :=
    (discardEmptyLines_lineSuf _).1.trans ((takeLine_after_suf m.blockStart).trans hA.source)
  obtain ⟨src, hsrc⟩ := trimRemainder?_ne_none (Sub.refl m.source) hsuf'.sub
  obtain ⟨dupSrc, hds⟩ := trimRemainder?_ne_none (Sub.refl m.source) ((takeLine_after_suf m.blockStart).trans hA.source).sub
  obtain ⟨base, hbase⟩ := generateSectionId_total p.store r
  have hr' : e.subs p.store .title m.fields.attrlist title = .ok r := by rw [hattrs]; exact hr source
  generalize href : ((m.fields.attrlist.bind (·.namedAttribute "reftext".toList)).map ElemAttr.value).getD r = ref
  generalize hman : (m.fields.attrlist.bind Attrlist.id).or (m.fields.anchor.map Span.data) = manual at hid
  have hreg : ∃ id p2 dup, registerSection p (p.store.isAttributeSet "sectids".toList) base manual ref = .ok (id, p2, dup) ∧
      Led m.ids p p2 (dup.toList.map fun i => ⟨dupSrc, .duplicateId i⟩) := by
    have hw : ∀ {dup : Option Text}, (∀ i ∈ dup, i ∈ m.ids) →
        ∀ w ∈ (dup.toList.map fun i => (⟨dupSrc, .duplicateId i⟩ : Warning)), ∃ i ∈ m.ids, w.warning = .duplicateId i := by
      intro dup hdup w hw
      obtain ⟨i, hi, rfl⟩ := List.mem_map.mp hw
      exact ⟨i, hdup i (by simpa using hi), rfl⟩
    obtain ⟨⟨id, p2, dup⟩, hx⟩ := registerSection_total p (p.store.isAttributeSet "sectids".toList) base manual ref
    rw [hx]
    unfold registerSection at hx
    split at hx
    · cases hx; exact ⟨_, _, _, rfl, rfl, rfl, nofun⟩
    · split at hx
      · split at hx
        · cases hx; exact ⟨_, _, _, rfl, rfl, rfl, nofun⟩
        · cases hx; exact ⟨_, _, _, rfl, rfl, rfl, hw hid⟩
      · split at hx
        · split at hx
          · cases hx; exact ⟨_, _, _, rfl, rfl, rfl, nofun⟩
          · cases hx
        · cases hx; exact ⟨_, _, _, rfl, rfl, rfl, nofun⟩
  obtain ⟨id, p2, dup, hreg, hled⟩ := hreg
  have hsec : parseSection e nested p m = .ok (some ⟨.mk (.section n ⟨t, r⟩ .discrete id none) src.trimTrailingWhitespace m.fields [],
      m.blockStart.takeLine.after.discardEmptyLines⟩, dup.toList.map fun i => ⟨dupSrc, .duplicateId i⟩, p2) := by
    unfold parseSection
    have hde : m.blockStart.discardEmptyLines = m.blockStart := discard_marked hmark
    have hty : sectionType p.num true n m.fields.style = (.discrete, p.num) := rfl
    have hsn : sectionNumber { p with num := p.num } true n = (none, p) := by
      unfold sectionNumber
      rw [Bool.not_true, Bool.and_false]
      rfl
    simp only [bind, Except.bind, hdisc, hde, htl, hty, hsn, if_true, hn, hsrc, Res.ofOption, ht, hr', hbase, hman, href, hreg, hds,
      List.nil_append, List.append_nil, Bool.true_eq_false, and_false, if_false]
  refine ⟨t, src.trimTrailingWhitespace, id, _, p2, _, ?_, hled, ?_, hsuf⟩
  · unfold parseBehind
    have hat : sectionAt e nested p m = parseSection e nested p m := by
      unfold sectionAt; rw [if_pos hmark]
    rw [hsec] at hat
    simp only [bind, Except.bind, n1, n2, no_media hm hf nofun, hat]
  · rw [lines_discardEmptyLines, (line_of h2).2]

end Adoc
