import Verif.Model.Block
import Verif.Lemmas.Leaf
/-!
# Executions of the block parser

`Run` lists what an execution of `parse_blocks_until` that returns can do.  Everything about parsed blocks is proved by
induction on it.
-/

namespace Adoc
open Span Spec

variable [Uni]

/-- A heading was not found: what was reported. -/
def NoHeading (e : BlockEnv) (m : BlockMetadata) (sw : List Warning) : Prop :=
  sw = [] ∨ parseTitleLine e.ar m.blockStart.discardEmptyLines = .ok (none, sw)

/-- The metadata in front of a block, which do not name the literal style. -/
structure Ahead (e : BlockEnv) (p : ParserState) (s : Span) (m : BlockMetadata) (mw : List Warning) : Prop where
  parse : BlockMetadata.parse e.subs p.store s = .ok (m, mw)
  style : m.fields.style ≠ some "literal".toList
  short : fastPath e p s = .ok none
  entry : bodyEntryAt e p s = .ok none

/-- No delimited block begins here. -/
structure NoDelimiter (e : BlockEnv) (p : ParserState) (m : BlockMetadata) : Prop where
  raw : RawBlock.parse e.subs p.store m = .ok none
  compound : ¬ ∃ context, compoundKind m.line = some context ∧ isCompoundDelimiter m.line = true

/-- No heading begins here: what was reported. -/
def HeadingFree (e : BlockEnv) (m : BlockMetadata) (sw : List Warning) : Prop :=
  (sw = [] ∧ ¬ (startsWith m.line ['='] || startsWith m.line ['#']) = true) ∨
  parseTitleLine e.ar m.blockStart.discardEmptyLines = .ok (none, sw)

/-- Nothing but a simple block can begin here. -/
inductive Fallback (e : BlockEnv) (p : ParserState) (s : Span) (m : BlockMetadata) (mw : List Warning) :
    Bool → List Warning → Prop
  | literal : BlockMetadata.parse e.subs p.store s = .ok (m, mw) → m.fields.style = some "literal".toList →
      fastPath e p s = .ok none → bodyEntryAt e p s = .ok none → Fallback e p s m mw true []
  | other {sw} : Ahead e p s m mw → NoDelimiter e p m → mediaAt e p m = .ok none → HeadingFree e m sw →
      breakAt m = .ok none → Fallback e p s m mw false sw

theorem HeadingFree.noHeading {e : BlockEnv} {m : BlockMetadata} {sw : List Warning} (h : HeadingFree e m sw) :
    NoHeading e m sw := by
  rcases h with h | h
  · exact Or.inl h.1
  · exact Or.inr h

theorem Fallback.noHeading {e : BlockEnv} {p : ParserState} {s : Span} {m : BlockMetadata} {mw sw : List Warning} {lit : Bool}
    (h : Fallback e p s m mw lit sw) : NoHeading e m sw := by
  cases h with
  | literal _ _ _ _ => exact Or.inl rfl
  | other _ _ _ h _ => exact h.noHeading

theorem Fallback.parse {e : BlockEnv} {p : ParserState} {s : Span} {m : BlockMetadata} {mw sw : List Warning} {lit : Bool}
    (h : Fallback e p s m mw lit sw) : BlockMetadata.parse e.subs p.store s = .ok (m, mw) := by
  cases h with
  | literal h _ _ _ => exact h
  | other h _ _ _ _ => exact h.parse

/-- The blocks without nested blocks, and the iterations without a block. -/
inductive LeafStep (e : BlockEnv) (p : ParserState) (s : Span) : Option (MI Block) → List Warning → ParserState → Prop
  | fast {sb : SimpleBlock} {after : Span} : fastPath e p s = .ok (some ⟨sb, after⟩) →
      LeafStep e p s (some ⟨.mk (.simple sb.content sb.style) sb.source {} [], after⟩) [] p
  | entry {a : Attribute} {after : Span} : bodyEntryAt e p s = .ok (some ⟨a, after⟩) →
      LeafStep e p s (some ⟨.mk (.docAttr a) a.source {} [], after⟩) (p.store.setFromBody a).2.toList
        { p with store := (p.store.setFromBody a).1 }
  | simple {m : BlockMetadata} {mw sw ws : List Warning} {lit : Bool} {b : Option (MI Block)} {p' : ParserState} :
      Fallback e p s m mw lit sw → parseSimple e p m lit = .ok (b, ws, p') →
      LeafStep e p s b (mw ++ (sw ++ ws)) p'
  | raw {m : BlockMetadata} {mw ws : List Warning} {rb : RawBlock} {after : Span} :
      Ahead e p s m mw →
      RawBlock.parse e.subs p.store m = .ok (some (⟨rb, after⟩, ws)) →
      LeafStep e p s (some ⟨.mk (.raw rb.content rb.model rb.context rb.group) rb.source m.fields [], after⟩)
        (mw ++ (ws ++ (registerBlockId p m.fields rb.source).2)) (registerBlockId p m.fields rb.source).1
  | media {m : BlockMetadata} {mw ws : List Warning} {mb : MediaBlock} {after : Span} :
      Ahead e p s m mw →
      mediaAt e p m = .ok (some (⟨mb, after⟩, ws)) →
      LeafStep e p s (some ⟨.mk (.media mb.type mb.target mb.attrs) mb.source { m.fields with anchorReftext := none } [],
          after⟩)
        (mw ++ (ws ++ (registerBlockId p { m.fields with anchorReftext := none } mb.source).2))
        (registerBlockId p { m.fields with anchorReftext := none } mb.source).1
  | brk {m : BlockMetadata} {mw sw : List Warning} {ty : BreakType} {src after : Span} :
      Ahead e p s m mw → HeadingFree e m sw →
      breakAt m = .ok (some ⟨(ty, src), after⟩) →
      LeafStep e p s (some ⟨.mk (.brk ty) src { m.fields with anchorReftext := none } [], after⟩) (mw ++ sw) p

theorem mediaAt_some {e : BlockEnv} {p : ParserState} {m : BlockMetadata} {r : MI MediaBlock × List Warning}
    (h : mediaAt e p m = .ok (some r)) :
    (startsWith m.line "image::".toList || startsWith m.line "video::".toList) = true ∧
      MediaBlock.parse e.subs p.store m = .ok (some r) := by
  unfold mediaAt at h
  split at h
  · rename_i hs; exact ⟨hs, h⟩
  · cases h

theorem breakAt_some {m : BlockMetadata} {r : MI (BreakType × Span)} (h : breakAt m = .ok (some r)) :
    Break.parse m = .ok (some r) := by
  unfold breakAt at h
  split at h
  · exact h
  · cases h

/-- A delimited block with nested blocks begins: the text inside, the closing delimiter, what follows. -/
structure CompoundOpen (m : BlockMetadata) (context : Text) (inside closing after src : Span) : Prop where
  kind : compoundKind m.blockStart.takeNormalizedLine.item.data = some context
  delim : isCompoundDelimiter m.blockStart.takeNormalizedLine.item.data = true
  close : (∃ rest, findClosing m.blockStart.takeNormalizedLine.item.data
      m.blockStart.takeNormalizedLine.after.data.length m.blockStart.takeNormalizedLine.after =
        (some ⟨closing, after⟩, rest)) ∨
    (findClosing m.blockStart.takeNormalizedLine.item.data
      m.blockStart.takeNormalizedLine.after.data.length m.blockStart.takeNormalizedLine.after = (none, closing) ∧
      after = closing)
  body : m.blockStart.takeNormalizedLine.after.trimRemainder? closing = some inside
  whole : m.source.trimRemainder? closing.discardAll = some src

/-- What a section leaves behind. -/
structure SectionClose (e : BlockEnv) (m : BlockMetadata) (mi : MI (Nat × Span)) (sectids : Bool) (after : Span)
    (p1 p2 : ParserState) (src dupSrc : Span) (title base : Text) (id dup : Option Text) : Prop where
  whole : m.source.trimRemainder? after = some src
  subst : e.subs p1.store .title m.fields.attrlist mi.item.2.data = .ok title
  generate : generateSectionId p1.store title = .ok base
  register : registerSection p1 sectids base
      ((m.fields.attrlist.bind Attrlist.id).or (m.fields.anchor.map Span.data))
      (((m.fields.attrlist.bind (·.namedAttribute "reftext".toList)).map ElemAttr.value).getD title) = .ok (id, p2, dup)
  head : m.source.trimRemainder? mi.after = some dupSrc

/-- The type, the number and the state of a section. -/
def openSection (p : ParserState) (m : BlockMetadata) (level : Nat) : SectionType × Option SectionNumber × ParserState :=
  let t := sectionType p.num m.isDiscrete level m.fields.style
  let n := sectionNumber { p with num := t.2 } m.isDiscrete level
  (t.1, n.1, n.2)

/-- The state behind a section. -/
def closeSection (p : ParserState) (m : BlockMetadata) (level : Nat) : ParserState :=
  if level = 1 ∧ m.isDiscrete = false then { p with num := { p.num with topmost := .normal } } else p

/-- The executions of `parse_blocks_until` from `s` to `s'`: the blocks, the warnings, those of the test, and the states of
the parser. -/
inductive Run (e : BlockEnv) : Stop → ParserState → Span → List Block → Span → List Warning → List Warning →
    ParserState → Prop
  | done {stop p s} : s.data = [] → Run e stop p s [] s [] [] p
  | halt {stop stop' p s sw} : s.data ≠ [] → stop.check e s = .ok (true, stop', sw) → Run e stop p s [] s [] sw p
  | leaf {stop stop' p p1 p2 s s' sw sw' ws ws' b after bs} : s.data ≠ [] → stop.check e s = .ok (false, stop', sw) →
      LeafStep e p s (some ⟨b, after⟩) ws p1 → Run e stop' p1 after bs s' ws' sw' p2 →
      Run e stop p s (b :: bs) s' (ws ++ ws') (sw ++ sw') p2
  | stuck {stop stop' p p1 p2 s s' sw sw' ws ws' bs} : s.data ≠ [] → stop.check e s = .ok (false, stop', sw) →
      LeafStep e p s none ws p1 → Run e stop' p1 s bs s' ws' sw' p2 → Run e stop p s bs s' (ws ++ ws') (sw ++ sw') p2
  | compound {stop stop' p p1 p2 s s' sw sw' ws' bs m mw context inside closing after src cbs cs cws csw} :
      s.data ≠ [] → stop.check e s = .ok (false, stop', sw) →
      Ahead e p s m mw → CompoundOpen m context inside closing after src →
      Run e .never p inside.discardEmptyLines cbs cs cws csw p1 →
      Run e stop' (registerBlockId p1 m.fields src.trimTrailingWhitespace).1 after bs s' ws' sw' p2 →
      Run e stop p s (.mk (.compound context) src.trimTrailingWhitespace m.fields cbs :: bs) s'
        (mw ++ ((if closing.data = [] then
              ⟨m.blockStart.takeNormalizedLine.item, .unterminatedDelimitedBlock⟩ :: cws else cws) ++
            (registerBlockId p1 m.fields src.trimTrailingWhitespace).2) ++ ws') (sw ++ sw') p2
  | section {stop stop' p p1 p2 p3 s s' sw sw' ws' bs m mw mi tw cbs cs cws csw src dupSrc title base id dup} :
      s.data ≠ [] → stop.check e s = .ok (false, stop', sw) →
      Ahead e p s m mw →
      (startsWith m.line ['='] || startsWith m.line ['#']) = true →
      parseTitleLine e.ar m.blockStart.discardEmptyLines = .ok (some mi, tw) →
      Run e (if m.isDiscrete then .always else .peer mi.item.1 mi.item.1) (openSection p m mi.item.1).2.2
        mi.after.discardEmptyLines cbs cs cws csw p1 →
      SectionClose e m mi (p.store.isAttributeSet "sectids".toList) cs p1 p2 src dupSrc title base id dup →
      Run e stop' (closeSection p2 m mi.item.1) cs bs s' ws' sw' p3 →
      Run e stop p s (.mk (.section mi.item.1 ⟨mi.item.2, title⟩ (openSection p m mi.item.1).1 id
          (openSection p m mi.item.1).2.1) src.trimTrailingWhitespace m.fields cbs :: bs) s'
        (mw ++ (tw ++ csw ++ (dup.toList.map fun i => ⟨dupSrc, .duplicateId i⟩) ++ cws) ++ ws') (sw ++ sw') p3

theorem parseCompound_some {nested : Nested} {p p1 : ParserState} {m : BlockMetadata} {mi : MI Block} {ws : List Warning}
    (h : parseCompound nested p m = .ok (some (mi, ws, p1))) :
    ∃ context inside closing after src maw, CompoundOpen m context inside closing after src ∧
      nested .never p inside = .ok maw ∧
      mi = ⟨.mk (.compound context) src.trimTrailingWhitespace m.fields maw.blocks, after⟩ ∧
      ws = (if closing.data = [] then
        ⟨m.blockStart.takeNormalizedLine.item, .unterminatedDelimitedBlock⟩ :: maw.warnings else maw.warnings) ∧
      p1 = maw.state := by
  unfold parseCompound at h
  simp only at h
  cases hk : compoundKind m.blockStart.takeNormalizedLine.item.data with
  | none => rw [hk] at h; cases h
  | some context =>
    rw [hk] at h
    simp only at h
    by_cases hd : isCompoundDelimiter m.blockStart.takeNormalizedLine.item.data = true
    · rw [hd] at h
      simp only [Bool.not_true, Bool.false_eq_true, if_false] at h
      have hx : ∀ closing after : Span,
          (∃ rest, findClosing m.blockStart.takeNormalizedLine.item.data
            m.blockStart.takeNormalizedLine.after.data.length m.blockStart.takeNormalizedLine.after =
              (some ⟨closing, after⟩, rest)) ∨
          (findClosing m.blockStart.takeNormalizedLine.item.data
            m.blockStart.takeNormalizedLine.after.data.length m.blockStart.takeNormalizedLine.after = (none, closing) ∧
            after = closing) →
          (do let inside ← Res.ofOption (m.blockStart.takeNormalizedLine.after.trimRemainder? closing)
              let maw ← nested .never p inside
              let src ← Res.ofOption (m.source.trimRemainder? closing.discardAll)
              Except.ok (some (⟨Block.mk (.compound context) src.trimTrailingWhitespace m.fields maw.blocks, after⟩,
                if closing.data = [] then
                  ⟨m.blockStart.takeNormalizedLine.item, .unterminatedDelimitedBlock⟩ :: maw.warnings else maw.warnings,
                maw.state)) : Res (Option (MI Block × List Warning × ParserState))) = .ok (some (mi, ws, p1)) →
          ∃ context inside closing after src maw, CompoundOpen m context inside closing after src ∧
            nested .never p inside = .ok maw ∧
            mi = ⟨.mk (.compound context) src.trimTrailingWhitespace m.fields maw.blocks, after⟩ ∧
            ws = (if closing.data = [] then
              ⟨m.blockStart.takeNormalizedLine.item, .unterminatedDelimitedBlock⟩ :: maw.warnings else maw.warnings) ∧
            p1 = maw.state := by
        intro closing after hc h
        simp only [bind, Except.bind] at h
        cases hi : m.blockStart.takeNormalizedLine.after.trimRemainder? closing with
        | none => rw [hi] at h; cases h
        | some inside =>
          rw [hi] at h
          simp only [Res.ofOption] at h
          cases hn : nested .never p inside with
          | error e => rw [hn] at h; cases h
          | ok maw =>
            rw [hn] at h
            simp only at h
            cases hs : m.source.trimRemainder? closing.discardAll with
            | none => rw [hs] at h; cases h
            | some src =>
              rw [hs] at h
              cases h
              exact ⟨context, inside, closing, after, src, maw, ⟨hk, hd, hc, hi, hs⟩, hn, rfl, rfl, rfl⟩
      generalize hfc : findClosing m.blockStart.takeNormalizedLine.item.data
            m.blockStart.takeNormalizedLine.after.data.length m.blockStart.takeNormalizedLine.after = fc at h
      obtain ⟨c, next⟩ := fc
      cases c with
      | none => exact hx next next (Or.inr ⟨hfc, rfl⟩) h
      | some l => exact hx l.item l.after (Or.inl ⟨next, hfc⟩) h
    · rw [Bool.eq_false_iff.mpr hd] at h; cases h

theorem parseCompound_none {nested : Nested} {p : ParserState} {m : BlockMetadata}
    (h : parseCompound nested p m = .ok none) :
    ¬ ∃ context, compoundKind m.line = some context ∧ isCompoundDelimiter m.line = true := by
  rintro ⟨context, hk, hd⟩
  unfold BlockMetadata.line at hk hd
  unfold parseCompound at h
  simp only at h
  rw [hk, hd] at h
  simp only [Bool.not_true, Bool.false_eq_true, if_false, bind, Except.bind] at h
  generalize Res.ofOption (Span.trimRemainder? _ _) = a at h
  cases a with
  | error x => cases h
  | ok inside =>
    simp only at h
    generalize nested _ _ _ = a at h
    cases a with
    | error x => cases h
    | ok maw =>
      simp only at h
      generalize Res.ofOption (Span.trimRemainder? _ _) = a at h
      cases a <;> cases h

theorem parseSection_ok {e : BlockEnv} {nested : Nested} {p p1 : ParserState} {m : BlockMetadata} {r : Option (MI Block)}
    {ws : List Warning} (h : parseSection e nested p m = .ok (r, ws, p1)) :
    (r = none ∧ p1 = p ∧ parseTitleLine e.ar m.blockStart.discardEmptyLines = .ok (none, ws)) ∨
    ∃ mi tw maw p2 src dupSrc title base id dup,
      parseTitleLine e.ar m.blockStart.discardEmptyLines = .ok (some mi, tw) ∧
      nested (if m.isDiscrete then .always else .peer mi.item.1 mi.item.1) (openSection p m mi.item.1).2.2 mi.after =
        .ok maw ∧
      SectionClose e m mi (p.store.isAttributeSet "sectids".toList) maw.after maw.state p2 src dupSrc title base id dup ∧
      p1 = closeSection p2 m mi.item.1 ∧
      r = some ⟨.mk (.section mi.item.1 ⟨mi.item.2, title⟩ (openSection p m mi.item.1).1 id
          (openSection p m mi.item.1).2.1) src.trimTrailingWhitespace m.fields maw.blocks, maw.after⟩ ∧
      ws = tw ++ maw.stopWarnings ++ (dup.toList.map fun i => ⟨dupSrc, .duplicateId i⟩) ++ maw.warnings := by
  unfold parseSection at h
  simp only [bind, Except.bind] at h
  cases ht : parseTitleLine e.ar m.blockStart.discardEmptyLines with
  | error x => rw [ht] at h; cases h
  | ok q =>
    obtain ⟨mi, tw⟩ := q
    rw [ht] at h
    simp only at h
    cases mi with
    | none => cases h; exact Or.inl ⟨rfl, rfl, rfl⟩
    | some mi =>
      simp only at h
      right
      have e1 : openSection p m mi.item.1 =
        ((sectionType p.num m.isDiscrete mi.item.1 m.fields.style).1,
         (sectionNumber { p with num := (sectionType p.num m.isDiscrete mi.item.1 m.fields.style).2 } m.isDiscrete mi.item.1).1,
         (sectionNumber { p with num := (sectionType p.num m.isDiscrete mi.item.1 m.fields.style).2 } m.isDiscrete mi.item.1).2) := rfl
      generalize sectionType p.num m.isDiscrete mi.item.1 m.fields.style = q at h e1
      obtain ⟨ty, num⟩ := q
      simp only at h e1
      generalize sectionNumber { p with num := num } m.isDiscrete mi.item.1 = q at h e1
      obtain ⟨number, p0⟩ := q
      simp only at h e1
      cases hn : nested (if m.isDiscrete then .always else .peer mi.item.1 mi.item.1) p0 mi.after with
      | error x => rw [hn] at h; cases h
      | ok maw =>
        rw [hn] at h
        simp only at h
        cases hs : m.source.trimRemainder? maw.after with
        | none => rw [hs] at h; cases h
        | some src =>
          rw [hs] at h
          simp only [Res.ofOption] at h
          cases htt : e.subs maw.state.store .title m.fields.attrlist mi.item.2.data with
          | error x => rw [htt] at h; cases h
          | ok title =>
            rw [htt] at h
            simp only at h
            cases hb : generateSectionId maw.state.store title with
            | error x => rw [hb] at h; cases h
            | ok base =>
              rw [hb] at h
              simp only at h
              generalize hr : registerSection maw.state (p.store.isAttributeSet "sectids".toList) base
                ((m.fields.attrlist.bind Attrlist.id).or (m.fields.anchor.map Span.data))
                (((m.fields.attrlist.bind (·.namedAttribute "reftext".toList)).map ElemAttr.value).getD title) = q at h
              cases q with
              | error x => cases h
              | ok q =>
                obtain ⟨id, p2, dup⟩ := q
                simp only at h
                cases hd : m.source.trimRemainder? mi.after with
                | none => rw [hd] at h; cases h
                | some dupSrc =>
                  rw [hd] at h
                  simp only at h
                  cases h
                  refine ⟨mi, tw, maw, p2, src, dupSrc, title, base, id, dup, rfl, ?_, ⟨hs, htt, hb, hr, hd⟩, rfl, ?_, rfl⟩
                  · rw [e1]; exact hn
                  · rw [e1]

/-- What `parse` of a block can do. -/
inductive BlockStep (e : BlockEnv) (nested : Nested) (p : ParserState) (s : Span) :
    Option (MI Block) → List Warning → ParserState → Prop
  | leaf {r ws p'} : LeafStep e p s r ws p' → BlockStep e nested p s r ws p'
  | compound {m mw context inside closing after src maw} :
      Ahead e p s m mw → CompoundOpen m context inside closing after src →
      nested .never p inside = .ok maw →
      BlockStep e nested p s (some ⟨.mk (.compound context) src.trimTrailingWhitespace m.fields maw.blocks, after⟩)
        (mw ++ ((if closing.data = [] then
              ⟨m.blockStart.takeNormalizedLine.item, .unterminatedDelimitedBlock⟩ :: maw.warnings else maw.warnings) ++
            (registerBlockId maw.state m.fields src.trimTrailingWhitespace).2))
        (registerBlockId maw.state m.fields src.trimTrailingWhitespace).1
  | section {m mw mi tw maw p2 src dupSrc title base id dup} :
      Ahead e p s m mw →
      (startsWith m.line ['='] || startsWith m.line ['#']) = true →
      parseTitleLine e.ar m.blockStart.discardEmptyLines = .ok (some mi, tw) →
      nested (if m.isDiscrete then .always else .peer mi.item.1 mi.item.1) (openSection p m mi.item.1).2.2 mi.after =
        .ok maw →
      SectionClose e m mi (p.store.isAttributeSet "sectids".toList) maw.after maw.state p2 src dupSrc title base id dup →
      BlockStep e nested p s (some ⟨.mk (.section mi.item.1 ⟨mi.item.2, title⟩ (openSection p m mi.item.1).1 id
          (openSection p m mi.item.1).2.1) src.trimTrailingWhitespace m.fields maw.blocks, maw.after⟩)
        (mw ++ (tw ++ maw.stopWarnings ++ (dup.toList.map fun i => ⟨dupSrc, .duplicateId i⟩) ++ maw.warnings))
        (closeSection p2 m mi.item.1)

theorem parseBehind_step {e : BlockEnv} {nested : Nested} {p p1 : ParserState} {s : Span} {m : BlockMetadata}
    {mw ws : List Warning} {r : Option (MI Block)} (hm : Ahead e p s m mw)
    (h : parseBehind e nested p m = .ok (r, ws, p1)) : BlockStep e nested p s r (mw ++ ws) p1 := by
  unfold parseBehind at h
  simp only [bind, Except.bind] at h
  cases hr : RawBlock.parse e.subs p.store m with
  | error x => rw [hr] at h; cases h
  | ok q =>
    rw [hr] at h
    simp only at h
    cases q with
    | some q =>
      obtain ⟨⟨rb, after⟩, ws'⟩ := q
      simp only at h
      cases h
      exact .leaf (.raw hm hr)
    | none =>
      simp only at h
      cases hc : parseCompound nested p m with
      | error x => rw [hc] at h; cases h
      | ok q =>
        rw [hc] at h
        simp only at h
        cases q with
        | some q =>
          obtain ⟨mi, ws', p'⟩ := q
          simp only at h
          cases h
          obtain ⟨context, inside, closing, after, src, maw, h1, h2, rfl, rfl, rfl⟩ := parseCompound_some hc
          exact .compound hm h1 h2
        | none =>
          simp only at h
          cases hq : mediaAt e p m with
          | error x => rw [hq] at h; cases h
          | ok q =>
            rw [hq] at h
            simp only at h
            cases q with
            | some q =>
              obtain ⟨⟨mb, after⟩, ws'⟩ := q
              simp only at h
              cases h
              exact .leaf (.media hm hq)
            | none =>
              simp only at h
              cases hsq : sectionAt e nested p m with
              | error x => rw [hsq] at h; cases h
              | ok sq =>
                obtain ⟨sec, sw, p2⟩ := sq
                rw [hsq] at h
                simp only at h
                have hsec : (sec = none ∧ p2 = p ∧ HeadingFree e m sw) ∨
                    ((startsWith m.line ['='] || startsWith m.line ['#']) = true ∧
                      parseSection e nested p m = .ok (sec, sw, p2)) := by
                  unfold sectionAt at hsq
                  by_cases hi : (startsWith m.line ['='] || startsWith m.line ['#']) = true
                  · rw [if_pos hi] at hsq; exact Or.inr ⟨hi, hsq⟩
                  · rw [if_neg hi] at hsq; cases hsq; exact Or.inl ⟨rfl, rfl, Or.inl ⟨rfl, hi⟩⟩
                cases sec with
                | some mi =>
                  simp only at h
                  cases h
                  rcases hsec with ⟨h0, _⟩ | ⟨hi, hs⟩
                  · cases h0
                  · rcases parseSection_ok hs with ⟨h0, _⟩ |
                      ⟨mi', tw, maw, p2, src, dupSrc, title, base, id, dup, h1, h2, h3, rfl, h5, rfl⟩
                    · cases h0
                    · cases h5
                      exact .section hm hi h1 h2 h3
                | none =>
                  have hno : p2 = p ∧ HeadingFree e m sw := by
                    rcases hsec with ⟨_, h1, h2⟩ | ⟨hi, hs⟩
                    · exact ⟨h1, h2⟩
                    · rcases parseSection_ok hs with ⟨_, h1, h2⟩ | ⟨_, _, _, _, _, _, _, _, _, _, _, _, _, _, h5, _⟩
                      · exact ⟨h1, Or.inr h2⟩
                      · cases h5
                  obtain ⟨rfl, hno⟩ := hno
                  simp only at h
                  cases hbq : breakAt m with
                  | error x => rw [hbq] at h; cases h
                  | ok bq =>
                    rw [hbq] at h
                    simp only at h
                    cases bq with
                    | some mi =>
                      obtain ⟨⟨ty, src⟩, after⟩ := mi
                      simp only at h
                      cases h
                      exact .leaf (.brk hm hno hbq)
                    | none =>
                      simp only at h
                      cases hp : parseSimple e p2 m false with
                      | error x => rw [hp] at h; cases h
                      | ok q =>
                        obtain ⟨b, ws', p'⟩ := q
                        rw [hp] at h
                        simp only at h
                        cases h
                        exact .leaf (.simple (.other hm ⟨hr, parseCompound_none hc⟩ hq hno hbq) hp)

theorem parseBlock_step {e : BlockEnv} {nested : Nested} {p p1 : ParserState} {s : Span}
    {ws : List Warning} {r : Option (MI Block)} (h : parseBlock e nested p s = .ok (r, ws, p1)) :
    BlockStep e nested p s r ws p1 := by
  unfold parseBlock at h
  simp only [bind, Except.bind] at h
  cases hf : fastPath e p s with
  | error x => rw [hf] at h; cases h
  | ok q =>
    rw [hf] at h
    simp only at h
    cases q with
    | some mi =>
      obtain ⟨sb, after⟩ := mi
      simp only at h
      have : ∀ x, registerBlockId p {} x = (p, []) := by intro x; rfl
      rw [this] at h
      simp only at h
      cases h
      exact .leaf (.fast hf)
    | none =>
      simp only at h
      cases hb : bodyEntryAt e p s with
      | error x => rw [hb] at h; cases h
      | ok q =>
        rw [hb] at h
        simp only at h
        cases q with
        | some mi =>
          obtain ⟨a, after⟩ := mi
          simp only at h
          cases h
          exact .leaf (.entry hb)
        | none =>
          simp only at h
          cases hm : BlockMetadata.parse e.subs p.store s with
          | error x => rw [hm] at h; cases h
          | ok q =>
            obtain ⟨m, mw⟩ := q
            rw [hm] at h
            simp only at h
            by_cases hl : m.fields.style = some "literal".toList
            · rw [if_pos hl] at h
              cases hp : parseSimple e p m true with
              | error x => rw [hp] at h; cases h
              | ok q =>
                obtain ⟨b, ws', p'⟩ := q
                rw [hp] at h
                cases h
                exact .leaf (.simple (sw := []) (.literal hm hl hf hb) hp)
            · rw [if_neg hl] at h
              cases hp : parseBehind e nested p m with
              | error x => rw [hp] at h; cases h
              | ok q =>
                obtain ⟨b, ws', p'⟩ := q
                rw [hp] at h
                cases h
                exact parseBehind_step ⟨hm, hl, hf, hb⟩ hp

/-- Every execution that returns is a `Run`. -/
theorem blocksLoop_run {e : BlockEnv} : ∀ (n : Nat) (stop : Stop) (acc acc' : Blocks), blocksLoop e n stop acc = .ok acc' →
    ∃ bs ws sw, acc'.blocks = acc.blocks ++ bs ∧ acc'.warnings = acc.warnings ++ ws ∧
      acc'.stopWarnings = acc.stopWarnings ++ sw ∧ Run e stop acc.state acc.after bs acc'.after ws sw acc'.state := by
  intro n
  induction n with
  | zero => intro stop acc acc' h; cases h
  | succ n ih =>
    intro stop acc acc' h
    rw [blocksLoop] at h
    by_cases hd : acc.after.data = []
    · rw [if_pos hd] at h
      cases h
      exact ⟨[], [], [], by simp, by simp, by simp, .done hd⟩
    rw [if_neg hd] at h
    simp only [bind, Except.bind] at h
    cases hc : stop.check e acc.after with
    | error x => rw [hc] at h; cases h
    | ok q =>
      obtain ⟨halt, stop', sw⟩ := q
      rw [hc] at h
      simp only at h
      cases halt with
      | true =>
        simp only [if_true] at h
        cases h
        exact ⟨[], [], sw, by simp, by simp, rfl, .halt hd hc⟩
      | false =>
        simp only [Bool.false_eq_true, if_false] at h
        generalize hnest : (fun (stop : Stop) (p : ParserState) (source : Span) =>
          blocksLoop e n stop ⟨[], source.discardEmptyLines, [], [], p⟩) = nested at h
        have hrun : ∀ stop p source maw, nested stop p source = .ok maw →
            Run e stop p source.discardEmptyLines maw.blocks maw.after maw.warnings maw.stopWarnings maw.state := by
          intro stop p source maw hn
          rw [← hnest] at hn
          obtain ⟨bs, ws, sw, h1, h2, h3, h4⟩ := ih _ _ _ hn
          simp only [List.nil_append] at h1 h2 h3
          rw [h1, h2, h3]; exact h4
        cases hb : parseBlock e nested acc.state acc.after with
        | error x => rw [hb] at h; cases h
        | ok q =>
          obtain ⟨b, ws, p⟩ := q
          rw [hb] at h
          simp only at h
          have hstep := parseBlock_step hb
          cases b with
          | none =>
            simp only at h
            obtain ⟨bs, ws', sw', h1, h2, h3, h4⟩ := ih _ _ _ h
            refine ⟨bs, ws ++ ws', sw ++ sw', h1, by rw [h2]; simp, by rw [h3]; simp, ?_⟩
            generalize hr : (none : Option (MI Block)) = r at hstep
            cases hstep with
            | leaf hl => subst hr; exact .stuck hd hc hl h4
            | compound => cases hr
            | «section» => cases hr
          | some mi =>
            simp only at h
            obtain ⟨bs, ws', sw', h1, h2, h3, h4⟩ := ih _ _ _ h
            refine ⟨mi.item :: bs, ws ++ ws', sw ++ sw', by rw [h1]; simp, by rw [h2]; simp, by rw [h3]; simp, ?_⟩
            generalize hr : some mi = r at hstep
            cases hstep with
            | leaf hl => subst hr; exact .leaf hd hc hl h4
            | compound g1 g2 g3 =>
              cases hr
              exact .compound hd hc g1 g2 (hrun _ _ _ _ g3) h4
            | «section» g1 g2 g3 g4 g5 =>
              cases hr
              exact .section hd hc g1 g2 g3 (hrun _ _ _ _ g4) g5 h4

theorem parseBlocksUntil_run {e : BlockEnv} {n : Nat} {stop : Stop} {p : ParserState} {source : Span} {r : Blocks}
    (h : parseBlocksUntil e n stop p source = .ok r) :
    Run e stop p source.discardEmptyLines r.blocks r.after r.warnings r.stopWarnings r.state := by
  obtain ⟨bs, ws, sw, h1, h2, h3, h4⟩ := blocksLoop_run _ _ _ _ h
  simp only [List.nil_append] at h1 h2 h3
  rw [h1, h2, h3]; exact h4

end Adoc
