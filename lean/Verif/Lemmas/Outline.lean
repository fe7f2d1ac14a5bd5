import Verif.Spec.Outline
import Verif.Props.Heading
import Verif.Props.Leaf
import Verif.Lemmas.Kinds
import Verif.Lemmas.Total
/-!
# Documents written from an outline
-/

namespace Adoc
open Span Spec Props

variable [Uni]

/-! ### Lines -/

omit [Uni] in
theorem discard_self {s : Span} {l : Text} {r : List Text} (h : lines s.data = l :: r) (hl : l.all isBlank = false) :
    s.discardEmptyLines = s := by
  obtain ⟨k, hk⟩ := discardEmptyLines_skipN s
  have h1 := lines_discardEmptyLines s
  rw [hk, lines_skip, h, List.dropWhile_cons_of_neg (by simp [hl])] at h1
  cases k with
  | zero => exact hk
  | succ k =>
    have := congrArg List.length h1
    simp only [List.drop_succ_cons, List.length_drop, List.length_cons] at this
    omega

omit [Uni] in
theorem line_of {s : Span} {l : Text} {r : List Text} (h : lines s.data = l :: r) :
    s.takeNormalizedLine.item.data = l ∧ lines s.takeLine.after.data = r := by
  have hne : s.data ≠ [] := fun h0 => by rw [h0, lines_nil] at h; cases h
  rw [lines_cons s hne] at h
  cases h
  exact ⟨rfl, rfl⟩

/-- Nothing is metadata when the first line is not. -/
theorem meta_absent (subs : Subs) (store : AttrStore) {s : Span} {l : Text}
    (hl : s.discardEmptyLines.takeNormalizedLine.item.data = l)
    (ht : ¬ ∃ t, l = '.' :: t ∧ t.head? ≠ some '.' ∧ t.head? ≠ some ' ' ∧ t.head? ≠ some '\t')
    (hb : ¬ ∃ a, l = '[' :: a ++ [']']) :
    BlockMetadata.parse subs store s = .ok (⟨{}, s.discardEmptyLines, s.discardEmptyLines⟩, []) := by
  generalize hs : s.discardEmptyLines = s0 at hl
  have h1 : maybeTitle s0 = none := by
    cases h : maybeTitle s0 with
    | none => rfl
    | some m =>
      obtain ⟨⟨t, e, h2⟩, _⟩ := (maybeTitle_iff _).mp h
      exact absurd ⟨t, hl.symm.trans e, h2⟩ ht
  have h2 : maybeBlockAnchor s0 = (none, []) := by
    refine (maybeBlockAnchor_spec _).2 fun a ha => hb ⟨'[' :: a ++ [']'], ?_⟩
    rw [← hl, ha]; simp
  have h3 : maybeAttrlistLine subs store s0 = .ok none :=
    (maybeAttrlistLine_spec _ subs store).2 fun a ha => absurd ⟨a, hl.symm.trans ha⟩ hb
  unfold BlockMetadata.parse
  simp only [hs]
  have h4 : metaStep subs store { blockStart := s0 } = .ok (false, { blockStart := s0 }) := by
    unfold metaStep anchorStep
    simp only [Option.isNone_none, if_true, h1, h2, List.append_nil, bind, Except.bind, h3]
  unfold metaLoop
  simp only [bind, Except.bind, h4, Bool.false_eq_true, if_false, Option.mapM_none]
  rfl

omit [Uni] in
/-- There is no short cut for a block behind an empty line. -/
theorem fast_blank {e : BlockEnv} {p : ParserState} {s : Span} {r : List Text} (h : lines s.data = [] :: r) :
    fastPath e p s = .ok none := by
  obtain ⟨k, raw, taken, texts, h1, h2, h3, h4, h5, h6, h7⟩ := parseLines_spec e.subs p.store s none
  have ht : taken = [] := by
    rw [h] at h5
    generalize lines (s.skip k).data = q at h5
    cases h5 with
    | stop _ => rfl
    | comment hc _ _ => obtain ⟨_, hc, _⟩ := hc; cases hc
    | line hn _ _ _ => exact absurd rfl hn
  have hr : raw = [] := lines_eq_nil.mp (by rw [h2, ht])
  rw [hr, if_pos (by rfl)] at h7
  unfold fastPath
  cases s.data.head? with
  | none => rfl
  | some c =>
    simp only
    split
    · unfold SimpleBlock.parseFast
      simp only [bind, Except.bind, h7]
    · rfl

omit [Uni] in
theorem fast_marked {e : BlockEnv} {p : ParserState} {s : Span} {c : Char} {r : Text}
    (h : s.takeNormalizedLine.item.data = c :: r) (hc : isMarker c = true) : fastPath e p s = .ok none := by
  obtain ⟨r', e'⟩ := line_head h
  unfold fastPath
  simp [e', hc]

omit [Uni] in
theorem entry_none {e : BlockEnv} {p : ParserState} {s : Span} (h : s.takeNormalizedLine.item.data.head? ≠ some ':') :
    bodyEntryAt e p s = .ok none := by
  unfold bodyEntryAt
  simp only
  rw [if_neg]
  intro hs
  rw [Bool.and_eq_true] at hs
  obtain ⟨r, hr⟩ := startsWith_iff.mp hs.1
  obtain ⟨line, sep, rest, ⟨h1, _, _⟩, e1⟩ := takeLine_shape s
  obtain ⟨hi, _⟩ := takeLine_data h1 e1
  rw [hr] at hi
  have : startsWith s.data [':'] = true := startsWith_iff.mpr ⟨r ++ (sep ++ rest), by rw [h1, ← hi]; simp⟩
  rw [startsWith_normLine s (by decide)] at this
  obtain ⟨r2, hr2⟩ := startsWith_iff.mp this
  rw [hr2] at h
  exact h rfl

/-- How a block is read that is not a paragraph read by the short cut. -/
theorem parse_ahead {e : BlockEnv} {nested : Nested} {p : ParserState} {s : Span} {l : Text}
    (hl : s.discardEmptyLines.takeNormalizedLine.item.data = l) (hf : fastPath e p s = .ok none)
    (he : s.takeNormalizedLine.item.data.head? ≠ some ':')
    (ht : ¬ ∃ t, l = '.' :: t ∧ t.head? ≠ some '.' ∧ t.head? ≠ some ' ' ∧ t.head? ≠ some '\t')
    (hb : ¬ ∃ a, l = '[' :: a ++ [']']) :
    parseBlock e nested p s = parseBehind e nested p ⟨{}, s.discardEmptyLines, s.discardEmptyLines⟩ := by
  unfold parseBlock
  simp only [bind, Except.bind, hf, entry_none he, meta_absent e.subs p.store hl ht hb]
  rw [if_neg (by simp [Meta.style])]
  generalize parseBehind e nested p _ = q
  cases q <;> rfl

/-! ### What a line does not begin -/

theorem no_delimiter {e : BlockEnv} {p : ParserState} {s : Span} {m : BlockMetadata} {mw : List Warning} {f : Form}
    (hm : BlockMetadata.parse e.subs p.store s = .ok (m, mw)) (hf : LineForm m.line f) (h1 : ∀ a b, f ≠ .verbatim a b)
    (h2 : ∀ x, f ≠ .container x) :
    RawBlock.parse e.subs p.store m = .ok none ∧ ∀ nested, parseCompound nested p m = .ok none := by
  refine ⟨rawBlock_none ?_, ?_⟩
  · rintro ⟨c, hc⟩
    exact h1 _ _ (lineForm_unique hf (.verbatim hc))
  · rcases parseCompound_shape p hm with h | ⟨x, _, _, _, _, ho, _⟩
    · exact h
    · exact absurd (lineForm_unique hf (.container (compoundLine_iff.mp ⟨ho.kind, ho.delim⟩))) (h2 x)

theorem no_media {e : BlockEnv} {p : ParserState} {s : Span} {m : BlockMetadata} {mw : List Warning} {f : Form}
    (hm : BlockMetadata.parse e.subs p.store s = .ok (m, mw)) (hf : LineForm m.line f) (h : ∀ a b c, f ≠ .media a b c) :
    mediaAt e p m = .ok none := by
  unfold mediaAt
  split
  · rename_i hs
    cases hq : MediaBlock.parse e.subs p.store m with
    | error x => exact absurd hq (fun h => media_error hm h)
    | ok q =>
      cases q with
      | none => rfl
      | some q =>
        obtain ⟨⟨mb, after⟩, ws⟩ := q
        have hr := (media_reads hq).1
        exact absurd (lineForm_unique hf (.media hr (not_audio hs hr))) (h _ _ _)
  · rfl

theorem no_section {e : BlockEnv} {nested : Nested} {p : ParserState} {m : BlockMetadata}
    (hh : ¬ ∃ n t, Heading n t m.line) (hmk : ¬ ∃ n, (n = 1 ∨ 6 < n) ∧ Marks n m.line) :
    sectionAt e nested p m = .ok (none, [], p) := by
  unfold sectionAt
  split
  · rename_i hs
    unfold parseSection
    have hi : ¬ Indented m.line := by
      rw [Bool.or_eq_true] at hs
      rcases hs with hs | hs <;> obtain ⟨r, hr⟩ := startsWith_iff.mp hs <;> rw [hr] <;> simp [Indented]
    have ht : parseTitleLine e.ar m.blockStart = .ok (none, []) := by
      rcases titleLine_cases e.ar m.blockStart m.line rfl with ⟨_, e⟩ | ⟨h, _⟩ | ⟨n, h, h', _⟩ | ⟨h, _⟩ | ⟨l, t, h, _⟩ |
        ⟨_, _, _, _, _, e⟩
      · exact e
      · exact absurd ⟨1, Or.inl rfl, h⟩ hmk
      · exact absurd ⟨n, Or.inr h, h'⟩ hmk
      · exact absurd h hi
      · exact absurd ⟨_, _, h⟩ hh
      · exact e
    rw [discard_marked hs]
    simp only [bind, Except.bind, ht]
  · rfl

theorem no_break {subs : Subs} {store : AttrStore} {s : Span} {m : BlockMetadata} {mw : List Warning}
    (hm : BlockMetadata.parse subs store s = .ok (m, mw)) (h : ¬ ∃ ty, BreakLine m.line ty) : breakAt m = .ok none := by
  cases hq : breakAt m with
  | error x => exact absurd hq (noBreakError hm)
  | ok q =>
    cases q with
    | none => rfl
    | some q =>
      have hb := breakAt_some hq
      unfold Break.parse at hb
      simp only at hb
      cases ht : breakType m.blockStart.takeNormalizedLine.item.data with
      | none => rw [ht] at hb; cases hb
      | some ty => exact absurd ⟨ty, breakType_iff.mp ht⟩ h

/-! ### One block -/

omit [Uni] in
theorem behind_blanks {s : Span} {k : Nat} {l : Text} {r : List Text} (h : lines s.data = List.replicate k [] ++ l :: r)
    (hl : l.all isBlank = false) :
    lines s.discardEmptyLines.data = l :: r ∧ s.discardEmptyLines.takeNormalizedLine.item.data = l ∧
      ((k = 0 ∧ s.discardEmptyLines = s) ∨ ∃ r', lines s.data = [] :: r') := by
  have h1 : lines s.discardEmptyLines.data = l :: r := by
    rw [lines_discardEmptyLines, h]
    clear h
    induction k with
    | zero => exact List.dropWhile_cons_of_neg (by simp [hl])
    | succ k ih => rw [List.replicate_succ, List.cons_append, List.dropWhile_cons_of_pos (by rfl)]; exact ih
  refine ⟨h1, (line_of h1).1, ?_⟩
  cases k with
  | zero => exact Or.inl ⟨rfl, discard_self h hl⟩
  | succ k => exact Or.inr ⟨_, h⟩

/-- The state of the parser between the blocks of an outline. -/
structure Still (store : AttrStore) (ty : SectionType) (p : ParserState) : Prop where
  store : p.store = store
  num : p.num.topmost = ty

omit [Uni] in
theorem registerBlockId_none (p : ParserState) (s : Span) : registerBlockId p {} s = (p, []) := by
  unfold registerBlockId
  have : Meta.id {} = none := rfl
  rw [this]

/-- What reading a block does to the parser: it may register ids, or warn that some of `ids` are used already. -/
structure Led (ids : List Text) (p p' : ParserState) (ws : List Warning) : Prop where
  store : p'.store = p.store
  num : p'.num = p.num
  warned : ∀ w ∈ ws, ∃ i ∈ ids, w.warning = .duplicateId i

omit [Uni] in
theorem Led.refl (ids : List Text) (p : ParserState) : Led ids p p [] := ⟨rfl, rfl, nofun⟩

omit [Uni] in
theorem Led.trans {a b : List Text} {p q r : ParserState} {ws ws' : List Warning} (h : Led a p q ws) (h' : Led b q r ws') :
    Led (a ++ b) p r (ws ++ ws') := by
  refine ⟨h'.store.trans h.store, h'.num.trans h.num, fun w hw => ?_⟩
  rcases List.mem_append.mp hw with hw | hw
  · obtain ⟨i, hi, e⟩ := h.warned w hw
    exact ⟨i, List.mem_append_left _ hi, e⟩
  · obtain ⟨i, hi, e⟩ := h'.warned w hw
    exact ⟨i, List.mem_append_right _ hi, e⟩

omit [Uni] in
theorem Led.still {ids : List Text} {store : AttrStore} {ty : SectionType} {p p' : ParserState} {ws : List Warning} (h : Led ids p p' ws)
    (hs : Still store ty p) : Still store ty p' := ⟨h.store.trans hs.store, by rw [h.num]; exact hs.num⟩

/-- The ids in some metadata. -/
def BlockMetadata.ids (m : BlockMetadata) : List Text :=
  (m.fields.anchor.map Span.data).toList ++ (m.fields.attrlist.bind Attrlist.id).toList

/-- The metadata in front of a block of an outline, which are a title, attributes and an anchor at most, and the lines behind them. -/
structure Fronted (e : BlockEnv) (p : ParserState) (s : Span) (m : BlockMetadata) (as : Option (List ElemAttr))
    (ls : List Text) : Prop where
  parsed : BlockMetadata.parse e.subs p.store s = .ok (m, [])
  attrs : ∃ source, m.fields.attrlist = as.map (attrlistOf · source)
  behind : lines m.blockStart.data = ls
  suf : LineSuf m.blockStart s
  source : Suf m.blockStart m.source

omit [Uni] in
theorem idsOf_eq (as : Option (List ElemAttr)) (source : Span) :
    ((as.map (attrlistOf · source)).bind Attrlist.id).toList = idsOf as := by
  cases as <;> rfl

omit [Uni] in
theorem BlockMetadata.ids_eq {m : BlockMetadata} {label : Label} {ts i t : Option Span} {source : Span}
    (h : m.fields = ⟨ts, label.title, i, t, label.attrs.map (attrlistOf · source)⟩) (hi : i.map Span.data = label.anchorId) :
    m.ids = label.ids := by
  unfold BlockMetadata.ids Label.ids
  rw [h, ← idsOf_eq label.attrs source, ← hi]

/-- The id of a block is registered, if it has one. -/
theorem Fronted.registered {e : BlockEnv} {p : ParserState} {s : Span} {m : BlockMetadata} {as : Option (List ElemAttr)}
    {ls : List Text} (h : Fronted e p s m as ls) (q : ParserState) (span : Span) :
    ∃ q' ws, registerBlockId q m.fields span = (q', ws) ∧ Led m.ids q q' ws := by
  have hid : ∀ i ∈ m.fields.id, i ∈ m.ids := by
    intro i hi
    unfold Meta.id at hi
    unfold BlockMetadata.ids
    cases ha : m.fields.anchor with
    | none =>
      rw [ha] at hi
      rw [List.mem_append, Option.mem_toList, Option.mem_toList]
      exact Or.inr hi
    | some a =>
      rw [ha] at hi
      rw [List.mem_append, Option.mem_toList, Option.mem_toList]
      exact Or.inl hi
  unfold registerBlockId
  cases hi : m.fields.id with
  | none => exact ⟨_, _, rfl, .refl _ _⟩
  | some i =>
    cases hc : q.catalog with
    | none => exact ⟨_, _, rfl, .refl _ _⟩
    | some c =>
      dsimp only
      split
      · exact ⟨_, _, rfl, rfl, rfl, nofun⟩
      · refine ⟨_, _, rfl, rfl, rfl, ?_⟩
        intro w hw
        rw [List.mem_singleton.mp hw]
        exact ⟨i, hid i (by rw [hi]; rfl), rfl⟩

theorem Fronted.group {e : BlockEnv} {p : ParserState} {s : Span} {m : BlockMetadata} {as : Option (List ElemAttr)}
    {ls : List Text} (h : Fronted e p s m as ls) (g : Group) : g.overrideViaAttrlist m.fields.attrlist = chosen as g := by
  obtain ⟨source, ha⟩ := h.attrs
  rw [ha]
  cases as with
  | none => rfl
  | some a =>
    show Group.overrideViaAttrlist g (some (attrlistOf a source)) = _
    have h1 : subsOf (some a) = ((attrlistOf a source).namedAttribute "subs".toList).map ElemAttr.value := rfl
    have h2 : styleOf (some a) = ((attrlistOf a source).nthAttribute 1).bind ElemAttr.blockStyle := rfl
    unfold Group.overrideViaAttrlist chosen
    rw [h1, h2]
    dsimp only
    cases (attrlistOf a source).namedAttribute "subs".toList with
    | none => cases ((attrlistOf a source).nthAttribute 1).bind ElemAttr.blockStyle <;> simp
    | some x =>
      rw [Option.map_some, Option.bind_some, Option.bind_some]
      cases Group.fromCustomString (some g) x.value with
      | none => cases ((attrlistOf a source).nthAttribute 1).bind ElemAttr.blockStyle <;> simp
      | some g' => rfl

/-- Without metadata. -/
theorem fronted_plain {e : BlockEnv} {p : ParserState} {s : Span} {ls : List Text}
    (h : BlockMetadata.parse e.subs p.store s = .ok (⟨{}, s.discardEmptyLines, s.discardEmptyLines⟩, []))
    (hl : lines s.discardEmptyLines.data = ls) : Fronted e p s ⟨{}, s.discardEmptyLines, s.discardEmptyLines⟩ none ls :=
  ⟨h, ⟨s, rfl⟩, hl, discardEmptyLines_lineSuf s, Suf.refl _⟩

omit [Uni] in
theorem white_blank {c : Char} (h : isWhite c = false) : c ≠ ' ' ∧ c ≠ '\t' := by
  constructor <;> (rintro rfl; revert h; decide)

omit [Uni] in
theorem begins_head {l : Text} (h : Begins l) : l.all isBlank = false ∧ l.head? ≠ some ':' ∧ l.head? ≠ some ' ' ∧
    l.head? ≠ some '\t' := by
  obtain ⟨c, r, rfl, hw, hc⟩ := h.head
  obtain ⟨h1, h2⟩ := white_blank hw
  refine ⟨?_, by simpa using hc, by simpa using h1, by simpa using h2⟩
  simp [isBlank, h1, h2]

omit [Uni] in
theorem paragraphText_zero {ls a b : List Text} (h : ParagraphText 0 ls a) (h' : ParagraphText 0 ls b) : a = b := by
  have key : ∀ {l x : Text}, Stripped 0 l x → x = trimEnd l := by
    intro l x h
    cases h with
    | blank _ => rfl
    | @indented i l _ h2 _ _ =>
      have : i = [] := List.length_eq_zero_iff.mp (by omega)
      rw [this]; rfl
  induction h generalizing b with
  | nil => cases h'; rfl
  | comment hc _ ih =>
    cases h' with
    | comment _ h => exact ih h
    | line hn _ _ => exact absurd hc hn
  | line hn hs _ ih =>
    cases h' with
    | comment hc _ => exact absurd hc hn
    | line _ hs' h => rw [ih h, key hs, key hs']

omit [Uni] in
/-- The lines of a paragraph that is not indented. -/
theorem para_lines {subs : Subs} {store : AttrStore} {s : Span} {l r : Text} {ls rest texts : List Text} (hal : Aligned s)
    (hk : lines s.data = l :: ls ++ rest) (hb : Begins l) (hp : Paragraph false (l :: ls ++ rest) (l :: ls) rest)
    (ht : ParagraphText 0 (l :: ls) texts) {al : Option Attrlist} {g : Group} (hg : Group.normal.overrideViaAttrlist al = g)
    {as : Option (List ElemAttr)} (has : al.bind Attrlist.blockStyle = styleOf as)
    (hr : subs store g al (joinWith ['\n'] texts) = .ok r) :
    ∃ c after, parseLines subs store s al = .ok (some ⟨(⟨c, r⟩, paraStyle as), after⟩) ∧
      lines after.data = rest.dropWhile (·.all isBlank) := by
  have hne : s.data ≠ [] := fun h0 => by rw [h0, lines_nil] at hk; cases hk
  have hcol : s.col = 1 := by
    rcases hal with h | h
    · exact absurd h hne
    · exact h
  obtain ⟨c, t, hlc, hw, _⟩ := hb.head
  have hline := (line_of hk).1
  rw [hlc] at hline
  obtain ⟨t', hdata⟩ := line_head hline
  have hcc := white_blank hw
  have h0 : s.data = [] ++ (c :: t') := hdata
  have hr0 : (c :: t' : Text).head? ≠ some ' ' ∧ (c :: t' : Text).head? ≠ some '\t' := by simpa using hcc
  obtain ⟨k, raw, taken, texts', e1, e2, e3, e4, e5, e6, e7⟩ := parseLines_spec subs store s al
  rw [(indent_col hcol h0 (by simp) hr0).1] at e6
  rw [hk] at e5
  obtain ⟨ht1, ht2⟩ := C43_deterministic e5 hp
  rw [ht1] at e6 e2
  rw [paragraphText_zero e6 ht] at e7
  have hraw : trimEnd raw ≠ [] := by
    intro h
    have := white_lines h l (by rw [e2]; simp) c (by rw [hlc]; simp)
    rw [hw] at this; cases this
  rw [if_neg hraw] at e7
  rw [hg, hr] at e7
  have hst : simpleStyle s al = paraStyle as := by
    rw [C43_style hcol h0 (by simp) hr0 al]
    unfold paraStyle
    rw [← has]
    cases hb : al.bind Attrlist.blockStyle with
    | none => rfl
    | some x =>
      simp only [Option.some.injEq]
      by_cases n0 : x = "normal".toList
      · subst n0; rfl
      · rw [if_neg n0]; rfl
  refine ⟨s.takeN (List.length (trimEnd raw)), (s.skip k).discardEmptyLines, ?_, ?_⟩
  · rw [e7, hst]; rfl
  · rw [lines_discardEmptyLines, ht2]

/-- What is read behind metadata. -/
def parseLabelled (e : BlockEnv) (nested : Nested) (p : ParserState) (m : BlockMetadata) :
    Res (Option (MI Block) × List Warning × ParserState) :=
  if m.fields.style = some "literal".toList then parseSimple e p m true else parseBehind e nested p m

theorem parseLabelled_plain {e : BlockEnv} {nested : Nested} {p : ParserState} {m : BlockMetadata} (h : m.fields = {}) :
    parseLabelled e nested p m = parseBehind e nested p m := by
  unfold parseLabelled
  rw [h]
  exact if_neg nofun

theorem Fronted.behind_eq {e : BlockEnv} {nested : Nested} {p : ParserState} {s : Span} {m : BlockMetadata}
    {as : Option (List ElemAttr)} {ls : List Text} (h : Fronted e p s m as ls) (hs : styleOf as ≠ some "literal".toList) :
    parseLabelled e nested p m = parseBehind e nested p m := by
  obtain ⟨source, ha⟩ := h.attrs
  refine if_neg ?_
  unfold Meta.style
  rw [ha]
  cases as with
  | none => nofun
  | some a => exact hs

/-- A paragraph behind its metadata. -/
theorem para_behind {e : BlockEnv} {nested : Nested} {p : ParserState} {s : Span} {m : BlockMetadata}
    {as : Option (List ElemAttr)} {l r : Text}
    {ls rest texts : List Text} (hal : Aligned s) (hA : Fronted e p s m as (l :: ls ++ rest))
    (hb : Begins l) (hp : Paragraph false (l :: ls ++ rest) (l :: ls) rest) (ht : ParagraphText 0 (l :: ls) texts)
    (hr : ∀ source, e.subs p.store (chosen as .normal) (as.map (attrlistOf · source)) (joinWith ['\n'] texts) = .ok r) :
    ∃ c src after p' ws, parseLabelled e nested p m = .ok (some ⟨.mk (.simple ⟨c, r⟩ (paraStyle as)) src m.fields [], after⟩, ws, p') ∧
      Led m.ids p p' ws ∧ lines after.data = rest.dropWhile (·.all isBlank) ∧ LineSuf after s := by
  obtain ⟨source, hsrc⟩ := hA.attrs
  obtain ⟨c, after, hpl, haft⟩ := para_lines (al := m.fields.attrlist) (hal.of_lineSuf hA.suf) hA.behind hb hp ht (hA.group _)
    (as := as)
    (by rw [hsrc]; cases as <;> rfl)
    (by rw [hsrc]; exact hr source)
  have hsuf := (parseLines_lineSuf hpl).1
  have hm := hA.parsed
  have hline : m.line = l := (line_of hA.behind).1
  have hf : LineForm m.line .text := by rw [hline]; exact hb.form
  obtain ⟨n1, n2⟩ := no_delimiter hm hf nofun nofun
  have htext : (¬ ∃ n t, Heading n t l) ∧ ¬ ∃ ty, BreakLine l ty := by
    cases hb.form with
    | text _ _ _ a b => exact ⟨a, b⟩
  obtain ⟨src, hsrc⟩ := trimRemainder?_ne_none (Sub.refl m.source) (hsuf.1.trans hA.source).sub
  have hsb : SimpleBlock.parse e.subs p.store m =
      .ok (some ⟨⟨⟨c, r⟩, paraStyle as, src.trimTrailingWhitespace⟩, after.discardEmptyLines⟩) := by
    unfold SimpleBlock.parse
    simp only [bind, Except.bind, hpl, hsrc, Res.ofOption]
  obtain ⟨p', ws, hreg, hled⟩ := hA.registered p src.trimTrailingWhitespace
  refine ⟨c, src.trimTrailingWhitespace, after.discardEmptyLines, p', ws, ?_, hled, ?_,
    (discardEmptyLines_lineSuf _).trans (hsuf.trans hA.suf)⟩
  · unfold parseLabelled
    split
    · unfold parseSimple finishSimple
      simp only [if_true, Bool.false_eq_true, if_false, bind, Except.bind, hsb, hreg, List.nil_append]
    unfold parseBehind
    simp only [bind, Except.bind, n1, n2, no_media hm hf nofun,
      no_section (e := e) (nested := nested) (p := p) (m := m) (by rw [hline]; exact htext.1)
        (by rw [hline]; exact hb.mark),
      no_break hm (by rw [hline]; exact htext.2)]
    unfold parseSimple finishSimple
    simp only [Bool.false_eq_true, if_false, bind, Except.bind, hsb, Option.isNone_some, Bool.false_and,
      hreg, List.nil_append]
  · rw [lines_discardEmptyLines, haft]; exact dropWhile_idem _ _

/-- A paragraph, whether it is read by the short cut or not. -/
theorem para_step {e : BlockEnv} {nested : Nested} {p : ParserState} {s : Span} {k : Nat} {l r : Text}
    {ls rest texts : List Text} (hal : Aligned s) (hk : lines s.data = List.replicate k [] ++ (l :: ls ++ rest))
    (hb : Begins l) (hp : Paragraph false (l :: ls ++ rest) (l :: ls) rest) (ht : ParagraphText 0 (l :: ls) texts)
    (hr : e.subs p.store .normal none (joinWith ['\n'] texts) = .ok r) :
    ∃ c src after p' ws, parseBlock e nested p s = .ok (some ⟨.mk (.simple ⟨c, r⟩ .paragraph) src {} [], after⟩, ws, p') ∧
      Led [] p p' ws ∧ lines after.data = rest.dropWhile (·.all isBlank) ∧ LineSuf after s := by
  obtain ⟨hl, hcol, hb1, hb2⟩ := begins_head hb
  obtain ⟨g1, g2, g3⟩ := behind_blanks hk hl
  have hal0 : Aligned s.discardEmptyLines := hal.of_lineSuf (discardEmptyLines_lineSuf s)
  by_cases hfast : fastPath e p s = .ok none
  · have hhead : s.takeNormalizedLine.item.data.head? ≠ some ':' := by
      rcases g3 with ⟨_, h⟩ | ⟨r', h⟩
      · rw [h] at g2; rw [g2]; exact hcol
      · rw [(line_of h).1]; simp
    have hm := meta_absent e.subs p.store g2 hb.title hb.bracket
    rw [parse_ahead g2 hfast hhead hb.title hb.bracket]
    rw [← parseLabelled_plain rfl]
    exact para_behind (as := none) hal (fronted_plain hm g1) hb hp ht (fun _ => hr)
  · obtain ⟨c, after, hpl, haft⟩ := para_lines (al := none) hal0 g1 hb hp ht (as := none) rfl rfl hr
    rw [show paraStyle none = .paragraph from rfl] at hpl
    have hsuf := (parseLines_lineSuf hpl).1
    have hal1 : LineSuf after.discardEmptyLines s :=
      (discardEmptyLines_lineSuf _).trans (hsuf.trans (discardEmptyLines_lineSuf _))
    have haft1 : lines after.discardEmptyLines.data = rest.dropWhile (·.all isBlank) := by
      rw [lines_discardEmptyLines, haft]; exact dropWhile_idem _ _
    rcases g3 with ⟨_, h⟩ | ⟨r', h⟩
    · rw [h] at hpl
      have hpf : SimpleBlock.parseFast e.subs p.store s = .ok (some ⟨⟨⟨c, r⟩, .paragraph, c⟩, after.discardEmptyLines⟩) := by
        unfold SimpleBlock.parseFast
        simp only [bind, Except.bind, hpl]
      have hfp : fastPath e p s = .ok (some ⟨⟨⟨c, r⟩, .paragraph, c⟩, after.discardEmptyLines⟩) := by
        unfold fastPath at hfast ⊢
        split at hfast
        · exact absurd rfl hfast
        · split at hfast
          · rename_i hc; rw [if_pos hc]; exact hpf
          · exact absurd rfl hfast
      refine ⟨c, c, _, p, [], ?_, .refl _ _, haft1, hal1⟩
      unfold parseBlock
      simp only [bind, Except.bind, hfp, registerBlockId_none]
    · exact absurd (fast_blank h) hfast

end Adoc
