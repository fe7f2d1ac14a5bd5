import Verif.Lemmas.Culprit
import Verif.Lemmas.Preprocessor
import Verif.Spec.Stuck
/-!
# Where no block is found
-/

namespace Adoc
open Span Spec Props

/-! ### White space -/

theorem tidy_mem {x : Text} {c : Char} (h : c ∈ x) : c ∈ tidy x ∨ c = ' ' ∨ c = '\r' := by
  have key : ∀ {y : Text}, c ∈ y → c ∈ trimEndP (· == ' ') y ∨ c = ' ' := by
    intro y hy
    obtain ⟨w, e, hw⟩ := trimEndP_spec (· == ' ') y
    rw [e, List.mem_append] at hy
    rcases hy with hy | hy
    · exact Or.inl hy
    · exact Or.inr (by simpa using List.all_eq_true.mp hw c hy)
  unfold tidy
  by_cases hr : endsWith x ['\r'] = true
  · rw [if_pos hr]
    obtain ⟨a, rfl⟩ := endsWith_iff.mp hr
    rw [List.dropLast_concat]
    rcases List.mem_append.mp h with h | h
    · exact (key h).imp id Or.inl
    · exact Or.inr (Or.inr (by simpa using h))
  · rw [if_neg hr]
    exact (key h).imp id Or.inl

/-- A text of which the lines are white space is white space. -/
theorem white_of_lines {t : Text} (h : ∀ l ∈ lines t, ∀ c ∈ l, isWhite c = true) : ∀ c ∈ t, isWhite c = true := by
  intro c hc
  have hm : c ∈ (splitChar '\n' t).flatMap (· ++ ['\n']) := by letI := asciiUni; rw [splitChar_join]; simp [hc]
  obtain ⟨x, hx, hcx⟩ := List.mem_flatMap.mp hm
  rcases List.mem_append.mp hcx with hcx | hcx
  · have hraw : x ∈ rawLines t := by
      unfold rawLines
      split
      · rename_i hl
        obtain ⟨init, e⟩ := List.getLast?_eq_some_iff.mp hl
        rw [e] at hx ⊢
        rw [List.dropLast_concat]
        rcases List.mem_append.mp hx with hx | hx
        · exact hx
        · rw [List.mem_singleton] at hx
          rw [hx] at hcx; cases hcx
      · exact hx
    rcases tidy_mem hcx with h1 | rfl | rfl
    · exact h _ (List.mem_map_of_mem hraw) c h1
    · rfl
    · rfl
  · rw [List.mem_singleton] at hcx
    rw [hcx]; rfl

theorem Spec.Paragraph.det {b : Bool} {ls taken taken' rest rest' : List Text} (h : Paragraph b ls taken rest)
    (h' : Paragraph b ls taken' rest') : taken = taken' ∧ rest = rest' := by
  have nc : ∀ {l : Text}, CommentLine l → l ≠ [] := by rintro l ⟨r, rfl, _⟩ h; cases h
  induction h generalizing taken' rest' with
  | stop h =>
    cases h' with
    | stop _ => exact ⟨rfl, rfl⟩
    | comment hc hn _ =>
      rcases h _ _ rfl with h | h
      · exact absurd h (nc hc)
      · exact absurd h hn
    | line h0 _ hn _ =>
      rcases h _ _ rfl with h | h
      · exact absurd h h0
      · exact absurd h hn
  | comment hc hn _ ih =>
    cases h' with
    | stop h =>
      rcases h _ _ rfl with h | h
      · exact absurd h (nc hc)
      · exact absurd h hn
    | comment _ _ h => obtain ⟨e1, e2⟩ := ih h; exact ⟨by rw [e1], e2⟩
    | line _ h _ _ => exact absurd hc h
  | line h0 hc hn _ ih =>
    cases h' with
    | stop h =>
      rcases h _ _ rfl with h | h
      · exact absurd h h0
      · exact absurd h hn
    | comment h _ _ => exact absurd h hc
    | line _ _ _ h => obtain ⟨e1, e2⟩ := ih h; exact ⟨by rw [e1], e2⟩

/-- A paragraph is not found exactly if its lines are white space. -/
theorem parseLines_none_iff {subs : Subs} {store : AttrStore} {s : Span} {al : Option Attrlist} :
    parseLines subs store s al = .ok none ↔ OnlyWhite (lines s.data) := by
  obtain ⟨k, raw, taken, texts, _, h2, _, _, h5, _, h7⟩ := parseLines_spec subs store s al
  rw [h7]
  constructor
  · intro h
    split at h
    · rename_i h0
      have hw : ∀ c ∈ raw, isWhite c = true := List.all_eq_true.mp (trimEndP_nil_iff.mp h0)
      refine ⟨taken, _, h5, fun l hl c hc => hw c ?_⟩
      rw [← h2] at hl
      exact lines_mem hl c hc
    · generalize subs _ _ _ _ = q at h
      cases q <;> cases h
  · rintro ⟨taken', rest, hp, hw⟩
    obtain ⟨rfl, _⟩ := h5.det hp
    rw [if_pos]
    refine trimEndP_nil_iff.mpr (List.all_eq_true.mpr (white_of_lines ?_))
    rw [h2]; exact hw

theorem onlyWhite_head {l : Text} {r : List Text} (h : OnlyWhite (l :: r)) : ∀ c ∈ l, isWhite c = true := by
  obtain ⟨taken, rest, hp, hw⟩ := h
  cases hp with
  | stop h =>
    rcases h l r rfl with rfl | h
    · nofun
    · cases h.1
  | comment _ _ _ => exact hw l (by simp)
  | line _ _ _ _ => exact hw l (by simp)

theorem simpleBlock_none_iff {subs : Subs} {store : AttrStore} {m : BlockMetadata} :
    SimpleBlock.parse subs store m = .ok none ↔ OnlyWhite (lines m.blockStart.data) := by
  refine ⟨fun h => parseLines_none_iff.mp (simpleBlock_none h), fun h => ?_⟩
  unfold SimpleBlock.parse
  simp only [bind, Except.bind]
  rw [parseLines_none_iff.mpr h]

variable [Uni]

/-! ### No block is found -/

/-- The metadata that are taken for none. -/
theorem empty_iff {subs : Subs} {store : AttrStore} {s : Span} {m : BlockMetadata} {mw : List Warning} {is : List MetaItem}
    {rest : List Text} (hm : BlockMetadata.parse subs store s = .ok (m, mw))
    (hi : MetaItems [] ((lines s.data).dropWhile (·.all isBlank)) is rest) :
    m.isEmpty = true ↔ is = [] ∨ ∃ a r, is = [.anchor a r] := by
  obtain ⟨js, g1, _, g2, _, g3⟩ := C27_reads hm
  obtain ⟨rfl, _⟩ := g1.det hi
  obtain ⟨g4, _⟩ := C27_values hm
  unfold BlockMetadata.isEmpty
  rw [Bool.and_eq_true, Option.isNone_iff_eq_none, Option.isNone_iff_eq_none]
  constructor
  · rintro ⟨k1, k2⟩
    have k3 : m.fields.titleSource = none := by
      rcases g4 with ⟨h, _⟩ | ⟨x, y, _, h, _⟩
      · exact h
      · rw [h] at k1; cases k1
    rw [k3] at g2
    rw [k2] at g3
    exact metaItems_anchors hi g2.symm g3.symm
  · intro h
    have e1 : js.findSome? MetaItem.title? = none ∧ js.findSome? MetaItem.attrs? = none := by
      rcases h with rfl | ⟨a, r, rfl⟩ <;> exact ⟨rfl, rfl⟩
    rw [e1.1] at g2
    rw [e1.2] at g3
    refine ⟨?_, Option.map_eq_none_iff.mp g3⟩
    rcases g4 with ⟨_, h⟩ | ⟨x, y, h, _⟩
    · exact h
    · rw [h] at g2; cases g2

theorem dropLines_start {ls : List Text} {l : Text} {r : List Text} (h : ls = l :: r) (hb : l.all isBlank = false) :
    ls.dropWhile (·.all isBlank) = ls := by
  rw [h, List.dropWhile_cons, hb]; rfl

/-- The characters that rule out the short cut are not white space. -/
theorem marker_black {c : Char} (h : isMarker c = true) : isWhite c = false ∧ isBlank c = false := by
  unfold isMarker at h
  simp only [Bool.or_eq_true, beq_iff_eq] at h
  rcases h with ((((((((((h | h) | h) | h) | h) | h) | h) | h) | h) | h) | h) | h <;> subst h <;> exact ⟨rfl, rfl⟩

/-- The short cut at a place of which the first line is blank. -/
theorem fastPath_blank {e : BlockEnv} {p : ParserState} {s : Span} {l : Text} {r : List Text} (hl : lines s.data = l :: r)
    (hb : l.all isBlank = true) : fastPath e p s = SimpleBlock.parseFast e.subs p.store s := by
  have hne : s.data ≠ [] := fun h => by rw [h] at hl; cases hl
  have hbl : ∀ c ∈ l, isBlank c = true := List.all_eq_true.mp hb
  unfold fastPath
  cases hd : s.data with
  | nil => exact absurd hd hne
  | cons c x =>
    simp only [List.head?_cons]
    rw [if_pos]
    rw [Bool.and_eq_true, Bool.not_eq_true', Bool.not_eq_true']
    constructor
    · cases hmk : isMarker c with
      | false => rfl
      | true =>
        have hc := marker_black hmk
        have := first_head hd hl ⟨fun h => by rw [h] at hc; exact absurd hc.1 (by decide),
          fun h => by rw [h] at hc; exact absurd hc.1 (by decide), fun h => by rw [h] at hc; exact absurd hc.1 (by decide)⟩
        rw [hbl c (List.mem_of_mem_head? this)] at hc
        cases hc.2
    · rw [Bool.eq_false_iff]
      intro hc
      have hm : ':' ∈ s.takeLine.item.data := by
        obtain ⟨a, b, e⟩ := containsSub_iff.mp hc
        rw [e]; simp
      have h1 := lines_cons s hne
      rw [hl] at h1
      obtain ⟨h1, _⟩ := List.cons.inj h1
      rw [normLine_item_data] at h1
      obtain ⟨w, e, hw⟩ := trimEndP_spec (· == ' ') s.takeLine.item.data
      rw [← h1] at e
      rw [e] at hm
      rcases List.mem_append.mp hm with hm | hm
      · exact absurd (hbl _ hm) (by decide)
      · exact absurd (List.all_eq_true.mp hw _ hm) (by decide)

omit [Uni] in
theorem parseFast_none_iff {subs : Subs} {store : AttrStore} {s : Span} :
    SimpleBlock.parseFast subs store s = .ok none ↔ OnlyWhite (lines s.data) := by
  rw [← parseLines_none_iff (subs := subs) (store := store) (al := none)]
  unfold SimpleBlock.parseFast
  simp only [bind, Except.bind]
  generalize parseLines subs store s none = q
  cases q with
  | error x => exact ⟨nofun, nofun⟩
  | ok q =>
    cases q with
    | none => exact ⟨fun _ => rfl, fun _ => rfl⟩
    | some mi => exact ⟨nofun, nofun⟩

theorem parseBlock_fast {e : BlockEnv} {nested : Nested} {p p' : ParserState} {s : Span} {ws : List Warning}
    (h : parseBlock e nested p s = .ok (none, ws, p')) : fastPath e p s = .ok none := by
  unfold parseBlock at h
  simp only [bind, Except.bind] at h
  cases hf : fastPath e p s with
  | error x => rw [hf] at h; cases h
  | ok q =>
    cases q with
    | none => rfl
    | some mi => rw [hf] at h; cases h

theorem stuck_of_none {e : BlockEnv} {nested : Nested} {p p' : ParserState} {s : Span} {m : BlockMetadata}
    {mw ws : List Warning} (hne : s.data ≠ []) (hm : BlockMetadata.parse e.subs p.store s = .ok (m, mw))
    (h : parseBlock e nested p s = .ok (none, ws, p')) :
    Stuck (m.fields.style = some "literal".toList) (lines s.data) := by
  refine ⟨?_, ?_⟩
  · have hl := lines_cons s hne
    cases hb : s.takeNormalizedLine.item.data.all isBlank with
    | false => exact Or.inl ⟨_, _, hl, hb⟩
    | true =>
      right
      have hf := parseBlock_fast h
      rw [fastPath_blank hl hb] at hf
      exact parseFast_none_iff.mp hf
  · obtain ⟨is, g1, _⟩ := C27_reads hm
    have hs := parseBlock_step h
    generalize hr : (none : Option (MI Block)) = r at hs
    cases hs with
    | leaf hl =>
      subst hr
      generalize hr : (none : Option (MI Block)) = r at hl
      cases hl with
      | simple hf hp =>
        subst hr
        cases hf with
        | literal h1 h2 _ _ =>
          rw [hm] at h1; cases h1
          exact ⟨is, _, g1, parseLines_none_iff.mp (finishSimple_nothing hp), Or.inr (Or.inr h2)⟩
        | other h1 _ _ _ _ =>
          have h1 := h1.parse
          rw [hm] at h1; cases h1
          obtain ⟨k1, k2⟩ := simple_stalls hp
          refine ⟨is, _, g1, parseLines_none_iff.mp k1, ?_⟩
          rw [← or_assoc]
          left
          rw [← empty_iff hm g1]
          cases hem : m.isEmpty with
          | true => rfl
          | false =>
            exfalso
            have hw := parseLines_none_iff.mp (k2 hem)
            rw [meta_source hm, lines_discardEmptyLines] at hw
            have hx : ¬ (is = [] ∨ ∃ a r, is = [.anchor a r]) := fun h => by
              rw [(empty_iff hm g1).mpr h] at hem; cases hem
            generalize lines m.blockStart.data = rest at g1
            generalize (lines s.data).dropWhile (·.all isBlank) = ls at g1 hw
            cases g1 with
            | stop _ => exact hx (Or.inl rfl)
            | item hl _ _ =>
              have hw := onlyWhite_head hw
              obtain ⟨r, rfl | rfl⟩ := hl.head
              · exact absurd (hw '.' (by simp)) (by decide)
              · exact absurd (hw '[' (by simp)) (by decide)
      | _ => cases hr
    | compound => cases hr
    | «section» => cases hr

/-- What a line of white space does not begin. -/
theorem white_begins_nothing {e : BlockEnv} {nested : Nested} {p : ParserState} {m : BlockMetadata}
    (hw : ∀ c ∈ m.line, isWhite c = true) :
    RawBlock.parse e.subs p.store m = .ok none ∧ parseCompound nested p m = .ok none ∧ mediaAt e p m = .ok none ∧
      sectionAt e nested p m = .ok (none, [], p) ∧ breakAt m = .ok none := by
  have hs : ∀ (c : Char) (t : Text), isWhite c = false → startsWith m.line (c :: t) = false := by
    intro c t hc
    rw [Bool.eq_false_iff]
    intro h
    obtain ⟨r, e⟩ := startsWith_iff.mp h
    rw [hw c (by rw [e]; simp)] at hc
    cases hc
  refine ⟨rawBlock_none ?_, ?_, ?_, ?_, ?_⟩
  · rintro ⟨c, hc, n, h⟩
    have : isWhite c = true := hw c (by unfold BlockMetadata.line; rw [h]; simp [List.replicate_succ])
    rcases hc with rfl | rfl | rfl | rfl <;> exact absurd this (by decide)
  · unfold parseCompound
    simp only
    cases hk : compoundKind m.blockStart.takeNormalizedLine.item.data with
    | none => rfl
    | some x =>
      simp only
      rw [if_pos]
      rw [Bool.not_eq_true', Bool.eq_false_iff]
      intro h
      have hw : ∀ c ∈ m.blockStart.takeNormalizedLine.item.data, isWhite c = true := hw
      rcases isCompoundDelimiter_iff.mp h with h | ⟨c, n, hc, h⟩
      · rw [h] at hw; exact absurd (hw '-' (by simp)) (by decide)
      · have : isWhite c = true := hw c (by rw [h]; simp [List.replicate_succ])
        rcases hc with rfl | rfl | rfl <;> exact absurd this (by decide)
  · unfold mediaAt
    rw [show "image::".toList = 'i' :: "mage::".toList from rfl, show "video::".toList = 'v' :: "ideo::".toList from rfl,
      hs _ _ (by decide), hs _ _ (by decide)]
    rfl
  · unfold sectionAt
    rw [hs _ _ (by decide), hs _ _ (by decide)]
    rfl
  · unfold breakAt
    rw [hs _ _ (by decide), hs _ _ (by decide), hs _ _ (by decide), hs _ _ (by decide)]
    rfl

theorem none_of_stuck {e : BlockEnv} {p : ParserState} {s : Span} {m : BlockMetadata} {mw : List Warning}
    (hne : s.data ≠ []) (hm : BlockMetadata.parse e.subs p.store s = .ok (m, mw))
    (h : Stuck (m.fields.style = some "literal".toList) (lines s.data)) (nested : Nested) :
    parseBlock e nested p s = .ok (none, mw, p) := by
  obtain ⟨h1, is, rest, h2, h3, h4⟩ := h
  obtain ⟨js, g1, _⟩ := C27_reads hm
  obtain ⟨rfl, rfl⟩ := g1.det h2
  obtain ⟨l, r, hl⟩ : ∃ l r, lines s.data = l :: r := ⟨_, _, lines_cons s hne⟩
  -- the first line is blank, white space or begins with a dot or a bracket
  have first : l.all isBlank = false → (js = [] ∧ ∀ c ∈ l, isWhite c = true) ∨ ∃ x, l = '.' :: x ∨ l = '[' :: x := by
    intro hb
    rw [dropLines_start hl hb, hl] at g1
    generalize hr : lines m.blockStart.data = rest at g1
    cases g1 with
    | stop _ => left; rw [hr] at h3; exact ⟨rfl, onlyWhite_head h3⟩
    | item hi _ _ => right; exact hi.head
  have hfast : fastPath e p s = .ok none := by
    cases hb : l.all isBlank with
    | true =>
      rw [fastPath_blank hl hb, parseFast_none_iff]
      rcases h1 with ⟨l', r', e1, e2⟩ | h1
      · rw [hl] at e1; cases e1; rw [hb] at e2; cases e2
      · exact h1
    | false =>
      unfold fastPath
      cases hd : s.data with
      | nil => rfl
      | cons c x =>
        simp only [List.head?_cons]
        split
        · rename_i hmk
          rcases first hb with ⟨rfl, hw⟩ | ⟨x', hx⟩
          · rw [parseFast_none_iff]
            rw [dropLines_start hl hb] at g1
            generalize lines m.blockStart.data = rest at g1 h3
            generalize lines s.data = ls at g1
            cases g1
            exact h3
          · exfalso
            have hcl : l.head? = some c := by
              obtain ⟨w, e1, _⟩ := normLine_rest s
              have e2 := lines_cons s hne
              rw [hl] at e2
              rw [← (List.cons.inj e2).1, hd] at e1
              rcases hx with rfl | rfl <;> (cases e1; rfl)
            rcases hx with rfl | rfl <;> cases hcl <;> cases hmk
        · rfl
  have hentry : bodyEntryAt e p s = .ok none := by
    unfold bodyEntryAt
    simp only
    split
    · rename_i hc
      exfalso
      obtain ⟨x, hx⟩ := startsWith_iff.mp (Bool.and_eq_true_iff.mp hc).1
      obtain ⟨line, sep, rest, ⟨t1, _, _⟩, t2⟩ := takeLine_shape s
      have hd : s.data = ':' :: (x ++ sep ++ rest) := by
        rw [(takeLine_data t1 t2).1] at hx
        rw [t1, hx]; simp
      have hcl := first_head hd hl (by decide)
      have hb : l.all isBlank = false := by
        rw [Bool.eq_false_iff]
        intro hb
        exact absurd (List.all_eq_true.mp hb ':' (List.mem_of_mem_head? hcl)) (by decide)
      rcases first hb with ⟨_, hw⟩ | ⟨y, rfl | rfl⟩
      · exact absurd (hw ':' (List.mem_of_mem_head? hcl)) (by decide)
      · cases hcl
      · cases hcl
    · rfl
  have hline : ∀ c ∈ m.line, isWhite c = true := by
    unfold BlockMetadata.line
    by_cases h0 : m.blockStart.data = []
    · intro c hc
      have := sub_mem (normLine_item_sub m.blockStart) hc
      rw [h0] at this; cases this
    · rw [lines_cons _ h0] at h3
      exact onlyWhite_head h3
  have hsb := simpleBlock_none_iff (subs := e.subs) (store := p.store).mpr h3
  unfold parseBlock
  simp only [bind, Except.bind, hfast, hentry, hm]
  by_cases hst : m.fields.style = some "literal".toList
  · rw [if_pos hst]
    unfold parseSimple finishSimple
    simp only [if_true, Bool.false_eq_true, if_false, bind, Except.bind, hsb, List.append_nil]
  · rw [if_neg hst]
    have hem : m.isEmpty = true := by
      rw [empty_iff hm g1]
      rcases h4 with h | h | h
      · exact Or.inl h
      · exact Or.inr h
      · exact absurd h hst
    obtain ⟨q1, q2, q3, q4, q5⟩ := white_begins_nothing (e := e) (nested := nested) (p := p) hline
    unfold parseBehind parseSimple finishSimple
    simp only [bind, Except.bind, q1, q2, q3, q4, q5, hsb, hem, Option.isNone_none, Bool.not_true, Bool.and_false,
      Bool.false_eq_true, if_false, List.append_nil]

end Adoc
