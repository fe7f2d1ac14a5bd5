import Verif.Spec.Metadata
import Verif.Lemmas.Lines
import Verif.Lemmas.SpanOps
import Verif.Props.Attrlist
/-! # Block metadata -/

namespace Adoc
open Span Spec

/-- What follows the text of a normalized line. -/
theorem normLine_rest (s : Span) : ∃ w, s.data = s.takeNormalizedLine.item.data ++ w ∧
    ∀ c r, w = c :: r → c = ' ' ∨ c = '\r' ∨ c = '\n' := by
  obtain ⟨line, sep, rest, ⟨h1, h2, h3⟩, e⟩ := takeLine_shape s
  obtain ⟨hi, ha⟩ := takeLine_data h1 e
  rw [normLine_item_data, hi]
  obtain ⟨sp, hs, hsp⟩ := trimEndP_spec (· == ' ') line
  refine ⟨sp ++ sep ++ rest, by rw [h1]; conv => lhs; rw [hs]
                                simp, ?_⟩
  intro c r hr
  cases sp with
  | cons d ds =>
    simp at hr hsp
    left; rw [← hr.1]; exact hsp.1
  | nil =>
    rw [List.nil_append] at hr
    rcases h3 with rfl | ⟨rfl, _⟩ | ⟨rfl, rfl⟩ | ⟨rfl, rfl, _⟩
    · simp at hr; exact Or.inr (Or.inl hr.1.symm)
    · simp at hr; exact Or.inr (Or.inr hr.1.symm)
    · simp at hr; exact Or.inr (Or.inl hr.1.symm)
    · cases hr

theorem prefix_append_cases {p a w : Text} (hw : ∀ c r, w = c :: r → c ∉ p) :
    startsWith (a ++ w) p = startsWith a p := by
  unfold startsWith
  induction p generalizing a with
  | nil => simp
  | cons x xs ih =>
    cases a with
    | nil =>
      cases w with
      | nil => rfl
      | cons c r =>
        have : x ≠ c := by
          have := hw c r rfl
          simp at this; exact fun e => this.1 e.symm
        simp [List.isPrefixOf, this]
    | cons y ys =>
      simp only [List.cons_append, List.isPrefixOf]
      rw [ih]
      intro c r e; have := hw c r e; simp at this; exact this.2

theorem startsWith_normLine (s : Span) {p : Text} (hp : ∀ c ∈ p, c ≠ ' ' ∧ c ≠ '\r' ∧ c ≠ '\n') :
    startsWith s.data p = startsWith s.takeNormalizedLine.item.data p := by
  obtain ⟨w, h, hw⟩ := normLine_rest s
  conv => lhs; rw [h]
  apply prefix_append_cases
  intro c r e hc
  rcases hw c r e with rfl | rfl | rfl
  · exact (hp _ hc).1 rfl
  · exact (hp _ hc).2.1 rfl
  · exact (hp _ hc).2.2 rfl

theorem isXmlName_iff [Uni] (s : Span) : s.isXmlName = true ↔ XmlName s.data := by
  unfold isXmlName XmlName
  cases h : s.data with
  | nil => simp
  | cons c cs =>
    simp only [Bool.and_eq_true, Bool.or_eq_true, beq_iff_eq, bne_iff_ne, ne_eq, List.all_eq_true, List.cons.injEq]
    constructor
    · rintro ⟨h1, h2⟩
      refine ⟨c, cs, ⟨rfl, rfl⟩, ?_, ?_⟩
      · rcases h1 with (h1 | h1) | h1
        · exact Or.inl h1
        · exact Or.inr (Or.inl h1)
        · exact Or.inr (Or.inr h1)
      · intro d hd
        have := h2 d hd
        grind
    · rintro ⟨c', cs', ⟨rfl, rfl⟩, h1, h2⟩
      refine ⟨by grind, ?_⟩
      intro d hd
      have := h2 d hd
      grind

section
variable (s : Span)

theorem maybeTitle_iff {m : MI Span} : maybeTitle s = some m ↔
    (∃ t, s.takeNormalizedLine.item.data = '.' :: t ∧ t.head? ≠ some '.' ∧ t.head? ≠ some ' ' ∧ t.head? ≠ some '\t') ∧
      m = ⟨s.takeNormalizedLine.item.dropN 1, s.takeLine.after⟩ := by
  have hb : ∀ t : Text, prefLen isBlank t = 0 ↔ (t.head? ≠ some ' ' ∧ t.head? ≠ some '\t') := by
    intro t
    cases t with
    | nil => simp [prefLen]
    | cons c cs =>
      simp only [prefLen, isBlank]
      by_cases h1 : c = ' '
      · simp [h1]
      · by_cases h2 : c = '\t' <;> simp [h1, h2]
  unfold maybeTitle
  simp only
  generalize hl : s.takeNormalizedLine.item = l
  rw [normLine_after]
  have hw : (l.discard 1).takeWhitespace.item.data = [] ↔ prefLen isBlank (l.data.drop 1) = 0 := by
    rw [← dropN_data]
    show ((l.dropN 1).takeN _).data = [] ↔ prefLen isBlank (l.dropN 1).data = 0
    rw [takeN_data, List.take_eq_nil_iff]
    constructor
    · rintro (h | h)
      · exact h
      · rw [h]; rfl
    · exact Or.inl
  have hdd : l.discard 1 = l.dropN 1 := rfl
  cases hd : l.data with
  | nil => simp [startsWith, List.isPrefixOf]
  | cons c cs =>
    rw [hd, List.drop_one, List.tail_cons, hb] at hw
    by_cases hc : c = '.'
    · subst hc
      have e1 : startsWith ('.' :: cs) ['.'] = true := by simp [startsWith, List.isPrefixOf]
      have e2 : startsWith ('.' :: cs) ['.', '.'] = true ↔ cs.head? = some '.' := by
        cases cs with
        | nil => simp [startsWith, List.isPrefixOf]
        | cons d ds =>
          simp only [startsWith, List.isPrefixOf, Bool.and_true, beq_self_eq_true, Bool.true_and, beq_iff_eq,
            List.head?_cons, Option.some.injEq]
          exact eq_comm
      by_cases h2 : cs.head? = some '.'
      · rw [e1, e2.mpr h2]
        simp only [Bool.true_and, Bool.not_true, Bool.false_eq_true, if_false]
        constructor
        · intro h; cases h
        · rintro ⟨⟨t, ht, h3, _⟩, _⟩
          cases ht
          exact absurd h2 h3
      · have e3 : startsWith ('.' :: cs) ['.', '.'] = false := by
          rw [Bool.eq_false_iff]; exact fun h => h2 (e2.mp h)
        rw [e1, e3]
        simp only [Bool.true_and, Bool.not_false, if_true]
        by_cases h3 : cs.head? ≠ some ' ' ∧ cs.head? ≠ some '\t'
        · rw [if_pos (hw.mpr h3), hdd]
          constructor
          · intro h; cases h; exact ⟨⟨cs, rfl, h2, h3⟩, rfl⟩
          · rintro ⟨_, rfl⟩; rfl
        · rw [if_neg (fun h => h3 (hw.mp h))]
          constructor
          · intro h; cases h
          · rintro ⟨⟨t, ht, _, h4⟩, _⟩
            cases ht
            exact absurd h4 h3
    · have e1 : startsWith (c :: cs) ['.'] = false := by
        simp [startsWith, List.isPrefixOf]; exact fun h => hc h.symm
      rw [e1]
      simp only [Bool.false_and, Bool.false_eq_true, if_false]
      constructor
      · intro h; cases h
      · rintro ⟨⟨t, ht, _⟩, _⟩
        cases ht
        exact absurd rfl hc

/-- A text of which the beginning and the end are known and do not overlap. -/
theorem brackets_iff {l : Text} : (startsWith l ['[', '['] && endsWith l [']', ']']) = true ↔
    ∃ a, l = '[' :: '[' :: a ++ [']', ']'] := by
  rw [Bool.and_eq_true, startsWith_iff, endsWith_iff]
  constructor
  · rintro ⟨⟨r, rfl⟩, q, hq⟩
    rcases q with _ | ⟨x, q⟩
    · simp at hq
    · rcases q with _ | ⟨y, q⟩
      · simp at hq
      · simp at hq
        obtain ⟨rfl, rfl, rfl⟩ := hq
        exact ⟨q, by simp⟩
  · rintro ⟨a, rfl⟩
    exact ⟨⟨a ++ [']', ']'], by simp⟩, '[' :: '[' :: a, by simp⟩

theorem bracket_iff {l : Text} : (startsWith l ['['] && endsWith l [']']) = true ↔
    ∃ a, l = '[' :: a ++ [']'] := by
  rw [Bool.and_eq_true, startsWith_iff, endsWith_iff]
  constructor
  · rintro ⟨⟨r, rfl⟩, q, hq⟩
    rcases q with _ | ⟨x, q⟩
    · simp at hq
    · simp at hq
      obtain ⟨rfl, rfl⟩ := hq
      exact ⟨q, by simp⟩
  · rintro ⟨a, rfl⟩
    exact ⟨⟨a ++ [']'], by simp⟩, '[' :: a, by simp⟩

/-- The three outcomes of looking for an anchor. -/
theorem maybeBlockAnchor_spec :
    (∀ a, s.takeNormalizedLine.item.data = '[' :: '[' :: a ++ [']', ']'] →
      ∃ sp, Sub sp s.takeNormalizedLine.item ∧ sp.data = a ∧
        sp = (s.takeNormalizedLine.item.dropN 2).takeN a.length ∧
        maybeBlockAnchor s = if a = [] then (none, [⟨sp, .emptyBlockAnchorName⟩]) else (some ⟨sp, s.takeLine.after⟩, [])) ∧
    ((∀ a, s.takeNormalizedLine.item.data ≠ '[' :: '[' :: a ++ [']', ']']) → maybeBlockAnchor s = (none, [])) := by
  have hs := startsWith_normLine s (p := ['[', '[']) (by decide)
  constructor
  · intro a ha
    have hb := (brackets_iff (l := s.takeNormalizedLine.item.data)).mpr ⟨a, ha⟩
    rw [Bool.and_eq_true] at hb
    have hlen : s.takeNormalizedLine.item.data.length - 4 = a.length := by rw [ha]; simp
    refine ⟨(s.takeNormalizedLine.item.dropN 2).takeN a.length, (takeN_sub _ _).trans (dropN_suf _ _).sub, ?_, rfl, ?_⟩
    · rw [takeN_data, dropN_data, ha]; simp
    · unfold maybeBlockAnchor
      rw [hs, hb.1]
      simp only [Bool.not_true, Bool.false_eq_true, if_false]
      rw [hb.2]
      simp only [Bool.not_true, Bool.false_eq_true, if_false]
      rw [hlen]
      have : ((s.takeNormalizedLine.item.dropN 2).takeN a.length).data = a := by
        rw [takeN_data, dropN_data, ha]; simp
      rw [this]; rfl
  · intro h
    unfold maybeBlockAnchor
    rw [hs]
    by_cases h1 : startsWith s.takeNormalizedLine.item.data ['[', '['] = true
    · rw [h1]
      simp only [Bool.not_true, Bool.false_eq_true, if_false]
      have h2 : endsWith s.takeNormalizedLine.item.data [']', ']'] = false := by
        rw [Bool.eq_false_iff]
        intro h2
        obtain ⟨a, ha⟩ := brackets_iff.mp ((Bool.and_eq_true _ _).mpr ⟨h1, h2⟩)
        exact h a ha
      rw [h2]; rfl
    · rw [Bool.eq_false_iff.mpr h1]; rfl

/-- The text of an anchor and its reference text. -/
theorem splitAnchor_spec (a : Span) :
    (∃ x y, a.data = x ++ ',' :: y ∧ ',' ∉ x ∧ y ≠ [] ∧ splitAnchor a = (a.takeN x.length, some (a.dropN (x.length + 1)))) ∨
    ((∀ x y, a.data = x ++ ',' :: y → ',' ∉ x → y = []) ∧ splitAnchor a = (a, none)) := by
  unfold splitAnchor
  simp only
  by_cases hc : ',' ∈ a.data
  · obtain ⟨x, y, hxy, hx⟩ := List.eq_append_cons_of_mem hc
    have hn : prefLen (· ≠ ',') a.data = x.length := by
      rw [hxy]
      apply prefLen_append
      · intro c hc'; simp; rintro rfl; exact hx hc'
      · intro c r e; cases e; simp
    rw [hn]
    cases y with
    | nil =>
      right
      rw [if_neg (by rw [hxy]; simp)]
      refine ⟨?_, rfl⟩
      intro x' y' h' hx'
      rw [hxy] at h'
      rcases List.append_eq_append_iff.mp h' with ⟨z, rfl, hz⟩ | ⟨z, rfl, hz⟩
      · cases z with
        | nil => simp at hz; exact hz
        | cons d ds => simp at hz
      · cases z with
        | nil => simp at hz; exact hz
        | cons d ds => simp at hz; exact absurd (by simp [← hz.1]) hx
    | cons d ds =>
      left
      refine ⟨x, d :: ds, hxy, hx, by simp, ?_⟩
      rw [if_pos (by rw [hxy]; simp)]
  · right
    have hn : prefLen (· ≠ ',') a.data = a.data.length := by
      apply prefLen_all
      intro c h; simp; rintro rfl; exact hc h
    rw [hn, if_neg (by omega)]
    refine ⟨?_, rfl⟩
    intro x y h _
    exact absurd (by rw [h]; simp) hc

/-- The outcomes of looking for an attribute list. -/
theorem maybeAttrlistLine_spec [Uni] (subs : Subs) (store : AttrStore) :
    (∀ a, s.takeNormalizedLine.item.data = '[' :: a ++ [']'] → a.head? ≠ some ' ' → a.head? ≠ some '\t' →
      (∀ r, a ≠ '[' :: r ++ [']']) →
      ∃ sp, Sub sp s.takeNormalizedLine.item ∧ sp.data = a ∧
        sp = (s.takeNormalizedLine.item.dropN 1).takeN a.length ∧
        maybeAttrlistLine subs store s = (Attrlist.parse (subs store .normal none) store sp .block).map
          (fun r => some (⟨r.1, s.takeLine.after⟩, r.2))) ∧
    ((∀ a, s.takeNormalizedLine.item.data = '[' :: a ++ [']'] →
        a.head? = some ' ' ∨ a.head? = some '\t' ∨ ∃ r, a = '[' :: r ++ [']']) →
      maybeAttrlistLine subs store s = .ok none) := by
  have hs := startsWith_normLine s (p := ['[']) (by decide)
  have hh : ∀ (a : Text) (c : Char), startsWith a [c] = true ↔ a.head? = some c := by
    intro a c
    cases a with
    | nil => simp [startsWith, List.isPrefixOf]
    | cons x xs =>
      simp only [startsWith, List.isPrefixOf, Bool.and_true, beq_iff_eq, List.head?_cons, Option.some.injEq]
      exact eq_comm
  constructor
  · intro a ha h1 h2 h3
    have hb := (bracket_iff (l := s.takeNormalizedLine.item.data)).mpr ⟨a, ha⟩
    rw [Bool.and_eq_true] at hb
    have hlen : s.takeNormalizedLine.item.data.length - 2 = a.length := by rw [ha]; simp
    have hd : ((s.takeNormalizedLine.item.dropN 1).takeN a.length).data = a := by
      rw [takeN_data, dropN_data, ha]; simp
    refine ⟨(s.takeNormalizedLine.item.dropN 1).takeN a.length, (takeN_sub _ _).trans (dropN_suf _ _).sub, hd, rfl, ?_⟩
    unfold maybeAttrlistLine
    rw [hs, hb.1]
    simp only [Bool.not_true, Bool.false_eq_true, if_false]
    rw [hb.2]
    simp only [Bool.not_true, Bool.false_eq_true, if_false]
    rw [hlen, hd]
    have e1 : startsWith a [' '] = false := Bool.eq_false_iff.mpr (fun h => h1 ((hh _ _).mp h))
    have e2 : startsWith a ['\t'] = false := Bool.eq_false_iff.mpr (fun h => h2 ((hh _ _).mp h))
    have e3 : (startsWith a ['['] && endsWith a [']']) = false := by
      rw [Bool.eq_false_iff]
      intro h
      obtain ⟨r, hr⟩ := bracket_iff.mp h
      exact h3 r hr
    rw [e1, e2, e3]
    simp only [Bool.or_self, Bool.false_eq_true, if_false]
    generalize Attrlist.parse _ _ _ _ = q
    cases q with
    | error e => rfl
    | ok r => rfl
  · intro h
    unfold maybeAttrlistLine
    rw [hs]
    by_cases h1 : startsWith s.takeNormalizedLine.item.data ['['] = true
    · rw [h1]
      simp only [Bool.not_true, Bool.false_eq_true, if_false]
      by_cases h2 : endsWith s.takeNormalizedLine.item.data [']'] = true
      · rw [h2]
        simp only [Bool.not_true, Bool.false_eq_true, if_false]
        obtain ⟨a, ha⟩ := bracket_iff.mp ((Bool.and_eq_true _ _).mpr ⟨h1, h2⟩)
        have hlen : s.takeNormalizedLine.item.data.length - 2 = a.length := by rw [ha]; simp
        have hd : ((s.takeNormalizedLine.item.dropN 1).takeN a.length).data = a := by
          rw [takeN_data, dropN_data, ha]; simp
        rw [hlen, hd, if_pos]
        rcases h a ha with h3 | h3 | ⟨r, h3⟩
        · rw [(hh _ _).mpr h3]; rfl
        · rw [(hh _ _).mpr h3]; simp
        · rw [bracket_iff.mpr ⟨r, h3⟩]; simp
      · rw [Bool.eq_false_iff.mpr h2]; rfl
    · rw [Bool.eq_false_iff.mpr h1]; rfl

end

/-- A line says at most one thing. -/
theorem Spec.MetaLine.det [Uni] {l : Text} {i j : MetaItem} (h : MetaLine l i) (h' : MetaLine l j) : i = j := by
  have inner : ∀ {a b : Text}, '[' :: '[' :: a ++ [']', ']'] = '[' :: '[' :: b ++ [']', ']'] → a = b := by
    intro a b h; simpa using h
  have comma : ∀ {a r x y : Text}, ',' ∉ a → ',' ∉ x → a ++ ',' :: r = x ++ ',' :: y → a = x ∧ r = y := by
    intro a r x y ha hx h
    rcases List.append_eq_append_iff.mp h with ⟨z, rfl, hz⟩ | ⟨z, rfl, hz⟩
    · cases z with
      | nil => simp at hz; simp [hz]
      | cons d ds => simp at hz; exact absurd (by simp [← hz.1]) hx
    · cases z with
      | nil => simp at hz; simp [hz]
      | cons d ds => simp at hz; exact absurd (by simp [← hz.1]) ha
  have nest : ∀ {a t : Text}, '[' :: '[' :: a ++ [']', ']'] = '[' :: t ++ [']'] → t = '[' :: a ++ [']'] := by
    intro a t h
    have e : '[' :: '[' :: a ++ [']', ']'] = '[' :: ('[' :: a ++ [']']) ++ [']'] := by simp
    rw [e] at h
    have := List.append_cancel_right h
    simpa using this.symm
  have reassoc : ∀ {a r : Text}, '[' :: '[' :: a ++ ',' :: r ++ [']', ']'] = '[' :: '[' :: (a ++ ',' :: r) ++ [']', ']'] := by
    intro a r; simp
  generalize hl : l = l' at h'
  cases h with
  | title h1 h2 h3 =>
    cases h' with
    | title => cases hl; rfl
    | anchor => cases hl
    | anchorText => cases hl
    | attrs => cases hl
  | anchor h1 h2 =>
    cases h' with
    | title => cases hl
    | anchor => rw [inner hl]
    | anchorText g1 g2 g3 =>
      rw [reassoc] at hl
      exact absurd (h2 _ _ (inner hl) g2) g3
    | attrs g1 g2 g3 => exact absurd (nest hl) (g3 _)
  | anchorText h1 h2 h3 =>
    rw [reassoc] at hl
    cases h' with
    | title => cases hl
    | anchor g1 g2 => exact absurd (g2 _ _ (inner hl).symm h2) h3
    | anchorText g1 g2 g3 =>
      rw [reassoc] at hl
      obtain ⟨rfl, rfl⟩ := comma h2 g2 (inner hl)
      rfl
    | attrs g1 g2 g3 => exact absurd (nest hl) (g3 _)
  | attrs h1 h2 h3 =>
    cases h' with
    | title => cases hl
    | anchor g1 g2 => exact absurd (nest hl.symm) (h3 _)
    | anchorText g1 g2 g3 =>
      rw [reassoc] at hl
      exact absurd (nest hl.symm) (h3 _)
    | attrs g1 g2 g3 =>
      have := List.append_cancel_right hl
      simp at this
      rw [this]

theorem Spec.MetaItems.det [Uni] {used : List MetaKind} {ls rest rest' : List Text} {is js : List MetaItem}
    (h : MetaItems used ls is rest) (h' : MetaItems used ls js rest') : is = js ∧ rest = rest' := by
  induction h generalizing js rest' with
  | stop hn =>
    cases h' with
    | stop _ => exact ⟨rfl, rfl⟩
    | item hl hu _ => exact absurd (hn _ _ _ rfl hl) hu
  | item hl hu _ ih =>
    cases h' with
    | stop hn => exact absurd (hn _ _ _ rfl hl) hu
    | item hl' _ hr =>
      obtain rfl := hl.det hl'
      obtain ⟨rfl, rfl⟩ := ih hr
      exact ⟨rfl, rfl⟩

theorem Spec.MetaLine.ne_nil [Uni] {l : Text} {i : MetaItem} (h : MetaLine l i) : l ≠ [] := by
  cases h <;> simp

/-- Which kinds of lines were found. -/
def MetaState.has (st : MetaState) : MetaKind → Bool
  | .title => st.titleSource.isSome
  | .anchor => st.anchor.isSome
  | .attrs => st.attrlist.isSome

/-- The effect of finding a line. -/
inductive Found [Uni] (subs : Subs) (store : AttrStore) (st : MetaState) : MetaItem → MetaState → Prop
  | title {t : Span} : Sub t st.blockStart → st.has .title = false →
      Found subs store st (.title t.data) { st with titleSource := some t, blockStart := st.blockStart.takeLine.after }
  | anchor {a : Span} {r : Option Span} : Sub a st.blockStart → (∀ r' ∈ r, Sub r' st.blockStart) → st.has .anchor = false →
      Found subs store st (.anchor a.data (r.map Span.data))
        { st with anchor := some a, reftext := r.or st.reftext, blockStart := st.blockStart.takeLine.after }
  | attrs {s : Span} {al : Attrlist} {ws : List Warning} : Sub s st.blockStart → st.has .attrs = false →
      Attrlist.parse (subs store .normal none) store s .block = .ok (al, ws) →
      Found subs store st (.attrs s.data)
        { st with attrlist := some al, blockStart := st.blockStart.takeLine.after, warnings := st.warnings ++ ws }

/-- What is reported about a line that looks like an anchor but is none. -/
inductive AnchorWarning [Uni] : Text → List WarningType → Prop
  | empty : AnchorWarning "[[]]".toList [.emptyBlockAnchorName]
  | invalid {a} : a ≠ [] → (¬ ∃ i, MetaLine ('[' :: '[' :: a ++ [']', ']']) i) →
      AnchorWarning ('[' :: '[' :: a ++ [']', ']']) [.invalidBlockAnchorName]
  | fine {l} : (∀ a, l ≠ '[' :: '[' :: a ++ [']', ']']) → AnchorWarning l []

theorem normLine_item_sub (s : Span) : Sub s.takeNormalizedLine.item s := by
  obtain ⟨i, k, h, _, _⟩ := normLine_shape s
  rw [h]; exact takeN_sub _ _

/-- What looking for an anchor does. -/
theorem anchorStep_spec [Uni] (st : MetaState) (h : st.anchor = none) :
    let l := st.blockStart.takeNormalizedLine.item.data
    (∃ a r, MetaLine l (.anchor a r)) ∧ (∃ (a : Span) (r : Option Span), Sub a st.blockStart ∧ (∀ r' ∈ r, Sub r' st.blockStart) ∧
        MetaLine l (.anchor a.data (r.map Span.data)) ∧
        anchorStep st =
          (true, { st with anchor := some a, reftext := r.or st.reftext, blockStart := st.blockStart.takeLine.after })) ∨
    (¬ ∃ a r, MetaLine l (.anchor a r)) ∧ ∃ ws, anchorStep st = (false, { st with warnings := st.warnings ++ ws }) ∧
      AnchorWarning l (ws.map Warning.warning) ∧ ∀ w ∈ ws, Sub w.source st.blockStart := by
  intro l0
  have hl0 : st.blockStart.takeNormalizedLine.item.data = l0 := rfl
  generalize l0 = l at hl0
  have hsub : Sub st.blockStart.takeNormalizedLine.item st.blockStart := normLine_item_sub _
  by_cases hb : ∃ a, l = '[' :: '[' :: a ++ [']', ']']
  · obtain ⟨a, ha⟩ := hb
    obtain ⟨sp, s1, s2, s3, s4⟩ := (maybeBlockAnchor_spec st.blockStart).1 a (hl0.trans ha)
    have hsp := s1.trans hsub
    unfold anchorStep
    rw [h]
    simp only [Option.isNone_none, if_true]
    rw [s4]
    by_cases h0 : a = []
    · rw [if_pos h0]
      right
      have hl : l = "[[]]".toList := by rw [ha, h0]; rfl
      refine ⟨?_, _, rfl, ?_, ?_⟩
      · rintro ⟨x, r, hx⟩
        generalize hi : MetaItem.anchor x r = i at hx
        cases hx with
        | title => cases hi
        | anchor g1 g2 =>
          rename_i a'
          obtain ⟨c, cs, hc, _⟩ := g1
          rw [hc] at hl
          have := congrArg List.length hl
          simp at this
          try omega
        | anchorText g1 g2 g3 =>
          obtain ⟨c, cs, hc, _⟩ := g1
          rw [hc] at hl
          have := congrArg List.length hl
          simp at this
          try omega
        | attrs => cases hi
      · rw [hl]; exact .empty
      · intro w hw
        simp at hw; subst hw; exact hsp
    rw [if_neg h0]
    simp only [List.append_nil]
    rcases splitAnchor_spec sp with ⟨x, y, e1, e2, e3, e4⟩ | ⟨e1, e2⟩
    · have hx : (sp.takeN x.length).data = x := by rw [takeN_data, e1]; simp
      have hy : (sp.dropN (x.length + 1)).data = y := by rw [dropN_data, e1]; simp
      rw [s2] at e1
      rw [e4]
      simp only
      by_cases hn : (sp.takeN x.length).isXmlName = true
      · rw [if_pos hn]
        left
        have hm : MetaLine l (.anchor x (some y)) := by
          have := MetaLine.anchorText (a := x) (r := y) (hx ▸ (isXmlName_iff _).mp hn) e2 e3
          rw [ha, e1]; simpa using this
        refine ⟨⟨_, _, hm⟩, sp.takeN x.length, some (sp.dropN (x.length + 1)), ((takeN_sub _ _).trans hsp),
          ?_, ?_, rfl⟩
        · intro r hr; cases hr; exact (dropN_suf _ _).sub.trans hsp
        · rw [hx, Option.map_some, hy]; exact hm
      · rw [if_neg hn]
        right
        have hne : ¬ ∃ i, MetaLine ('[' :: '[' :: a ++ [']', ']']) i := by
          rintro ⟨i, hi⟩
          generalize hl : '[' :: '[' :: a ++ [']', ']'] = l' at hi
          cases hi with
          | title => cases hl
          | anchor g1 g2 =>
            rename_i a'
            have : a = a' := by simpa using hl
            subst this
            exact e3 (g2 _ _ e1 e2)
          | anchorText g1 g2 g3 =>
            rename_i x' y'
            have : a = x' ++ ',' :: y' := by
              have e : '[' :: '[' :: x' ++ ',' :: y' ++ [']', ']'] = '[' :: '[' :: (x' ++ ',' :: y') ++ [']', ']'] := by simp
              rw [e] at hl
              have := List.append_cancel_right hl
              simpa using this
            rw [e1] at this
            have hxx : x = x' := by
              rcases List.append_eq_append_iff.mp this with ⟨z, rfl, hz⟩ | ⟨z, rfl, hz⟩
              · cases z with
                | nil => simp
                | cons d ds => simp at hz; exact absurd (by simp [← hz.1]) g2
              · cases z with
                | nil => simp
                | cons d ds => simp at hz; exact absurd (by simp [← hz.1]) e2
            rw [← hxx, ← hx] at g1
            exact hn ((isXmlName_iff _).mpr g1)
          | attrs g1 g2 g3 =>
            rename_i t
            apply g3 a
            have e : '[' :: '[' :: a ++ [']', ']'] = '[' :: ('[' :: a ++ [']']) ++ [']'] := by simp
            rw [e] at hl
            have := List.append_cancel_right hl
            simpa using this.symm
        refine ⟨?_, [⟨sp.takeN x.length, .invalidBlockAnchorName⟩], rfl, ?_, ?_⟩
        · rintro ⟨x', r', hm⟩; rw [ha] at hm; exact hne ⟨_, hm⟩
        · rw [ha]; exact .invalid h0 hne
        · intro w hw
          simp at hw; subst hw; exact (takeN_sub _ _).trans hsp
    · rw [e2]
      rw [s2] at e1
      simp only
      by_cases hn : sp.isXmlName = true
      · rw [if_pos hn]
        left
        have hm : MetaLine l (.anchor a none) := by
          rw [ha]; exact MetaLine.anchor (s2 ▸ (isXmlName_iff _).mp hn) e1
        refine ⟨⟨_, _, hm⟩, sp, none, hsp, ?_, ?_, rfl⟩
        · intro r hr; cases hr
        · rw [s2]; exact hm
      · rw [if_neg hn]
        right
        have hne : ¬ ∃ i, MetaLine ('[' :: '[' :: a ++ [']', ']']) i := by
          rintro ⟨i, hi⟩
          generalize hl : '[' :: '[' :: a ++ [']', ']'] = l' at hi
          cases hi with
          | title => cases hl
          | anchor g1 g2 =>
            rename_i a'
            have : a = a' := by simpa using hl
            subst this
            rw [← s2] at g1
            exact hn ((isXmlName_iff _).mpr g1)
          | anchorText g1 g2 g3 =>
            rename_i x' y'
            have : a = x' ++ ',' :: y' := by
              have e : '[' :: '[' :: x' ++ ',' :: y' ++ [']', ']'] = '[' :: '[' :: (x' ++ ',' :: y') ++ [']', ']'] := by simp
              rw [e] at hl
              have := List.append_cancel_right hl
              simpa using this
            exact g3 (e1 _ _ this g2)
          | attrs g1 g2 g3 =>
            rename_i t
            apply g3 a
            have e : '[' :: '[' :: a ++ [']', ']'] = '[' :: ('[' :: a ++ [']']) ++ [']'] := by simp
            rw [e] at hl
            have := List.append_cancel_right hl
            simpa using this.symm
        refine ⟨?_, [⟨sp, .invalidBlockAnchorName⟩], rfl, ?_, ?_⟩
        · rintro ⟨x', r', hm⟩; rw [ha] at hm; exact hne ⟨_, hm⟩
        · rw [ha]; exact .invalid h0 hne
        · intro w hw
          simp at hw; subst hw; exact hsp
  · have hb' : ∀ a, l ≠ '[' :: '[' :: a ++ [']', ']'] := fun a h => hb ⟨a, h⟩
    right
    refine ⟨?_, [], ?_, .fine hb', by simp⟩
    · rintro ⟨x, r, hx⟩
      generalize hi : MetaItem.anchor x r = i at hx
      cases hx with
      | title => cases hi
      | anchor g1 g2 => exact hb' _ rfl
      | anchorText g1 g2 g3 => rename_i a' r'; exact hb' (a' ++ ',' :: r') (by simp)
      | attrs => cases hi
    · unfold anchorStep
      rw [h, (maybeBlockAnchor_spec st.blockStart).2 (hl0 ▸ hb')]
      rfl

/-- One iteration. -/
theorem metaStep_spec [Uni] {subs : Subs} {store : AttrStore} {st st' : MetaState} {found : Bool}
    (h : metaStep subs store st = .ok (found, st')) :
    (found = true ∧ ∃ i, MetaLine st.blockStart.takeNormalizedLine.item.data i ∧ Found subs store st i st') ∨
    (found = false ∧ (∀ i, MetaLine st.blockStart.takeNormalizedLine.item.data i → st.has i.kind = true) ∧
      ∃ ws, st' = { st with warnings := st.warnings ++ ws } ∧
        (st.anchor.isSome = true → ws = []) ∧
        (st.anchor = none → AnchorWarning st.blockStart.takeNormalizedLine.item.data (ws.map Warning.warning)) ∧
        ∀ w ∈ ws, Sub w.source st.blockStart) := by
  have hsub : Sub st.blockStart.takeNormalizedLine.item st.blockStart := normLine_item_sub _
  unfold metaStep at h
  by_cases ht : ∃ mi, st.titleSource = none ∧ maybeTitle st.blockStart = some mi
  · obtain ⟨mi, h1, h2⟩ := ht
    rw [h1] at h
    simp only [Option.isNone_none, if_true] at h
    rw [h2] at h
    cases h
    left
    obtain ⟨⟨t, g1, g2, g3, g4⟩, rfl⟩ := (maybeTitle_iff _).mp h2
    refine ⟨rfl, .title (st.blockStart.takeNormalizedLine.item.dropN 1).data, ?_, ?_⟩
    · rw [dropN_data, g1]; exact .title g2 g3 g4
    · exact .title ((dropN_suf _ _).sub.trans hsub) (by simp [MetaState.has, h1])
  have hnt : (if st.titleSource.isNone then maybeTitle st.blockStart else none) = none := by
    by_cases h1 : st.titleSource = none
    · rw [h1]; simp only [Option.isNone_none, if_true]
      cases h2 : maybeTitle st.blockStart with
      | none => rfl
      | some mi => exact absurd ⟨mi, h1, h2⟩ ht
    · rw [if_neg (by simp [h1])]
  rw [hnt] at h
  simp only at h
  have htitle : ∀ t, MetaLine st.blockStart.takeNormalizedLine.item.data (.title t) → st.titleSource.isSome = true := by
    intro t hm
    cases hc : st.titleSource with
    | some _ => rfl
    | none =>
      rw [hc] at hnt
      simp only [Option.isNone_none, if_true] at hnt
      generalize hl : st.blockStart.takeNormalizedLine.item.data = l at hm
      generalize hi : MetaItem.title t = i at hm
      cases hm with
      | title g1 g2 g3 =>
        have := (maybeTitle_iff st.blockStart (m := ⟨st.blockStart.takeNormalizedLine.item.dropN 1, st.blockStart.takeLine.after⟩)).mpr
          ⟨⟨_, hl, g1, g2, g3⟩, rfl⟩
        rw [hnt] at this; cases this
      | anchor => cases hi
      | anchorText => cases hi
      | attrs => cases hi
  -- the attribute list
  have hattr : ∀ (ws : List Warning), (st.attrlist.isSome = true ∨ True) →
      (st.anchor.isSome = true → ws = []) →
      (st.anchor = none → AnchorWarning st.blockStart.takeNormalizedLine.item.data (ws.map Warning.warning) ∧
        ¬ ∃ a r, MetaLine st.blockStart.takeNormalizedLine.item.data (.anchor a r)) →
      (∀ w ∈ ws, Sub w.source st.blockStart) →
      (if st.attrlist.isNone = true then (do
        match ← maybeAttrlistLine subs store st.blockStart with
        | some (mi, ws') =>
          .ok (true, { st with attrlist := some mi.item, blockStart := mi.after, warnings := st.warnings ++ ws ++ ws' })
        | none => .ok (false, { st with warnings := st.warnings ++ ws }) : Res (Bool × MetaState))
      else .ok (false, { st with warnings := st.warnings ++ ws })) = .ok (found, st') →
      (found = true ∧ ∃ i, MetaLine st.blockStart.takeNormalizedLine.item.data i ∧ Found subs store st i st') ∨
      (found = false ∧ (∀ i, MetaLine st.blockStart.takeNormalizedLine.item.data i → st.has i.kind = true) ∧
        ∃ ws, st' = { st with warnings := st.warnings ++ ws } ∧
          (st.anchor.isSome = true → ws = []) ∧
          (st.anchor = none → AnchorWarning st.blockStart.takeNormalizedLine.item.data (ws.map Warning.warning)) ∧
          ∀ w ∈ ws, Sub w.source st.blockStart) := by
    intro ws _ hw1 hw2 hw3 he
    have hanchor : ∀ a r, MetaLine st.blockStart.takeNormalizedLine.item.data (.anchor a r) → st.anchor.isSome = true := by
      intro a r hm
      cases hc : st.anchor with
      | some _ => rfl
      | none => exact absurd ⟨a, r, hm⟩ (hw2 hc).2
    by_cases hal : st.attrlist = none
    · rw [hal] at he
      simp only [Option.isNone_none, if_true] at he
      by_cases hx : ∃ a, st.blockStart.takeNormalizedLine.item.data = '[' :: a ++ [']'] ∧ a.head? ≠ some ' ' ∧
          a.head? ≠ some '\t' ∧ (∀ r, a ≠ '[' :: r ++ [']'])
      · obtain ⟨a, g1, g2, g3, g4⟩ := hx
        obtain ⟨sp, s1, s2, s3, s4⟩ := (maybeAttrlistLine_spec st.blockStart subs store).1 a g1 g2 g3 g4
        rw [s4] at he
        cases hp : Attrlist.parse (subs store .normal none) store sp .block with
        | error e => rw [hp] at he; cases he
        | ok r =>
          rw [hp] at he
          cases he
          left
          have hws : ws = [] := by
            cases hc : st.anchor with
            | some _ => exact hw1 (by rw [hc]; rfl)
            | none =>
              have := (hw2 hc).1
              generalize hl : st.blockStart.takeNormalizedLine.item.data = l at this
              rw [hl] at g1
              generalize hww : ws.map Warning.warning = wt at this
              cases this with
              | empty =>
                exfalso
                apply g4 []
                have e : "[[]]".toList = '[' :: ('[' :: [] ++ [']']) ++ [']'] := by decide
                rw [e] at g1
                have := List.append_cancel_right g1
                simpa using this.symm
              | invalid h0 h9 =>
                rename_i b
                exfalso
                apply g4 b
                have e : '[' :: '[' :: b ++ [']', ']'] = '[' :: ('[' :: b ++ [']']) ++ [']'] := by simp
                rw [e] at g1
                have := List.append_cancel_right g1
                simpa using this.symm
              | fine _ => simpa using hww
          subst hws
          refine ⟨rfl, .attrs sp.data, ?_, ?_⟩
          · rw [s2, g1]; exact .attrs g2 g3 g4
          · have := Found.attrs (subs := subs) (store := store) (st := st) (s1.trans hsub)
              (by simp [MetaState.has, hal]) hp
            simpa using this
      · have hx' : ∀ a, st.blockStart.takeNormalizedLine.item.data = '[' :: a ++ [']'] →
            a.head? = some ' ' ∨ a.head? = some '\t' ∨ ∃ r, a = '[' :: r ++ [']'] := by
          intro a ha
          by_cases g1 : a.head? = some ' '
          · exact Or.inl g1
          by_cases g2 : a.head? = some '\t'
          · exact Or.inr (Or.inl g2)
          by_cases g3 : ∃ r, a = '[' :: r ++ [']']
          · exact Or.inr (Or.inr g3)
          exact absurd ⟨a, ha, g1, g2, fun r h => g3 ⟨r, h⟩⟩ hx
        rw [(maybeAttrlistLine_spec st.blockStart subs store).2 hx'] at he
        cases he
        right
        refine ⟨rfl, ?_, ws, by rw [hal], hw1, fun hc => (hw2 hc).1, hw3⟩
        intro i hm
        cases i with
        | title t => exact htitle t hm
        | anchor a r => exact hanchor a r hm
        | attrs t =>
          exfalso
          apply hx
          generalize hl : st.blockStart.takeNormalizedLine.item.data = l at hm
          generalize hi : MetaItem.attrs t = i at hm
          cases hm with
          | title => cases hi
          | anchor => cases hi
          | anchorText => cases hi
          | attrs g1 g2 g3 => exact ⟨_, rfl, g1, g2, g3⟩
    · rw [if_neg (by simpa using hal)] at he
      cases he
      right
      refine ⟨rfl, ?_, ws, rfl, hw1, fun hc => (hw2 hc).1, hw3⟩
      intro i hm
      cases i with
      | title t => exact htitle t hm
      | anchor a r => exact hanchor a r hm
      | attrs t =>
        show st.attrlist.isSome = true
        rw [Option.isSome_iff_ne_none]; exact hal
  rcases Option.eq_none_or_eq_some st.anchor with hc | ⟨a0, hc⟩
  · rcases anchorStep_spec st hc with ⟨_, a, r, s1, s2, s3, s4⟩ | ⟨h1, ws, h2, h3, h4⟩
    · rw [s4] at h
      cases h
      left
      exact ⟨rfl, _, s3, .anchor s1 s2 (by simp [MetaState.has, hc])⟩
    · rw [h2] at h
      simp only at h
      exact hattr ws (Or.inr trivial) (fun hs => by rw [hc] at hs; cases hs) (fun _ => ⟨h3, h1⟩) h4 h
  · have he : anchorStep st = (false, st) := by unfold anchorStep; rw [hc]; rfl
    rw [he] at h
    simp only at h
    refine hattr [] (Or.inr trivial) (fun _ => rfl) (fun hn => ?_) (by simp) ?_
    · rw [hc] at hn; cases hn
    · simp only [List.append_nil]; exact h

theorem sub_mem {r s : Span} (h : Sub r s) {c : Char} (hc : c ∈ r.data) : c ∈ s.data := by
  obtain ⟨i, j, _, rfl⟩ := h
  rw [takeN_data, dropN_data] at hc
  exact List.mem_of_mem_drop (List.mem_of_mem_take hc)

theorem anchorStep_start [Uni] {st st1 : MetaState} (h : anchorStep st = (false, st1)) : st1.blockStart = st.blockStart := by
  unfold anchorStep at h
  split at h
  · split at h
    · cases h; rfl
    · simp only at h
      split at h
      · cases h
      · cases h; rfl
  · cases h; rfl

theorem metaStep_error [Uni] {subs : Subs} {store : AttrStore} {st : MetaState} {e : Fail}
    (h : metaStep subs store st = .error e) : ∃ t, Drawn st.blockStart.data t ∧ subs store .normal none t = .error e := by
  unfold metaStep at h
  generalize (if st.titleSource.isNone then maybeTitle st.blockStart else none) = q at h
  cases q with
  | some t => cases h
  | none =>
    simp only at h
    have hst : ∀ st1, anchorStep st = (false, st1) → st1.blockStart = st.blockStart := fun _ => anchorStep_start
    generalize anchorStep st = p at h hst
    obtain ⟨b, st1⟩ := p
    cases b with
    | true => cases h
    | false =>
      simp only at h
      have hst := hst st1 rfl
      by_cases hal : st1.attrlist.isNone = true
      · rw [if_pos hal] at h
        cases hm : maybeAttrlistLine subs store st1.blockStart with
        | ok r => rw [hm] at h; cases r <;> cases h
        | error e' =>
          rw [hm] at h
          cases h
          unfold maybeAttrlistLine at hm
          split at hm
          · cases hm
          · simp only at hm
            split at hm
            · cases hm
            · split at hm
              · cases hm
              · generalize hq : Attrlist.parse _ _ _ _ = q at hm
                cases q with
                | ok r => cases hm
                | error e'' =>
                  cases hm
                  obtain ⟨_, v, h1, h2⟩ := Props.C33_terminates hq
                  refine ⟨v, h1.mono fun c hc => ?_, h2⟩
                  rw [← hst]
                  exact sub_mem (normLine_item_sub _) (sub_mem ((takeN_sub _ _).trans (dropN_suf _ _).sub) hc)
      · rw [if_neg hal] at h; cases h

/-- What the variables of the loop say. -/
structure MetaState.Says [Uni] (subs : Subs) (store : AttrStore) (st : MetaState) (is : List MetaItem) : Prop where
  title : st.titleSource.map Span.data = is.findSome? MetaItem.title?
  anchor : st.anchor.map (fun a => (a.data, st.reftext.map Span.data)) = is.findSome? MetaItem.anchor?
  reftext : st.anchor = none → st.reftext = none
  attrs : st.attrlist.map (fun a => a.source.data) = is.findSome? MetaItem.attrs?

/-- The loop reads as many lines as it can. -/
theorem metaLoop_spec [Uni] {subs : Subs} {store : AttrStore} (source : Span) :
    ∀ (n : Nat) (st st' : MetaState) (done : List MetaItem), metaLoop subs store n st = .ok st' →
    st.blockStart = source.skip done.length → (∀ k, st.has k = true ↔ k ∈ done.map MetaItem.kind) →
    st.Says subs store done →
    (∀ a ∈ st.attrlist, ∃ ws, Attrlist.parse (subs store .normal none) store a.source .block = .ok (a, ws) ∧ st.warnings = ws) →
    (st.attrlist = none → st.warnings = []) →
    (∀ s ∈ st.titleSource, Sub s source) → (∀ s ∈ st.anchor, Sub s source) → (∀ s ∈ st.reftext, Sub s source) →
    (∀ a ∈ st.attrlist, Sub a.source source) →
    ∃ is, MetaItems (done.map MetaItem.kind) (lines st.blockStart.data) is (lines st'.blockStart.data) ∧
      st'.blockStart = source.skip (done.length + is.length) ∧ st'.Says subs store (done ++ is) ∧
      (∃ w1 w2, st'.warnings = w1 ++ w2 ∧
        (∀ a ∈ st'.attrlist, Attrlist.parse (subs store .normal none) store a.source .block = .ok (a, w1)) ∧
        (st'.attrlist = none → w1 = []) ∧ (st'.anchor.isSome = true → w2 = []) ∧
        (st'.anchor = none → AnchorWarning st'.blockStart.takeNormalizedLine.item.data (w2.map Warning.warning)) ∧
        ∀ w ∈ w2, Sub w.source source) ∧
      (∀ s ∈ st'.titleSource, Sub s source) ∧ (∀ s ∈ st'.anchor, Sub s source) ∧ (∀ s ∈ st'.reftext, Sub s source) ∧
      (∀ a ∈ st'.attrlist, Sub a.source source) := by
  intro n
  induction n with
  | zero => intro st st' done h; cases h
  | succ n ih =>
    intro st st' done h hb hhas hs hal hw0 ht1 ht2 ht3 ht4
    rw [metaLoop] at h
    cases hm : metaStep subs store st with
    | error e => rw [hm] at h; cases h
    | ok r =>
      obtain ⟨found, st1⟩ := r
      rw [hm] at h
      simp only [bind, Except.bind] at h
      have hbs : Sub st.blockStart source := hb ▸ (skip_suf source _).sub
      rcases metaStep_spec hm with ⟨rfl, i, hi, hf⟩ | ⟨rfl, hn, ws, rfl, hw1, hw2, hw3⟩
      · simp only [if_true] at h
        have hne : st.blockStart.data ≠ [] := by
          intro hz
          apply hi.ne_nil
          obtain ⟨w, hw, _⟩ := normLine_rest st.blockStart
          rw [hz] at hw
          exact (List.append_eq_nil_iff.mp hw.symm).1
        have hb1 : st1.blockStart = source.skip (done ++ [i]).length := by
          have : st1.blockStart = st.blockStart.takeLine.after := by cases hf <;> rfl
          rw [this, List.length_append, ← skip_add, ← hb]; rfl
        have hunused : i.kind ∉ done.map MetaItem.kind := by
          intro hk
          have := (hhas _).mpr hk
          cases hf with
          | title _ hx => rw [show MetaItem.kind (.title _) = .title from rfl, hx] at this; cases this
          | anchor _ _ hx => rw [show MetaItem.kind (.anchor _ _) = .anchor from rfl, hx] at this; cases this
          | attrs _ hx => rw [show MetaItem.kind (.attrs _) = .attrs from rfl, hx] at this; cases this
        have hhas1 : ∀ k, st1.has k = true ↔ k ∈ (done ++ [i]).map MetaItem.kind := by
          intro k
          rw [List.map_append, List.mem_append, ← hhas]
          cases hf <;> cases k <;> simp [MetaState.has, MetaItem.kind]
        have hs1 : st1.Says subs store (done ++ [i]) := by
          cases hf with
          | title _ hx =>
            constructor
            · rw [List.findSome?_append, ← hs.title]
              have : st.titleSource = none := by simpa [MetaState.has] using hx
              rw [this]; rfl
            · rw [List.findSome?_append, ← hs.anchor]
              simp only [List.findSome?_cons, List.findSome?_nil, MetaItem.anchor?, Option.or_none]
            · exact hs.reftext
            · rw [List.findSome?_append, ← hs.attrs]
              simp only [List.findSome?_cons, List.findSome?_nil, MetaItem.attrs?, Option.or_none]
          | anchor _ _ hx =>
            have hn : st.anchor = none := by simpa [MetaState.has] using hx
            constructor
            · rw [List.findSome?_append, ← hs.title]
              simp only [List.findSome?_cons, List.findSome?_nil, MetaItem.title?, Option.or_none]
            · rw [List.findSome?_append, ← hs.anchor, hn, hs.reftext hn]
              simp [MetaItem.anchor?]
            · intro hx; cases hx
            · rw [List.findSome?_append, ← hs.attrs]
              simp only [List.findSome?_cons, List.findSome?_nil, MetaItem.attrs?, Option.or_none]
          | attrs _ hx hp =>
            have hn : st.attrlist = none := by simpa [MetaState.has] using hx
            constructor
            · rw [List.findSome?_append, ← hs.title]
              simp only [List.findSome?_cons, List.findSome?_nil, MetaItem.title?, Option.or_none]
            · rw [List.findSome?_append, ← hs.anchor]
              simp only [List.findSome?_cons, List.findSome?_nil, MetaItem.anchor?, Option.or_none]
            · exact hs.reftext
            · rw [List.findSome?_append, ← hs.attrs, hn]
              obtain ⟨_, _, e, _⟩ := Props.C33_elements hp
              simp [MetaItem.attrs?, e]
        obtain ⟨is, g1, g2, g3, g4, g5⟩ := ih st1 st' (done ++ [i]) h hb1 hhas1 hs1
          (by
            cases hf with
            | title _ hx => exact hal
            | anchor _ _ hx => exact hal
            | attrs _ hx hp =>
              intro a ha
              cases ha
              have hn : st.attrlist = none := by simpa [MetaState.has] using hx
              obtain ⟨_, _, e, _⟩ := Props.C33_elements hp
              exact ⟨_, by rw [e]; exact hp, by rw [hw0 hn]; rfl⟩)
          (by
            cases hf with
            | title _ hx => exact hw0
            | anchor _ _ hx => exact hw0
            | attrs _ hx hp => intro hx; cases hx)
          (by
            cases hf with
            | title hx _ => intro s hs; cases hs; exact hx.trans hbs
            | anchor _ _ hx => exact ht1
            | attrs _ hx hp => exact ht1)
          (by
            cases hf with
            | title hx _ => exact ht2
            | anchor hx _ _ => intro s hs; cases hs; exact hx.trans hbs
            | attrs _ hx hp => exact ht2)
          (by
            cases hf with
            | title hx _ => exact ht3
            | anchor _ hx hx2 =>
              intro s hs
              simp only [Option.mem_def, Option.or_eq_some_iff] at hs
              rcases hs with hs | ⟨_, hs⟩
              · exact (hx s hs).trans hbs
              · exact ht3 s hs
            | attrs _ hx hp => exact ht3)
          (by
            cases hf with
            | title hx _ => exact ht4
            | anchor hx _ _ => exact ht4
            | attrs hx _ hp =>
              intro a ha; cases ha
              obtain ⟨_, _, e, _⟩ := Props.C33_elements hp
              rw [e]; exact hx.trans hbs)
        refine ⟨i :: is, ?_, ?_, ?_, g4, g5⟩
        · rw [lines_cons _ hne]
          refine .item hi hunused ?_
          have : st1.blockStart = st.blockStart.takeLine.after := by cases hf <;> rfl
          rw [← this]
          rw [List.map_append] at g1
          -- the order of the kinds does not matter
          have perm : ∀ {u v : List MetaKind} {ls is rest}, (∀ k, k ∈ u ↔ k ∈ v) → MetaItems u ls is rest →
              MetaItems v ls is rest := by
            intro u v ls is rest huv hmi
            induction hmi generalizing v with
            | stop hn => exact .stop (fun l r i e hl => (huv _).mp (hn l r i e hl))
            | item hl hu _ ih =>
              refine .item hl (fun h => hu ((huv _).mpr h)) (ih ?_)
              intro k; simp [huv]
          refine perm ?_ g1
          intro k; simp [or_comm]
        · rw [g2]; simp; congr 1; omega
        · simpa using g3
      · simp only [Bool.false_eq_true, if_false] at h
        cases h
        refine ⟨[], ?_, ?_, ?_, ⟨st.warnings, ws, rfl, ?_, hw0, hw1, hw2, fun w hw => (hw3 w hw).trans hbs⟩, ht1, ht2, ht3, ht4⟩
        · refine .stop ?_
          intro l rest i hl hi
          rw [← hhas]
          apply hn
          by_cases hz : st.blockStart.data = []
          · rw [hz] at hl; simp at hl
          · rw [lines_cons _ hz] at hl
            cases hl
            exact hi
        · exact hb
        · simp only [List.append_nil]
          exact ⟨hs.title, hs.anchor, hs.reftext, hs.attrs⟩
        · intro a ha
          obtain ⟨w, h1, h2⟩ := hal a ha
          rw [h2]; exact h1

/-- Only as many iterations as there are kinds left, and one more. -/
theorem metaLoop_error [Uni] {subs : Subs} {store : AttrStore} {e : Fail} :
    ∀ (n : Nat) (st : MetaState), metaLoop subs store n st = .error e →
    (cond st.titleSource.isSome 0 1) + (cond st.anchor.isSome 0 1) + (cond st.attrlist.isSome 0 1) < n →
    ∃ t, Drawn st.blockStart.data t ∧ subs store .normal none t = .error e := by
  intro n
  induction n with
  | zero => intro st _ h; omega
  | succ n ih =>
    intro st h hn
    rw [metaLoop] at h
    cases hm : metaStep subs store st with
    | error e' => rw [hm] at h; cases h; exact metaStep_error hm
    | ok r =>
      obtain ⟨found, st1⟩ := r
      rw [hm] at h
      simp only [bind, Except.bind] at h
      rcases metaStep_spec hm with ⟨rfl, i, hi, hf⟩ | ⟨rfl, _⟩
      · simp only [if_true] at h
        have hsuf : Suf st1.blockStart st.blockStart := by
          cases hf <;> exact takeLine_after_suf _
        have hlt : (cond st1.titleSource.isSome 0 1) + (cond st1.anchor.isSome 0 1) + (cond st1.attrlist.isSome 0 1) < n := ?_
        · obtain ⟨t, h1, h2⟩ := ih st1 h hlt
          exact ⟨t, h1.mono fun c hc => sub_mem hsuf.sub hc, h2⟩
        cases hf with
        | title _ hx =>
          have : st.titleSource = none := by simpa [MetaState.has] using hx
          rw [this] at hn; simp at hn ⊢; omega
        | anchor _ _ hx =>
          have : st.anchor = none := by simpa [MetaState.has] using hx
          rw [this] at hn; simp at hn ⊢; omega
        | attrs _ hx _ =>
          have : st.attrlist = none := by simpa [MetaState.has] using hx
          rw [this] at hn; simp at hn ⊢; omega
      · simp at h

end Adoc
