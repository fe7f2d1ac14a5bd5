import Verif.Lemmas.ShorthandList
import Verif.Spec.Written
import Verif.Lemmas.Lines
import Verif.Lemmas.Leaf
import Verif.Lemmas.Drawn
/-!
# Lemmas about the printer for outlines
-/

namespace Adoc.Lemmas
open Adoc Span Spec Props

theorem last_of_end {t r : Text} {c : Char} (h : t = r ++ [c]) : t.getLast? = some c := by
  subst h; simp

theorem tidy_clean {l : Text} (h : l.getLast? ≠ some ' ') (h' : l.getLast? ≠ some '\r') : tidy l = l := by
  unfold tidy
  have : endsWith l ['\r'] = false := by
    rw [Bool.eq_false_iff]
    intro hh
    unfold endsWith at hh
    rw [List.isSuffixOf_iff_suffix] at hh
    obtain ⟨r, hr⟩ := hh
    exact h' (last_of_end hr.symm)
  rw [this, if_neg (by simp)]
  exact trimEndP_eq_self (fun c r hr => by
    have := last_of_end hr
    rw [Bool.eq_false_iff]
    intro hc
    rw [beq_iff_eq] at hc
    subst hc
    exact h this)

theorem unlines_cons (l : Text) (ls : List Text) : unlines (l :: ls) = l ++ '\n' :: unlines ls := by
  simp [unlines]

theorem unlines_append (a b : List Text) : unlines (a ++ b) = unlines a ++ unlines b := by
  simp [unlines]

theorem lines_unlines {ls : List Text} (h : ∀ l ∈ ls, CleanLine l) : lines (unlines ls) = ls := by
  unfold lines
  induction ls with
  | nil => simp [unlines]
  | cons l ls ih =>
    have hl := h l (by simp)
    rw [unlines_cons, rawLines_cons hl.single, List.map_cons, tidy_clean hl.space hl.cr,
      ih fun x hx => h x (List.mem_cons_of_mem _ hx)]

theorem splitChar_unlines {ls : List Text} (h : ∀ l ∈ ls, CleanLine l) : splitChar '\n' (unlines ls) = ls ++ [[]] := by
  induction ls with
  | nil => simp [unlines, splitChar]
  | cons l ls ih =>
    have hl := h l (by simp)
    rw [unlines_cons, splitChar_append hl.single, ih fun x hx => h x (List.mem_cons_of_mem _ hx), List.cons_append]

theorem join_split (t : Text) : joinWith ['\n'] (splitChar '\n' t) = t := by
  induction t with
  | nil => rfl
  | cons c t ih =>
    by_cases hc : c = '\n'
    · subst hc
      have := splitChar_append (c := '\n') (p := []) (by simp) t
      rw [List.nil_append] at this
      rw [this]
      cases hs : splitChar '\n' t with
      | nil => exact absurd hs (splitChar_ne_nil _ _)
      | cons a b => rw [hs] at ih; rw [show joinWith ['\n'] ([] :: a :: b) = [] ++ ['\n'] ++ joinWith ['\n'] (a :: b) from rfl, ih]; rfl
    · cases hs : splitChar '\n' t with
      | nil => exact absurd hs (splitChar_ne_nil _ _)
      | cons a b =>
        have : splitChar '\n' (c :: t) = (c :: a) :: b := by
          rw [splitChar, hs]; simp [hc]
        rw [this]
        rw [hs] at ih
        cases b with
        | nil => simp only [joinWith] at ih ⊢; rw [ih]
        | cons x y =>
          rw [show joinWith ['\n'] (a :: x :: y) = a ++ ['\n'] ++ joinWith ['\n'] (x :: y) from rfl] at ih
          rw [show joinWith ['\n'] ((c :: a) :: x :: y) = c :: (a ++ ['\n'] ++ joinWith ['\n'] (x :: y)) from rfl, ih]

theorem writtenAll_eq (bs : List Leaf) : Leaf.writtenAll bs = bs.map Leaf.written := by
  induction bs with
  | nil => rw [Leaf.writtenAll]; rfl
  | cons b bs ih => rw [Leaf.writtenAll, ih]; rfl

theorem separate_mem {l : Text} : ∀ {ps : List (List Text)}, l ∈ separate ps → l = [] ∨ ∃ p ∈ ps, l ∈ p
  | [], h => by cases h
  | [p], h => Or.inr ⟨p, by simp, h⟩
  | p :: q :: ps, h => by
    rw [separate, List.mem_append, List.mem_cons] at h
    rcases h with h | h | h
    · exact Or.inr ⟨p, by simp, h⟩
    · exact Or.inl h
    · rcases separate_mem h with h | ⟨x, hx, h⟩
      · exact Or.inl h
      · exact Or.inr ⟨x, List.mem_cons_of_mem _ hx, h⟩

theorem clean_nil : CleanLine [] := by
  refine ⟨by simp, by simp, by simp, ?_, ?_⟩ <;> rintro ⟨r, h⟩ <;> cases h

/-- A line of characters of one kind. -/
theorem clean_of {c : Char} {l : Text} (h : l.head? = some c) (hi : c ≠ 'i') (hn : '\n' ∉ l) (hs : l.getLast? ≠ some ' ')
    (hr : l.getLast? ≠ some '\r') : CleanLine l := by
  refine ⟨hn, hs, hr, ?_, ?_⟩ <;>
  · rintro ⟨r, rfl⟩
    cases h
    exact hi rfl

theorem clean_replicate {n : Nat} {c : Char} (hc : c ∈ ['/', '-', '.', '+', '*', '_']) :
    CleanLine (List.replicate (n + 4) c) := by
  have h1 : (List.replicate (n + 4) c).getLast? = some c := by
    rw [List.replicate_succ', List.getLast?_append]; rfl
  refine clean_of (c := c) rfl ?_ ?_ ?_ ?_
  · rintro rfl; revert hc; decide
  · intro h
    obtain ⟨_, rfl⟩ := List.mem_replicate.mp h
    revert hc; decide
  · rw [h1]; intro h; cases h; revert hc; decide
  · rw [h1]; intro h; cases h; revert hc; decide

theorem contextMark_mem (x : Text) : contextMark x = '_' ∨ contextMark x = '*' := by
  unfold contextMark
  split
  · exact Or.inl rfl
  · exact Or.inr rfl

theorem quotedAttr_mem {a : ElemAttr} (h : WritableAttr a) {c : Char} (hc : c ∈ quotedAttr a) : c ≠ '\n' := by
  unfold quotedAttr at hc
  simp only [List.mem_append, List.mem_cons, List.not_mem_nil, or_false] at hc
  rcases hc with (hc | rfl | hc) | rfl
  · cases hn : a.name with
    | none => rw [hn] at hc; cases hc
    | some n =>
      rw [hn] at hc
      simp only [List.mem_append, List.mem_cons, List.not_mem_nil, or_false] at hc
      rcases hc with hc | rfl
      · obtain ⟨⟨x, xs, rfl, h1, h2⟩, _⟩ := h.name n hn
        rintro rfl
        rcases List.mem_cons.mp hc with rfl | hc
        · revert h1; unfold Letter Digit; decide
        · have := h2 _ hc; revert this; unfold Letter Digit; decide
      · decide
  · decide
  · rintro rfl; exact h.chars.2.2.2 hc
  · decide

/-- What is known about the first of attributes that can be written, and about the others. -/
theorem writable_quoted {a : ElemAttr} (h : WritableAttr a) : blockAttr a = quotedAttr a := by
  unfold blockAttr
  rw [if_pos h.shorthand]

theorem short_items [Uni] {style : Text} {items : List (Char × Text)} (h : Shorthand style items) :
    (parseShorthandItems (style ++ items.flatMap itemText)).1 ≠ [] := by
  have hi := (C35_shorthand_items none style items (fun c hc => (h.1 c hc).1)
    (fun i hi => ⟨(h.2.1 i hi).1, fun c hc => ((h.2.1 i hi).2.2 c hc).1⟩)).1
  intro he
  rw [show (⟨none, style ++ items.flatMap itemText, (parseShorthandItems (style ++ items.flatMap itemText)).1⟩ : ElemAttr).shorthandItems =
    [] by unfold ElemAttr.shorthandItems; rw [he]; rfl] at hi
  have hi := hi.symm
  rw [List.append_eq_nil_iff, List.map_eq_nil_iff, List.filter_eq_nil_iff, List.filter_eq_nil_iff] at hi
  obtain ⟨h1, h2⟩ := hi
  rcases h.2.2 with hs | hs
  · obtain ⟨c, r, rfl⟩ := List.exists_cons_of_ne_nil hs
    have hw := (h.1 c (by simp)).2.1
    have hb : isBlank c = false := by
      cases hb : isBlank c with
      | false => rfl
      | true =>
        simp only [isBlank, Bool.or_eq_true, beq_iff_eq] at hb
        rcases hb with rfl | rfl <;> revert hw <;> decide
    have h1 := h1 _ (List.mem_singleton.mpr rfl)
    rw [List.dropWhile_cons, hb] at h1
    simp only [Bool.false_eq_true, if_false, Bool.not_eq_true, Bool.not_eq_false', List.isEmpty_iff] at h1
    have := trimEndP_nil_iff.mp h1
    rw [List.all_cons, hw] at this; cases this
  · obtain ⟨i, is, rfl⟩ := List.exists_cons_of_ne_nil hs
    have := h2 i (by simp)
    simp only [Bool.not_eq_true, Bool.not_eq_false', List.isEmpty_iff] at this
    exact (h.2.1 i (by simp)).2.1 this

theorem writable_short [Uni] {a : ElemAttr} (h : WritableShort a) : blockAttr a = a.value := by
  obtain ⟨style, items, h1, _, rfl⟩ := h
  unfold blockAttr
  rw [if_neg (short_items h1)]

theorem blockAttr_mem [Uni] {as : List ElemAttr} (h : WritableAttrs as) {a : ElemAttr} (ha : a ∈ as) {c : Char} (hc : c ∈ blockAttr a) :
    c ≠ '\n' := by
  obtain ⟨b, rest, rfl, h1, h2⟩ := h
  have key : WritableAttr a ∨ WritableShort a := by
    rcases List.mem_cons.mp ha with rfl | ha
    · exact h1
    · exact Or.inl (h2 a ha)
  rcases key with h | h
  · rw [writable_quoted h] at hc
    exact quotedAttr_mem h hc
  · rw [writable_short h] at hc
    obtain ⟨style, items, h1, _, rfl⟩ := h
    rintro rfl
    exact absurd (shorthand_chars h1 _ hc).1 (by decide)

theorem intercalate_mem {sep : Text} {ls : List Text} {c : Char} (h : c ∈ List.intercalate sep ls) :
    c ∈ sep ∨ ∃ l ∈ ls, c ∈ l := by
  induction ls with
  | nil => simp [List.intercalate] at h
  | cons l ls ih =>
    cases ls with
    | nil => simp [List.intercalate] at h; exact Or.inr ⟨l, by simp, h⟩
    | cons l' ls =>
      rw [List.intercalate_cons_cons, List.mem_append, List.mem_append] at h
      rcases h with (h | h) | h
      · exact Or.inr ⟨l, by simp, h⟩
      · exact Or.inl h
      · rcases ih h with h | ⟨x, hx, h⟩
        · exact Or.inl h
        · exact Or.inr ⟨x, List.mem_cons_of_mem _ hx, h⟩

theorem media_clean {ty : MediaType} {target : Text} {attrs : List ElemAttr} (h1 : '\n' ∉ target)
    (h2 : ∀ a ∈ attrs, WritableAttr a) : CleanLine (mediaLine ty target attrs) := by
  refine ⟨?_, ?_, ?_, ?_, ?_⟩
  · intro h
    unfold mediaLine at h
    simp only [List.mem_append, List.mem_cons, List.not_mem_nil, or_false] at h
    rcases h with ((h | h | h | h) | h | h) | h
    · revert h; cases ty <;> decide
    · revert h; decide
    · revert h; decide
    · exact h1 h
    · revert h; decide
    · rcases intercalate_mem h with h | ⟨x, hx, h⟩
      · revert h; decide
      · obtain ⟨a, ha', rfl⟩ := List.mem_map.mp hx
        exact quotedAttr_mem (h2 a ha') h rfl
    · revert h; decide
  · unfold mediaLine; rw [List.getLast?_append]; simp
  · unfold mediaLine; rw [List.getLast?_append]; simp
  · rintro ⟨r, e⟩
    unfold mediaLine at e
    cases ty
    · rw [show (macroName .image).toList = 'i' :: 'm' :: "age".toList by decide] at e; cases e
    · rw [show (macroName .video).toList = 'v' :: "ideo".toList by decide] at e; cases e
    · rw [show (macroName .audio).toList = 'a' :: "udio".toList by decide] at e; cases e
  · rintro ⟨r, e⟩
    unfold mediaLine at e
    cases ty
    · rw [show (macroName .image).toList = 'i' :: 'm' :: "age".toList by decide] at e; cases e
    · rw [show (macroName .video).toList = 'v' :: "ideo".toList by decide] at e; cases e
    · rw [show (macroName .audio).toList = 'a' :: "udio".toList by decide] at e; cases e

theorem label_clean [Uni] {label : Label} (h : WritableLabel label) : ∀ l ∈ labelLines label, CleanLine l := by
  obtain ⟨t, as, an⟩ := label
  intro l hl
  unfold labelLines at hl
  rw [List.mem_append, List.mem_append] at hl
  rcases hl with hl | hl | hl
  · cases t with
    | none => cases hl
    | some t =>
      rw [Option.map_some, Option.toList_some, List.mem_singleton] at hl
      subst hl
      have ht := (h.title t rfl).1
      obtain ⟨c, r, rfl, hw⟩ := ht.solid.first
      refine clean_of (c := '.') rfl (by decide) ?_ ?_ ?_
      · intro h
        rcases List.mem_cons.mp h with h | h
        · revert h; decide
        · exact ht.single h
      · rw [List.getLast?_cons_cons]; intro h; have := ht.solid.last _ h; revert this; decide
      · rw [List.getLast?_cons_cons]; intro h; have := ht.solid.last _ h; revert this; decide
  · cases an with
    | none => cases hl
    | some i =>
      rw [Option.map_some, Option.toList_some, List.mem_singleton] at hl
      subst hl
      obtain ⟨_, _, hi, ht⟩ := h.anchor i rfl
      have hi : '\n' ∉ i.inside := by
        unfold BlockAnchor.inside
        intro hm
        rcases List.mem_append.mp hm with hm | hm
        · exact hi hm
        · cases hr : i.reftext with
          | none => rw [hr] at hm; cases hm
          | some t =>
            rw [hr] at hm
            rcases List.mem_cons.mp hm with hm | hm
            · revert hm; decide
            · exact (ht t hr).2 hm
      have hlast : (anchorLine i).getLast? = some ']' := by
        rw [show anchorLine i = ('[' :: '[' :: i.inside ++ [']']) ++ [']'] by simp [anchorLine], List.getLast?_append]; rfl
      refine clean_of (c := '[') rfl (by decide) ?_ ?_ ?_
      · intro h
        unfold anchorLine at h
        simp only [List.cons_append, List.mem_cons, List.mem_append, List.not_mem_nil, or_false] at h
        rcases h with h | h | h | h | h
        · revert h; decide
        · revert h; decide
        · exact hi h
        · revert h; decide
        · revert h; decide
      · rw [hlast]; decide
      · rw [hlast]; decide
  · cases as with
    | none => cases hl
    | some as =>
      rw [Option.map_some, Option.toList_some, List.mem_singleton] at hl
      subst hl
      have ha := h.attrs as rfl
      refine clean_of (c := '[') rfl (by decide) ?_ ?_ ?_
      · intro h
        unfold attrsLine at h
        simp only [List.mem_append, List.mem_cons, List.not_mem_nil, or_false] at h
        rcases h with (h | h) | h
        · revert h; decide
        · rcases intercalate_mem h with h | ⟨x, hx, h⟩
          · revert h; decide
          · obtain ⟨a, ha', rfl⟩ := List.mem_map.mp hx
            exact blockAttr_mem ha ha' h rfl
        · revert h; decide
      · unfold attrsLine; rw [List.getLast?_append]; simp
      · unfold attrsLine; rw [List.getLast?_append]; simp

theorem writable_named {as : List ElemAttr} (h : WritableAttrs as) (s : Span) {x : String}
    (hx : x ∈ ["subs", "opts", "options"]) : (attrlistOf as s).namedAttribute x.toList = none := by
  obtain ⟨b, rest, rfl, h1, h2⟩ := h
  unfold Attrlist.namedAttribute
  rw [List.find?_eq_none]
  intro a ha he
  rw [beq_iff_eq] at he
  rcases List.mem_cons.mp ha with rfl | ha
  · rcases h1 with h1 | ⟨style, items, _, _, _, rfl⟩
    · exact (h1.name _ he).2.2 x hx rfl
    · cases he
  · exact ((h2 a ha).name _ he).2.2 x hx rfl

/-- The style and the options of the first of the attributes without name. -/
theorem writable_first [Uni] {as : List ElemAttr} (h : WritableAttrs as) (s : Span) {a : ElemAttr}
    (ha : (attrlistOf as s).nthAttribute 1 = some a) :
    "hardbreaks".toList ∉ a.options := by
  unfold Attrlist.nthAttribute at ha
  rw [if_neg (by decide)] at ha
  have hplain : a.shorthand = [] → "hardbreaks".toList ∉ a.options := by
    intro hs
    have : a.shorthandItems = [] := by unfold ElemAttr.shorthandItems; rw [hs]; rfl
    unfold ElemAttr.options
    rw [this]
    nofun
  obtain ⟨b, rest, rfl, h1, h2⟩ := h
  have hm := (List.mem_filter.mp (List.mem_of_getElem? ha)).1
  rcases List.mem_cons.mp hm with rfl | hm
  · rcases h1 with h1 | ⟨style, items, h1, h4, rfl⟩
    · exact hplain h1.shorthand
    · have hw : ∀ {t : Text}, ShortWord t → ∀ c r, t = r ++ [c] → isWhite c = false := by
        intro t ht c r e; exact (ht c (by rw [e]; simp)).2.1
      obtain ⟨_, _, _, k4, _⟩ := C35_roundtrip style items (fun c hc => (h1.1 c hc).1)
        (fun i hi => ⟨(h1.2.1 i hi).1, fun c hc => ((h1.2.1 i hi).2.2 c hc).1⟩)
        ⟨(by
          intro c r e
          have := (h1.1 c (by rw [e]; simp)).2.1
          constructor <;> (rintro rfl; exact absurd this (by decide))), hw h1.1⟩
        (fun i hi => ⟨(h1.2.1 i hi).2.1, hw (h1.2.1 i hi).2.2⟩)
      rw [k4]
      intro hm
      unfold partsOf at hm
      obtain ⟨i, hi, e⟩ := List.mem_map.mp hm
      obtain ⟨hi, hd⟩ := List.mem_filter.mp hi
      rw [beq_iff_eq] at hd
      obtain ⟨d, t⟩ := i
      simp only at e hd
      subst e hd
      exact h4 hi
  · exact hplain (h2 a hm).shorthand

/-- The style can only turn substitutions off. -/
theorem writable_chosen [Uni] {as : Option (List ElemAttr)} (h : ∀ a ∈ as, WritableAttrs a) (g : Group) :
    chosen as g = g ∨ chosen as g = .none := by
  have h1 : subsOf as = none := by
    cases as with
    | none => rfl
    | some a =>
      show Option.map _ _ = none
      rw [writable_named (h a rfl) _ (x := "subs") (by simp)]
      rfl
  unfold chosen
  rw [h1]
  show (if _ then _ else _) = g ∨ (if _ then _ else _) = _
  split
  · exact Or.inr rfl
  · exact Or.inl rfl

theorem writable_options [Uni] {as : List ElemAttr} (h : WritableAttrs as) (s : Span) :
    "hardbreaks".toList ∉ (attrlistOf as s).options := by
  unfold Attrlist.options
  rw [writable_named h s (x := "opts") (by simp), writable_named h s (x := "options") (by simp)]
  cases ha : (attrlistOf as s).nthAttribute 1 with
  | none => nofun
  | some a =>
    simp only [List.append_nil]
    exact writable_first h s ha

theorem heading_clean {n : Nat} {t : Text} (ht : ProseTitle t) : CleanLine (List.replicate (n + 1) '=' ++ ' ' :: t) := by
  have hl : (List.replicate (n + 1) '=' ++ ' ' :: t).getLast? = t.getLast? := by
    obtain ⟨c, r, rfl, hw⟩ := ht.solid.first
    rw [List.getLast?_append, List.getLast?_cons_cons]
    rw [List.getLast?_cons]
    rfl
  refine clean_of (c := '=') rfl (by decide) ?_ ?_ ?_
  · intro h
    rw [List.mem_append, List.mem_cons] at h
    rcases h with h | h | h
    · have := (List.mem_replicate.mp h).2; revert this; decide
    · revert h; decide
    · exact ht.single h
  · rw [hl]; intro h; have := ht.solid.last _ h; revert this; decide
  · rw [hl]; intro h; have := ht.solid.last _ h; revert this; decide

theorem written_clean [Uni] {b : Leaf} (h : Writable b) : ∀ l ∈ b.written, CleanLine l := by
  induction h with
  | para _ h => intro l hl; rw [Leaf.written] at hl; exact (h l hl).clean
  | @verbatim c ls hc h =>
    intro l hl
    rw [Leaf.written, fenced, List.mem_append, List.mem_cons, List.mem_singleton] at hl
    have hf : CleanLine (fence c ls) := clean_replicate (by rcases hc with rfl | rfl | rfl | rfl <;> decide)
    rcases hl with (rfl | hl) | rfl
    · exact hf
    · exact h l hl
    · exact hf
  | @brk ty =>
    intro l hl
    cases ty <;> rw [Leaf.written, List.mem_singleton] at hl <;> subst hl
    · exact clean_of (c := '\'') rfl (by decide) (by decide) (by decide) (by decide)
    · exact clean_of (c := '<') rfl (by decide) (by decide) (by decide) (by decide)
  | @media ty target attrs h1 h2 h3 h4 h5 =>
    intro l hl
    rw [Leaf.written, List.mem_singleton] at hl
    subst hl
    exact media_clean h4 h5
  | @container context bs hc h ih =>
    intro l hl
    rw [Leaf.written, fenced, List.mem_append, List.mem_cons, List.mem_singleton] at hl
    have hf : CleanLine (fence (contextMark context) (separate (Leaf.writtenAll bs))) :=
      clean_replicate (by rcases contextMark_mem context with h | h <;> rw [h] <;> decide)
    rcases hl with (rfl | hl) | rfl
    · exact hf
    · rcases separate_mem hl with rfl | ⟨p, hp, hl⟩
      · exact clean_nil
      · rw [writtenAll_eq, List.mem_map] at hp
        obtain ⟨b, hb, rfl⟩ := hp
        exact ih b hb l hl
    · exact hf
  | @discrete label n t ht _ _ _ h =>
    intro l hl
    rw [Leaf.written, Leaf.written, List.mem_append, List.mem_singleton] at hl
    rcases hl with hl | rfl
    · exact label_clean ht l hl
    · exact heading_clean h
  | @labelled label b ht _ _ _ _ ih =>
    intro l hl
    rw [Leaf.written, List.mem_append] at hl
    rcases hl with hl | hl
    · exact label_clean ht l hl
    · exact ih l hl

theorem fence_not_mem (c : Char) (ls : List Text) : fence c ls ∉ ls := by
  intro h
  have h1 : (fence c ls).length ≤ ls.flatten.length := by
    obtain ⟨a, b, e⟩ := List.append_of_mem h
    generalize fence c ls = x at e
    rw [e]
    simp only [List.flatten_append, List.flatten_cons, List.length_append]
    omega
  unfold fence at h1
  rw [List.length_replicate] at h1
  omega

/-- What can be written behind a block. -/
def Apart (rest : List Text) : Prop := rest = [] ∨ ∃ r, rest = [] :: r

variable {R : Rendering}

/-- What a line of a paragraph of prose begins with. -/
theorem prose_head {t l : Text} (h : Prose t) (hl : l ∈ splitChar '\n' t) (hp : ProseLine l) :
    ∃ c r, l = c :: r ∧ isWhite c = false ∧
      c ∉ ['.', '-', '/', '=', ':', '<', '>', '&', '*', '_', '`', '#', '^', '~', '{', '@', '\'', '[', '+', '$'] ∧ '[' ∉ l ∧ '+' ∉ l := by
  obtain ⟨c, r, rfl, hw⟩ := hp.solid.first
  have hm : ∀ x ∈ c :: r, x ∈ t := splitChar_mem hl
  refine ⟨c, r, rfl, hw, ?_, fun h' => h.bracket (hm _ h'), fun h' => h.plus (hm _ h')⟩
  intro hc
  have hct := hm c (by simp)
  have : c ∈ ['.', '-', '/', '=', ':'] ∨ c ∈ ['<', '>', '&', '*', '_', '`', '#', '^', '~', '{', '@', '\''] ∨
      c = '[' ∨ c = '+' ∨ c = '$' := by
    simp only [List.mem_cons, List.not_mem_nil, or_false] at hc ⊢
    rcases hc with h | h | h | h | h | h | h | h | h | h | h | h | h | h | h | h | h | h | h | h <;> simp [h]
  rcases this with h' | h' | rfl | rfl | rfl
  · exact hp.mark c h' rfl
  · exact h.inert.chars c h' hct
  · exact h.bracket hct
  · exact h.plus hct
  · exact h.dollar hct

theorem prose_begins {t l : Text} (h : Prose t) (hl : l ∈ splitChar '\n' t) (hp : ProseLine l) : Begins l := by
  obtain ⟨c, r, rfl, hw, hc, hb, hpl⟩ := prose_head h hl hp
  have hd : ∀ x n, List.replicate (n + 4) x = c :: r → c = x := by
    intro x n e; rw [List.replicate_succ] at e; cases e; rfl
  have hm : ∀ n m rest, (m = '=' ∨ m = '#') → c :: r = List.replicate (n + 1) m ++ rest → False := by
    intro n m rest hm e
    rw [List.replicate_succ, List.cons_append] at e
    cases e
    rcases hm with rfl | rfl <;> revert hc <;> decide
  refine ⟨.text ?_ ?_ ?_ ?_ ?_, ⟨c, r, rfl, hw, ?_⟩, ?_, ?_, ?_⟩
  · rintro ⟨x, hx, n, e⟩
    cases hd x n e.symm
    rcases hx with rfl | rfl | rfl | rfl <;> revert hc <;> decide
  · rintro ⟨x, ⟨e, _⟩ | ⟨n, ⟨e, _⟩ | ⟨e, _⟩ | ⟨e, _⟩⟩⟩
    · cases e; revert hc; decide
    all_goals
      cases hd _ n e.symm
      revert hc; decide
  · rintro ⟨ty, ta, at', ⟨e, _⟩, _⟩
    rw [e] at hb
    exact hb (by simp)
  · rintro ⟨n, ti, _, _, m, gap, h1, _, _, _, e⟩
    rw [List.append_assoc] at e
    exact hm _ _ _ h1 e
  · rintro ⟨ty, e⟩
    cases ty with
    | thematic =>
      obtain ⟨x, hx, e⟩ := e
      simp only [List.mem_cons, List.not_mem_nil, or_false] at hx
      rcases hx with rfl | rfl | rfl | rfl | rfl <;> (cases e; revert hc; decide)
    | page => cases e; revert hc; decide
  · rintro rfl; revert hc; decide
  · rintro ⟨t, e, _⟩; cases e; revert hc; decide
  · rintro ⟨a, e⟩; cases e; revert hc; decide
  · rintro ⟨n, hn, m, rest, h1, e, _⟩
    obtain ⟨k, rfl⟩ : ∃ k, n = k + 1 := ⟨n - 1, by omega⟩
    exact hm _ _ _ h1 e

theorem prose_plain {t l : Text} (h : Prose t) (hl : l ∈ splitChar '\n' t) (hp : ProseLine l) :
    l ≠ [] ∧ ¬ CommentLine l ∧ ¬ EndsParagraph l ∧ Stripped 0 l l := by
  have hbg := prose_begins h hl hp
  obtain ⟨c, r, rfl, hw, hc, hb, hpl⟩ := prose_head h hl hp
  have hcom : ¬ CommentLine (c :: r) := by
    rintro ⟨x, e, _⟩; cases e; revert hc; decide
  refine ⟨by simp, hcom, ?_, ?_⟩
  · rintro (e | ⟨a, e⟩ | hr | (e | ⟨x, n, hx, e⟩))
    · cases e; revert hc; decide
    · cases e; revert hc; decide
    · cases hbg.form with
      | text h1 => exact h1 hr
    · cases e; revert hc; decide
    · rw [List.replicate_succ] at e
      cases e
      rcases hx with rfl | rfl | rfl <;> revert hc <;> decide
  · have h1 : trimEnd (c :: r) = c :: r := trimEndP_eq_self fun x y e => hp.solid.last x (last_of_end e)
    have h2 : Stripped 0 ([] ++ (c :: r)) (trimEnd (c :: r)) :=
      .indented (by simp) (by simp) (Or.inl rfl) ⟨c, by simp, by rintro rfl; revert hw; decide, by rintro rfl; revert hw; decide⟩
    rw [h1] at h2
    exact h2

theorem paragraph_lines {rest : List Text} (hr : Apart rest) : ∀ {started : Bool} {ls : List Text},
    (∀ l ∈ ls, l ≠ [] ∧ ¬ CommentLine l ∧ ¬ EndsParagraph l) → Paragraph started (ls ++ rest) ls rest := by
  intro started ls
  induction ls generalizing started with
  | nil =>
    intro _
    refine .stop fun l r e => ?_
    rcases hr with h | ⟨r', h⟩
    · rw [List.nil_append] at e; rw [h] at e; cases e
    · rw [List.nil_append] at e; rw [h] at e; cases e; exact Or.inl rfl
  | cons l ls ih =>
    intro h
    obtain ⟨h1, h2, h3⟩ := h l (by simp)
    exact .line h1 h2 (fun hh => h3 hh.2) (ih fun x hx => h x (List.mem_cons_of_mem _ hx))

theorem paragraph_text : ∀ {ls : List Text}, (∀ l ∈ ls, ¬ CommentLine l ∧ Stripped 0 l l) → ParagraphText 0 ls ls := by
  intro ls
  induction ls with
  | nil => intro _; exact .nil
  | cons l ls ih =>
    intro h
    obtain ⟨h1, h2⟩ := h l (by simp)
    exact .line h1 h2 (ih fun x hx => h x (List.mem_cons_of_mem _ hx))

/-- Blocks and headings that can be read wherever they are written. -/
def Readable (R : Rendering) (x : Token) : Prop :=
  ∀ rest, Apart rest → ∃ skips, Takes R none x skips (x.written ++ rest) rest

/-- The attributes that can be written. -/
def FineAttrs (as : Option (List ElemAttr)) : Prop := ∀ a ∈ as, WritableAttrs a

theorem label_lines [Uni] (hR : ∀ t, Prose t → R.text none .normal t t) (hA : ∀ t, Prose t → R.ahead t)
    (hL : ∀ as, WritableAttrs as → R.attrs (List.intercalate [','] (as.map blockAttr)) as)
    (hN : ∀ i, XmlName i → R.name i) {label : Label} (h : WritableLabel label) : LabelLines R label (labelLines label) := by
  obtain ⟨t, as, an⟩ := label
  have h1 : ∀ x, t = some x → TitleLine R ('.' :: x) x := by
    intro x hx
    obtain ⟨ht, hd⟩ := h.title x hx
    obtain ⟨c, r, e, hw⟩ := ht.solid.first
    exact ⟨x, rfl, hd, by rw [e]; rintro h; cases h; revert hw; decide, by rw [e]; rintro h; cases h; revert hw; decide,
      hR x ht.prose, hA x ht.prose⟩
  have h2 : ∀ x, as = some x → AttrsLine R (attrsLine x) x := by
    intro x hx
    have ha := h.attrs x hx
    have hh : ∃ c r, List.intercalate [','] (x.map blockAttr) = c :: r ∧ c ≠ ' ' ∧ c ≠ '\t' ∧ c ≠ '[' := by
      obtain ⟨a, as', rfl, ha, _⟩ := ha
      have h0 : ∃ c r, blockAttr a = c :: r ∧ c ≠ ' ' ∧ c ≠ '\t' ∧ c ≠ '[' := by
        rcases ha with ha | ha
        · rw [writable_quoted ha]
          unfold quotedAttr
          cases hn : a.name with
          | none => exact ⟨_, _, rfl, by decide, by decide, by decide⟩
          | some n =>
            obtain ⟨⟨c, cs, rfl, hc, _⟩, _⟩ := ha.name n hn
            unfold Letter Digit at hc
            exact ⟨c, _, rfl, by rintro rfl; revert hc; decide, by rintro rfl; revert hc; decide, by rintro rfl; revert hc; decide⟩
        · rw [writable_short ha]
          obtain ⟨style, items, h1, _, rfl⟩ := ha
          obtain ⟨c, r, e⟩ := List.exists_cons_of_ne_nil (shorthand_ne_nil h1)
          have hc := shorthand_chars h1 c (by rw [e]; simp)
          exact ⟨c, r, e, by rintro rfl; exact absurd hc.1 (by decide), by rintro rfl; exact absurd hc.1 (by decide),
            hc.2.2.2.2.2.2⟩
      obtain ⟨c, r, e, h⟩ := h0
      cases as' with
      | nil => exact ⟨c, r, by simp [List.intercalate, e], h⟩
      | cons b bs => exact ⟨c, _, by rw [List.map_cons, List.map_cons, List.intercalate_cons_cons, e]; rfl, h⟩
    obtain ⟨c, r, e, c1, c2, c3⟩ := hh
    refine ⟨_, rfl, ?_, ?_, ?_, hL x ha⟩
    · rw [e]; simpa using c1
    · rw [e]; simpa using c2
    · intro r' h'; rw [e] at h'; cases h'; exact c3 rfl
  have h3 : ∀ x, an = some x → AnchorLine R (anchorLine x) x := by
    intro x hx
    obtain ⟨i1, i2, _, i4⟩ := h.anchor x hx
    exact ⟨rfl, i2, hN _ i1, fun hr => (i4 [] hr).1 rfl⟩
  have k1 : LabelLines R ⟨none, as, none⟩ (as.map attrsLine).toList := by
    cases as with
    | none => exact .nil
    | some as => exact .attrs (h2 as rfl) .nil
  have k2 : LabelLines R ⟨none, as, an⟩ ((an.map anchorLine).toList ++ (as.map attrsLine).toList) := by
    cases an with
    | none => exact k1
    | some i => exact .anchor (h3 i rfl) k1
  unfold labelLines
  cases t with
  | none => exact k2
  | some t => exact .title (h1 t rfl) k2

theorem label_some {label : Label} (h : label ≠ {}) : labelLines label ≠ [] := by
  obtain ⟨t, as, an⟩ := label
  unfold labelLines
  cases t with
  | some t => exact List.cons_ne_nil _ _
  | none =>
    cases an with
    | some i => exact List.cons_ne_nil _ _
    | none =>
      cases as with
      | some as => exact List.cons_ne_nil _ _
      | none => exact absurd rfl h

theorem layout_separate : ∀ {xs : List Token}, (∀ x ∈ xs, Readable R x) → ∀ skips, Layout R skips xs (separate (xs.map Token.written))
  | [], _, _ => .nil
  | [x], h, _ => by
    obtain ⟨k, hk⟩ := h x (by simp) [] (Or.inl rfl)
    rw [List.append_nil] at hk
    exact .piece hk .nil
  | x :: y :: xs, h, _ => by
    have ih := fun k => layout_separate (fun z hz => h z (List.mem_cons_of_mem _ hz)) k
    obtain ⟨k, hk⟩ := h x (by simp) ([] :: separate ((y :: xs).map Token.written)) (Or.inr ⟨_, rfl⟩)
    exact .piece hk (.blank (Or.inl rfl) (ih k))

/-- The line of a heading. -/
theorem heading_written {n : Nat} {t : Text} (h1 : 1 ≤ n) (h5 : n ≤ 5) (ht : ProseTitle t) :
    Heading n t (List.replicate (n + 1) '=' ++ ' ' :: t) := by
  refine ⟨h1, h5, '=', [' '], Or.inl rfl, by simp, by simp, ?_, by simp⟩
  obtain ⟨c, r, rfl, hw⟩ := ht.solid.first
  rintro (e | e) <;> cases e <;> revert hw <;> decide

/-- A line in brackets above a block is that of its anchor or that of its attributes. -/
theorem label_attrs_of {label : Label} {a : Text} (ha : '[' :: a ++ [']'] ∈ labelLines label) (hnot : ∀ r, a ≠ '[' :: r ++ [']']) :
    ∃ x, label.attrs = some x ∧ a = List.intercalate [','] (x.map blockAttr) := by
  unfold labelLines at ha
  rw [List.mem_append, List.mem_append, Option.mem_toList, Option.mem_toList, Option.mem_toList] at ha
  rcases ha with ha | ha | ha
  · cases ht' : label.title with
    | none => rw [ht'] at ha; cases ha
    | some x => rw [ht'] at ha; cases ha
  · cases hi : label.anchor with
    | none => rw [hi] at ha; cases ha
    | some x =>
      rw [hi] at ha
      have he : anchorLine x = '[' :: a ++ [']'] := Option.some.inj ha
      refine absurd ?_ (hnot x.inside)
      have he : ('[' :: x.inside ++ [']']) ++ [']'] = a ++ [']'] := by
        have := List.cons.inj he
        simpa using this.2
      exact (List.append_cancel_right he).symm
  · cases ha' : label.attrs with
    | none => rw [ha'] at ha; cases ha
    | some x =>
      rw [ha'] at ha
      have he : attrsLine x = '[' :: a ++ [']'] := Option.some.inj ha
      unfold attrsLine at he
      rw [List.cons_append, List.cons_append, List.cons.injEq, List.append_left_inj] at he
      exact ⟨x, rfl, he.2.symm⟩

theorem leaf_readable [Uni] (hR : ∀ as, FineAttrs as → ∀ g, g = .normal ∨ g = .title ∨ g = .none → ∀ t, Prose t → R.text as g t t)
    (hA : ∀ t, Prose t → R.ahead t)
    (hL : ∀ as, WritableAttrs as → R.attrs (List.intercalate [','] (as.map blockAttr)) as)
    (hD : ∀ as, WritableAttrs as →
      (styleOf (some as) = some "discrete".toList ∨ styleOf (some as) = some "float".toList) →
      R.discrete (List.intercalate [','] (as.map blockAttr)))
    (hI : ∀ as, (∀ a ∈ as, WritableAttr a) → R.inner (List.intercalate [','] (as.map quotedAttr)) as)
    (hN : ∀ i, XmlName i → R.name i) (hP : ∀ as t, ∃ r, R.text as .none t r)
    {b : Leaf} (h : Writable b) : ∀ as, FineAttrs as → (as = none ∨ ∀ label b', b ≠ .labelled label b') →
      ((∃ t, b = .para t) ∨ styleOf as ≠ some "literal".toList) →
      ∀ rest, Apart rest → ∃ skips, Takes R as (.leaf b) skips (b.written ++ rest) rest := by
  induction h with
  | @para t h1 h2 =>
    intro as' has hlab hlit rest hr
    refine ⟨true, ?_⟩
    rw [Leaf.written]
    have hj := join_split t
    have hall := fun l hl => prose_plain h1 hl (h2 l hl)
    have hbeg := fun l hl => prose_begins h1 hl (h2 l hl)
    have hne := splitChar_ne_nil '\n' t
    generalize splitChar '\n' t = ls at hj hall hbeg hne
    cases ls with
    | nil => exact absurd rfl hne
    | cons l ls =>
      exact .para (hbeg l (by simp)) (paragraph_lines hr fun x hx => ⟨(hall x hx).1, (hall x hx).2.1, (hall x hx).2.2.1⟩)
        (paragraph_text fun x hx => ⟨(hall x hx).2.1, (hall x hx).2.2.2⟩)
        (by rw [hj]; exact hR as' has _ ((writable_chosen has _).imp_right Or.inr) t h1)
  | @verbatim c ls hc h =>
    intro as' has hlab hlit rest hr
    refine ⟨false, ?_⟩
    rw [Leaf.written, fenced, List.append_assoc, List.singleton_append]
    exact .verbatim ⟨hc, _, rfl⟩ (fence_not_mem c ls) (hlit.resolve_left nofun) fun hg _ t _ _ => by
      rw [(writable_chosen has _).resolve_left hg]
      exact hP _ t
  | @brk ty =>
    intro as' has hlab hlit rest hr
    refine ⟨true, ?_⟩
    cases ty with
    | thematic => exact .brk ⟨"'''", by simp, rfl⟩ (hlit.resolve_left nofun)
    | page => exact .brk rfl (hlit.resolve_left nofun)
  | @media ty target attrs h1 h2 h3 h4 h5 =>
    intro as' has hlab hlit rest hr
    exact ⟨true, .media ⟨rfl, h2, h3⟩ h1 (hI attrs h5) (hlit.resolve_left nofun)⟩
  | @container context bs hc h ih =>
    intro as' has hlab hlit rest hr
    refine ⟨false, ?_⟩
    rw [Leaf.written, fenced, List.append_assoc, List.singleton_append]
    have hl := layout_separate (R := R) (xs := bs.map Token.leaf) (fun x hx => by
      obtain ⟨b, hb, rfl⟩ := List.mem_map.mp hx
      exact ih b hb none nofun (Or.inl rfl) (Or.inr nofun)) true
    have he : (bs.map Token.leaf).map Token.written = Leaf.writtenAll bs := by
      rw [writtenAll_eq, List.map_map]; rfl
    rw [he] at hl
    refine .container ?_ ?_ (fence_not_mem _ _) hl (hlit.resolve_left nofun)
    · right
      refine ⟨(separate (Leaf.writtenAll bs)).flatten.length, ?_⟩
      rcases hc with rfl | rfl
      · exact Or.inr (Or.inr ⟨rfl, rfl⟩)
      · exact Or.inr (Or.inl ⟨rfl, rfl⟩)
    · rintro ⟨n, hn, m, r, hm, e, _⟩
      obtain ⟨k, rfl⟩ : ∃ k, n = k + 1 := ⟨n - 1, by omega⟩
      rw [fence, List.replicate_succ, List.replicate_succ (n := k), List.cons_append,
        List.cons.injEq] at e
      rw [← e.1] at hm
      rcases contextMark_mem context with h | h <;> rw [h] at hm <;> revert hm <;> decide
  | @discrete label n t ht hs h1 h5 h =>
    intro as' has hlab hlit rest hr
    rcases hlab with rfl | hlab
    · rw [Leaf.written, Leaf.written, List.append_assoc]
      refine ⟨true, .labelled (label_lines (fun t ht => hR none nofun _ (Or.inl rfl) t ht) hA hL hN ht) (label_some ?_) nofun ?_
        (.discrete (title := t) hs (heading_written h1 h5 h) (hR _ ht.attrs _ (Or.inr (Or.inl rfl)) t h.prose))⟩
      · rintro rfl
        rcases hs with h | h <;> cases h
      · intro _ a ha hnot
        obtain ⟨x, hx, rfl⟩ := label_attrs_of ha hnot
        exact hD x (ht.attrs x hx) (by rw [← hx]; exact hs)
    · exact absurd rfl (hlab _ _)
  | @labelled label b ht hne hu hw hl0 ih =>
    intro as' has hlab hlit rest hr
    rcases hlab with rfl | hlab
    · obtain ⟨skips, h⟩ := ih label.attrs ht.attrs (Or.inr hu) hl0 rest hr
      rw [Leaf.written, List.append_assoc]
      refine ⟨skips, .labelled (label_lines (fun t ht => hR none nofun _ (Or.inl rfl) t ht) hA hL hN ht) (label_some hne) hu ?_ h⟩
      rintro ⟨n, r, rfl⟩
      cases hw
    · exact absurd rfl (hlab _ _)

theorem heading_readable [Uni] (hR : ∀ as, FineAttrs as → ∀ g, g = .normal ∨ g = .title ∨ g = .none → ∀ t, Prose t → R.text as g t t)
    (hA : ∀ t, Prose t → R.ahead t)
    (hL : ∀ as, WritableAttrs as → R.attrs (List.intercalate [','] (as.map blockAttr)) as)
    (hH : ∀ as, WritableAttrs as → (∀ x ∈ ["discrete", "float"], styleOf (some as) ≠ some x.toList) →
      R.headed (List.intercalate [','] (as.map blockAttr)))
    (hN : ∀ i, XmlName i → R.name i)
    {n : Nat} {t : Text} {label : Label} (h1 : 1 ≤ n) (h5 : n ≤ 5) (ht : ProseTitle t)
    (h : WritableHead label) : Readable R (.heading n t label) := by
  intro rest _
  have hfine : FineAttrs label.attrs := h.attrs
  have hlines : HeadLines R label (labelLines label) := by
    refine ⟨label_lines (fun t ht => hR none nofun _ (Or.inl rfl) t ht) hA hL hN h.toWritableLabel, ?_, ?_⟩
    · intro as has source style hs
      have := h.style style hs
      rw [show label.attrs = some as from has] at this
      exact this
    · intro a ha hnot
      obtain ⟨x, ha', rfl⟩ := label_attrs_of ha hnot
      refine hH x (h.attrs x ha') fun y hy => ?_
      rw [← ha']
      refine h.style y ?_
      simp only [List.mem_cons, List.not_mem_nil, or_false] at hy ⊢
      rcases hy with h | h <;> simp [h]
  rw [Token.written, List.append_assoc]
  exact ⟨true, .heading (title := t) hlines (heading_written h1 h5 ht) (hR _ hfine _ (Or.inr (Or.inl rfl)) t ht.prose)⟩

theorem flat_allTokens [Uni] {n most : Nat} {secs : List Sec} (h : SecsWritable n most secs) :
    Flat n most secs (Sec.allTokens n secs) := by
  induction h with
  | nil => rw [Sec.allTokens]; exact .nil
  | cons h0 _ _ _ _ _ _ ih1 ih2 =>
    rw [Sec.allTokens, Sec.tokens, List.cons_append, List.append_assoc]
    exact .cons h0 ih1 ih2

theorem secs_tokens [Uni] {n most : Nat} {secs : List Sec} (h : SecsWritable n most secs) :
    ∀ x ∈ Sec.allTokens n secs, (∃ b, x = .leaf b ∧ Writable b) ∨ ∃ k t label, x = .heading k t label ∧ n ≤ k ∧
      k ≤ 5 ∧ ProseTitle t ∧ WritableHead label := by
  induction h with
  | nil => intro x hx; rw [Sec.allTokens] at hx; cases hx
  | @cons n most t bs subs label skipped secs h0 h1 h2 h3 h4 h5 h6 ih1 ih2 =>
    intro x hx
    rw [Sec.allTokens, Sec.tokens, List.cons_append, List.mem_cons, List.mem_append, List.mem_append] at hx
    rcases hx with rfl | (hx | hx) | hx
    · exact Or.inr ⟨n + skipped, t, label, rfl, Nat.le_add_right _ _, h1, h2, h6⟩
    · obtain ⟨b, hb, rfl⟩ := List.mem_map.mp hx
      exact Or.inl ⟨b, rfl, h3 b hb⟩
    · rcases ih1 x hx with h | ⟨k, t, lab, e, g1, g2⟩
      · exact Or.inl h
      · exact Or.inr ⟨k, t, lab, e, by omega, g2⟩
    · exact ih2 x hx

end Adoc.Lemmas
