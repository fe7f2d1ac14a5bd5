import Verif.Lemmas.Attrlist
import Verif.Lemmas.HardBreak
/-!
# Lemmas on shorthand items and on lists of roles and options
-/

namespace Adoc
open Span Spec Props

theorem delim_iff {c : Char} : isShorthandDelim c = true ↔ Delim c := by
  unfold isShorthandDelim Delim
  simp only [Bool.or_eq_true, beq_iff_eq]
  constructor
  · rintro ((h | h) | h)
    · exact Or.inl h
    · exact Or.inr (Or.inr h)
    · exact Or.inr (Or.inl h)
  · rintro (h | h | h)
    · exact Or.inl (Or.inl h)
    · exact Or.inr h
    · exact Or.inl (Or.inr h)

/-- Well-formed items: a delimiter and a text without delimiters. -/
def WF (items : List (Char × Text)) : Prop := ∀ i ∈ items, Delim i.1 ∧ ∀ c ∈ i.2, ¬ Delim c

def itemsText (items : List (Char × Text)) : Text := items.flatMap itemText

/-- The positions at which the items start. -/
def itemPos : Nat → List (Char × Text) → List Nat
  | _, [] => []
  | p, i :: is => p :: itemPos (p + (i.2.length + 1)) is

theorem WF.tail {i : Char × Text} {is : List (Char × Text)} (h : WF (i :: is)) : WF is := fun j hj => h j (by simp [hj])

theorem itemsText_head {is : List (Char × Text)} (h : WF is) : ∀ c r, itemsText is = c :: r → Delim c := by
  intro c r e
  cases is with
  | nil => cases e
  | cons i is =>
    simp only [itemsText, List.flatMap_cons, itemText, List.cons_append, List.cons.injEq] at e
    rw [← e.1]; exact (h i (by simp)).1

theorem prefLen_nodelim {a b : Text} (ha : ∀ c ∈ a, ¬ Delim c) (hb : ∀ c r, b = c :: r → Delim c) :
    prefLen (fun c => !isShorthandDelim c) (a ++ b) = a.length := by
  apply prefLen_append
  · intro c hc
    have := ha c hc
    rw [← delim_iff] at this
    simpa using this
  · intro c r e
    have := hb c r e
    rw [← delim_iff] at this
    simp [this]

theorem shorthandLoop_items : ∀ (n : Nat) (items : List (Char × Text)) (pos : Nat), WF items →
    (itemsText items).length ≤ n →
    shorthandLoop n pos (itemsText items) =
      (itemPos pos items, (items.filter (fun i => i.2.isEmpty)).map (fun _ => .emptyShorthandItem)) := by
  intro n
  induction n with
  | zero =>
    intro items pos _ hl
    cases items with
    | nil => rfl
    | cons i is => simp [itemsText, itemText] at hl
  | succ n ih =>
    intro items pos hwf hl
    cases items with
    | nil => rfl
    | cons i is =>
      obtain ⟨d, t⟩ := i
      have htxt : itemsText ((d, t) :: is) = d :: (t ++ itemsText is) := by simp [itemsText, itemText]
      rw [htxt] at hl ⊢
      rw [shorthandLoop]
      simp only
      have hp := prefLen_nodelim (a := t) (b := itemsText is) (hwf (d, t) (by simp)).2 (itemsText_head hwf.tail)
      rw [hp]
      simp only [List.length_cons, List.length_append] at hl
      by_cases hend : t.length = (t ++ itemsText is).length
      · rw [if_pos hend]
        have hempty : itemsText is = [] := by simpa using hend
        have his : is = [] := by
          cases is with
          | nil => rfl
          | cons j js => simp [itemsText, itemText] at hempty
        subst his
        simp only [itemPos, itemsText, List.flatMap_nil, List.append_nil]
        cases t <;> simp
      · rw [if_neg hend]
        by_cases h0 : t.length = 0
        · rw [if_pos h0]
          have ht : t = [] := List.length_eq_zero_iff.mp h0
          subst ht
          rw [List.nil_append, ih is (pos + 1) hwf.tail (by simpa using hl)]
          simp [itemPos]
        · rw [if_neg h0]
          have hd : (d :: (t ++ itemsText is)).drop (t.length + 1) = itemsText is := by simp
          rw [hd, ih is _ hwf.tail (by omega)]
          have ht : t ≠ [] := by rintro rfl; exact h0 rfl
          have : t.isEmpty = false := by cases t <;> simp_all
          simp [itemPos, this]

theorem parseShorthandItems_eq (style : Text) (items : List (Char × Text)) (hs : ∀ c ∈ style, ¬ Delim c) (hwf : WF items) :
    parseShorthandItems (style ++ itemsText items) =
      ((if style = [] then [] else [(style.takeWhile isBlank).length]) ++ itemPos style.length items,
        (items.filter (fun i => i.2.isEmpty)).map (fun _ => .emptyShorthandItem)) := by
  unfold parseShorthandItems
  simp only
  rw [prefLen_nodelim hs (itemsText_head hwf)]
  rw [show (style ++ itemsText items).drop style.length = itemsText items by simp,
    show (style ++ itemsText items).take style.length = style by simp,
    shorthandLoop_items _ items _ hwf (by simp)]
  by_cases h : style = []
  · subst h; simp
  · rw [if_neg (by intro h'; exact h (List.length_eq_zero_iff.mp h')), if_neg h]
    rw [← (prefLen_takeWhile isBlank style).1, List.length_take, Nat.min_eq_left (prefLen_le _ _)]
    rfl

theorem slices_items (items : List (Char × Text)) : ∀ (pre : Text), 
    ElemAttr.slices (pre ++ itemsText items) (itemPos pre.length items) = items.map itemText := by
  induction items with
  | nil => intro pre; rfl
  | cons i is ih =>
    intro pre
    cases is with
    | nil =>
      show [(pre ++ itemsText [i]).drop pre.length] = _
      simp [itemsText]
    | cons j js =>
      have h := ih (pre ++ itemText i)
      have e1 : pre ++ itemsText (i :: j :: js) = pre ++ itemText i ++ itemsText (j :: js) := by
        simp [itemsText, List.append_assoc]
      have e2 : pre.length + (i.2.length + 1) = (pre ++ itemText i).length := by simp [itemText]
      rw [itemPos, e2, itemPos, ElemAttr.slices]
      rw [itemPos] at h
      rw [e1, h, List.map_cons (f := itemText) (a := i)]
      congr 1
      rw [List.append_assoc, List.drop_left]
      simp [itemText]

theorem slices_all (style : Text) (items : List (Char × Text)) :
    ElemAttr.slices (style ++ itemsText items)
      ((if style = [] then [] else [(style.takeWhile isBlank).length]) ++ itemPos style.length items) =
      (if style = [] then [] else [style.dropWhile isBlank]) ++ items.map itemText := by
  by_cases h : style = []
  · subst h
    simpa using slices_items items []
  · rw [if_neg h, if_neg h, List.singleton_append, List.singleton_append]
    have hd : style.drop (style.takeWhile isBlank).length = style.dropWhile isBlank := by
      have := List.drop_left (l₁ := style.takeWhile isBlank) (l₂ := style.dropWhile isBlank)
      rwa [List.takeWhile_append_dropWhile] at this
    have hle : (style.takeWhile isBlank).length ≤ style.length := by
      conv => rhs; rw [← List.takeWhile_append_dropWhile (p := isBlank) (l := style)]
      rw [List.length_append]; omega
    cases items with
    | nil => simp [itemPos, ElemAttr.slices, itemsText, hd]
    | cons i is =>
      have := slices_items (i :: is) style
      rw [itemPos] at this ⊢
      rw [ElemAttr.slices, this]
      congr 1
      rw [List.drop_append_of_le_length hle, hd]
      have : style.length - (style.takeWhile isBlank).length = (style.dropWhile isBlank).length := by
        have := congrArg List.length (List.takeWhile_append_dropWhile (p := isBlank) (l := style))
        rw [List.length_append] at this; omega
      rw [this, List.take_left]

/-- Every text has exactly one decomposition into a style and items. -/
theorem decompose (t : Text) : ∃ style items, t = style ++ itemsText items ∧ (∀ c ∈ style, ¬ Delim c) ∧ WF items := by
  induction t with
  | nil => exact ⟨[], [], rfl, by simp, by intro i hi; cases hi⟩
  | cons c cs ih =>
    obtain ⟨style, items, rfl, h1, h2⟩ := ih
    by_cases hc : Delim c
    · refine ⟨[], (c, style) :: items, by simp [itemsText, itemText], by simp, ?_⟩
      intro i hi
      rcases List.mem_cons.mp hi with rfl | hi
      · exact ⟨hc, h1⟩
      · exact h2 i hi
    · refine ⟨c :: style, items, rfl, ?_, h2⟩
      intro d hd
      rcases List.mem_cons.mp hd with rfl | hd
      · exact hc
      · exact h1 d hd

/-! ### Pieces -/

theorem length_dropWhile_le (p : Char → Bool) (t : Text) : (t.dropWhile p).length ≤ t.length := by
  have := congrArg List.length (List.takeWhile_append_dropWhile (p := p) (l := t))
  rw [List.length_append] at this; omega


theorem pieces_eq (sep : Char) : ∀ (n : Nat) (t : Text), t.length ≤ n →
    Attrlist.pieces sep n t = (splitChar sep t).filter (fun p => !p.isEmpty) := by
  intro n
  induction n with
  | zero =>
    intro t hl
    have : t = [] := List.length_eq_zero_iff.mp (by omega)
    subst this; rfl
  | succ n ih =>
    intro t hl
    rw [Attrlist.pieces]
    by_cases ht : t = []
    · subst ht; rfl
    · rw [if_neg ht]
      simp only
      have key : ∀ (a b : Text), sep ∉ a → (∀ c r, b = c :: r → c = sep) →
          (splitChar sep (a ++ b)).filter (fun p => !p.isEmpty) =
            (if a = [] then [] else [a]) ++ (splitChar sep (b.dropWhile (· = sep))).filter (fun p => !p.isEmpty) := by
        intro a b ha hb
        have hsep : ∀ b : Text, (splitChar sep (b.dropWhile (· = sep))).filter (fun p => !p.isEmpty) =
            (splitChar sep b).filter (fun p => !p.isEmpty) := by
          intro b
          induction b with
          | nil => rfl
          | cons c cs ihb =>
            by_cases hc : c = sep
            · subst hc
              rw [List.dropWhile_cons, if_pos (by simp), ihb, splitChar, if_pos (by simp)]
              simp
            · rw [List.dropWhile_cons, if_neg (by simpa using hc)]
        rw [hsep b]
        cases b with
        | nil =>
          rw [List.append_nil, splitChar_single ha]
          cases a <;> simp [splitChar]
        | cons c cs =>
          have hc := hb c cs rfl
          subst hc
          rw [splitChar_append ha]
          rw [splitChar, if_pos rfl]
          cases a with
          | nil => simp
          | cons x xs => simp
      have hsplit := List.takeWhile_append_dropWhile (p := fun c => decide (c ≠ sep)) (l := t)
      have hk := key (t.takeWhile (· ≠ sep)) (t.dropWhile (· ≠ sep)) (by
          intro hm; have := mem_takeWhile hm; simp at this) (by
          intro c r h
          have := List.head?_dropWhile_not (p := (· ≠ sep)) t
          rw [h] at this; simpa using this)
      rw [hsplit] at hk
      rw [hk]
      have hlen : ((t.dropWhile (· ≠ sep)).dropWhile (· = sep)).length ≤ n := by
        by_cases ha : t.takeWhile (· ≠ sep) = []
        · rw [ha, List.nil_append] at hsplit
          rw [hsplit]
          cases t with
          | nil => exact absurd rfl ht
          | cons c cs =>
            have hc : c = sep := by
              rw [List.takeWhile_cons] at ha
              split at ha
              · cases ha
              · rename_i h; simpa using h
            subst hc
            rw [List.dropWhile_cons, if_pos (by simp)]
            have := length_dropWhile_le (fun x => decide (x = c)) cs
            simp at hl; omega
        · have h1 := length_dropWhile_le (fun x => decide (x = sep)) (t.dropWhile (· ≠ sep))
          have h2 := congrArg List.length hsplit
          rw [List.length_append] at h2
          have h3 : 0 < (t.takeWhile (· ≠ sep)).length := List.length_pos_iff.mpr ha
          omega
      rw [ih _ hlen]
      split <;> simp_all

theorem splitPieces_eq (sep : Char) (t : Text) :
    Attrlist.splitPieces sep t = (splitChar sep t).filter (fun p => !p.isEmpty) := by
  unfold Attrlist.splitPieces
  simp only
  rw [pieces_eq sep _ _ (Nat.le_refl _)]
  induction t with
  | nil => rfl
  | cons c cs ih =>
    by_cases hc : c = sep
    · subst hc
      rw [List.dropWhile_cons, if_pos (by simp), ih, splitChar, if_pos (by simp)]
      simp
    · rw [List.dropWhile_cons, if_neg (by simpa using hc)]

end Adoc
