import Verif.Spec.SubGroup
import Verif.Lemmas.HardBreak
/-!
# Lemmas about custom substitution lists
-/

namespace Adoc
open Spec

theorem stepOfName_iff {t : Text} {s : Step} :
    stepOfName t = some s ↔ ∃ n, (n, s) ∈ stepNames ∧ n.toList = t := by
  constructor
  · intro h
    unfold stepOfName at h
    repeat' split at h
    · rename_i hc; cases h
      rcases hc with rfl | rfl | rfl
      · exact ⟨"c", by simp [stepNames], rfl⟩
      · exact ⟨"specialcharacters", by simp [stepNames], rfl⟩
      · exact ⟨"specialchars", by simp [stepNames], rfl⟩
    · rename_i hc; cases h
      rcases hc with rfl | rfl
      · exact ⟨"q", by simp [stepNames], rfl⟩
      · exact ⟨"quotes", by simp [stepNames], rfl⟩
    · rename_i hc; cases h
      rcases hc with rfl | rfl
      · exact ⟨"a", by simp [stepNames], rfl⟩
      · exact ⟨"attributes", by simp [stepNames], rfl⟩
    · rename_i hc; cases h
      rcases hc with rfl | rfl
      · exact ⟨"r", by simp [stepNames], rfl⟩
      · exact ⟨"replacements", by simp [stepNames], rfl⟩
    · rename_i hc; cases h
      rcases hc with rfl | rfl
      · exact ⟨"m", by simp [stepNames], rfl⟩
      · exact ⟨"macros", by simp [stepNames], rfl⟩
    · rename_i hc; cases h
      rcases hc with rfl | rfl
      · exact ⟨"p", by simp [stepNames], rfl⟩
      · exact ⟨"post_replacements", by simp [stepNames], rfl⟩
    · cases h
  · rintro ⟨n, h, rfl⟩
    simp only [stepNames, List.mem_cons, Prod.mk.injEq, List.not_mem_nil, or_false] at h
    rcases h with h | h | h | h | h | h | h | h | h | h | h | h | h <;> (obtain ⟨rfl, rfl⟩ := h; decide)

/-- First and last characters of a name are letters. -/
theorem stepNames_shape : ∀ p ∈ stepNames, p.1.toList ≠ [] ∧ p.1.toList.head? ≠ some '+' ∧ p.1.toList.head? ≠ some '-' ∧
    p.1.toList.getLast? ≠ some '+' ∧ p.1.toList.getLast? ≠ some '-' := by
  decide

theorem startsWith_one {t : Text} {c : Char} : startsWith t [c] = true ↔ t.head? = some c := by
  rw [startsWith_iff]
  cases t with
  | nil => simp
  | cons d ds => simp

theorem endsWith_one {t : Text} {c : Char} : endsWith t [c] = true ↔ t.getLast? = some c := by
  rw [endsWith_iff]
  cases t using snocInd with
  | nil => simp
  | snoc t d _ => simp

/-- One item, as the model reads it. -/
def itemOf (t : Text) : Option SubItem :=
  if t = "n".toList ∨ t = "normal".toList then some (.reset normalSteps)
  else if t = "v".toList ∨ t = "verbatim".toList then some (.reset [.specialCharacters])
  else
    (stepOfName (subMod t).2).map fun s => match (subMod t).1 with
      | .append => .add true s
      | .prepend => .addFront s
      | .subtract => .remove s
      | .plain => .add false s

theorem itemOf_iff {t : Text} {i : SubItem} : itemOf t = some i ↔ Denotes t i := by
  constructor
  · intro h
    unfold itemOf at h
    split at h
    · rename_i hc; cases h; exact .normal hc
    · split at h
      · rename_i hc; cases h; exact .verbatim hc
      · cases hs : stepOfName (subMod t).2 with
        | none => rw [hs] at h; cases h
        | some s =>
          rw [hs] at h
          simp only [Option.map_some, Option.some.injEq] at h
          obtain ⟨n, hn, he⟩ := stepOfName_iff.mp hs
          by_cases hc : startsWith t ['+'] = true
          · have hm : subMod t = (.append, t.tail) := by unfold subMod; rw [if_pos hc]
            rw [hm] at h he
            obtain ⟨r, rfl⟩ := startsWith_iff.mp hc
            subst h
            simp only [List.singleton_append, List.tail_cons] at he
            rw [List.singleton_append, ← he]; exact .append hn
          · by_cases hc2 : endsWith t ['+'] = true
            · have hm : subMod t = (.prepend, t.dropLast) := by unfold subMod; rw [if_neg hc, if_pos hc2]
              rw [hm] at h he
              obtain ⟨r, rfl⟩ := endsWith_iff.mp hc2
              subst h
              simp only [List.dropLast_concat] at he
              rw [← he]; exact .prepend hn
            · by_cases hc3 : startsWith t ['-'] = true
              · have hm : subMod t = (.subtract, t.tail) := by
                  unfold subMod; rw [if_neg hc, if_neg hc2, if_pos hc3]
                rw [hm] at h he
                obtain ⟨r, rfl⟩ := startsWith_iff.mp hc3
                subst h
                simp only [List.singleton_append, List.tail_cons] at he
                rw [List.singleton_append, ← he]; exact .subtract hn
              · have hm : subMod t = (.plain, t) := by
                  unfold subMod; rw [if_neg hc, if_neg hc2, if_neg hc3]
                rw [hm] at h he
                subst h
                simp only at he
                rw [← he]; exact .plain hn
  · intro h
    have hnames : ∀ p ∈ stepNames, p.1 ≠ "n" ∧ p.1 ≠ "normal" ∧ p.1 ≠ "v" ∧ p.1 ≠ "verbatim" := by decide
    cases h with
    | normal hc => unfold itemOf; rw [if_pos hc]; rfl
    | verbatim hc =>
      unfold itemOf
      rw [if_neg (by rcases hc with rfl | rfl <;> decide), if_pos hc]
    | @plain n s hn =>
      have hs := stepNames_shape _ hn
      have hsn := stepOfName_iff.mpr ⟨n, hn, rfl⟩
      have h1 : subMod n.toList = (.plain, n.toList) := by
        unfold subMod
        rw [if_neg (by rw [startsWith_one]; exact hs.2.1), if_neg (by rw [endsWith_one]; exact hs.2.2.2.1),
          if_neg (by rw [startsWith_one]; exact hs.2.2.1)]
      have hne := hnames _ hn
      unfold itemOf
      rw [if_neg (by
        rintro (h | h)
        · exact hne.1 (String.toList_inj.mp h)
        · exact hne.2.1 (String.toList_inj.mp h)), if_neg (by
        rintro (h | h)
        · exact hne.2.2.1 (String.toList_inj.mp h)
        · exact hne.2.2.2 (String.toList_inj.mp h)), h1]
      simp [hsn]
    | @append n s hn =>
      have hsn := stepOfName_iff.mpr ⟨n, hn, rfl⟩
      have h1 : subMod ('+' :: n.toList) = (.append, n.toList) := by
        unfold subMod
        rw [if_pos (by rw [startsWith_one]; rfl)]; rfl
      unfold itemOf
      rw [if_neg (by rintro (h | h) <;> (have := congrArg List.head? h; revert this; simp)), if_neg (by rintro (h | h) <;> (have := congrArg List.head? h; revert this; simp)), h1]
      simp [hsn]
    | @prepend n s hn =>
      have hs := stepNames_shape _ hn
      have hsn := stepOfName_iff.mpr ⟨n, hn, rfl⟩
      have h1 : subMod (n.toList ++ ['+']) = (.prepend, n.toList) := by
        unfold subMod
        rw [if_neg (by
          rw [startsWith_one]
          cases h : n.toList with
          | nil => exact absurd h hs.1
          | cons c cs => have := hs.2.1; rw [h] at this; simpa using this), if_pos (by rw [endsWith_one]; simp)]
        simp
      unfold itemOf
      rw [if_neg (by rintro (h | h) <;> (have := congrArg List.getLast? h; revert this; simp; try decide)), if_neg (by rintro (h | h) <;> (have := congrArg List.getLast? h; revert this; simp; try decide)), h1]
      simp [hsn]
    | @subtract n s hn =>
      have hs := stepNames_shape _ hn
      have hsn := stepOfName_iff.mpr ⟨n, hn, rfl⟩
      have h1 : subMod ('-' :: n.toList) = (.subtract, n.toList) := by
        unfold subMod
        rw [if_neg (by rw [startsWith_one]; simp), if_neg (by
          rw [endsWith_one]
          cases h : n.toList with
          | nil => exact absurd h hs.1
          | cons c cs => have := hs.2.2.2.1; rw [h] at this; simpa using this), if_pos (by rw [startsWith_one]; rfl)]
        rfl
      unfold itemOf
      rw [if_neg (by rintro (h | h) <;> (have := congrArg List.head? h; revert this; simp)), if_neg (by rintro (h | h) <;> (have := congrArg List.head? h; revert this; simp)), h1]
      simp [hsn]

theorem customLoop_eq (sf : Option Group) : ∀ (items : List Text) (count : Nat) (steps : List Step),
    customLoop sf count items steps =
      match items with
      | [] => some steps
      | t :: ts =>
        match itemOf (trim t) with
        | none => none
        | some i =>
          let base := match sf with
            | some g => if count = 0 ∧ i.modifies = true then g.steps else steps
            | none => steps
          customLoop sf (count + 1) ts (i.run base) := by
  intro items count steps
  cases items with
  | nil => rw [customLoop]
  | cons t ts =>
    rw [customLoop]
    simp only
    unfold itemOf
    split
    · cases sf <;> simp [SubItem.modifies, SubItem.run]
    · split
      · cases sf <;> simp [SubItem.modifies, SubItem.run]
      · cases hm : subMod (trim t) with
        | mk md name =>
          cases hs : stepOfName name with
          | none => simp [hs]
          | some s =>
            cases md <;> cases sf <;> simp [SubItem.modifies, SubItem.run, hs]

/-- The items from the second on. -/
theorem customLoop_tail (sf : Option Group) : ∀ (l : List (Text × SubItem)) (count : Nat)
    (steps : List Step), count ≠ 0 → (∀ p ∈ l, Denotes (trim p.1) p.2) →
    customLoop sf count (l.map Prod.fst) steps = some ((l.map Prod.snd).foldl SubItem.run steps) := by
  intro l
  induction l with
  | nil => intro count steps _ _; rw [List.map_nil, customLoop]; rfl
  | cons p l ih =>
    intro count steps hc h
    rw [customLoop_eq]
    simp only [List.map_cons, itemOf_iff.mpr (h p (by simp))]
    rw [ih (count + 1) _ (by omega) (fun q hq => h q (by simp [hq]))]
    cases sf <;> simp [hc]

theorem customLoop_unknown (sf : Option Group) : ∀ (items : List Text) (count : Nat) (steps : List Step),
    (∃ t ∈ items, ∀ i, ¬ Denotes (trim t) i) → customLoop sf count items steps = none := by
  intro items
  induction items with
  | nil => rintro count steps ⟨t, ht, _⟩; cases ht
  | cons t ts ih =>
    rintro count steps ⟨x, hx, hno⟩
    rw [customLoop_eq]
    simp only
    rcases List.mem_cons.mp hx with rfl | hx
    · cases hi : itemOf (trim x) with
      | none => rfl
      | some i => exact absurd (itemOf_iff.mp hi) (hno i)
    · cases hi : itemOf (trim t) with
      | none => rfl
      | some i => exact ih _ _ ⟨x, hx, hno⟩

/-! ### Trimming and splitting -/

theorem trim_cons_white {c : Char} (hc : isWhite c = true) (t : Text) : trim (c :: t) = trim t := by
  unfold trim trimStart
  rw [List.dropWhile_cons, if_pos hc]

theorem trim_snoc_white {c : Char} (hc : isWhite c = true) (t : Text) : trim (t ++ [c]) = trim t := by
  unfold trim trimStart
  rw [List.dropWhile_append]
  split
  · rename_i h
    have : List.dropWhile isWhite t = [] := by simpa using h
    rw [this, List.dropWhile_cons, if_pos hc]; rfl
  · unfold trimEnd
    exact trimEndP_append_all (by simp [hc])

theorem split_trimStart (t : Text) :
    (splitChar ',' (trimStart t)).map trim = (splitChar ',' t).map trim := by
  induction t with
  | nil => rfl
  | cons c cs ih =>
    unfold trimStart at *
    rw [List.dropWhile_cons]
    split
    · rename_i hc
      rw [ih]
      have hne : ¬ c = ',' := by rintro rfl; revert hc; decide
      rw [splitChar, if_neg hne]
      cases h : splitChar ',' cs with
      | nil => exact absurd h (splitChar_ne_nil _ _)
      | cons p ps => simp [trim_cons_white hc]
    · rfl

theorem split_snoc {d c : Char} (hc : c ≠ d) (t : Text) : ∃ ps p,
    splitChar d t = ps ++ [p] ∧ splitChar d (t ++ [c]) = ps ++ [p ++ [c]] := by
  induction t with
  | nil => exact ⟨[], [], rfl, by simp [splitChar, hc]⟩
  | cons e es ih =>
    obtain ⟨ps, p, h1, h2⟩ := ih
    rw [List.cons_append, splitChar, splitChar, h1, h2]
    by_cases he : e = d
    · rw [if_pos he, if_pos he]; exact ⟨[] :: ps, p, rfl, rfl⟩
    · rw [if_neg he, if_neg he]
      cases ps with
      | nil => exact ⟨[], e :: p, rfl, rfl⟩
      | cons q qs => exact ⟨(e :: q) :: qs, p, rfl, rfl⟩

theorem split_trimEnd (t : Text) :
    (splitChar ',' (trimEnd t)).map trim = (splitChar ',' t).map trim := by
  induction t using snocInd with
  | nil => rfl
  | snoc t c ih =>
    by_cases hc : isWhite c = true
    · have h1 : trimEnd (t ++ [c]) = trimEnd t := by
        unfold trimEnd; exact trimEndP_append_all (by simp [hc])
      have hne : c ≠ ',' := by rintro rfl; revert hc; decide
      obtain ⟨ps, p, h2, h3⟩ := split_snoc hne t
      rw [h1, h3, List.map_append, List.map_cons, List.map_nil, trim_snoc_white hc]
      rw [ih, h2]; simp
    · have h1 : trimEnd (t ++ [c]) = t ++ [c] := by
        unfold trimEnd trimEndP
        simp [List.dropWhile_cons, hc]
      rw [h1]

theorem split_trim (t : Text) : (splitChar ',' (trim t)).map trim = (splitChar ',' t).map trim := by
  show (splitChar ',' (trimEnd (trimStart t))).map trim = _
  rw [split_trimEnd, split_trimStart]

theorem customLoop_congr (sf : Option Group) : ∀ (a b : List Text) (count : Nat) (steps : List Step),
    a.map trim = b.map trim → customLoop sf count a steps = customLoop sf count b steps := by
  intro a
  induction a with
  | nil =>
    intro b count steps h
    cases b with
    | nil => rfl
    | cons => cases h
  | cons x xs ih =>
    intro b count steps h
    cases b with
    | nil => cases h
    | cons y ys =>
      simp only [List.map_cons, List.cons.injEq] at h
      rw [customLoop_eq, customLoop_eq]
      simp only [h.1]
      cases itemOf (trim y) with
      | none => rfl
      | some i => exact ih _ _ _ h.2

end Adoc
