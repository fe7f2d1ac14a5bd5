import Verif.Model.Text
/-! # Helper lemmas about texts and byte indices -/

namespace Adoc

theorem snocInd {α : Type _} {P : List α → Prop} (nil : P [])
    (snoc : ∀ t d, P t → P (t ++ [d])) (t : List α) : P t := by
  have : ∀ u : List α, P u.reverse := by
    intro u
    induction u with
    | nil => exact nil
    | cons c cs ih => rw [List.reverse_cons]; exact snoc _ _ ih
  have h := this t.reverse
  rwa [List.reverse_reverse] at h

@[simp] theorem blen_nil : blen [] = 0 := rfl
@[simp] theorem blen_cons (c : Char) (t : Text) : blen (c :: t) = c.utf8Size + blen t := rfl

theorem utf8Size_pos (c : Char) : 0 < c.utf8Size := Char.utf8Size_pos c

@[simp] theorem blen_append (a b : Text) : blen (a ++ b) = blen a + blen b := by
  induction a with
  | nil => simp
  | cons c cs ih => simp [ih]; omega

theorem blen_eq_zero {t : Text} : blen t = 0 ↔ t = [] := by
  cases t with
  | nil => simp
  | cons c cs => simp; have := utf8Size_pos c; omega

theorem blen_pos {t : Text} (h : t ≠ []) : 0 < blen t := by
  rcases Nat.eq_zero_or_pos (blen t) with h' | h'
  · exact absurd (blen_eq_zero.mp h') h
  · exact h'

theorem length_le_blen (t : Text) : t.length ≤ blen t := by
  induction t with
  | nil => simp
  | cons c cs ih => simp; have := utf8Size_pos c; omega

theorem splitB_sound : ∀ {t : Text} {n : Nat} {a b : Text},
    splitB t n = some (a, b) → t = a ++ b ∧ blen a = n := by
  intro t
  induction t with
  | nil =>
    intro n a b h
    cases n with
    | zero => simp [splitB] at h; obtain ⟨rfl, rfl⟩ := h; simp
    | succ n => simp [splitB] at h
  | cons c cs ih =>
    intro n a b h
    cases n with
    | zero => simp [splitB] at h; obtain ⟨rfl, rfl⟩ := h; simp
    | succ n =>
      rw [splitB] at h
      split at h
      · rename_i hle
        split at h
        · rename_i a' b' heq
          obtain ⟨h1, h2⟩ := ih heq
          simp at h
          obtain ⟨rfl, rfl⟩ := h
          subst h1
          simp; omega
        · simp at h
      · simp at h

theorem splitB_blen (a b : Text) : splitB (a ++ b) (blen a) = some (a, b) := by
  induction a with
  | nil => cases b <;> simp [splitB]
  | cons c cs ih =>
    have hp := utf8Size_pos c
    obtain ⟨m, hm⟩ : ∃ m, c.utf8Size + blen cs = m + 1 := ⟨c.utf8Size + blen cs - 1, by omega⟩
    simp only [List.cons_append, blen_cons]
    rw [hm, splitB]
    have : m + 1 - c.utf8Size = blen cs := by omega
    rw [if_pos (by omega), this, ih]

theorem splitB_iff {t : Text} {n : Nat} {a b : Text} :
    splitB t n = some (a, b) ↔ t = a ++ b ∧ blen a = n := by
  constructor
  · exact splitB_sound
  · rintro ⟨rfl, rfl⟩; exact splitB_blen a b

theorem sliceB_iff {t : Text} {i j : Nat} {old mid : Text} :
    sliceB t i j = some (old, mid) ↔
      ∃ post, t = old ++ mid ++ post ∧ blen old = i ∧ blen old + blen mid = j := by
  unfold sliceB
  constructor
  · intro h
    split at h
    · rename_i hle
      split at h
      · rename_i pre rest h1
        split at h
        · rename_i m post h2
          simp at h
          obtain ⟨rfl, rfl⟩ := h
          obtain ⟨rfl, e1⟩ := splitB_sound h1
          obtain ⟨rfl, e2⟩ := splitB_sound h2
          exact ⟨post, by simp, e1, by omega⟩
        · simp at h
      · simp at h
    · simp at h
  · rintro ⟨post, rfl, rfl, rfl⟩
    rw [if_pos (by omega)]
    simp [List.append_assoc, splitB_blen]

theorem blen_eq_utf8ByteSize (t : Text) : blen t = (String.ofList t).utf8ByteSize := by
  induction t with
  | nil => simp
  | cons c cs ih =>
    rw [blen_cons, ih, ← List.singleton_append, String.ofList_append, String.utf8ByteSize_append]
    simp

theorem isPrefixOf_iff {p t : Text} : p.isPrefixOf t = true ↔ ∃ r, t = p ++ r := by
  rw [List.isPrefixOf_iff_prefix]
  exact ⟨fun ⟨r, h⟩ => ⟨r, h.symm⟩, fun ⟨r, h⟩ => ⟨r, h.symm⟩⟩

theorem startsWith_iff {t p : Text} : startsWith t p = true ↔ ∃ r, t = p ++ r := isPrefixOf_iff

theorem endsWith_iff {t p : Text} : endsWith t p = true ↔ ∃ r, t = r ++ p := by
  unfold endsWith
  rw [List.isSuffixOf_iff_suffix]
  exact ⟨fun ⟨r, h⟩ => ⟨r, h.symm⟩, fun ⟨r, h⟩ => ⟨r, h.symm⟩⟩

/-! ## trimming -/

theorem mem_takeWhile {p : Char → Bool} {t : Text} {x : Char} (h : x ∈ t.takeWhile p) : p x = true := by
  have := List.all_takeWhile (p := p) (l := t)
  rw [List.all_eq_true] at this
  exact this x h

theorem dropWhile_nil_iff {p : Char → Bool} {t : Text} :
    t.dropWhile p = [] ↔ ∀ x ∈ t, p x = true := by
  induction t with
  | nil => simp
  | cons c cs ih =>
    by_cases h : p c = true
    · simp [h, ih]
    · simp [h]

theorem trimEndP_spec (p : Char → Bool) (t : Text) :
    ∃ w, t = trimEndP p t ++ w ∧ w.all p = true := by
  refine ⟨(t.reverse.takeWhile p).reverse, ?_, ?_⟩
  · unfold trimEndP
    rw [← List.reverse_append, List.takeWhile_append_dropWhile, List.reverse_reverse]
  · simp only [List.all_reverse]
    rw [List.all_eq_true]
    intro x hx
    exact mem_takeWhile hx

theorem trimEndP_last (p : Char → Bool) (t : Text) (c : Char) (r : Text)
    (h : trimEndP p t = r ++ [c]) : p c = false := by
  unfold trimEndP at h
  have h2 : t.reverse.dropWhile p = c :: r.reverse := by
    have := congrArg List.reverse h
    simpa using this
  have := List.head?_dropWhile_not p t.reverse
  rw [h2] at this
  simpa using this

theorem trimEndP_length_le (p : Char → Bool) (t : Text) : (trimEndP p t).length ≤ t.length := by
  obtain ⟨w, h, _⟩ := trimEndP_spec p t
  have := congrArg List.length h
  simp at this; omega

theorem trimEndP_take (p : Char → Bool) (t : Text) :
    t.take (trimEndP p t).length = trimEndP p t := by
  obtain ⟨w, h, _⟩ := trimEndP_spec p t
  generalize hu : trimEndP p t = u at h ⊢
  rw [h]; simp

theorem trimEndP_eq_self {p : Char → Bool} {t : Text}
    (h : ∀ c r, t = r ++ [c] → p c = false) : trimEndP p t = t := by
  unfold trimEndP
  rcases List.eq_nil_or_concat t with rfl | ⟨r, c, rfl⟩
  · simp
  · have := h c r (by simp)
    simp [this]

theorem trimEndP_append_all {p : Char → Bool} {t w : Text} (h : w.all p = true) :
    trimEndP p (t ++ w) = trimEndP p t := by
  unfold trimEndP
  rw [List.reverse_append, List.dropWhile_append_of_pos]
  intro a ha
  rw [List.all_eq_true] at h
  exact h a (by simpa using ha)

theorem trimEndP_nil_iff {p : Char → Bool} {t : Text} : trimEndP p t = [] ↔ t.all p = true := by
  unfold trimEndP
  simp only [List.reverse_eq_nil_iff, dropWhile_nil_iff, List.all_eq_true, List.mem_reverse]

end Adoc
