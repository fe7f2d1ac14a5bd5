import Verif.Spec.InlineMacros
import Verif.Lemmas.Expansion
import Verif.Lemmas.Path
/-!
# The name of a file without its extension
-/

namespace Adoc
open Adoc.Spec

/-- The names in a path. -/
def pathNames (path : Text) : List Text := (splitChar '/' path).filter (fun s => !(s == [] || s == ['.']))

theorem splitChar_one {c : Char} : ∀ {t : Text}, c ∉ t → splitChar c t = [t]
  | [], _ => rfl
  | d :: t, h => by
    rw [splitChar, if_neg (by rintro rfl; exact h (by simp)), splitChar_one (fun hm => h (by simp [hm]))]

theorem pathNames_mid (a x : Text) : pathNames (a ++ '/' :: x) = pathNames a ++ pathNames x := by
  unfold pathNames
  rw [splitChar_mid, List.filter_append]

theorem pathNames_slash (x : Text) : pathNames ('/' :: x) = pathNames x := pathNames_mid [] x

theorem pathNames_one {t : Text} (h : '/' ∉ t) (h1 : t ≠ []) (h2 : t ≠ ['.']) : pathNames t = [t] := by
  unfold pathNames
  rw [splitChar_one h]
  simp [h1, h2]

theorem trailing_head {r : Text} (h : Trailing r) : r = [] ∨ ∃ x, r = '/' :: x := by
  cases h with
  | nil => exact .inl rfl
  | slash _ => exact .inr ⟨_, rfl⟩
  | dot _ => exact .inr ⟨_, rfl⟩

theorem pathNames_dot {r : Text} (h : Trailing r) (hr : pathNames r = []) : pathNames ('.' :: r) = [] := by
  rcases trailing_head h with rfl | ⟨x, rfl⟩
  · rfl
  · have := pathNames_mid ['.'] x
    rw [List.singleton_append] at this
    rw [this, ← pathNames_slash x, hr]
    rfl

theorem pathNames_trailing {r : Text} (h : Trailing r) : pathNames r = [] := by
  induction h with
  | nil => rfl
  | slash _ ih => rw [pathNames_slash, ih]
  | dot h ih => rw [pathNames_slash, pathNames_dot h ih]

theorem pathNames_none {path : Text} (h : NoName path) : pathNames path = [] := by
  rcases h with h | ⟨r, rfl, h⟩
  · exact pathNames_trailing h
  · exact pathNames_dot h (pathNames_trailing h)

theorem pathNames_last {path name : Text} (h : LastName path name) : (pathNames path).getLast? = some name := by
  obtain ⟨dir, r, rfl, hd, h1, h2, h3, h4⟩ := h
  have core : pathNames (name ++ r) = [name] := by
    rcases trailing_head h4 with rfl | ⟨x, rfl⟩
    · rw [List.append_nil, pathNames_one h1 h2 h3]
    · rw [pathNames_mid, pathNames_one h1 h2 h3, ← pathNames_slash x, pathNames_trailing h4, List.append_nil]
  rcases hd with rfl | hd
  · rw [List.nil_append, core]; rfl
  · rcases List.eq_nil_or_concat dir with rfl | ⟨d, c, rfl⟩
    · cases hd
    · rw [List.concat_eq_append] at *
      have : c = '/' := by simpa using hd
      subst this
      rw [List.append_assoc, List.append_assoc, List.singleton_append, pathNames_mid, core]
      simp

theorem last_slash : ∀ (t : Text), '/' ∉ t ∨ ∃ a b, t = a ++ '/' :: b ∧ '/' ∉ b
  | [] => .inl (by simp)
  | c :: t => by
    rcases last_slash t with h | ⟨a, b, rfl, h⟩
    · by_cases hc : c = '/'
      · subst hc
        exact .inr ⟨[], t, rfl, h⟩
      · left
        intro hm
        rcases List.mem_cons.mp hm with rfl | hm
        · exact hc rfl
        · exact h hm
    · exact .inr ⟨c :: a, b, rfl, h⟩

theorem trailing_append {a b : Text} (ha : Trailing a) (hb : Trailing b) : Trailing (a ++ b) := by
  induction ha with
  | nil => exact hb
  | slash _ ih => exact .slash ih
  | dot _ ih => exact .dot ih

theorem names (n : Nat) : ∀ (path : Text), path.length ≤ n → NoName path ∨ ∃ name, LastName path name := by
  induction n with
  | zero =>
    intro path h
    have : path = [] := List.eq_nil_of_length_eq_zero (by omega)
    subst this
    exact .inl (.inl .nil)
  | succ n ih =>
    intro path h
    rcases last_slash path with hs | ⟨a, b, rfl, hb⟩
    · by_cases h1 : path = []
      · subst h1; exact .inl (.inl .nil)
      · by_cases h2 : path = ['.']
        · subst h2; exact .inl (.inr ⟨[], rfl, .nil⟩)
        · exact .inr ⟨path, [], [], by simp, .inl rfl, hs, h1, h2, .nil⟩
    · have tr : (b = [] ∨ b = ['.']) → NoName (a ++ '/' :: b) ∨ ∃ name, LastName (a ++ '/' :: b) name := by
        intro hb
        have ht : Trailing ('/' :: b) := by
          rcases hb with rfl | rfl
          · exact .slash .nil
          · exact .dot .nil
        rcases ih a (by simp at h; omega) with (h1 | ⟨r, rfl, h1⟩) | ⟨name, dir, r, rfl, h1, h2, h3, h4, h5⟩
        · exact .inl (.inl (trailing_append h1 ht))
        · exact .inl (.inr ⟨_, rfl, trailing_append h1 ht⟩)
        · exact .inr ⟨name, dir, r ++ '/' :: b, by simp, h1, h2, h3, h4, trailing_append h5 ht⟩
      by_cases h1 : b = []
      · exact tr (.inl h1)
      · by_cases h2 : b = ['.']
        · exact tr (.inr h2)
        · exact .inr ⟨b, a ++ ['/'], [], by simp, .inr (by simp), hb, h1, h2, .nil⟩

theorem before_dot {stem ext : Text} (h : '.' ∉ ext) :
    ((stem ++ '.' :: ext).reverse.dropWhile (· ≠ '.')).tail.reverse = stem := by
  have : (stem ++ '.' :: ext).reverse = ext.reverse ++ '.' :: stem.reverse := by simp
  rw [this, List.dropWhile_append_of_pos]
  · simp
  · intro c hc
    have : c ∈ ext := by simpa using hc
    simp only [ne_eq, decide_not, Bool.not_eq_eq_eq_not, Bool.not_true, decide_eq_false_iff_not]
    rintro rfl
    exact h this

theorem last_dot : ∀ {t : Text}, '.' ∈ t → ∃ a b, t = a ++ '.' :: b ∧ '.' ∉ b
  | [], h => by cases h
  | c :: t, h => by
    by_cases ht : '.' ∈ t
    · obtain ⟨a, b, rfl, hb⟩ := last_dot ht
      exact ⟨c :: a, b, rfl, hb⟩
    · rcases List.mem_cons.mp h with rfl | h
      · exact ⟨[], t, rfl, ht⟩
      · exact absurd h ht

theorem basename_eq (path : Text) : basename path = match (pathNames path).getLast? with
  | none => []
  | some f =>
    if f = ['.', '.'] then []
    else if f.contains '.' then
      let before := (f.reverse.dropWhile (· ≠ '.')).tail.reverse
      if before = [] then f else before
    else f := rfl

theorem stem_of {name : Text} (hn : name ≠ ['.', '.']) {stem : Text} :
    ((∃ ext, name = stem ++ '.' :: ext ∧ '.' ∉ ext ∧ stem ≠ []) ∨
     (stem = name ∧ ∀ a ext, name = a ++ '.' :: ext → '.' ∉ ext → a = [])) ↔
    (if name = ['.', '.'] then [] else if name.contains '.' then
      let before := (name.reverse.dropWhile (· ≠ '.')).tail.reverse
      if before = [] then name else before
    else name) = stem := by
  rw [if_neg hn]
  by_cases hc : name.contains '.' = true
  · rw [if_pos hc]
    obtain ⟨a, b, rfl, hb⟩ := last_dot (List.contains_iff_mem.mp hc)
    simp only [before_dot hb]
    constructor
    · rintro (⟨ext, e, h1, h2⟩ | ⟨rfl, h⟩)
      · have : a = stem := by rw [← before_dot (stem := a) hb, e, before_dot h1]
        subst this
        rw [if_neg h2]
      · have := h a b rfl hb
        rw [if_pos this]
    · intro h
      by_cases ha : a = []
      · rw [if_pos ha] at h
        refine .inr ⟨h.symm, ?_⟩
        intro a' ext e he
        rw [← before_dot (stem := a') he, ← e, before_dot hb, ha]
      · rw [if_neg ha] at h
        subst h
        exact .inl ⟨b, rfl, hb, ha⟩
  · rw [if_neg hc]
    have hno : '.' ∉ name := fun h => hc (List.contains_iff_mem.mpr h)
    constructor
    · rintro (⟨ext, e, h1, h2⟩ | ⟨rfl, h⟩)
      · exact absurd (by rw [e]; simp) hno
      · rfl
    · rintro rfl
      exact .inr ⟨rfl, fun a ext e _ => absurd (by rw [e]; simp) hno⟩

theorem fileStem_iff {path stem : Text} : FileStem path stem ↔ basename path = stem := by
  rw [basename_eq]
  constructor
  · rintro (⟨h, rfl⟩ | ⟨h, rfl⟩ | ⟨name, h, hn, hs⟩)
    · rw [pathNames_none h]; rfl
    · rw [pathNames_last h]; rfl
    · rw [pathNames_last h]
      exact (stem_of hn).mp hs
  · intro h
    rcases names path.length path (Nat.le_refl _) with hn | ⟨name, hn⟩
    · rw [pathNames_none hn] at h
      exact .inl ⟨hn, h.symm⟩
    · rw [pathNames_last hn] at h
      by_cases hd : name = ['.', '.']
      · subst hd
        exact .inr (.inl ⟨hn, h.symm⟩)
      · exact .inr (.inr ⟨name, hn, hd, (stem_of hd).mpr h⟩)

end Adoc
