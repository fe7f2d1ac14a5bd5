import Verif.Lemmas.Leaf
import Verif.Spec.Drawn
/-!
# The characters of the texts that are substituted
-/

namespace Adoc
open Span Spec

theorem trimEndP_mem {p : Char → Bool} {t : Text} {c : Char} (h : c ∈ trimEndP p t) : c ∈ t := by
  obtain ⟨w, e, _⟩ := trimEndP_spec p t
  rw [e]; exact List.mem_append_left _ h

theorem splitChar_mem {d : Char} : ∀ {t l : Text}, l ∈ splitChar d t → ∀ c ∈ l, c ∈ t := by
  intro t
  induction t with
  | nil => intro l h c hc; rw [splitChar, List.mem_singleton] at h; subst h; cases hc
  | cons x xs ih =>
    intro l h c hc
    rw [splitChar] at h
    split at h
    · rcases List.mem_cons.mp h with rfl | h
      · cases hc
      · exact List.mem_cons_of_mem _ (ih h c hc)
    · split at h
      · rename_i p ps hs
        rcases List.mem_cons.mp h with rfl | h
        · rcases List.mem_cons.mp hc with rfl | hc
          · exact List.mem_cons_self
          · exact List.mem_cons_of_mem _ (ih (by rw [hs]; exact List.mem_cons_self) c hc)
        · exact List.mem_cons_of_mem _ (ih (by rw [hs]; exact List.mem_cons_of_mem _ h) c hc)
      · rw [List.mem_singleton] at h; subst h
        rw [List.mem_singleton.mp hc]; exact List.mem_cons_self

theorem chompCr_mem {t : Text} {c : Char} (h : c ∈ chompCr t) : c ∈ t := by
  unfold chompCr at h
  split at h
  · exact List.dropLast_subset _  h
  · exact h

theorem strLines_mem {t l : Text} (h : l ∈ strLines t) : ∀ c ∈ l, c ∈ t := by
  intro c hc
  unfold strLines at h
  simp only at h
  have key : l ∈ (splitChar '\n' t).dropLast.map chompCr → c ∈ t := by
    intro h
    obtain ⟨x, hx, rfl⟩ := List.mem_map.mp h
    exact splitChar_mem (List.dropLast_subset _  hx) c (chompCr_mem hc)
  split at h
  · exact key h
  · rename_i y _ hy
    rcases List.mem_append.mp h with h | h
    · exact key h
    · rw [List.mem_singleton] at h; subst h
      exact splitChar_mem (List.mem_of_getLast? hy) c hc
  · cases h

theorem lines_mem {t l : Text} (h : l ∈ lines t) : ∀ c ∈ l, c ∈ t := by
  intro c hc
  unfold lines at h
  obtain ⟨x, hx, rfl⟩ := List.mem_map.mp h
  have hx' : x ∈ splitChar '\n' t := by
    unfold rawLines at hx
    split at hx
    · exact List.dropLast_subset _  hx
    · exact hx
  refine splitChar_mem hx' c ?_
  unfold tidy at hc
  have := trimEndP_mem hc
  split at this
  · exact List.dropLast_subset _  this
  · exact this

theorem interpretLine_mem {n k : Nat} {l : Text} {c : Char} (h : c ∈ interpretLine n k l) : c ∈ l ∨ c = '\n' ∨ c = ' ' := by
  unfold interpretLine at h
  simp only at h
  have h1 : ∀ {c}, c ∈ (if n > 0 then l.dropWhile (· == ' ') else l) → c ∈ l := by
    intro c h
    split at h
    · exact (List.dropWhile_suffix _).subset h
    · exact h
  generalize (if n > 0 then l.dropWhile (· == ' ') else l) = l1 at h h1
  have h2 : ∀ {c}, c ∈ trimEndP (· == ' ') (trimEndP (· == '\\') (trimEndP (· == ' ') (l1.dropWhile (· == '\r')))) → c ∈ l :=
    fun h => h1 ((List.dropWhile_suffix _).subset (trimEndP_mem (trimEndP_mem (trimEndP_mem h))))
  generalize trimEndP (· == ' ') (trimEndP (· == '\\') (trimEndP (· == ' ') (l1.dropWhile (· == '\r')))) = l2 at h h2
  by_cases he : endsWith l2 ['+'] = true
  · rw [if_pos he] at h
    rcases List.mem_append.mp h with h | h
    · exact Or.inl (h2 (trimEndP_mem (trimEndP_mem h)))
    · exact Or.inr (Or.inl (List.mem_singleton.mp h))
  · rw [if_neg he] at h
    by_cases hk : n < k
    · rw [if_pos hk] at h
      rcases List.mem_append.mp h with h | h
      · exact Or.inl (h2 h)
      · exact Or.inr (Or.inr (List.mem_singleton.mp h))
    · rw [if_neg hk] at h
      exact Or.inl (h2 h)

theorem interpretLines_mem {k : Nat} : ∀ {ls : List Text} {n : Nat} {c : Char}, c ∈ interpretLines k n ls →
    (∃ l ∈ ls, c ∈ l) ∨ c = '\n' ∨ c = ' ' := by
  intro ls
  induction ls with
  | nil => intro n c h; cases h
  | cons l ls ih =>
    intro n c h
    rw [interpretLines] at h
    rcases List.mem_append.mp h with h | h
    · rcases interpretLine_mem h with h | h
      · exact Or.inl ⟨l, List.mem_cons_self, h⟩
      · exact Or.inr h
    · rcases ih h with ⟨x, hx, h⟩ | h
      · exact Or.inl ⟨x, List.mem_cons_of_mem _ hx, h⟩
      · exact Or.inr h

theorem joinValue_drawn (raw : Text) : Drawn raw (joinValue raw) := by
  intro _ c hc
  unfold joinValue at hc
  split at hc
  · rcases interpretLines_mem hc with ⟨l, hl, h⟩ | h
    · exact Or.inl (strLines_mem hl c h)
    · exact Or.inr h
  · exact Or.inl hc

theorem joinWith_mem {sep : Text} : ∀ {ts : List Text} {c : Char}, c ∈ joinWith sep ts → (∃ t ∈ ts, c ∈ t) ∨ c ∈ sep := by
  intro ts
  induction ts with
  | nil => intro c h; cases h
  | cons t ts ih =>
    intro c h
    cases ts with
    | nil => exact Or.inl ⟨t, List.mem_cons_self, h⟩
    | cons u us =>
      rw [joinWith] at h
      · rcases List.mem_append.mp h with h | h
        · rcases List.mem_append.mp h with h | h
          · exact Or.inl ⟨t, List.mem_cons_self, h⟩
          · exact Or.inr h
        · rcases ih h with ⟨x, hx, h⟩ | h
          · exact Or.inl ⟨x, List.mem_cons_of_mem _ hx, h⟩
          · exact Or.inr h
      · simp

theorem paragraphText_mem {n : Nat} {ls ts : List Text} (h : ParagraphText n ls ts) :
    ∀ t ∈ ts, ∃ l ∈ ls, ∀ c ∈ t, c ∈ l := by
  induction h with
  | nil => intro t ht; cases ht
  | comment _ _ ih =>
    intro t ht
    obtain ⟨l, hl, h⟩ := ih t ht
    exact ⟨l, List.mem_cons_of_mem _ hl, h⟩
  | line _ hs _ ih =>
    intro t ht
    rcases List.mem_cons.mp ht with rfl | ht
    · refine ⟨_, List.mem_cons_self, fun c hc => ?_⟩
      cases hs with
      | blank _ => exact trimEndP_mem hc
      | indented _ _ _ _ => exact List.mem_append_right _ (trimEndP_mem hc)
    · obtain ⟨l, hl, h⟩ := ih t ht
      exact ⟨l, List.mem_cons_of_mem _ hl, h⟩

/-- The text of a paragraph is made of characters of its lines. -/
theorem paragraph_drawn {n : Nat} {raw : Text} {taken texts : List Text} (h1 : lines raw = taken)
    (h2 : ParagraphText n taken texts) : ∀ c ∈ joinWith ['\n'] texts, c ∈ raw ∨ c = '\n' ∨ c = ' ' := by
  intro c hc
  rcases joinWith_mem hc with ⟨t, ht, h⟩ | h
  · obtain ⟨l, hl, hm⟩ := paragraphText_mem h2 t ht
    rw [← h1] at hl
    exact Or.inl (lines_mem hl c (hm c h))
  · exact Or.inr (Or.inl (List.mem_singleton.mp h))

end Adoc
