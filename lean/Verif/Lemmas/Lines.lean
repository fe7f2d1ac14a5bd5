import Verif.Spec.Lines
import Verif.Lemmas.Path
import Verif.Lemmas.Line
/-! # The lines of a text and the functions that read lines -/

namespace Adoc
open Span Spec

theorem rawLines_cons {p : Text} (hp : '\n' ∉ p) (r : Text) : rawLines (p ++ '\n' :: r) = p :: rawLines r := by
  unfold rawLines
  rw [splitChar_append hp]
  have hne := splitChar_ne_nil '\n' r
  cases h : splitChar '\n' r with
  | nil => exact absurd h hne
  | cons a l => simp only [List.getLast?_cons_cons, List.dropLast_cons₂]; split <;> rfl

theorem rawLines_single {p : Text} (hp : '\n' ∉ p) (h : p ≠ []) : rawLines p = [p] := by
  unfold rawLines
  rw [splitChar_single hp]
  simp [h]

@[simp] theorem rawLines_nil : rawLines [] = [] := by decide
@[simp] theorem lines_nil : lines [] = [] := by decide

theorem lines_cons (s : Span) (h : s.data ≠ []) :
    lines s.data = s.takeNormalizedLine.item.data :: lines s.takeLine.after.data := by
  obtain ⟨line, sep, rest, ⟨h1, h2, h3⟩, e⟩ := takeLine_shape s
  obtain ⟨hi, ha⟩ := takeLine_data h1 e
  rw [normLine_item_data, hi, ha, h1]
  unfold lines
  have tr : tidy (line ++ ['\r']) = trimEndP (· == ' ') line := by
    unfold tidy
    rw [if_pos (endsWith_iff.mpr ⟨line, rfl⟩)]; simp
  have tn : endsWith line ['\r'] = false → tidy line = trimEndP (· == ' ') line := by
    intro hc; unfold tidy; rw [hc]; simp
  rcases h3 with rfl | ⟨rfl, hc⟩ | ⟨rfl, rfl⟩ | ⟨rfl, rfl, hc⟩
  · have : line ++ ['\r', '\n'] ++ rest = (line ++ ['\r']) ++ '\n' :: rest := by simp
    rw [this, rawLines_cons (by simp [h2]), List.map_cons, tr]
  · have : line ++ ['\n'] ++ rest = line ++ '\n' :: rest := by simp
    rw [this, rawLines_cons h2, List.map_cons, tn hc]
  · rw [List.append_nil, rawLines_single (by simp [h2]) (by simp), List.map_cons, tr]; rfl
  · rw [List.append_nil, List.append_nil] at h1 ⊢
    rw [rawLines_single h2 (by rw [← h1]; exact h), List.map_cons, tn hc]; rfl

/-- `s` from its `n`-th line on. -/
def Span.skip : Nat → Span → Span
  | 0, s => s
  | n + 1, s => Span.skip n s.takeLine.after

theorem takeLine_nil {s : Span} (h : s.data = []) : s.takeLine.after.data = [] := by
  obtain ⟨k, hk, e⟩ := takeLine_after_suf s
  rw [e, dropN_data, h]; simp

theorem skip_nil {s : Span} (h : s.data = []) (n : Nat) : (s.skip n).data = [] := by
  induction n generalizing s with
  | zero => exact h
  | succ n ih => exact ih (takeLine_nil h)

theorem skip_suf (s : Span) (n : Nat) : Suf (s.skip n) s := by
  induction n generalizing s with
  | zero => exact Suf.refl s
  | succ n ih => exact (ih _).trans (takeLine_after_suf s)

theorem skip_add (s : Span) (a b : Nat) : (s.skip a).skip b = s.skip (a + b) := by
  induction a generalizing s with
  | zero => simp [Span.skip]
  | succ a ih => rw [show a + 1 + b = (a + b) + 1 by omega]; exact ih _

theorem lines_skip (s : Span) (n : Nat) : lines (s.skip n).data = (lines s.data).drop n := by
  induction n generalizing s with
  | zero => rfl
  | succ n ih =>
    rw [Span.skip, ih]
    by_cases h : s.data = []
    · rw [takeLine_nil h, h]; simp
    · rw [lines_cons s h, List.drop_succ_cons]

theorem lines_eq_nil {t : Text} : lines t = [] ↔ t = [] := by
  constructor
  · intro h
    apply Classical.byContradiction
    intro hn
    have := lines_cons (Span.new t) hn
    rw [show (Span.new t).data = t from rfl, h] at this
    cases this
  · rintro rfl; rfl

theorem allBlank_normLine (s : Span) :
    s.takeNormalizedLine.item.data.all isBlank = s.takeLine.item.data.all isBlank := by
  rw [normLine_item_data]
  obtain ⟨sp, hs, hsp⟩ := trimEndP_spec (· == ' ') s.takeLine.item.data
  conv => rhs; rw [hs]
  rw [List.all_append]
  have : sp.all isBlank = true := by
    rw [List.all_eq_true]
    intro c hc
    have := List.all_eq_true.mp hsp c hc
    rw [beq_iff_eq.mp this]; rfl
  rw [this, Bool.and_true]

theorem discardAux_lines (n : Nat) (s : Span) (h : s.data.length ≤ n) :
    ∃ k, discardEmptyLinesAux n s = s.skip k ∧
      lines (discardEmptyLinesAux n s).data = (lines s.data).dropWhile (·.all isBlank) := by
  induction n generalizing s with
  | zero =>
    have : s.data = [] := List.length_eq_zero_iff.mp (by omega)
    refine ⟨0, rfl, ?_⟩
    show lines s.data = _
    rw [this]; rfl
  | succ n ih =>
    rw [discardEmptyLinesAux]
    by_cases hd : s.data = []
    · rw [if_pos hd, hd]; exact ⟨0, rfl, by first | rfl | (rw [hd]; rfl)⟩
    rw [if_neg hd, lines_cons s hd, List.dropWhile_cons, allBlank_normLine, takeEmptyLine]
    by_cases hb : s.takeLine.item.data.all isBlank = true
    · simp only [hb, if_true]
      obtain ⟨k, h1, h2⟩ := ih s.takeLine.after (by
        have := takeLine_progress s hd
        omega)
      exact ⟨k + 1, h1, h2⟩
    · simp only [hb, if_false]
      exact ⟨0, rfl, lines_cons s hd⟩

theorem discardEmptyLines_skipN (s : Span) : ∃ k, s.discardEmptyLines = s.skip k := by
  obtain ⟨k, h, _⟩ := discardAux_lines _ s (Nat.le_refl _)
  exact ⟨k, h⟩

/-- Leading blank lines are those that are dropped. -/
theorem lines_discardEmptyLines (s : Span) :
    lines s.discardEmptyLines.data = (lines s.data).dropWhile (·.all isBlank) :=
  (discardAux_lines _ s (Nat.le_refl _)).choose_spec.2

theorem dropWhile_idem {α : Type} (p : α → Bool) (l : List α) : (l.dropWhile p).dropWhile p = l.dropWhile p := by
  induction l with
  | nil => rfl
  | cons x xs ih =>
    by_cases hx : p x = true
    · simp [hx, ih]
    · simp [hx]

end Adoc
