import Verif.Spec.Heading
import Verif.Lemmas.Tree
/-!
# Headings
-/

namespace Adoc
open Span Spec

theorem not_indented_iff {t : Text} : ¬ Indented t ↔ ∀ c r, t = c :: r → isBlank c = false := by
  cases t with
  | nil => simp [Indented]
  | cons c r => simp [Indented, isBlank]

/-- The marks of a line. -/
theorem markCount_spec (line : Text) :
    (markCount line = 0 ∧ ¬ ∃ n, 1 ≤ n ∧ Marks n line) ∨
    (1 ≤ markCount line ∧ ∃ m, (m = '=' ∨ m = '#') ∧
      line = List.replicate (markCount line) m ++ line.drop (markCount line) ∧ (line.drop (markCount line)).head? ≠ some m) := by
  have key : ∀ m : Char, (m = '=' ∨ m = '#') → markCount line = prefLen (· == m) line → startsWith line [m] = true →
      1 ≤ markCount line ∧ ∃ m, (m = '=' ∨ m = '#') ∧
      line = List.replicate (markCount line) m ++ line.drop (markCount line) ∧
        (line.drop (markCount line)).head? ≠ some m := by
    intro m hm e hs
    obtain ⟨r, rfl⟩ := startsWith_iff.mp hs
    refine ⟨by rw [e]; simp [prefLen], m, hm, ?_, ?_⟩
    · have : ([m] ++ r).take (markCount ([m] ++ r)) = List.replicate (markCount ([m] ++ r)) m := by
        rw [List.eq_replicate_iff]
        refine ⟨?_, fun b hb => ?_⟩
        · rw [List.length_take, e]
          exact Nat.min_eq_left (prefLen_le _ _)
        · rw [e] at hb
          simpa using prefLen_take _ _ b hb
      rw [← this, List.take_append_drop]
    · rw [e]
      cases hd : ([m] ++ r).drop (prefLen (· == m) ([m] ++ r)) with
      | nil => simp
      | cons c cs =>
        have := prefLen_drop _ _ hd
        simpa using this
  by_cases h1 : startsWith line ['='] = true
  · right
    exact key '=' (Or.inl rfl) (by unfold markCount; rw [if_pos h1]) h1
  · by_cases h2 : startsWith line ['#'] = true
    · right
      exact key '#' (Or.inr rfl) (by unfold markCount; rw [if_neg h1]) h2
    · left
      have hh : ∀ m : Char, (m = '=' ∨ m = '#') → ∀ r, line ≠ m :: r := by
        rintro m (rfl | rfl) r rfl
        · exact h1 rfl
        · exact h2 rfl
      constructor
      · unfold markCount
        rw [if_neg h1]
        cases line with
        | nil => rfl
        | cons c r =>
          have : (c == '#') = false := by
            rw [beq_eq_false_iff_ne]
            rintro rfl
            exact hh _ (Or.inr rfl) r rfl
          simp [prefLen, this]
      · rintro ⟨n, hn, m, rest, hm, e, _⟩
        obtain ⟨k, rfl⟩ : ∃ k, n = k + 1 := ⟨n - 1, by omega⟩
        exact hh m hm _ (by rw [e, List.replicate_succ]; rfl)

theorem marks_iff {n : Nat} (hn : 1 ≤ n) {line : Text} : Marks n line ↔ markCount line = n := by
  have pos : ∀ m : Char, (m = '=' ∨ m = '#') → ∀ rest, rest.head? ≠ some m →
      markCount (List.replicate n m ++ rest) = n := by
    intro m hm rest hr
    have hp : prefLen (· == m) (List.replicate n m ++ rest) = n := by
      rw [prefLen_append]
      · simp
      · intro c hc; rw [List.eq_of_mem_replicate hc]; simp
      · rintro c r rfl
        simpa using hr
    obtain ⟨k, rfl⟩ : ∃ k, n = k + 1 := ⟨n - 1, by omega⟩
    rcases hm with rfl | rfl
    · unfold markCount
      rw [if_pos (by rw [List.replicate_succ]; rfl), hp]
    · unfold markCount
      rw [if_neg (by rw [List.replicate_succ]; exact Bool.false_ne_true), hp]
  constructor
  · rintro ⟨m, rest, hm, rfl, hr⟩
    exact pos m hm rest hr
  · intro h
    rcases markCount_spec line with ⟨h0, _⟩ | ⟨_, m, hm, e, hr⟩
    · omega
    · rw [h] at e hr
      exact ⟨m, _, hm, e, hr⟩

/-- Reading the line of a heading. -/
theorem titleLine_cases (ar : Arith) (s : Span) (line : Text) (hl : s.takeNormalizedLine.item.data = line) :
    (line = [] ∧ parseTitleLine ar s = .ok (none, [])) ∨
    (Marks 1 line ∧ parseTitleLine ar s = .ok (none, [⟨s.takeNormalizedLine.item, .level0SectionHeadingNotSupported⟩])) ∨
    (∃ n, 6 < n ∧ Marks n line ∧ parseTitleLine ar s =
      .ok (none, [⟨s.takeNormalizedLine.item, .sectionHeadingLevelExceedsMaximum (n - 1)⟩])) ∨
    (Indented line ∧ ∃ t, parseTitleLine ar s =
      (match ar with
      | .checked => .error .panic
      | .wrapping => .ok (some ⟨(Arith.size - 1, t), s.takeLine.after⟩, []))) ∨
    (∃ l t, Heading l t.data line ∧ parseTitleLine ar s = .ok (some ⟨(l, t), s.takeLine.after⟩, [])) ∨
    (line ≠ [] ∧ ¬ Indented line ∧ ¬ Marks 1 line ∧ (¬ ∃ n, 6 < n ∧ Marks n line) ∧ (¬ ∃ l t, Heading l t line) ∧
      parseTitleLine ar s = .ok (none, [])) := by
  unfold parseTitleLine
  rw [takeNonEmptyLine_eq, hl]
  by_cases h0 : line = []
  · rw [if_pos h0]
    exact Or.inl ⟨h0, rfl⟩
  rw [if_neg h0]
  simp only [hl]
  right
  by_cases h1 : markCount line = 1
  · rw [if_pos h1]
    exact Or.inl ⟨(marks_iff (Nat.le_refl 1)).mpr h1, rfl⟩
  rw [if_neg h1]
  right
  by_cases h2 : markCount line > 6
  · rw [if_pos h2]
    exact Or.inl ⟨markCount line, h2, (marks_iff (by omega)).mpr rfl, rfl⟩
  rw [if_neg h2]
  right
  have hm1 : ¬ Marks 1 line := fun h => h1 ((marks_iff (Nat.le_refl 1)).mp h)
  have hm6 : ¬ ∃ n, 6 < n ∧ Marks n line := by
    rintro ⟨n, hn, h⟩
    have := (marks_iff (by omega)).mp h
    omega
  have hrest : (s.takeNormalizedLine.item.dropN (markCount line)).data = line.drop (markCount line) := by
    rw [dropN_data, hl]
  -- the blanks behind the marks
  by_cases hb : (line.drop (markCount line)).takeWhile isBlank = []
  · have hn : (s.takeNormalizedLine.item.dropN (markCount line)).takeRequiredWhitespace = none := by
      unfold takeRequiredWhitespace
      simp only [takeWhile_item_data, hrest]
      rw [if_pos hb]
    rw [hn]
    refine Or.inr (Or.inr ⟨h0, ?_, hm1, hm6, ?_, rfl⟩)
    · intro hi
      rcases markCount_spec line with ⟨hz, _⟩ | ⟨hz, m, hm, e, _⟩
      · rw [hz] at hb
        cases line with
        | nil => exact h0 rfl
        | cons c r =>
          have : isBlank c = true := by simpa [Indented, isBlank] using hi
          simp [this] at hb
      · obtain ⟨k, hk⟩ : ∃ k, markCount line = k + 1 := ⟨markCount line - 1, by omega⟩
        rw [hk, List.replicate_succ] at e
        rw [e] at hi
        rcases hm with rfl | rfl <;> simp [Indented] at hi
    · rintro ⟨l, t, hl1, hl2, m, gap, hm, hg, hgb, _, e⟩
      have hc : markCount line = l + 1 := by
        refine (marks_iff (by omega)).mp ⟨m, gap ++ t, hm, by rw [e, List.append_assoc], ?_⟩
        cases gap with
        | nil => exact absurd rfl hg
        | cons c r =>
          have hcb := hgb c (by simp)
          rcases hm with rfl | rfl <;> rcases hcb with rfl | rfl <;> simp
      rw [hc, e, List.append_assoc] at hb
      have : (List.replicate (l + 1) m ++ (gap ++ t)).drop (l + 1) = gap ++ t := by
        rw [List.drop_append]; simp
      rw [this] at hb
      cases gap with
      | nil => exact absurd rfl hg
      | cons c r =>
        have : isBlank c = true := by have := hgb c (by simp); simpa [isBlank] using this
        simp [this] at hb
  · have hs : (s.takeNormalizedLine.item.dropN (markCount line)).takeRequiredWhitespace =
        some ((s.takeNormalizedLine.item.dropN (markCount line)).takeWhile isBlank) := by
      unfold takeRequiredWhitespace
      simp only [takeWhile_item_data, hrest]
      rw [if_neg hb]
    rw [hs]
    simp only [bind, Except.bind]
    rcases markCount_spec line with ⟨hz, _⟩ | ⟨hz, m, hm, e, hr⟩
    · left
      refine ⟨?_, ((s.takeNormalizedLine.item.dropN (markCount line)).takeWhile isBlank).after, ?_⟩
      · rw [hz] at hb
        cases line with
        | nil => exact absurd rfl h0
        | cons c r =>
          have : isBlank c = true := by
            rw [List.drop_zero, List.takeWhile_cons] at hb
            by_cases hc : isBlank c = true
            · exact hc
            · rw [if_neg hc] at hb; exact absurd rfl hb
          simpa [Indented, isBlank] using this
      · rw [hz]
        cases ar <;> rfl
    · right; left
      obtain ⟨k, hk⟩ : ∃ k, markCount line = k + 1 := ⟨markCount line - 1, by omega⟩
      refine ⟨k, ((s.takeNormalizedLine.item.dropN (markCount line)).takeWhile isBlank).after, ⟨by omega, by omega, m,
        (line.drop (k + 1)).takeWhile isBlank, hm, by rw [← hk]; exact hb, ?_, ?_, ?_⟩, ?_⟩
      · intro c hc
        have : isBlank c = true := by
          have hall : ∀ (t : Text) (c : Char), c ∈ t.takeWhile isBlank → isBlank c = true := by
            intro t
            induction t with
            | nil => intro c hc; cases hc
            | cons d t ih =>
              intro c hc
              rw [List.takeWhile_cons] at hc
              split at hc
              · rcases List.mem_cons.mp hc with rfl | hc
                · assumption
                · exact ih c hc
              · cases hc
          exact hall _ c hc
        simpa [isBlank] using this
      · rw [takeWhile_after_data, hrest]
        rw [not_indented_iff]
        intro c r hcr
        have := (prefLen_takeWhile isBlank (line.drop (markCount line))).2
        rw [hcr] at this
        exact prefLen_drop _ _ this
      · rw [takeWhile_after_data, hrest, hk, List.append_assoc, List.takeWhile_append_dropWhile]
        rw [← hk]
        exact e
      · rw [hk]
        rfl

/-- In debug builds, what is read as a heading is one. -/
theorem titleLine_checked {s : Span} {mi : MI (Nat × Span)} {tw : List Warning}
    (h : parseTitleLine .checked s = .ok (some mi, tw)) :
    Heading mi.item.1 mi.item.2.data s.takeNormalizedLine.item.data ∧ mi.after = s.takeLine.after ∧ tw = [] := by
  rcases titleLine_cases .checked s _ rfl with ⟨_, e⟩ | ⟨hm, e⟩ | ⟨n, hn, hm, e⟩ | ⟨_, t, e⟩ | ⟨l, t, hh, e⟩ |
    ⟨_, _, _, _, _, e⟩ <;> rw [e] at h <;> cases h
  exact ⟨hh, rfl, rfl⟩

end Adoc
