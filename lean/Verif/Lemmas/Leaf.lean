import Verif.Spec.Leaf
import Verif.Lemmas.Metadata
/-! # Blocks without nested blocks -/

namespace Adoc
open Span Spec

/-! ### Lines and prefixes -/

theorem rawLines_append (a b : Text) : rawLines (a ++ '\n' :: b) = rawLines (a ++ ['\n']) ++ rawLines b := by
  generalize hn : a.length = n
  induction n using Nat.strongRecOn generalizing a with
  | ind n ih =>
    by_cases h : '\n' ∈ a
    · obtain ⟨p, r, rfl, hp⟩ := List.eq_append_cons_of_mem h
      have e1 : p ++ '\n' :: r ++ '\n' :: b = p ++ '\n' :: (r ++ '\n' :: b) := by simp
      have e2 : p ++ '\n' :: r ++ ['\n'] = p ++ '\n' :: (r ++ ['\n']) := by simp
      rw [e1, e2, rawLines_cons hp, rawLines_cons hp, ih r.length (by simp at hn; omega) r rfl]
      rfl
    · rw [rawLines_cons h, rawLines_cons h]
      simp

theorem lines_append (a b : Text) : lines (a ++ '\n' :: b) = lines (a ++ ['\n']) ++ lines b := by
  unfold lines; rw [rawLines_append, List.map_append]

/-- The text in front of the `n`-th line. -/
theorem skip_prefix (s : Span) (n : Nat) : ∃ raw, s.data = raw ++ (s.skip n).data ∧ s.skip n = s.dropN raw.length ∧
    lines raw = (lines s.data).take n ∧ ((s.skip n).data = [] ∨ WholeLines raw) := by
  obtain ⟨k, hk, e⟩ := skip_suf s n
  have hw : (s.skip n).data = [] ∨ WholeLines (s.data.take k) := by
    clear hk
    induction n generalizing s k with
    | zero =>
      right; left
      have : s.data = s.data.drop k := by conv => lhs; rw [show s.data = (s.skip 0).data from rfl, e, dropN_data]
      have h1 := congrArg List.length this
      simp only [List.length_drop] at h1
      by_cases h0 : s.data.length = 0
      · rw [List.length_eq_zero_iff.mp h0]; simp
      · have : k = 0 := by omega
        simp [this]
    | succ n ih =>
      by_cases hz : (s.skip (n + 1)).data = []
      · exact Or.inl hz
      right
      obtain ⟨line, sep, rest, ⟨h1, h2, h3⟩, e'⟩ := takeLine_shape s
      obtain ⟨_, ha⟩ := takeLine_data h1 e'
      have e2 : s.takeLine.after = s.dropN (line.length + sep.length) := by rw [e']
      obtain ⟨k', hk', e3⟩ := skip_suf s.takeLine.after n
      have hrest : rest ≠ [] := by
        intro h
        rw [h] at ha
        exact hz (skip_nil ha n)
      have hk : s.data.take k = line ++ sep ++ rest.take k' := by
        have hd : (s.skip (n + 1)).data = rest.drop k' := by
          show (s.takeLine.after.skip n).data = _
          rw [e3, dropN_data, ha]
        rw [e, dropN_data] at hd
        rw [ha] at hk'
        have hlen := congrArg List.length hd
        rw [h1] at hlen
        simp only [List.length_drop, List.length_append] at hlen
        have : rest.drop k' ≠ [] := by
          rw [← hd, ← dropN_data, ← e]; exact hz
        have : k' < rest.length := by
          apply Classical.byContradiction
          intro hc; exact this (List.drop_eq_nil_of_le (by omega))
        have : k = line.length + sep.length + k' := by omega
        rw [h1, this, List.take_append, List.take_of_length_le (by simp)]
        simp
      rw [hk]
      rcases ih s.takeLine.after k' e3 with h | h
      · exact absurd h hz
      · rw [ha] at h
        rcases h with h | ⟨r, h⟩
        · rw [h, List.append_nil]
          rcases h3 with rfl | ⟨rfl, _⟩ | ⟨_, h4⟩ | ⟨_, h4, _⟩
          · exact Or.inr ⟨line ++ ['\r'], by simp⟩
          · exact Or.inr ⟨line, rfl⟩
          · exact absurd h4 hrest
          · exact absurd h4 hrest
        · rw [h]; exact Or.inr ⟨line ++ sep ++ r, by simp⟩
  refine ⟨s.data.take k, ?_, ?_, ?_, hw⟩
  · rw [e, dropN_data, List.take_append_drop]
  · rw [e, List.length_take, Nat.min_eq_left hk]
  · have h := lines_skip s n
    have hs : s.data = s.data.take k ++ (s.skip n).data := by rw [e, dropN_data, List.take_append_drop]
    rcases hw with hz | hz | ⟨r, hz⟩
    · rw [hz, List.append_nil] at hs
      rw [hz] at h
      rw [← hs]
      have h' : (lines s.data).drop n = [] := h.symm
      have := List.take_append_drop n (lines s.data)
      rw [h', List.append_nil] at this
      exact this.symm
    · rw [hz, List.nil_append] at hs
      rw [hz]
      have h' : (lines s.data).length = ((lines s.data).drop n).length := by
        rw [← h, ← hs]
      rw [List.length_drop] at h'
      show [] = _
      by_cases h0 : (lines s.data).length = 0
      · rw [List.length_eq_zero_iff.mp h0]; simp
      · have : n = 0 := by omega
        rw [this]; rfl
    · rw [hz] at hs ⊢
      have e1 : r ++ ['\n'] ++ (s.skip n).data = r ++ '\n' :: (s.skip n).data := by simp
      have h2 : lines s.data = lines (r ++ ['\n']) ++ lines (s.skip n).data := by
        conv => lhs; rw [hs, e1, lines_append]
      rw [h] at h2
      have := List.take_append_drop n (lines s.data)
      exact List.append_cancel_right (h2.symm.trans this.symm)

/-- The part of a span in front of its `n`-th line. -/
theorem trimRemainder?_skip (s : Span) (n : Nat) : ∃ raw, s.data = raw ++ (s.skip n).data ∧
    s.trimRemainder? (s.skip n) = some (s.takeN raw.length) ∧ lines raw = (lines s.data).take n ∧
    ((s.skip n).data = [] ∨ WholeLines raw) := by
  obtain ⟨raw, h1, h2, h3, h4⟩ := skip_prefix s n
  refine ⟨raw, h1, ?_, h3, h4⟩
  conv => lhs; rw [h2]
  exact trimRemainder?_dropN s (by rw [h1]; simp)

theorem takeN_prefix {s : Span} {raw r : Text} (h : s.data = raw ++ r) : (s.takeN raw.length).data = raw := by
  rw [takeN_data, h]; simp

/-! ### Delimiters -/

theorem all_eq_replicate {c : Char} {t : Text} : t.all (· == c) = true ↔ ∃ n, t = List.replicate n c := by
  constructor
  · intro h
    refine ⟨t.length, List.eq_replicate_iff.mpr ⟨rfl, fun b hb => ?_⟩⟩
    have := List.all_eq_true.mp h b hb
    simpa using this
  · rintro ⟨n, rfl⟩; simp

theorem four_iff {c : Char} {t : Text} :
    startsWith t [c, c, c, c] = true ∧ (t.drop 4).all (· == c) = true ↔ ∃ n, t = List.replicate (n + 4) c := by
  rw [all_eq_replicate, startsWith_iff]
  constructor
  · rintro ⟨⟨r, rfl⟩, n, hn⟩
    refine ⟨n, ?_⟩
    have : r = List.replicate n c := by simpa using hn
    rw [this]; simp [List.replicate_succ]
  · rintro ⟨n, rfl⟩
    exact ⟨⟨List.replicate n c, by simp [List.replicate_succ]⟩, n, by simp⟩

theorem startsWith_four_head {c : Char} {t : Text} (h : startsWith t [c, c, c, c] = true) : t.head? = some c := by
  obtain ⟨r, rfl⟩ := startsWith_iff.mp h; rfl

private theorem lit4 : "////".toList = ['/', '/', '/', '/'] ∧ "----".toList = ['-', '-', '-', '-'] ∧
    "....".toList = ['.', '.', '.', '.'] ∧ "++++".toList = ['+', '+', '+', '+'] ∧
    "====".toList = ['=', '=', '=', '='] ∧ "****".toList = ['*', '*', '*', '*'] ∧
    "____".toList = ['_', '_', '_', '_'] ∧ "--".toList = ['-', '-'] := by decide

theorem Spec.RawDelim.head {c : Char} {t : Text} (h : RawDelim c t) : t.head? = some c := by
  obtain ⟨_, n, rfl⟩ := h; simp [List.replicate_succ]

theorem isRawDelimiter_iff {t : Text} : isRawDelimiter t = true ↔ ∃ c, RawDelim c t := by
  obtain ⟨l1, l2, l3, l4, _⟩ := lit4
  unfold isRawDelimiter
  rw [l1, l2, l3, l4]
  constructor
  · intro h
    by_cases h1 : startsWith t ['/', '/', '/', '/'] = true
    · rw [if_pos h1] at h; exact ⟨'/', by simp, four_iff.mp ⟨h1, h⟩⟩
    rw [if_neg h1] at h
    by_cases h2 : startsWith t ['-', '-', '-', '-'] = true
    · rw [if_pos h2] at h; exact ⟨'-', by simp, four_iff.mp ⟨h2, h⟩⟩
    rw [if_neg h2] at h
    by_cases h3 : startsWith t ['.', '.', '.', '.'] = true
    · rw [if_pos h3] at h; exact ⟨'.', by simp, four_iff.mp ⟨h3, h⟩⟩
    rw [if_neg h3] at h
    by_cases h4 : startsWith t ['+', '+', '+', '+'] = true
    · rw [if_pos h4] at h; exact ⟨'+', by simp, four_iff.mp ⟨h4, h⟩⟩
    rw [if_neg h4] at h; cases h
  · rintro ⟨c, hc, hn⟩
    obtain ⟨h1, h2⟩ := four_iff.mpr hn
    have hh := startsWith_four_head h1
    have other : ∀ d, d ≠ c → startsWith t [d, d, d, d] = false := by
      intro d hd
      rw [Bool.eq_false_iff]
      intro h
      have := startsWith_four_head h
      rw [hh] at this; exact hd (Option.some.inj this).symm
    rcases hc with rfl | rfl | rfl | rfl
    · rw [if_pos h1]; exact h2
    · rw [if_neg (by rw [other '/' (by decide)]; simp), if_pos h1]; exact h2
    · rw [if_neg (by rw [other '/' (by decide)]; simp), if_neg (by rw [other '-' (by decide)]; simp), if_pos h1]; exact h2
    · rw [if_neg (by rw [other '/' (by decide)]; simp), if_neg (by rw [other '-' (by decide)]; simp),
        if_neg (by rw [other '.' (by decide)]; simp), if_pos h1]; exact h2

theorem isCompoundDelimiter_iff {t : Text} : isCompoundDelimiter t = true ↔ CompoundDelim t := by
  obtain ⟨_, _, _, _, l1, l2, l3, l4⟩ := lit4
  unfold isCompoundDelimiter CompoundDelim
  rw [l1, l2, l3, l4]
  constructor
  · intro h
    by_cases h0 : t = ['-', '-']
    · exact Or.inl h0
    rw [if_neg h0] at h
    right
    by_cases h1 : startsWith t ['=', '=', '=', '='] = true
    · rw [if_pos h1] at h
      obtain ⟨n, hn⟩ := four_iff.mp ⟨h1, h⟩
      exact ⟨'=', n, by simp, hn⟩
    rw [if_neg h1] at h
    by_cases h2 : startsWith t ['*', '*', '*', '*'] = true
    · rw [if_pos h2] at h
      obtain ⟨n, hn⟩ := four_iff.mp ⟨h2, h⟩
      exact ⟨'*', n, by simp, hn⟩
    rw [if_neg h2] at h
    by_cases h3 : startsWith t ['_', '_', '_', '_'] = true
    · rw [if_pos h3] at h
      obtain ⟨n, hn⟩ := four_iff.mp ⟨h3, h⟩
      exact ⟨'_', n, by simp, hn⟩
    rw [if_neg h3] at h; cases h
  · rintro (rfl | ⟨c, n, hc, hn⟩)
    · simp
    · obtain ⟨h1, h2⟩ := four_iff.mpr ⟨n, hn⟩
      have hh := startsWith_four_head h1
      have other : ∀ d, d ≠ c → startsWith t [d, d, d, d] = false := by
        intro d hd
        rw [Bool.eq_false_iff]
        intro h
        have := startsWith_four_head h
        rw [hh] at this; exact hd (Option.some.inj this).symm
      have h0 : t ≠ ['-', '-'] := by
        intro h; rw [h] at hn
        have := congrArg List.length hn
        simp at this
      rw [if_neg h0]
      rcases hc with rfl | rfl | rfl
      · rw [if_pos h1]; exact h2
      · rw [if_neg (by rw [other '=' (by decide)]; simp), if_pos h1]; exact h2
      · rw [if_neg (by rw [other '=' (by decide)]; simp), if_neg (by rw [other '*' (by decide)]; simp), if_pos h1]; exact h2

theorem rawKind_iff {t : Text} {c : Char} (h : RawDelim c t) : rawKind t = some (rawBlockKind c) := by
  obtain ⟨l1, l2, l3, l4, _⟩ := lit4
  obtain ⟨hc, hn⟩ := h
  obtain ⟨h1, h2⟩ := four_iff.mpr hn
  have hh := startsWith_four_head h1
  have other : ∀ d, d ≠ c → startsWith t [d, d, d, d] = false := by
    intro d hd
    rw [Bool.eq_false_iff]
    intro h
    have := startsWith_four_head h
    rw [hh] at this; exact hd (Option.some.inj this).symm
  unfold rawKind
  rw [l1, l2, l3, l4]
  rcases hc with rfl | rfl | rfl | rfl
  · rw [if_pos h1]; rfl
  · rw [if_neg (by rw [other '/' (by decide)]; simp), if_pos h1]; rfl
  · rw [if_neg (by rw [other '/' (by decide)]; simp), if_neg (by rw [other '-' (by decide)]; simp), if_pos h1]; rfl
  · rw [if_neg (by rw [other '/' (by decide)]; simp), if_neg (by rw [other '-' (by decide)]; simp),
      if_neg (by rw [other '.' (by decide)]; simp), if_pos h1]; rfl

/-! ### The closing line -/

theorem findClosing_spec (d : Text) : ∀ (n : Nat) (s : Span), s.data.length ≤ n →
    (∃ k pre post l, findClosing d n s = (some l, s.skip k) ∧ l = (s.skip k).takeNormalizedLine ∧
      lines s.data = pre ++ d :: post ∧ d ∉ pre ∧ k = pre.length ∧ (s.skip k).data ≠ []) ∨
    (∃ k, findClosing d n s = (none, s.skip k) ∧ (s.skip k).data = [] ∧ d ∉ lines s.data) := by
  intro n
  induction n with
  | zero =>
    intro s h
    have : s.data = [] := List.length_eq_zero_iff.mp (by omega)
    exact Or.inr ⟨0, rfl, this, by rw [this]; simp⟩
  | succ n ih =>
    intro s h
    rw [findClosing]
    by_cases hz : s.data = []
    · rw [if_pos hz]; exact Or.inr ⟨0, rfl, hz, by rw [hz]; simp⟩
    rw [if_neg hz]
    simp only
    by_cases hd : s.takeNormalizedLine.item.data = d
    · rw [if_pos hd]
      left
      refine ⟨0, [], lines s.takeLine.after.data, _, rfl, rfl, ?_, by simp, rfl, hz⟩
      rw [lines_cons s hz, hd]; rfl
    · rw [if_neg hd, normLine_after]
      have hp := takeLine_progress s hz
      rcases ih s.takeLine.after (by omega) with ⟨k, pre, post, l, e1, e2, e3, e4, e5, e6⟩ | ⟨k, e1, e2, e3⟩
      · left
        refine ⟨k + 1, s.takeNormalizedLine.item.data :: pre, post, l, e1, e2, ?_, ?_, by simp [e5], e6⟩
        · rw [lines_cons s hz, e3]; rfl
        · rw [List.mem_cons]
          rintro (h | h)
          · exact hd h.symm
          · exact e4 h
      · right
        refine ⟨k + 1, e1, e2, ?_⟩
        rw [lines_cons s hz, List.mem_cons]
        rintro (h | h)
        · exact hd h.symm
        · exact e3 h

theorem trimTrailingLineEnd_spec (s : Span) : ∃ k, k ≤ s.data.length ∧ s.trimTrailingLineEnd = s.takeN k ∧
    WithoutLineEnd s.data (s.data.take k) := by
  unfold trimTrailingLineEnd
  by_cases h1 : endsWith s.data ['\r', '\n'] = true
  · rw [if_pos h1]
    obtain ⟨r, hr⟩ := endsWith_iff.mp h1
    refine ⟨s.data.length - 2, by omega, rfl, Or.inl ?_⟩
    rw [hr]; simp
  rw [if_neg h1]
  by_cases h2 : endsWith s.data ['\n'] = true
  · rw [if_pos h2]
    obtain ⟨r, hr⟩ := endsWith_iff.mp h2
    refine ⟨s.data.length - 1, by omega, rfl, Or.inr (Or.inl ⟨?_, ?_⟩)⟩
    · rw [hr]; simp
    · intro q hq
      apply h1
      have : s.data.take (s.data.length - 1) = r := by rw [hr]; simp
      rw [this] at hq
      rw [hr, hq]
      exact endsWith_iff.mpr ⟨q, by simp⟩
  rw [if_neg h2]
  refine ⟨s.data.length, Nat.le_refl _, (takeN_all s (Nat.le_refl _)).symm, Or.inr (Or.inr ⟨by simp, ?_⟩)⟩
  intro r hr
  apply h2
  simp at hr
  exact endsWith_iff.mpr ⟨r, hr⟩

theorem Spec.WithoutLineEnd.det {raw a b : Text} (h : WithoutLineEnd raw a) (h' : WithoutLineEnd raw b) : a = b := by
  have crnl : ∀ x : Text, x ++ ['\r', '\n'] = (x ++ ['\r']) ++ ['\n'] := by intro x; simp
  rcases h with h | ⟨h, h1⟩ | ⟨h, h1⟩ <;> rcases h' with g | ⟨g, g1⟩ | ⟨g, g1⟩
  · rw [h] at g; exact List.append_cancel_right g
  · rw [h, crnl] at g; exact absurd (List.append_cancel_right g).symm (g1 a)
  · rw [h, crnl] at g; exact absurd g.symm (g1 _)
  · rw [h, crnl] at g; exact absurd (List.append_cancel_right g) (h1 b)
  · rw [h] at g; exact List.append_cancel_right g
  · rw [h] at g; exact absurd g.symm (g1 _)
  · rw [h, crnl] at g; exact absurd g (h1 _)
  · rw [h] at g; exact absurd g (h1 _)
  · rw [← h, ← g]

/-! ### Paragraphs -/

theorem isCommentLine_iff {l : Text} : isCommentLine l = true ↔ CommentLine l := by
  unfold isCommentLine CommentLine
  rcases l with _ | ⟨a, _ | ⟨b, _ | ⟨c, l⟩⟩⟩
  · simp [startsWith, List.isPrefixOf]
  · simp [startsWith, List.isPrefixOf]
  · simp only [startsWith, List.isPrefixOf, Bool.and_true, Bool.and_false, Bool.not_false, Bool.and_eq_true, beq_iff_eq]
    constructor
    · rintro ⟨rfl, rfl⟩; exact ⟨[], rfl, by simp⟩
    · rintro ⟨r, hr, _⟩; cases hr; exact ⟨rfl, rfl⟩
  · simp only [startsWith, List.isPrefixOf, Bool.and_true, Bool.and_eq_true, beq_iff_eq, Bool.not_eq_true']
    constructor
    · rintro ⟨⟨rfl, rfl⟩, h⟩
      refine ⟨c :: l, rfl, ?_⟩
      simp only [beq_self_eq_true, Bool.true_and, beq_eq_false_iff_ne] at h
      simp only [List.head?_cons, ne_eq, Option.some.injEq]
      exact fun e => h e.symm
    · rintro ⟨r, hr, h⟩
      cases hr
      refine ⟨⟨rfl, rfl⟩, ?_⟩
      simp only [List.head?_cons, ne_eq, Option.some.injEq] at h
      simp only [beq_self_eq_true, Bool.true_and, beq_eq_false_iff_ne]
      exact fun e => h e.symm

theorem endsSimple_iff {l : Text} : endsSimple l = true ↔ EndsParagraph l := by
  unfold endsSimple EndsParagraph
  rw [Bool.or_eq_true, Bool.or_eq_true, beq_iff_eq, bracket_iff, Bool.and_eq_true,
    Bool.or_eq_true (isRawDelimiter l), isRawDelimiter_iff, isCompoundDelimiter_iff, or_assoc]
  have hh : ∀ c, startsWith l [c] = true ↔ l.head? = some c := by
    intro c
    cases l with
    | nil => simp [startsWith, List.isPrefixOf]
    | cons x xs =>
      simp only [startsWith, List.isPrefixOf, Bool.and_true, beq_iff_eq, List.head?_cons, Option.some.injEq]
      exact eq_comm
  have key : ((∃ c, RawDelim c l) ∨ CompoundDelim l) →
      (startsWith l ['/'] || startsWith l ['-'] || startsWith l ['.'] || startsWith l ['+'] ||
      startsWith l ['='] || startsWith l ['*'] || startsWith l ['_']) = true := by
    simp only [Bool.or_eq_true, hh]
    rintro (⟨c, h⟩ | h | ⟨c, n, hc, h⟩)
    · have := h.head
      rw [this]
      obtain ⟨hc, _⟩ := h
      rcases hc with rfl | rfl | rfl | rfl <;> simp
    · rw [h]; simp
    · rw [h]; rcases hc with rfl | rfl | rfl <;> simp [List.replicate_succ]
  constructor
  · rintro (h | h | ⟨_, h⟩)
    · exact Or.inl h
    · exact Or.inr (Or.inl h)
    · exact Or.inr (Or.inr h)
  · rintro (h | h | h)
    · exact Or.inl h
    · exact Or.inr (Or.inl h)
    · exact Or.inr (Or.inr ⟨key h, h⟩)

/-- The loop reads the lines of the paragraph. -/
theorem linesLoop_spec (strip : Nat) : ∀ (n : Nat) (s : Span) (acc : List Text), s.data.length ≤ n →
    ∃ (k : Nat) (taken : List Span), linesLoop strip n s acc = (s.skip k, acc ++ (taken.filter (fun p => !isCommentLine p.data)).map (stripIndent strip)) ∧
      Paragraph (decide (acc ≠ [])) (lines s.data) (taken.map Span.data) (lines (s.skip k).data) ∧ k = taken.length ∧
      (∀ p ∈ taken, Sub p s) := by
  intro n
  induction n with
  | zero =>
    intro s acc h
    have : s.data = [] := List.length_eq_zero_iff.mp (by omega)
    refine ⟨0, [], by simp [linesLoop, Span.skip], ?_, rfl, by simp⟩
    show Paragraph _ (lines s.data) [] (lines s.data)
    exact .stop (by intro l r e; rw [this] at e; simp at e)
  | succ n ih =>
    intro s acc h
    rw [linesLoop, takeNonEmptyLine_eq]
    by_cases hz : s.takeNormalizedLine.item.data = []
    · rw [if_pos hz]
      refine ⟨0, [], by simp [Span.skip], ?_, rfl, by simp⟩
      refine .stop ?_
      intro l r e
      left
      by_cases h0 : s.data = []
      · rw [h0] at e; simp at e
      · rw [lines_cons s h0] at e
        cases e; exact hz
    rw [if_neg hz]
    simp only
    have h0 : s.data ≠ [] := by
      intro h0
      obtain ⟨w, hw, _⟩ := normLine_rest s
      rw [h0] at hw
      exact hz (List.append_eq_nil_iff.mp hw.symm).1
    by_cases he : acc ≠ [] ∧ endsSimple s.takeNormalizedLine.item.data = true
    · rw [if_pos he]
      refine ⟨0, [], by simp [Span.skip], ?_, rfl, by simp⟩
      refine .stop ?_
      intro l r e
      rw [lines_cons s h0] at e
      cases e
      exact Or.inr ⟨by simpa using he.1, endsSimple_iff.mp he.2⟩
    rw [if_neg he]
    have hne : ¬ (decide (acc ≠ []) = true ∧ EndsParagraph s.takeNormalizedLine.item.data) := by
      rintro ⟨h1, h2⟩; exact he ⟨by simpa using h1, endsSimple_iff.mpr h2⟩
    have hp := takeLine_progress s h0
    by_cases hc : isCommentLine s.takeNormalizedLine.item.data = true
    · rw [if_pos hc, normLine_after]
      obtain ⟨k, taken, e1, e2, e3, e4⟩ := ih s.takeLine.after acc (by omega)
      refine ⟨k + 1, s.takeNormalizedLine.item :: taken, ?_, ?_, by simp [e3], ?_⟩
      · rw [e1, List.filter_cons_of_neg (by simp [hc])]; rfl
      · rw [lines_cons s h0, List.map_cons]
        exact .comment (isCommentLine_iff.mp hc) hne e2
      · intro p hp
        rw [List.mem_cons] at hp
        rcases hp with rfl | hp
        · exact normLine_item_sub s
        · exact (e4 p hp).trans (takeLine_after_suf s).sub
    · rw [if_neg hc, normLine_after]
      obtain ⟨k, taken, e1, e2, e3, e4⟩ := ih s.takeLine.after (acc ++ [stripIndent strip s.takeNormalizedLine.item]) (by omega)
      refine ⟨k + 1, s.takeNormalizedLine.item :: taken, ?_, ?_, by simp [e3], ?_⟩
      · rw [e1, List.filter_cons_of_pos (by simp [hc])]; simp [Span.skip]
      · rw [lines_cons s h0, List.map_cons]
        refine .line hz (fun h => hc (isCommentLine_iff.mpr h)) hne ?_
        have : decide (acc ++ [stripIndent strip s.takeNormalizedLine.item] ≠ []) = true := by simp
        rw [this] at e2
        exact e2
      · intro p hp
        rw [List.mem_cons] at hp
        rcases hp with rfl | hp
        · exact normLine_item_sub s
        · exact (e4 p hp).trans (takeLine_after_suf s).sub

theorem isBlank_iff {c : Char} : isBlank c = true ↔ c = ' ' ∨ c = '\t' := by
  simp [isBlank]

theorem stripIndent_spec (n : Nat) (l : Span) : Stripped n l.data (stripIndent n l) := by
  have htt : ∀ s : Span, s.trimTrailingWhitespace.data = trimEnd s.data := by
    intro s; rw [trimTrailingWhitespace, takeN_data]; exact trimEndP_take _ _
  have hany : (l.data.any (fun c => !isBlank c)) = true ↔ ∃ c ∈ l.data, c ≠ ' ' ∧ c ≠ '\t' := by
    simp [List.any_eq_true, isBlank]
  have hpl := prefLen_take isBlank l.data
  unfold stripIndent
  simp only
  by_cases ha : ∃ c ∈ l.data, c ≠ ' ' ∧ c ≠ '\t'
  · by_cases h0 : n > 0
    · rw [if_pos (by simp [h0]; simpa [isBlank] using ha), htt, dropN_data]
      have hle := prefLen_le isBlank l.data
      generalize hm : min (prefLen isBlank l.data) n = m
      have := Stripped.indented (n := n) (i := l.data.take m) (l := l.data.drop m) ?_ ?_ ?_ ?_
      · rw [List.take_append_drop] at this; exact this
      · intro c hc
        refine isBlank_iff.mp (hpl c ?_)
        have : l.data.take m = (l.data.take (prefLen isBlank l.data)).take m := by
          rw [List.take_take]; congr 1; omega
        rw [this] at hc
        exact List.mem_of_mem_take hc
      · rw [List.length_take]; omega
      · by_cases hlt : prefLen isBlank l.data < n
        · right
          have hmm : m = prefLen isBlank l.data := by omega
          have key : ∀ c, isBlank c = true → (l.data.drop m).head? ≠ some c := by
            intro c hc hh
            cases hd : l.data.drop m with
            | nil => rw [hd] at hh; cases hh
            | cons x xs =>
              rw [hd] at hh; cases hh
              rw [hmm] at hd
              rw [prefLen_drop _ _ hd] at hc; cases hc
          exact ⟨key ' ' rfl, key '\t' rfl⟩
        · left; rw [List.length_take]; omega
      · obtain ⟨c, hc, hcb⟩ := ha
        rw [← List.take_append_drop m l.data, List.mem_append] at hc
        rcases hc with hc | hc
        · exfalso
          have : l.data.take m = (l.data.take (prefLen isBlank l.data)).take m := by
            rw [List.take_take]; congr 1; omega
          rw [this] at hc
          rcases isBlank_iff.mp (hpl c (List.mem_of_mem_take hc)) with h | h
          · exact hcb.1 h
          · exact hcb.2 h
        · exact ⟨c, hc, hcb⟩
    · rw [if_neg (by simp [h0]), htt]
      have hn : n = 0 := by omega
      have := Stripped.indented (n := n) (i := []) (l := l.data) (by simp) (by simp) (Or.inl (by simp [hn])) ha
      simpa using this
  · rw [if_neg, htt]
    · refine .blank (fun c hc => ?_)
      by_cases h1 : c = ' '
      · exact Or.inl h1
      · by_cases h2 : c = '\t'
        · exact Or.inr h2
        · exact absurd ⟨c, hc, h1, h2⟩ ha
    · rw [Bool.and_eq_true]
      rintro ⟨_, h⟩
      exact ha (hany.mp h)

theorem paragraphText_of (n : Nat) (taken : List Span) :
    ParagraphText n (taken.map Span.data) ((taken.filter (fun p => !isCommentLine p.data)).map (stripIndent n)) := by
  induction taken with
  | nil => exact .nil
  | cons p ps ih =>
    by_cases hc : isCommentLine p.data = true
    · rw [List.filter_cons_of_neg (by simp [hc]), List.map_cons]
      exact .comment (isCommentLine_iff.mp hc) ih
    · rw [List.filter_cons_of_pos (by simp [hc]), List.map_cons, List.map_cons]
      exact .line (fun h => hc (isCommentLine_iff.mpr h)) (stripIndent_spec n p) ih

/-- Parsing the lines of a paragraph. -/
theorem parseLines_spec (subs : Subs) (store : AttrStore) (source : Span) (al : Option Attrlist) :
    ∃ (k : Nat) (raw : Text) (taken texts : List Text), source.data = raw ++ (source.skip k).data ∧ lines raw = taken ∧
      ((source.skip k).data = [] ∨ WholeLines raw) ∧ k = taken.length ∧
      Paragraph false (lines source.data) taken (lines (source.skip k).data) ∧
      ParagraphText (source.discardWhitespace.col - 1) taken texts ∧
      parseLines subs store source al =
        if trimEnd raw = [] then .ok none
        else (subs store (Group.normal.overrideViaAttrlist al) al (joinWith ['\n'] texts)).map (fun rendered =>
          some ⟨(⟨source.takeN (trimEnd raw).length, rendered⟩, simpleStyle source al), (source.skip k).discardEmptyLines⟩) := by
  obtain ⟨k, taken, h1, h2, h3, h4⟩ := linesLoop_spec (source.discardWhitespace.col - 1) source.data.length source []
    (Nat.le_refl _)
  obtain ⟨raw, r1, r2, r3, r4⟩ := trimRemainder?_skip source k
  have hpar : Paragraph false (lines source.data) (taken.map Span.data) (lines (source.skip k).data) := h2
  have htaken : ∀ {b ls t r}, Paragraph b ls t r → t = ls.take t.length := by
    intro b ls t r h
    induction h with
    | stop _ => simp
    | comment _ _ _ ih => simp only [List.length_cons, List.take_succ_cons]; rw [← ih]
    | line _ _ _ _ ih => simp only [List.length_cons, List.take_succ_cons]; rw [← ih]
  refine ⟨k, raw, taken.map Span.data, _, r1, ?_, r4, by simpa using h3, hpar, paragraphText_of _ taken, ?_⟩
  · rw [r3, h3]
    have := htaken hpar
    rw [List.length_map] at this
    exact this.symm
  · unfold parseLines
    rw [h1]
    simp only [List.nil_append]
    rw [r2]
    have e : (source.takeN raw.length).trimTrailingWhitespace = source.takeN (trimEnd raw).length := by
      unfold trimTrailingWhitespace
      rw [takeN_prefix r1, takeN_takeN]
      congr 1
      have := trimEndP_length_le isWhite raw
      exact Nat.min_eq_left this
    have e2 : (source.takeN (trimEnd raw).length).data = trimEnd raw := by
      have h5 := trimEndP_spec isWhite raw
      obtain ⟨sp, hs, _⟩ := h5
      apply takeN_prefix (r := sp ++ (source.skip k).data)
      rw [r1]
      conv => lhs; rw [hs]
      simp [trimEnd]
    simp only [Res.ofOption, bind, Except.bind]
    rw [e, e2]
    split
    · rfl
    · generalize subs _ _ _ _ = q
      cases q <;> rfl

/-- Parsing a delimited block with verbatim content. -/
theorem rawBlock_none {subs : Subs} {store : AttrStore} {m : BlockMetadata}
    (h : ¬ ∃ c, RawDelim c m.blockStart.takeNormalizedLine.item.data) : RawBlock.parse subs store m = .ok none := by
  unfold RawBlock.parse
  simp only
  generalize rawKind _ = q
  cases q with
  | none => rfl
  | some p =>
    obtain ⟨model, ctx, g⟩ := p
    simp only
    rw [if_pos]
    rw [Bool.not_eq_true']
    rw [Bool.eq_false_iff]
    exact fun hd => h (isRawDelimiter_iff.mp hd)

theorem rawBlock_spec {subs : Subs} {store : AttrStore} {m : BlockMetadata} {c : Char} {d : Text}
    (hd : m.blockStart.takeNormalizedLine.item.data = d) (h : RawDelim c d) (hsub : Suf m.blockStart m.source) :
    (∃ (pre post : List Text) (raw : Text) (body src after : Span),
      lines m.blockStart.data = d :: pre ++ d :: post ∧ d ∉ pre ∧
      m.blockStart.takeLine.after.data = raw ++ (m.blockStart.takeLine.after.skip pre.length).data ∧ WholeLines raw ∧
      lines raw = pre ∧ body = (m.blockStart.takeLine.after.takeN raw.length).trimTrailingLineEnd ∧
      after = m.blockStart.skip (pre.length + 2) ∧ (m.blockStart.skip (pre.length + 1)).data ≠ [] ∧
      m.source.trimRemainder? after = some src ∧
      RawBlock.parse subs store m =
        (subs store ((rawBlockKind c).2.2.overrideViaAttrlist m.fields.attrlist) m.fields.attrlist body.data).map (fun r =>
          some (⟨⟨⟨body, r⟩, (rawBlockKind c).1, (rawBlockKind c).2.1, src.trimTrailingLineEnd,
            (rawBlockKind c).2.2.overrideViaAttrlist m.fields.attrlist⟩, after⟩, []))) ∨
    (∃ (k : Nat) (body src after : Span),
      lines m.blockStart.data = d :: lines m.blockStart.takeLine.after.data ∧ d ∉ lines m.blockStart.takeLine.after.data ∧
      body = m.blockStart.takeLine.after.trimTrailingLineEnd ∧
      after = m.blockStart.skip k ∧ k ≠ 0 ∧ after.data = [] ∧ m.source.trimRemainder? after = some src ∧
      RawBlock.parse subs store m =
        .ok (some (⟨⟨⟨body, body.data⟩, (rawBlockKind c).1, (rawBlockKind c).2.1, src.trimTrailingLineEnd,
            (rawBlockKind c).2.2⟩, after⟩, [⟨m.blockStart.takeNormalizedLine.item, .unterminatedDelimitedBlock⟩]))) := by
  have hne : m.blockStart.data ≠ [] := by
    intro h0
    obtain ⟨w, hw, _⟩ := normLine_rest m.blockStart
    rw [h0, hd] at hw
    rw [(List.append_eq_nil_iff.mp hw.symm).1] at h
    have := h.head; cases this
  have hl := lines_cons m.blockStart hne
  rw [hd] at hl
  have hk := rawKind_iff h
  have hir : isRawDelimiter d = true := isRawDelimiter_iff.mpr ⟨c, h⟩
  have htr : ∀ k, ∃ src, m.source.trimRemainder? (m.blockStart.skip k) = some src := fun k =>
    trimRemainder?_ne_none (Sub.refl m.source) ((skip_suf _ _).trans hsub).sub
  rcases findClosing_spec d m.blockStart.takeLine.after.data.length m.blockStart.takeLine.after (Nat.le_refl _) with
    ⟨k, pre, post, l, e1, e2, e3, e4, e5, e6⟩ | ⟨k, e1, e2, e3⟩
  · left
    obtain ⟨raw, r1, r2, r3, r4⟩ := trimRemainder?_skip m.blockStart.takeLine.after k
    have hafter : l.after = m.blockStart.skip (pre.length + 2) := by
      rw [e2, normLine_after, e5]
      show Span.skip 1 ((m.blockStart.takeLine.after).skip pre.length) = _
      rw [skip_add]; rfl
    obtain ⟨src, hsrc⟩ := htr (pre.length + 2)
    refine ⟨pre, post, raw, _, src, _, ?_, e4, by rw [← e5]; exact r1, ?_, ?_, rfl, rfl, ?_, hsrc, ?_⟩
    · rw [hl, e3]; rfl
    · rcases r4 with h | h
      · exact absurd h e6
      · exact h
    · rw [r3, e3, e5]; simp
    · rw [e5] at e6; exact e6
    · unfold RawBlock.parse
      simp only
      rw [hd, hk]
      simp only [hir, Bool.not_true, Bool.false_eq_true, if_false]
      rw [normLine_after, e1]
      simp only
      rw [r2, hafter, hsrc]
      simp only [Res.ofOption, bind, Except.bind]
      generalize subs _ _ _ _ = q
      cases q <;> rfl
  · right
    obtain ⟨raw, r1, r2, r3, r4⟩ := trimRemainder?_skip m.blockStart.takeLine.after k
    obtain ⟨src, hsrc⟩ := htr (k + 1)
    refine ⟨k + 1, _, src, _, hl, e3, rfl, rfl, by omega, e2, hsrc, ?_⟩
    unfold RawBlock.parse
    simp only
    rw [hd, hk]
    simp only [hir, Bool.not_true, Bool.false_eq_true, if_false]
    rw [normLine_after, e1]
    simp only
    have : m.blockStart.takeLine.after.takeN raw.length = m.blockStart.takeLine.after := by
      apply takeN_all
      rw [r1, e2]; simp
    have hs' : m.source.trimRemainder? (Span.skip k m.blockStart.takeLine.after) = some src := hsrc
    rw [r2, hs', this]
    rfl

end Adoc
