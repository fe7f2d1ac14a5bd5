import Verif.Lemmas.Span
/-! # Helper lemmas about lines -/

namespace Adoc
namespace Span

theorem prefLen_le (p : Char → Bool) (t : Text) : prefLen p t ≤ t.length := by
  induction t with
  | nil => simp [prefLen]
  | cons c cs ih => rw [prefLen]; split <;> simp; omega

theorem prefLen_take (p : Char → Bool) (t : Text) : ∀ c ∈ t.take (prefLen p t), p c = true := by
  induction t with
  | nil => simp
  | cons c cs ih =>
    rw [prefLen]
    split
    · intro d hd; simp at hd; rcases hd with rfl | hd
      · assumption
      · exact ih d hd
    · simp

theorem prefLen_drop (p : Char → Bool) (t : Text) {c : Char} {r : Text}
    (h : t.drop (prefLen p t) = c :: r) : p c = false := by
  induction t with
  | nil => simp at h
  | cons d ds ih =>
    rw [prefLen] at h
    split at h
    · simp at h; exact ih h
    · rename_i hd; simp at h; obtain ⟨rfl, rfl⟩ := h; simpa using hd

theorem prefLen_append {p : Char → Bool} {a b : Text} (ha : ∀ c ∈ a, p c = true)
    (hb : ∀ c r, b = c :: r → p c = false) : prefLen p (a ++ b) = a.length := by
  induction a with
  | nil =>
    cases b with
    | nil => rfl
    | cons c r => simp [prefLen, hb c r rfl]
  | cons d ds ih =>
    have hd : p d = true := ha d (by simp)
    simp only [List.cons_append, prefLen, hd, if_true, List.length_cons]
    rw [ih (fun c hc => ha c (by simp [hc]))]

theorem prefLen_all {p : Char → Bool} {a : Text} (ha : ∀ c ∈ a, p c = true) :
    prefLen p a = a.length := by
  have := prefLen_append (p := p) (a := a) (b := []) ha (by intro c r h; cases h)
  simpa using this

theorem prefLen_eq_length {p : Char → Bool} {a : Text} (h : prefLen p a = a.length) :
    ∀ c ∈ a, p c = true := by
  have := prefLen_take p a
  rwa [h, List.take_of_length_le (Nat.le_refl _)] at this

/-- The first `k` characters hold the line: `line` its text, `sep` its terminator. -/
structure LineSplit (t line sep rest : Text) : Prop where
  eq : t = line ++ sep ++ rest
  noNl : '\n' ∉ line
  sep : (sep = ['\r', '\n']) ∨ (sep = ['\n'] ∧ endsWith line ['\r'] = false) ∨
    (sep = ['\r'] ∧ rest = []) ∨ (sep = [] ∧ rest = [] ∧ endsWith line ['\r'] = false)

theorem takeLine_shape (s : Span) :
    ∃ line sep rest, LineSplit s.data line sep rest ∧
      s.takeLine = { item := s.takeN line.length, after := s.dropN (line.length + sep.length) } := by
  have hsplit := (List.take_append_drop (prefLen (· ≠ '\n') s.data) s.data).symm
  have hpl := prefLen_le (· ≠ '\n') s.data
  have hlen : (s.data.take (prefLen (· ≠ '\n') s.data)).length = prefLen (· ≠ '\n') s.data := by
    rw [List.length_take, Nat.min_eq_left hpl]
  have hno : '\n' ∉ s.data.take (prefLen (· ≠ '\n') s.data) := by
    intro h; have := prefLen_take _ _ _ h; simp at this
  have hhd : ∀ c r, s.data.drop (prefLen (· ≠ '\n') s.data) = c :: r → c = '\n' := by
    intro c r h; have := prefLen_drop _ _ h; simpa using this
  unfold takeLine cut
  generalize hn : prefLen (· ≠ '\n') s.data = n at *
  generalize hA : s.data.take n = A at *
  cases hB : s.data.drop n with
  | nil =>
    have h1 : startsWith (s.dropN n).data ['\n'] = false := by simp [startsWith, hB]
    simp only [MI.trimAfterStart, h1, Bool.false_eq_true, if_false]
    rw [hB, List.append_nil] at hsplit
    have hnl : n = s.data.length := by rw [hsplit]; exact hlen.symm
    by_cases hr : endsWith A ['\r'] = true
    · obtain ⟨r, rfl⟩ := endsWith_iff.mp hr
      refine ⟨r, ['\r'], [], ⟨by rw [hsplit]; simp, by simp at hno; exact hno,
        by simp⟩, ?_⟩
      simp only [MI.trimItemEnd, takeN_data, hA, hr, if_true]
      have : (r ++ ['\r']).length = n := hlen
      simp at this
      congr 1
      · rw [takeN_takeN]; congr 1; simp; omega
      · congr 1; exact this.symm
    · have hr' : endsWith A ['\r'] = false := by simpa using hr
      refine ⟨A, [], [], ⟨by rw [hsplit]; simp, hno, by simp [hr']⟩, ?_⟩
      simp only [MI.trimItemEnd, takeN_data, hA, hr', Bool.false_eq_true, if_false]
      congr 1
      · congr 1; exact hlen.symm
      · congr 1; simp; exact hlen.symm
  | cons c rest =>
    have hc := hhd c rest hB
    subst hc
    have h1 : startsWith (s.dropN n).data ['\n'] = true := by simp [startsWith, hB]
    simp only [MI.trimAfterStart, h1, if_true]
    rw [hB] at hsplit
    by_cases hr : endsWith A ['\r'] = true
    · obtain ⟨r, rfl⟩ := endsWith_iff.mp hr
      refine ⟨r, ['\r', '\n'], rest, ⟨by rw [hsplit]; simp, by simp at hno; exact hno,
        by simp⟩, ?_⟩
      simp only [MI.trimItemEnd, takeN_data, hA, hr, if_true]
      have : (r ++ ['\r']).length = n := hlen
      simp at this
      congr 1
      · rw [takeN_takeN]; congr 1; simp; omega
      · rw [dropN_dropN]; congr 1; simp; omega
    · have hr' : endsWith A ['\r'] = false := by simpa using hr
      refine ⟨A, ['\n'], rest, ⟨by rw [hsplit]; simp, hno, by simp [hr']⟩, ?_⟩
      simp only [MI.trimItemEnd, takeN_data, hA, hr', Bool.false_eq_true, if_false]
      congr 1
      · congr 1; exact hlen.symm
      · rw [dropN_dropN]; congr 1; simp; exact hlen.symm

theorem takeLine_data {s : Span} {line sep rest : Text} (h : s.data = line ++ sep ++ rest)
    (e : s.takeLine = { item := s.takeN line.length, after := s.dropN (line.length + sep.length) }) :
    s.takeLine.item.data = line ∧ s.takeLine.after.data = rest := by
  rw [e]
  constructor
  · simp only [takeN_data]; rw [h, List.append_assoc, List.take_left]
  · simp only [dropN_data]; rw [h, ← List.length_append, List.drop_left]

theorem takeLine_after_suf (s : Span) : Suf s.takeLine.after s := by
  obtain ⟨line, sep, rest, _, h⟩ := takeLine_shape s
  rw [h]; exact dropN_suf _ _

theorem takeLine_item_sub (s : Span) : Sub s.takeLine.item s := by
  obtain ⟨line, sep, rest, _, h⟩ := takeLine_shape s
  rw [h]; exact takeN_sub _ _

theorem takeLine_progress (s : Span) (h : s.data ≠ []) :
    s.takeLine.after.data.length < s.data.length := by
  obtain ⟨line, sep, rest, ⟨h1, h2, h3⟩, e⟩ := takeLine_shape s
  rw [e]
  simp only [dropN_data, List.length_drop]
  have hpos : 0 < s.data.length := List.length_pos_iff.mpr h
  have : 0 < line.length + sep.length := by
    rcases h3 with rfl | ⟨rfl, _⟩ | ⟨rfl, _⟩ | ⟨rfl, rfl, _⟩
    · simp
    · simp
    · simp
    · simp at h1; rw [h1] at hpos; simpa using hpos
  omega

theorem normLine_shape (s : Span) :
    ∃ i k, s.takeNormalizedLine = { item := s.takeN i, after := s.dropN k } ∧
      i ≤ k ∧ k ≤ s.data.length := by
  obtain ⟨line, sep, rest, ⟨h1, h2, h3⟩, e⟩ := takeLine_shape s
  refine ⟨min (trimEndP (· == ' ') (s.takeN line.length).data).length line.length,
    line.length + sep.length, ?_, ?_, ?_⟩
  · rw [takeNormalizedLine, e]
    simp only [MI.trimItemTrailingSpaces]
    rw [takeN_takeN]
  · omega
  · rw [h1]; simp

theorem normLine_after (s : Span) : s.takeNormalizedLine.after = s.takeLine.after := rfl

theorem normLine_item_data (s : Span) :
    s.takeNormalizedLine.item.data = trimEndP (· == ' ') s.takeLine.item.data := by
  simp [takeNormalizedLine, MI.trimItemTrailingSpaces, trimEndP_take]

/-- Result of `discard_empty_lines`: a suffix. -/
theorem discardAux_suf (n : Nat) (s : Span) : Suf (discardEmptyLinesAux n s) s := by
  induction n generalizing s with
  | zero => exact Suf.refl s
  | succ n ih =>
    rw [discardEmptyLinesAux]
    split
    · exact Suf.refl s
    · split
      · rename_i l hl
        have : l = s.takeLine := by
          unfold takeEmptyLine at hl; simp only at hl; split at hl <;> simp_all
        subst this
        exact (ih _).trans (takeLine_after_suf s)
      · exact Suf.refl s

theorem discardEmptyLines_suf (s : Span) : Suf s.discardEmptyLines s := discardAux_suf _ _

theorem discardAux_done (n : Nat) (s : Span) (h : s.data.length ≤ n) :
    (discardEmptyLinesAux n s).data = [] ∨ (discardEmptyLinesAux n s).takeEmptyLine = none := by
  induction n generalizing s with
  | zero => left; simp [discardEmptyLinesAux]; exact List.length_eq_zero_iff.mp (by omega)
  | succ n ih =>
    rw [discardEmptyLinesAux]
    split
    · left; assumption
    · rename_i hne
      split
      · rename_i l hl
        have : l = s.takeLine := by
          unfold takeEmptyLine at hl; simp only at hl; split at hl <;> simp_all
        subst this
        apply ih
        have := takeLine_progress s hne
        omega
      · rename_i hl
        right; exact hl

theorem discardEmptyLines_done (s : Span) :
    s.discardEmptyLines.data = [] ∨ s.discardEmptyLines.takeEmptyLine = none :=
  discardAux_done _ _ (Nat.le_refl _)

/-- `take_non_empty_line` is the normalized line when that is not empty. -/
theorem takeNonEmptyLine_eq (s : Span) :
    s.takeNonEmptyLine =
      if s.takeNormalizedLine.item.data = [] then none else some s.takeNormalizedLine := by
  unfold takeNonEmptyLine splitAtMatchNonEmpty
  have hf : (fun c : Char => !(c == '\n')) = (fun c => decide (c ≠ '\n')) := by
    funext c; by_cases h : c = '\n' <;> simp [h]
  rw [hf]
  split
  · rename_i mi hmi
    split at hmi
    · simp at hmi
    · have hmi' := Option.some.inj hmi
      rw [← hmi']
      rfl
  · rename_i hmi
    split at hmi
    · rename_i h0
      have : s.takeNormalizedLine.item.data = [] := by
        rw [normLine_item_data]
        obtain ⟨line, sep, rest, ⟨h1, h2, h3⟩, e⟩ := takeLine_shape s
        have : s.takeLine.item.data = [] := by
          unfold takeLine
          rw [h0]
          simp [MI.trimItemEnd, MI.trimAfterStart, cut]
          split <;> simp [endsWith]
        rw [this]; rfl
      rw [if_pos this]
    · simp at hmi

end Span
end Adoc
