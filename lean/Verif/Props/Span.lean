import Verif.Lemmas.SpanOps
/-!
# C01, C02, C03, C36, C48: spans, lines, remainders, quoted strings, names
-/

namespace Adoc.Props
open Adoc Adoc.Span

/-! ## C01 -/

/-- C01. Whatever chain of span operations is applied to the whole document, the span obtained is a contiguous
piece of the document and reports that piece's byte offset, line and column. -/
theorem C01_span_faithful (doc : Text) (ops : List SpanOp) (s : Span)
    (h : ops.foldlM (fun s op => op.run s) (Span.new doc) = some s) : Spec.Faithful doc s := by
  rw [faithful_iff_sub]
  have : ∀ (ops : List SpanOp) (t : Span), Sub t (Span.new doc) →
      ops.foldlM (fun s op => op.run s) t = some s → Sub s (Span.new doc) := by
    intro ops
    induction ops with
    | nil => intro t ht h; simp at h; subst h; exact ht
    | cons op ops ih =>
      intro t ht h
      rw [List.foldlM_cons] at h
      cases hr : op.run t with
      | none => rw [hr] at h; simp at h
      | some u => rw [hr] at h; exact ih u ((SpanOp.run_sub hr).trans ht) h
  exact this ops _ (Sub.refl _) h

/-- Operations on any faithful span (not only on one reached from the whole document) stay faithful. -/
theorem C01_step_faithful (doc : Text) (op : SpanOp) (s r : Span) (hs : Spec.Faithful doc s)
    (h : op.run s = some r) : Spec.Faithful doc r := by
  rw [faithful_iff_sub] at *
  exact (SpanOp.run_sub h).trans hs

/-- The byte-indexed slice panics exactly when an index is not a character boundary inside the span or the range
is reversed; otherwise it returns the requested bytes. -/
theorem C01_slice_total (s : Span) (i j : Nat) :
    (∃ r, s.slice? i j = some r) ↔
      ∃ a b c, s.data = a ++ b ++ c ∧ i = (String.ofList a).utf8ByteSize ∧
        j = (String.ofList (a ++ b)).utf8ByteSize := by
  constructor
  · rintro ⟨r, h⟩
    obtain ⟨a, b, c, e1, e2, e3, _⟩ := slice?_iff.mp h
    exact ⟨a, b, c, e1, by rw [← blen_eq_utf8ByteSize]; omega,
      by rw [← blen_eq_utf8ByteSize, blen_append]; omega⟩
  · rintro ⟨a, b, c, e1, e2, e3⟩
    rw [← blen_eq_utf8ByteSize] at e2 e3
    rw [blen_append] at e3
    exact ⟨_, slice?_iff.mpr ⟨a, b, c, e1, e2.symm, by omega, rfl⟩⟩

/-- Non-vacuity: a chain over a text with multi-byte characters and CRLF. -/
example : [SpanOp.takeLineAfter, .takeLineItem, .sliceFrom 2].foldlM (fun s op => op.run s)
    (Span.new "aé\r\nüx y\nz".toList) =
      some { data := "x y".toList, line := 2, col := 2, offset := 7 } := by decide

/-! ## C02 -/

/-- C02. One line: no newline inside, nothing lost, only a line terminator dropped, strict progress. -/
theorem C02_take_line (s : Span) :
    '\n' ∉ s.takeLine.item.data ∧
    (∃ sep, s.data = s.takeLine.item.data ++ sep ++ s.takeLine.after.data ∧
      Spec.IsTerminator sep s.takeLine.after.data) ∧
    (s.data ≠ [] → s.takeLine.after.data.length < s.data.length) := by
  refine ⟨?_, ?_, takeLine_progress s⟩
  all_goals
    obtain ⟨line, sep, rest, ⟨h1, h2, h3⟩, e⟩ := takeLine_shape s
    obtain ⟨hi, ha⟩ := takeLine_data h1 e
    rw [hi]
  · exact h2
  · refine ⟨sep, by rw [ha, ← h1], ?_⟩
    rw [ha]
    rcases h3 with h | ⟨h, _⟩ | ⟨h, h'⟩ | ⟨h, h', _⟩ <;> simp_all [Spec.IsTerminator]

/-- C02. A line never ends with the carriage return of its terminator: a CR directly before the newline (or the
end) is part of the terminator. -/
theorem C02_take_line_crlf (s : Span) (l rest : Text) (hl : '\n' ∉ l) :
    (s.data = l ++ ['\r', '\n'] ++ rest → s.takeLine.item.data = l ∧ s.takeLine.after.data = rest) ∧
    (s.data = l ++ ['\n'] ++ rest → ¬ Spec.EndsIn l '\r' →
      s.takeLine.item.data = l ∧ s.takeLine.after.data = rest) ∧
    (s.data = l → ¬ Spec.EndsIn l '\r' → s.takeLine.item.data = l ∧ s.takeLine.after.data = []) := by
  obtain ⟨line, sep, rest', ⟨h1, h2, h3⟩, e⟩ := takeLine_shape s
  obtain ⟨hi, ha⟩ := takeLine_data h1 e
  rw [hi, ha]
  -- two splittings of one text at its first newline agree
  have uniq : ∀ (a b c d : Text), '\n' ∉ a → '\n' ∉ c → a ++ '\n' :: b = c ++ '\n' :: d → a = c ∧ b = d := by
    intro a
    induction a with
    | nil =>
      intro b c d _ hc h
      cases c with
      | nil => simp at h; exact ⟨rfl, h⟩
      | cons x xs => simp at h; rw [← h.1] at hc; simp at hc
    | cons y ys ih =>
      intro b c d ha hc h
      cases c with
      | nil => simp at h; rw [h.1] at ha; simp at ha
      | cons x xs =>
        simp at h ha hc
        obtain ⟨r1, r2⟩ := ih b xs d ha.2 hc.2 h.2
        exact ⟨by rw [h.1, r1], r2⟩
  have nlmem : ∀ (a b c : Text), '\n' ∉ c → a ++ '\n' :: b = c → False := by
    intro a b c hc h; apply hc; rw [← h]; simp
  have hn : ∀ t : Text, '\n' ∉ t → '\n' ∉ t ++ ['\r'] := by intro t ht; simp [ht]
  refine ⟨fun hd => ?_, fun hd hcr => ?_, fun hd hcr => ?_⟩
  · rw [h1] at hd
    have hd' : (l ++ ['\r']) ++ '\n' :: rest = line ++ sep ++ rest' := by rw [hd]; simp
    rcases h3 with rfl | ⟨rfl, hc⟩ | ⟨rfl, rfl⟩ | ⟨rfl, rfl, _⟩
    · have := uniq _ _ (line ++ ['\r']) rest' (hn _ hl) (hn _ h2) (by rw [hd']; simp)
      obtain ⟨r1, r2⟩ := this
      exact ⟨(List.append_inj' r1 rfl).1.symm, r2.symm⟩
    · have := uniq _ _ line rest' (hn _ hl) h2 (by rw [hd']; simp)
      rw [← this.1] at hc
      rw [endsWith_iff.mpr ⟨l, rfl⟩] at hc; cases hc
    · exact (nlmem _ _ _ (hn _ h2) (by rw [hd']; simp)).elim
    · exact (nlmem _ _ _ h2 (by rw [hd']; simp)).elim
  · rw [h1] at hd
    have hd' : l ++ '\n' :: rest = line ++ sep ++ rest' := by rw [hd]; simp
    rcases h3 with rfl | ⟨rfl, hc⟩ | ⟨rfl, rfl⟩ | ⟨rfl, rfl, _⟩
    · have := uniq _ _ (line ++ ['\r']) rest' hl (hn _ h2) (by rw [hd']; simp)
      exact (hcr ⟨line, this.1⟩).elim
    · have := uniq _ _ line rest' hl h2 (by rw [hd']; simp)
      exact ⟨this.1.symm, this.2.symm⟩
    · exact (nlmem _ _ _ (hn _ h2) (by rw [hd']; simp)).elim
    · exact (nlmem _ _ _ h2 (by rw [hd']; simp)).elim
  · rw [h1] at hd
    rcases h3 with rfl | ⟨rfl, hc⟩ | ⟨rfl, rfl⟩ | ⟨rfl, rfl, _⟩
    · exact (nlmem (line ++ ['\r']) rest' l hl (by rw [← hd]; simp)).elim
    · exact (nlmem line rest' l hl (by rw [← hd]; simp)).elim
    · exact (hcr ⟨line, by rw [← hd]; simp⟩).elim
    · exact ⟨by rw [← hd]; simp, rfl⟩

/-- C02. Reading lines to the end terminates and visits every character exactly once, in order. -/
theorem C02_read_all_lines (s : Span) :
    ∃ ls, Spec.ReadLines s ls ∧ s.data = (ls.map (fun l => l.1 ++ l.2)).flatten ∧
      ∀ l ∈ ls, '\n' ∉ l.1 := by
  generalize hn : s.data.length = n
  induction n using Nat.strongRecOn generalizing s with
  | ind n ih =>
    by_cases h0 : s.data = []
    · exact ⟨[], .done h0, by simp [h0], by simp⟩
    · obtain ⟨a1, ⟨sep, a2, _⟩, a3⟩ := C02_take_line s
      obtain ⟨ls, b1, b2, b3⟩ := ih _ (hn ▸ a3 h0) s.takeLine.after rfl
      refine ⟨(s.takeLine.item.data, sep) :: ls, .step h0 a2 b1, ?_, ?_⟩
      · simp only [List.map_cons, List.flatten_cons]
        rw [← b2]; exact a2
      · intro l hl
        rcases List.mem_cons.mp hl with rfl | hl
        · exact a1
        · exact b3 l hl

/-- C02. The remainder of a line is the rest of the same span: it starts right behind the terminator. -/
theorem C02_remainder_position (s : Span) : ∃ k, k ≤ s.data.length ∧ s.takeLine.after = s.dropN k := by
  exact takeLine_after_suf s

/-- C02. A normalized line is the line without its trailing spaces. -/
theorem C02_normalized_line (s : Span) :
    ∃ sp, s.takeLine.item.data = s.takeNormalizedLine.item.data ++ sp ∧ (∀ c ∈ sp, c = ' ') ∧
      ¬ Spec.EndsIn s.takeNormalizedLine.item.data ' ' ∧
      s.takeNormalizedLine.after = s.takeLine.after := by
  rw [normLine_item_data]
  obtain ⟨sp, e, hsp⟩ := trimEndP_spec (· == ' ') s.takeLine.item.data
  refine ⟨sp, e, fun c hc => by simpa using List.all_eq_true.mp hsp c hc, ?_, rfl⟩
  rintro ⟨r, hr⟩
  have := trimEndP_last (· == ' ') s.takeLine.item.data _ _ hr
  simp at this

/-- C02. Taking a non-empty line succeeds exactly when the normalized line is not empty, and then is that line. -/
theorem C02_non_empty_line (s : Span) (m : MI Span) :
    s.takeNonEmptyLine = some m ↔ m = s.takeNormalizedLine ∧ m.item.data ≠ [] := by
  rw [takeNonEmptyLine_eq]
  constructor
  · intro h
    split at h
    · simp at h
    · have := Option.some.inj h; subst this; exact ⟨rfl, by assumption⟩
  · rintro ⟨rfl, h⟩
    rw [if_neg h]

theorem isBlank_iff (c : Char) : isBlank c = true ↔ c = ' ' ∨ c = '\t' := by simp [isBlank]

/-- C02. Skipping empty lines drops only blank lines, and stops at the end or before a non-blank line. -/
theorem C02_discard_empty_lines (s : Span) :
    (∃ k, k ≤ s.data.length ∧ s.discardEmptyLines = s.dropN k ∧
      ∀ c ∈ s.data.take k, c = ' ' ∨ c = '\t' ∨ c = '\r' ∨ c = '\n') ∧
    (s.discardEmptyLines.data = [] ∨ ¬ Spec.Blank s.discardEmptyLines.takeLine.item.data) := by
  constructor
  · have : ∀ n (s : Span), ∃ k, k ≤ s.data.length ∧ discardEmptyLinesAux n s = s.dropN k ∧
      ∀ c ∈ s.data.take k, c = ' ' ∨ c = '\t' ∨ c = '\r' ∨ c = '\n' := by
      intro n
      induction n with
      | zero => intro s; exact ⟨0, by omega, by simp [discardEmptyLinesAux], by simp⟩
      | succ n ih =>
        intro s
        rw [discardEmptyLinesAux]
        split
        · exact ⟨0, by omega, by simp, by simp⟩
        · split
          · rename_i l hl
            unfold takeEmptyLine at hl
            simp only at hl
            split at hl
            · rename_i hb
              have hl := Option.some.inj hl
              subst hl
              obtain ⟨k, hk, e, hc⟩ := ih s.takeLine.after
              obtain ⟨line, sep, rest, ⟨h1, h2, h3⟩, e'⟩ := takeLine_shape s
              have hi := (takeLine_data h1 e').1
              rw [e'] at e hk hc
              simp only [dropN_data] at hk hc
              have hls : line.length + sep.length ≤ s.data.length := by rw [h1]; simp
              refine ⟨line.length + sep.length + k, ?_, ?_, ?_⟩
              · rw [List.length_drop] at hk; omega
              · rw [e']; simp only; rw [e, dropN_dropN]
              · intro c hcm
                rw [List.take_add] at hcm
                rcases List.mem_append.mp hcm with hcm | hcm
                · rw [h1, ← List.length_append, List.take_left] at hcm
                  rcases List.mem_append.mp hcm with hcm | hcm
                  · rw [hi, List.all_eq_true] at hb
                    have := (isBlank_iff c).mp (hb c hcm)
                    rcases this with h | h <;> simp [h]
                  · rcases h3 with rfl | ⟨rfl, _⟩ | ⟨rfl, _⟩ | ⟨rfl, _⟩ <;> simp at hcm
                    · rcases hcm with h | h <;> simp [h]
                    · simp [hcm]
                    · simp [hcm]
                · exact hc c hcm
            · simp at hl
          · exact ⟨0, by omega, by simp, by simp⟩
    exact this _ s
  · rcases discardEmptyLines_done s with h | h
    · exact Or.inl h
    · right
      intro hb
      unfold takeEmptyLine at h
      simp only at h
      rw [if_pos] at h
      · cases h
      · rw [List.all_eq_true]
        intro c hc
        exact (isBlank_iff c).mpr (hb c hc)

example : (Span.new "ab \r\n\ncd".toList).takeLine =
    { item := { data := "ab ".toList, line := 1, col := 1, offset := 0 },
      after := { data := "\ncd".toList, line := 2, col := 1, offset := 5 } } := by decide

/-- The full English statement of C02 allows a lone CR at the end of the text to vanish with the line; this is
a case where it does. -/
theorem C02_lone_cr_at_end : (Span.new "ab\r".toList).takeLine.item.data = "ab".toList ∧
    (Span.new "ab\r".toList).takeLine.after.data = [] := by decide

example : (Span.new " \r\n\t\n x".toList).discardEmptyLines.data = " x".toList := by decide

/-! ## C03 -/

/-- C03. If the remainder is what is left of `s` after its first `k` characters, cutting `s` at it gives exactly
those `k` characters, at the position of `s`. -/
theorem C03_trim_remainder (s : Span) (k : Nat) (hk : k ≤ s.data.length) :
    ∃ r, s.trimRemainder? (s.dropN k) = some r ∧ r.data ++ (s.dropN k).data = s.data ∧
      r.line = s.line ∧ r.col = s.col ∧ r.offset = s.offset := by
  refine ⟨s.takeN k, trimRemainder?_dropN s hk, by simp, ?_, ?_, ?_⟩ <;> simp [takeN, sliceInternal]

/-- C03. Whatever the second span is, a result is a prefix of the first span at the same position. -/
theorem C03_trim_remainder_prefix (s a r : Span) (h : s.trimRemainder? a = some r) :
    (∃ rest, s.data = r.data ++ rest) ∧ r.line = s.line ∧ r.col = s.col ∧ r.offset = s.offset := by
  obtain ⟨k, _, rfl⟩ := trimRemainder?_some h
  refine ⟨⟨s.data.drop k, by simp⟩, ?_, ?_, ?_⟩ <;> simp [takeN, sliceInternal]

/-- C03. For two spans of one document the cut never panics. -/
theorem C03_trim_remainder_total (doc : Text) (s a : Span) (hs : Spec.Faithful doc s)
    (ha : Spec.Faithful doc a) : ∃ r, s.trimRemainder? a = some r := by
  rw [faithful_iff_sub] at hs ha
  exact trimRemainder?_ne_none hs ha

/-- C03. For two spans of one document the result stops where the second begins: it ends at the second span's
offset, clipped to the bounds of the first. -/
theorem C03_trim_remainder_end (s a r : Span) (h : s.trimRemainder? a = some r) :
    r.offset + (String.ofList r.data).utf8ByteSize =
      max s.offset (min (s.offset + (String.ofList s.data).utf8ByteSize) a.offset) := by
  rw [← blen_eq_utf8ByteSize, ← blen_eq_utf8ByteSize]
  unfold trimRemainder? at h
  simp only at h
  have key : ∀ n, s.slice? 0 n = some r → r.offset = s.offset ∧ blen r.data = n := by
    intro n h
    obtain ⟨old, mid, post, e1, e2, e3, rfl⟩ := slice?_iff.mp h
    have := blen_eq_zero.mp e2
    subst this
    simp [sliceInternal]
    omega
  split at h
  · obtain ⟨h1, h2⟩ := key _ h; omega
  · obtain ⟨h1, h2⟩ := key _ h; omega

example : (Span.new "abc\ndef".toList).trimRemainder? ((Span.new "abc\ndef".toList).dropN 4) =
    some { data := "abc\n".toList, line := 1, col := 1, offset := 0 } := by decide

/-- Across documents the cut can fall inside a character, and the code panics. -/
example : (Span.new "é".toList).trimRemainder? { data := [], line := 1, col := 2, offset := 1 } = none := by
  decide

/-! ## C36 -/

theorem quotedLen_some {q : Char} (_hq : q ≠ '\\') {b : Bool} {t : Text} {n : Nat} (h : quotedLen q b t = some n) :
    ∃ body rest, t = body ++ q :: rest ∧ body.length = n ∧
      ((body = [] ∧ b = false) ∨ (body ≠ [] ∧ ¬ Spec.EndsIn body '\\')) ∧
      ∀ x y, body = x ++ q :: y → (x = [] ∧ b = true) ∨ Spec.EndsIn x '\\' := by
  induction t generalizing b n with
  | nil => simp [quotedLen] at h
  | cons c cs ih =>
    rw [quotedLen] at h
    split at h
    · rename_i hc
      have h := Option.some.inj h
      subst h
      simp at hc
      exact ⟨[], cs, by simp [hc.1], rfl, by simp [hc.2], by simp⟩
    · rename_i hc
      cases hr : quotedLen q (c == '\\') cs with
      | none => rw [hr] at h; simp at h
      | some m =>
        rw [hr] at h
        simp at h
        obtain ⟨body, rest, e1, e2, e3, e4⟩ := ih hr
        refine ⟨c :: body, rest, by simp [e1], by simp [e2, h], Or.inr ⟨by simp, ?_⟩, ?_⟩
        · rintro ⟨r, hr'⟩
          rcases e3 with ⟨rfl, hb⟩ | ⟨hne, hl⟩
          · cases r with
            | nil => simp at hr'; simp [hr'] at hb
            | cons x xs => simp at hr'
          · cases r with
            | nil => simp at hr'; exact hne hr'.2
            | cons x xs => simp at hr'; exact hl ⟨xs, hr'.2⟩
        · intro x y hxy
          cases x with
          | nil =>
            simp at hxy
            left
            refine ⟨rfl, ?_⟩
            simp [hxy.1] at hc
            exact hc
          | cons z zs =>
            simp at hxy
            rcases e4 zs y hxy.2 with ⟨rfl, hb⟩ | ⟨r, rfl⟩
            · right; refine ⟨[], ?_⟩; simp at hb; rw [hxy.1] at hb; simp [hb]
            · right; exact ⟨z :: r, by simp⟩

theorem quotedLen_none {q : Char} {b : Bool} {t : Text} (h : quotedLen q b t = none) :
    ∀ x y, t = x ++ q :: y → (x = [] ∧ b = true) ∨ Spec.EndsIn x '\\' := by
  induction t generalizing b with
  | nil => intro x y hxy; simp at hxy
  | cons c cs ih =>
    rw [quotedLen] at h
    split at h
    · simp at h
    · rename_i hc
      have hr : quotedLen q (c == '\\') cs = none := by
        cases hr : quotedLen q (c == '\\') cs with
        | none => rfl
        | some m => rw [hr] at h; simp at h
      intro x y hxy
      cases x with
      | nil =>
        simp at hxy
        left
        refine ⟨rfl, ?_⟩
        simp [hxy.1] at hc
        exact hc
      | cons z zs =>
        simp at hxy
        rcases ih hr zs y hxy.2 with ⟨rfl, hb⟩ | ⟨r, rfl⟩
        · right; refine ⟨[], ?_⟩; simp at hb; rw [hxy.1] at hb; simp [hb]
        · right; exact ⟨z :: r, by simp⟩

/-- C36. A successful quoted string: it starts with a quote character, the item is everything up to the first
unescaped occurrence of the same quote, and the remainder is everything behind it. -/
theorem C36_quoted_string_some (s : Span) (m : MI Span) (h : s.takeQuotedString = some m) :
    ∃ q, (q = '\'' ∨ q = '"') ∧ s.data = q :: m.item.data ++ q :: m.after.data ∧
      ¬ Spec.EndsIn m.item.data '\\' ∧ Spec.AllEscaped q m.item.data ∧
      (∃ k, m.after = s.dropN k) ∧ (∃ n, m.item = (s.dropN 1).takeN n) := by
  unfold takeQuotedString at h
  split at h
  · simp at h
  · rename_i d cs hd
    split at h
    · rename_i hq
      have hq' : d = '\'' ∨ d = '"' := by simpa using hq
      split at h
      · rename_i n hn
        have h := Option.some.inj h
        subst h
        have hne : d ≠ '\\' := by rcases hq' with rfl | rfl <;> decide
        obtain ⟨body, rest, e1, e2, e3, e4⟩ := quotedLen_some hne hn
        have hi : ((s.dropN 1).takeN n).data = body := by simp [hd, e1, ← e2]
        have ha : (s.dropN (n + 2)).data = rest := by
          simp [hd, e1, ← e2]
        refine ⟨d, hq', ?_, ?_, ?_, ⟨_, rfl⟩, ⟨_, rfl⟩⟩
        · show s.data = d :: ((s.dropN 1).takeN n).data ++ d :: (s.dropN (n + 2)).data
          rw [hi, ha, hd, e1]; simp
        · show ¬ Spec.EndsIn ((s.dropN 1).takeN n).data '\\'
          rw [hi]
          rcases e3 with ⟨rfl, _⟩ | ⟨_, h⟩
          · rintro ⟨r, hr⟩; simp at hr
          · exact h
        · show Spec.AllEscaped d ((s.dropN 1).takeN n).data
          rw [hi]
          intro x y hxy
          rcases e4 x y hxy with ⟨_, h⟩ | h
          · cases h
          · exact h
      · simp at h
    · simp at h

/-- C36. It fails exactly when the text does not start with a quote, or no later occurrence of that quote is
unescaped. -/
theorem C36_quoted_string_none (s : Span) :
    s.takeQuotedString = none ↔
      ∀ q t, s.data = q :: t → (q = '\'' ∨ q = '"') → Spec.AllEscaped q t := by
  constructor
  · intro h q t hd hq x y hxy
    unfold takeQuotedString at h
    rw [hd] at h
    simp only at h
    rw [if_pos (by simpa using hq)] at h
    cases hr : quotedLen q false t with
    | some n => rw [hr] at h; simp at h
    | none =>
      rcases quotedLen_none hr x y hxy with ⟨_, h⟩ | h
      · cases h
      · exact h
  · intro h
    cases hr : s.takeQuotedString with
    | none => rfl
    | some m =>
      exfalso
      obtain ⟨q, hq, e, h2, h3, _⟩ := C36_quoted_string_some s m hr
      exact h2 (h q _ (by rw [e]; simp) hq m.item.data m.after.data rfl)

example : ((Span.new "'a\\'b' c".toList).takeQuotedString).map (fun m => (m.item.data, m.after.data)) =
    some ("a\\'b".toList, " c".toList) := by decide
example : (Span.new "'abc\\'".toList).takeQuotedString = none := by decide

/-! ## C48 -/

theorem isAsciiAlnum_iff (c : Char) : isAsciiAlnum c = true ↔ Spec.Letter c ∨ Spec.Digit c := by
  unfold isAsciiAlnum isAsciiAlpha isAsciiDigit Spec.Letter Spec.Digit
  simp only [Bool.or_eq_true, Bool.and_eq_true, decide_eq_true_eq]

theorem isAsciiAlpha_iff (c : Char) : isAsciiAlpha c = true ↔ Spec.Letter c := by
  unfold isAsciiAlpha Spec.Letter
  simp only [Bool.or_eq_true, Bool.and_eq_true, decide_eq_true_eq]

/-- The common shape of the three scanners. -/
theorem name_scan {first cont : Char → Prop} {f g : Char → Bool} (hf : ∀ c, f c = true ↔ first c)
    (hg : ∀ c, g c = true ↔ cont c) (s : Span) (r : Option (MI Span))
    (hr : r = match s.data with
      | [] => none
      | c :: cs => if f c then some (s.cut (1 + prefLen g cs)) else none) :
    (∀ m, r = some m → s.data = m.item.data ++ m.after.data ∧
      Spec.MaxName first cont m.item.data m.after.data ∧ (∃ k, m = s.cut k)) ∧
    (r = none ↔ ¬ Spec.StartsName first s.data) := by
  subst hr
  constructor
  · intro m h
    split at h
    · simp at h
    · rename_i c cs hd
      split at h
      · rename_i hc
        have h := Option.some.inj h
        subst h
        refine ⟨by simp [cut], ⟨⟨c, cs.take (prefLen g cs), ?_, (hf c).mp hc, ?_⟩, ?_⟩, _, rfl⟩
        · simp [cut, hd, Nat.add_comm 1]
        · intro d hd'; exact (hg d).mp (prefLen_take _ _ d hd')
        · intro d r' h' hd'
          have : prefLen g cs ≤ cs.length := prefLen_le _ _
          have := prefLen_drop g cs (c := d) (r := r') (by
            rw [← h']; simp [cut, hd, Nat.add_comm 1])
          rw [(hg d).mpr hd'] at this; cases this
      · simp at h
  · constructor
    · rintro h ⟨c, cs, hd, hc⟩
      rw [hd] at h
      simp [(hf c).mpr hc] at h
    · intro h
      split
      · rfl
      · rename_i c cs hd
        rw [if_neg]
        intro hc
        exact h ⟨c, cs, hd, (hf c).mp hc⟩

/-- C48. Identifiers: a letter or `_`, then letters, digits and `_`. -/
theorem C48_ident (s : Span) :
    (∀ m, s.takeIdent = some m → s.data = m.item.data ++ m.after.data ∧
      Spec.MaxName (fun c => Spec.Letter c ∨ c = '_') (fun c => (Spec.Letter c ∨ Spec.Digit c) ∨ c = '_')
        m.item.data m.after.data ∧ (∃ k, m = s.cut k)) ∧
    (s.takeIdent = none ↔ ¬ Spec.StartsName (fun c => Spec.Letter c ∨ c = '_') s.data) := by
  apply name_scan (f := fun c => isAsciiAlpha c || c == '_') (g := fun c => isAsciiAlnum c || c == '_')
  · intro c; simp [isAsciiAlpha_iff]
  · intro c; simp [isAsciiAlnum_iff]
  · rfl

/-- C48. Attribute names: a letter or digit, then letters, digits and `-`. -/
theorem C48_attr_name (s : Span) :
    (∀ m, s.takeAttrName = some m → s.data = m.item.data ++ m.after.data ∧
      Spec.MaxName (fun c => Spec.Letter c ∨ Spec.Digit c)
        (fun c => (Spec.Letter c ∨ Spec.Digit c) ∨ c = '-')
        m.item.data m.after.data ∧ (∃ k, m = s.cut k)) ∧
    (s.takeAttrName = none ↔ ¬ Spec.StartsName (fun c => Spec.Letter c ∨ Spec.Digit c) s.data) := by
  apply name_scan (f := fun c => isAsciiAlnum c) (g := fun c => isAsciiAlnum c || c == '-')
  · intro c; simp [isAsciiAlnum_iff]
  · intro c; simp [isAsciiAlnum_iff]
  · rfl

/-- C48. User attribute names: a letter, digit or `_`, then letters, digits, `_` and `-`. -/
theorem C48_user_attr_name (s : Span) :
    (∀ m, s.takeUserAttrName = some m → s.data = m.item.data ++ m.after.data ∧
      Spec.MaxName (fun c => (Spec.Letter c ∨ Spec.Digit c) ∨ c = '_')
        (fun c => ((Spec.Letter c ∨ Spec.Digit c) ∨ c = '_') ∨ c = '-')
        m.item.data m.after.data ∧ (∃ k, m = s.cut k)) ∧
    (s.takeUserAttrName = none ↔
      ¬ Spec.StartsName (fun c => (Spec.Letter c ∨ Spec.Digit c) ∨ c = '_') s.data) := by
  apply name_scan (f := fun c => isAsciiAlnum c || c == '_')
    (g := fun c => isAsciiAlnum c || c == '_' || c == '-')
  · intro c; simp [isAsciiAlnum_iff]
  · intro c; simp [isAsciiAlnum_iff]
  · rfl

/-- C48. XML names: accepted exactly when the text is not empty, starts with a name-start character and goes on
with name characters, for every choice of the Unicode tables. -/
theorem C48_xml_name [Uni] (s : Span) :
    s.isXmlName = true ↔ ∃ c cs, s.data = c :: cs ∧
      (c = ':' ∨ c = '_' ∨ (c.toNat ≠ 0x37e ∧ Uni.isAlphabetic c = true)) ∧
      ∀ d ∈ cs, d = ':' ∨ d = '_' ∨ d = '.' ∨ d = '-' ∨ d.toNat = 0xb7 ∨
        (d.toNat ≠ 0x37e ∧ (Uni.isAlphabetic d = true ∨ Uni.isNumeric d = true)) := by
  unfold isXmlName
  constructor
  · intro h
    split at h
    · cases h
    · rename_i c cs hd
      refine ⟨c, cs, hd, ?_, ?_⟩
      · simp at h; rcases h.1 with (h | h) | h
        · exact Or.inl h
        · exact Or.inr (Or.inl h)
        · exact Or.inr (Or.inr h)
      · intro d hd'
        simp at h
        rcases h.2 d hd' with ((((h | h) | h) | h) | h) | h <;> simp [h]
  · rintro ⟨c, cs, hd, h1, h2⟩
    rw [hd]
    simp
    refine ⟨?_, ?_⟩
    · rcases h1 with h | h | h <;> simp [h]
    · intro d hd'
      rcases h2 d hd' with h | h | h | h | h | h <;> simp [h]

example : ((Span.new "a-1_b: x".toList).takeUserAttrName).map (fun m => (m.item.data, m.after.data)) =
    some ("a-1_b".toList, ": x".toList) := by decide
example : (Span.new "_a".toList).takeAttrName = none := by decide

end Adoc.Props
