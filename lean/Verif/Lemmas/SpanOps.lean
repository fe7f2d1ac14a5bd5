import Verif.Lemmas.Line
/-! # The span operations as one inductive type, and the proof that each yields a sub-span -/

namespace Adoc

/-- Every operation of `span/*.rs` that produces a span, with its arguments.  `…Item` is the matched item and
`…After` the remainder of an operation that returns both. -/
inductive SpanOp where
  | slice (i j : Nat) | sliceFrom (i : Nat) | sliceTo (j : Nat)
  | intoParseResultItem (n : Nat) | intoParseResultAfter (n : Nat)
  | splitAtMatchNonEmptyItem (p : Char → Bool) | splitAtMatchNonEmptyAfter (p : Char → Bool)
  | takePrefixItem (p : Text) | takePrefixAfter (p : Text)
  | takeWhileItem (p : Char → Bool) | takeWhileAfter (p : Char → Bool)
  | takeRequiredWhitespaceItem | takeRequiredWhitespaceAfter
  | discard (n : Nat) | discardWhitespace | discardAll | discardEmptyLines
  | takeLineItem | takeLineAfter | takeNormalizedLineItem | takeNormalizedLineAfter
  | takeNonEmptyLineItem | takeNonEmptyLineAfter | takeEmptyLineItem | takeEmptyLineAfter
  | takeLineWithContinuationItem | takeLineWithContinuationAfter
  | takeIdentItem | takeIdentAfter | takeAttrNameItem | takeAttrNameAfter
  | takeUserAttrNameItem | takeUserAttrNameAfter
  | takeQuotedStringItem | takeQuotedStringAfter
  | trimRemainder (after : Span)
  | trimTrailingWhitespace | trimTrailingLineEnd

/-- Run one operation; `none` = the operation reports no match, or panics. -/
def SpanOp.run : SpanOp → Span → Option Span
  | .slice i j, s => s.slice? i j
  | .sliceFrom i, s => s.sliceFrom? i
  | .sliceTo j, s => s.sliceTo? j
  | .intoParseResultItem n, s => (s.intoParseResult? n).map MI.item
  | .intoParseResultAfter n, s => (s.intoParseResult? n).map MI.after
  | .splitAtMatchNonEmptyItem p, s => (s.splitAtMatchNonEmpty p).map MI.item
  | .splitAtMatchNonEmptyAfter p, s => (s.splitAtMatchNonEmpty p).map MI.after
  | .takePrefixItem p, s => (s.takePrefix p).map MI.item
  | .takePrefixAfter p, s => (s.takePrefix p).map MI.after
  | .takeWhileItem p, s => some (s.takeWhile p).item
  | .takeWhileAfter p, s => some (s.takeWhile p).after
  | .takeRequiredWhitespaceItem, s => s.takeRequiredWhitespace.map MI.item
  | .takeRequiredWhitespaceAfter, s => s.takeRequiredWhitespace.map MI.after
  | .discard n, s => some (s.discard n)
  | .discardWhitespace, s => some s.discardWhitespace
  | .discardAll, s => some s.discardAll
  | .discardEmptyLines, s => some s.discardEmptyLines
  | .takeLineItem, s => some s.takeLine.item
  | .takeLineAfter, s => some s.takeLine.after
  | .takeNormalizedLineItem, s => some s.takeNormalizedLine.item
  | .takeNormalizedLineAfter, s => some s.takeNormalizedLine.after
  | .takeNonEmptyLineItem, s => s.takeNonEmptyLine.map MI.item
  | .takeNonEmptyLineAfter, s => s.takeNonEmptyLine.map MI.after
  | .takeEmptyLineItem, s => s.takeEmptyLine.map MI.item
  | .takeEmptyLineAfter, s => s.takeEmptyLine.map MI.after
  | .takeLineWithContinuationItem, s => s.takeLineWithContinuation.map MI.item
  | .takeLineWithContinuationAfter, s => s.takeLineWithContinuation.map MI.after
  | .takeIdentItem, s => s.takeIdent.map MI.item
  | .takeIdentAfter, s => s.takeIdent.map MI.after
  | .takeAttrNameItem, s => s.takeAttrName.map MI.item
  | .takeAttrNameAfter, s => s.takeAttrName.map MI.after
  | .takeUserAttrNameItem, s => s.takeUserAttrName.map MI.item
  | .takeUserAttrNameAfter, s => s.takeUserAttrName.map MI.after
  | .takeQuotedStringItem, s => s.takeQuotedString.map MI.item
  | .takeQuotedStringAfter, s => s.takeQuotedString.map MI.after
  | .trimRemainder a, s => s.trimRemainder? a
  | .trimTrailingWhitespace, s => some s.trimTrailingWhitespace
  | .trimTrailingLineEnd, s => some s.trimTrailingLineEnd

namespace Span

/-- Item is a part of the span, remainder a suffix of it. -/
def MISub (m : MI Span) (s : Span) : Prop := Sub m.item s ∧ Suf m.after s

theorem cut_misub (s : Span) (k : Nat) : MISub (s.cut k) s := ⟨takeN_sub _ _, dropN_suf _ _⟩

theorem trimItemEnd_misub {m : MI Span} {s : Span} (c : Char) (h : MISub m s) :
    MISub (m.trimItemEnd c) s := by
  unfold MI.trimItemEnd
  split
  · exact ⟨(takeN_sub _ _).trans h.1, h.2⟩
  · exact h

theorem trimAfterStart_misub {m : MI Span} {s : Span} (c : Char) (h : MISub m s) :
    MISub (m.trimAfterStart c) s := by
  unfold MI.trimAfterStart
  split
  · exact ⟨h.1, (dropN_suf _ _).trans h.2⟩
  · exact h

theorem trimSpaces_misub {m : MI Span} {s : Span} (h : MISub m s) :
    MISub m.trimItemTrailingSpaces s := ⟨(takeN_sub _ _).trans h.1, h.2⟩

theorem intoParseResult?_misub {s : Span} {n : Nat} {m : MI Span}
    (h : s.intoParseResult? n = some m) : MISub m s := by
  unfold intoParseResult? sliceTo? sliceFrom? at h
  simp only at h
  split at h
  · rename_i i a h1 h2
    have h := Option.some.inj h
    subst h
    refine ⟨slice?_sub h1, ?_⟩
    obtain ⟨old, mid, post, e1, e2, e3, rfl⟩ := slice?_iff.mp h2
    have hp : post = [] := by
      apply blen_eq_zero.mp
      have := congrArg blen e1
      simp only [blen_append] at this
      omega
    subst hp
    rw [sliceInternal_eq_dropN_takeN e1]
    show Suf _ s
    have hm : (s.dropN old.length).data.length = mid.length := by simp [e1]
    rw [takeN_all _ (by omega)]
    exact dropN_suf _ _
  · simp at h

theorem takeLine_misub (s : Span) : MISub s.takeLine s := ⟨takeLine_item_sub s, takeLine_after_suf s⟩

theorem contLoop_suf (n : Nat) (s : Span) : Suf (contLoop n s) s := by
  induction n generalizing s with
  | zero => exact Suf.refl s
  | succ n ih =>
    rw [contLoop]
    split
    · rename_i l hl
      have : l = s.takeNormalizedLine := by
        unfold oneLineWithContinuation at hl; simp only at hl; split at hl <;> simp_all
      subst this
      exact (ih _).trans (takeLine_after_suf s)
    · exact Suf.refl s

theorem takeLineWithContinuation_misub {s : Span} {m : MI Span}
    (h : s.takeLineWithContinuation = some m) : MISub m s := by
  unfold takeLineWithContinuation at h
  simp only at h
  split at h
  · simp at h
  · have h := Option.some.inj h
    subst h
    exact trimSpaces_misub (trimItemEnd_misub _ (trimItemEnd_misub _ (cut_misub _ _)))

theorem takeQuotedString_misub {s : Span} {m : MI Span}
    (h : s.takeQuotedString = some m) : MISub m s := by
  unfold takeQuotedString at h
  split at h
  · simp at h
  · split at h
    · split at h
      · have h := Option.some.inj h
        subst h
        exact ⟨(takeN_sub _ _).trans (dropN_suf _ _).sub, dropN_suf _ _⟩
      · simp at h
    · simp at h

theorem trimRemainder?_some {s a r : Span} (h : s.trimRemainder? a = some r) :
    ∃ k, k ≤ s.data.length ∧ r = s.takeN k := by
  have key : ∀ n, s.slice? 0 n = some r → ∃ k, k ≤ s.data.length ∧ r = s.takeN k := by
    intro n h
    obtain ⟨old, mid, post, e1, e2, e3, rfl⟩ := slice?_iff.mp h
    have := blen_eq_zero.mp e2
    subst this
    rw [sliceInternal_eq_dropN_takeN e1]
    exact ⟨mid.length, by simp [e1], by simp⟩
  unfold trimRemainder? at h
  simp only at h
  split at h
  · exact key _ h
  · exact key _ h

end Span

open Span in
theorem SpanOp.run_sub {op : SpanOp} {s r : Span} (h : op.run s = some r) : Sub r s := by
  have key1 : ∀ {o : Option (MI Span)}, (∀ m, o = some m → MISub m s) →
      o.map MI.item = some r → Sub r s := by
    intro o ho h
    cases o with
    | none => simp at h
    | some m => simp at h; subst h; exact (ho m rfl).1
  have key2 : ∀ {o : Option (MI Span)}, (∀ m, o = some m → MISub m s) →
      o.map MI.after = some r → Sub r s := by
    intro o ho h
    cases o with
    | none => simp at h
    | some m => simp at h; subst h; exact (ho m rfl).2.sub
  have hsplit : ∀ p m, s.splitAtMatchNonEmpty p = some m → MISub m s := by
    intro p m h
    unfold splitAtMatchNonEmpty at h
    split at h
    · simp at h
    · have h := Option.some.inj h; subst h; exact cut_misub _ _
  have hpre : ∀ p m, s.takePrefix p = some m → MISub m s := by
    intro p m h
    unfold takePrefix at h
    split at h
    · have h := Option.some.inj h; subst h; exact cut_misub _ _
    · simp at h
  have hreq : ∀ m, s.takeRequiredWhitespace = some m → MISub m s := by
    intro m h
    unfold takeRequiredWhitespace at h
    simp only at h
    split at h
    · simp at h
    · have h := Option.some.inj h; subst h; exact cut_misub _ _
  have hnorm : MISub s.takeNormalizedLine s := trimSpaces_misub (takeLine_misub s)
  have hne : ∀ m, s.takeNonEmptyLine = some m → MISub m s := by
    intro m h
    rw [takeNonEmptyLine_eq] at h
    split at h
    · simp at h
    · have h := Option.some.inj h; subst h; exact hnorm
  have hem : ∀ m, s.takeEmptyLine = some m → MISub m s := by
    intro m h
    unfold takeEmptyLine at h
    simp only at h
    split at h
    · have h := Option.some.inj h; subst h; exact takeLine_misub s
    · simp at h
  have hid : ∀ m, s.takeIdent = some m → MISub m s := by
    intro m h
    unfold takeIdent at h
    split at h
    · simp at h
    · split at h
      · have h := Option.some.inj h; subst h; exact cut_misub _ _
      · simp at h
  have han : ∀ m, s.takeAttrName = some m → MISub m s := by
    intro m h
    unfold takeAttrName at h
    split at h
    · simp at h
    · split at h
      · have h := Option.some.inj h; subst h; exact cut_misub _ _
      · simp at h
  have hun : ∀ m, s.takeUserAttrName = some m → MISub m s := by
    intro m h
    unfold takeUserAttrName at h
    split at h
    · simp at h
    · split at h
      · have h := Option.some.inj h; subst h; exact cut_misub _ _
      · simp at h
  cases op <;> simp only [SpanOp.run] at h
  case slice => exact slice?_sub h
  case sliceFrom => exact slice?_sub h
  case sliceTo => exact slice?_sub h
  case intoParseResultItem => exact key1 (fun m hm => intoParseResult?_misub hm) h
  case intoParseResultAfter => exact key2 (fun m hm => intoParseResult?_misub hm) h
  case splitAtMatchNonEmptyItem => exact key1 (hsplit _) h
  case splitAtMatchNonEmptyAfter => exact key2 (hsplit _) h
  case takePrefixItem => exact key1 (hpre _) h
  case takePrefixAfter => exact key2 (hpre _) h
  case takeWhileItem => have h := Option.some.inj h; subst h; exact (cut_misub _ _).1
  case takeWhileAfter => have h := Option.some.inj h; subst h; exact (cut_misub _ _).2.sub
  case takeRequiredWhitespaceItem => exact key1 hreq h
  case takeRequiredWhitespaceAfter => exact key2 hreq h
  case discard => have h := Option.some.inj h; subst h; exact (cut_misub _ _).2.sub
  case discardWhitespace => have h := Option.some.inj h; subst h; exact (cut_misub _ _).2.sub
  case discardAll => have h := Option.some.inj h; subst h; exact (cut_misub _ _).2.sub
  case discardEmptyLines => have h := Option.some.inj h; subst h; exact (discardEmptyLines_suf s).sub
  case takeLineItem => have h := Option.some.inj h; subst h; exact takeLine_item_sub s
  case takeLineAfter => have h := Option.some.inj h; subst h; exact (takeLine_after_suf s).sub
  case takeNormalizedLineItem => have h := Option.some.inj h; subst h; exact hnorm.1
  case takeNormalizedLineAfter => have h := Option.some.inj h; subst h; exact hnorm.2.sub
  case takeNonEmptyLineItem => exact key1 hne h
  case takeNonEmptyLineAfter => exact key2 hne h
  case takeEmptyLineItem => exact key1 hem h
  case takeEmptyLineAfter => exact key2 hem h
  case takeLineWithContinuationItem =>
    exact key1 (fun m hm => takeLineWithContinuation_misub hm) h
  case takeLineWithContinuationAfter =>
    exact key2 (fun m hm => takeLineWithContinuation_misub hm) h
  case takeIdentItem => exact key1 hid h
  case takeIdentAfter => exact key2 hid h
  case takeAttrNameItem => exact key1 han h
  case takeAttrNameAfter => exact key2 han h
  case takeUserAttrNameItem => exact key1 hun h
  case takeUserAttrNameAfter => exact key2 hun h
  case takeQuotedStringItem => exact key1 (fun m hm => takeQuotedString_misub hm) h
  case takeQuotedStringAfter => exact key2 (fun m hm => takeQuotedString_misub hm) h
  case trimRemainder => obtain ⟨k, _, rfl⟩ := trimRemainder?_some h; exact takeN_sub _ _
  case trimTrailingWhitespace => have h := Option.some.inj h; subst h; exact takeN_sub _ _
  case trimTrailingLineEnd =>
    have h := Option.some.inj h
    subst h
    unfold Span.trimTrailingLineEnd
    split
    · exact takeN_sub _ _
    · split
      · exact takeN_sub _ _
      · exact Sub.refl s

namespace Span

/-- Cutting at a suffix never panics and returns the consumed prefix. -/
theorem trimRemainder?_dropN (s : Span) {k : Nat} (hk : k ≤ s.data.length) :
    s.trimRemainder? (s.dropN k) = some (s.takeN k) := by
  unfold trimRemainder?
  have hle : blen (s.data.take k) ≤ blen s.data := by
    conv => rhs; rw [← List.take_append_drop k s.data]
    rw [blen_append]; omega
  rw [dropN_offset]
  have hmin : min (s.offset + blen s.data) (s.offset + blen (s.data.take k)) =
      s.offset + blen (s.data.take k) := by omega
  rw [hmin]
  have h1 : s.slice? 0 (blen (s.data.take k)) = some (s.takeN k) := by
    have := slice?_blen (s := s) (old := []) (mid := s.data.take k) (post := s.data.drop k) (by simp)
    have e : ([] : Text).length = 0 := rfl
    rw [blen_nil, Nat.zero_add, e, dropN_zero, List.length_take, Nat.min_eq_left hk] at this
    exact this
  simp only
  split
  · rename_i h
    have h0 : blen (s.data.take k) = 0 := by omega
    rw [h0] at h1; exact h1
  · rw [Nat.add_sub_cancel_left]; exact h1

/-- Cutting one span of a document at the start of another span of the same document never panics. -/
theorem trimRemainder?_ne_none {doc : Span} {s a : Span} (hs : Sub s doc) (ha : Sub a doc) :
    ∃ r, s.trimRemainder? a = some r := by
  obtain ⟨k, m, h1, rfl⟩ := hs
  obtain ⟨l, n, h2, rfl⟩ := ha
  generalize hS : (doc.dropN k).takeN m = S
  have hSd : S.data = (doc.data.drop k).take m := by rw [← hS]; simp
  have hSo : S.offset = doc.offset + blen (doc.data.take k) := by
    rw [← hS, takeN_offset, dropN_offset]
  have hAo : ((doc.dropN l).takeN n).offset = doc.offset + blen (doc.data.take l) := by
    rw [takeN_offset, dropN_offset]
  unfold trimRemainder?
  rw [hAo]
  simp only
  have hmono : ∀ a b : Nat, a ≤ b → blen (doc.data.take a) ≤ blen (doc.data.take b) := by
    intro a b hab
    have : doc.data.take b = doc.data.take a ++ (doc.data.drop a).take (b - a) := by
      rw [← List.take_add, Nat.add_sub_cancel' hab]
    rw [this, blen_append]; omega
  have cutAt : ∀ j, j ≤ S.data.length → ∃ r, S.slice? 0 (blen (S.data.take j)) = some r := by
    intro j hj
    have := slice?_blen (s := S) (old := []) (mid := S.data.take j) (post := S.data.drop j) (by simp)
    rw [blen_nil, Nat.zero_add] at this
    exact ⟨_, this⟩
  have hSl : S.data.length = m := by rw [hSd]; simp; omega
  split
  · exact cutAt 0 (by omega)
  · rename_i hlt
    by_cases hlk : l ≤ k
    · exact absurd (Nat.le_trans (Nat.min_le_right _ _) (by rw [hSo]; have := hmono l k hlk; omega)) hlt
    · by_cases hlm : l ≤ k + m
      · have : min (S.offset + blen S.data) (doc.offset + blen (doc.data.take l)) - S.offset
            = blen (S.data.take (l - k)) := by
          have e1 : doc.data.take l = doc.data.take k ++ S.data.take (l - k) := by
            rw [hSd, List.take_take, Nat.min_eq_left (by omega), ← List.take_add]
            congr 1; omega
          have e2 : blen (S.data.take (l - k)) ≤ blen S.data := by
            conv => rhs; rw [← List.take_append_drop (l - k) S.data]
            rw [blen_append]; omega
          rw [e1, blen_append, hSo]; omega
        rw [this]
        exact cutAt _ (by omega)
      · have : min (S.offset + blen S.data) (doc.offset + blen (doc.data.take l)) - S.offset
            = blen (S.data.take m) := by
          have e1 : doc.data.take (k + m) = doc.data.take k ++ S.data := by
            rw [hSd, ← List.take_add]
          have e2 := hmono (k + m) l (by omega)
          rw [e1, blen_append] at e2
          rw [List.take_of_length_le (by omega : S.data.length ≤ m), hSo]; omega
        rw [this]
        exact cutAt _ (by omega)

end Span
end Adoc
