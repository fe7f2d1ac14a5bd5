import Verif.Spec.Warnings
import Verif.Lemmas.Refs
import Verif.Lemmas.Begin
import Verif.Lemmas.Preprocessor
/-!
# Unterminated blocks and the warnings about them
-/

namespace Adoc
open Span Spec

/-- The text of the span is followed by the end of the document, or consists of whole lines. -/
def Region (doc : Text) (s : Span) : Prop :=
  ∃ a n, a + n ≤ doc.length ∧ s = ((Span.new doc).dropN a).takeN n ∧ (a + n = doc.length ∨ WholeLines s.data)

theorem takeWhole {t : Text} (h : WholeLines t) (k : Nat) : WholeLines (t.drop k) := by
  rcases h with rfl | ⟨r, rfl⟩
  · left; simp
  · by_cases hk : k ≤ r.length
    · right; exact ⟨r.drop k, by rw [List.drop_append_of_le_length hk]⟩
    · left; apply List.drop_eq_nil_of_le; simp; omega

theorem Region.suf {doc : Text} {s r : Span} (h : Region doc s) (hr : Suf r s) : Region doc r := by
  obtain ⟨a, n, h1, rfl, h2⟩ := h
  obtain ⟨k, hk, rfl⟩ := hr
  have hl : (((Span.new doc).dropN a).takeN n).data.length = n := by
    simp [Span.new]; omega
  rw [hl] at hk
  refine ⟨a + k, n - k, by omega, ?_, ?_⟩
  · rw [takeN_dropN _ hk, dropN_dropN]
  · rcases h2 with h2 | h2
    · left; omega
    · right; rw [dropN_data]; exact takeWhole h2 k

/-- The whole lines in front of a later text. -/
theorem Region.whole {doc : Text} {s : Span} (h : Region doc s) {k : Nat} (hk : WholeLines (s.data.take k)) :
    Region doc (s.takeN k) := by
  obtain ⟨a, n, h1, rfl, h2⟩ := h
  refine ⟨a, min k n, by omega, ?_, Or.inr (by rw [takeN_data]; exact hk)⟩
  rw [takeN_takeN]

/-- The place of a span is unique. -/
theorem at_pre {doc pre : Text} {a n : Nat} (h : At doc pre (((Span.new doc).dropN a).takeN n)) : pre = doc.take a := by
  obtain ⟨post, hp⟩ := h.piece
  have ho := h.offset
  rw [takeN_offset, dropN_offset, ← blen_eq_utf8ByteSize] at ho
  have hd : pre ++ ((((Span.new doc).dropN a).takeN n).data ++ post) = doc.take a ++ doc.drop a := by
    rw [List.take_append_drop, ← List.append_assoc]; exact hp.symm
  refine blen_prefix hd ?_
  rw [← ho]; simp [Span.new]

theorem takeWhile_cut {x y : Text} (h : '\n' ∈ x) : (x ++ y).takeWhile (· ≠ '\n') = x.takeWhile (· ≠ '\n') := by
  induction x with
  | nil => cases h
  | cons c x ih =>
    by_cases hc : c = '\n'
    · subst hc; simp
    · have : '\n' ∈ x := by
        rcases List.mem_cons.mp h with h | h
        · exact absurd h.symm hc
        · exact h
      simp only [List.cons_append, List.takeWhile_cons, ne_eq, hc, not_false_eq_true, decide_true, if_true]
      rw [← ih this]

theorem takeWhile_none {x : Text} (h : '\n' ∉ x) : x.takeWhile (· ≠ '\n') = x := by
  induction x with
  | nil => rfl
  | cons c x ih =>
    have hc : c ≠ '\n' := by rintro rfl; exact h (by simp)
    simp only [List.takeWhile_cons, ne_eq, hc, not_false_eq_true, decide_true, if_true]
    rw [ih fun hm => h (by simp [hm])]

/-- To the end of the line. -/
theorem to_line_end {M tail : Text} {k : Nat} (hk : k ≤ M.length) (ht : tail = [] ∨ WholeLines M)
    (he : k = M.length → tail = []) :
    ∃ j, k ≤ j ∧ j ≤ M.length ∧ (M.drop j = [] ∨ ∃ r, M.drop j = '\n' :: r) ∧
      M.take k ++ (M.drop k ++ tail).takeWhile (· ≠ '\n') = M.take j := by
  by_cases hn : '\n' ∈ M.drop k
  · rw [takeWhile_cut hn]
    have hd := List.takeWhile_append_dropWhile (p := fun c : Char => decide (c ≠ '\n')) (l := M.drop k)
    generalize hx : (M.drop k).takeWhile (· ≠ '\n') = x at *
    cases hy : (M.drop k).dropWhile (· ≠ '\n') with
    | nil =>
      rw [hy, List.append_nil] at hd
      rw [← hd] at hn
      rw [← hx] at hn
      have := mem_takeWhile hn
      simp at this
    | cons c r =>
      have hc : c = '\n' := by
        have := List.head?_dropWhile_not (fun c => decide (c ≠ '\n')) (M.drop k)
        rw [hy] at this
        simpa using this
      subst hc
      rw [hy] at hd
      have hM : M = M.take k ++ x ++ '\n' :: r := by
        rw [List.append_assoc, hd, List.take_append_drop]
      have hl : (M.take k).length = k := by rw [List.length_take]; omega
      have hj : (M.take k ++ x).length = k + x.length := by rw [List.length_append, hl]
      generalize M.take k ++ x = y at hM hj ⊢
      subst hM
      refine ⟨y.length, by omega, by simp, Or.inr ⟨r, by simp⟩, by simp⟩
  · have htail : tail = [] := by
      rcases ht with ht | ht
      · exact ht
      · apply he
        rcases takeWhole ht k with h | ⟨r, h⟩
        · have := List.drop_eq_nil_iff.mp h; omega
        · rw [h] at hn; simp at hn
    subst htail
    rw [List.append_nil, takeWhile_none hn, List.take_append_drop]
    exact ⟨M.length, hk, Nat.le_refl _, Or.inl (by simp), by simp⟩

/-- The lines of the beginning of a text, up to the end of a line. -/
theorem rawLines_prefix (a : Text) : rawLines a <+: rawLines (a ++ ['\n']) := by
  generalize hn : a.length = n
  induction n using Nat.strongRecOn generalizing a with
  | ind n ih =>
    by_cases h : '\n' ∈ a
    · obtain ⟨p, r, rfl, hp⟩ := List.eq_append_cons_of_mem h
      have e2 : p ++ '\n' :: r ++ ['\n'] = p ++ '\n' :: (r ++ ['\n']) := by simp
      rw [e2, rawLines_cons hp, rawLines_cons hp]
      exact List.cons_prefix_cons.mpr ⟨rfl, ih r.length (by simp at hn; omega) r rfl⟩
    · rw [rawLines_cons h]
      by_cases h0 : a = []
      · subst h0; simp
      · rw [rawLines_single h h0]; simp

theorem lines_prefix (a : Text) : lines a <+: lines (a ++ ['\n']) := List.IsPrefix.map _ (rawLines_prefix a)

theorem lines_take {M : Text} {j : Nat} (h : M.drop j = [] ∨ ∃ r, M.drop j = '\n' :: r) : lines (M.take j) <+: lines M := by
  rcases h with h | ⟨r, h⟩
  · have := List.take_append_drop j M
    rw [h, List.append_nil] at this
    rw [this]; exact List.prefix_rfl
  · have := List.take_append_drop j M
    rw [h] at this
    conv => rhs; rw [← this, lines_append]
    exact (lines_prefix _).trans (List.prefix_append _ _)

/-- The lines of a block: `k` characters of the text, with the `n`-th line among them. -/
theorem blockLines {doc : Text} {s : Span} (hr : Region doc s) {k n : Nat} (hk : k ≤ s.data.length)
    (he : k = s.data.length → ¬ ∃ r, s.data = r ++ ['\n']) (hn : (s.skip n).data ≠ [])
    (hkn : s.data.length < k + (s.skip n).data.length) :
    ∃ N, n < N ∧ ∀ b : Block, b.source = s.takeN k → ∀ ls, BlockLines doc b ls ↔ ls = (lines s.data).take N := by
  have hr0 := hr
  obtain ⟨a, m, h1, hs, h2⟩ := hr
  have hdata : s.data = (doc.drop a).take m := by rw [hs]; simp [Span.new]
  have hlen : s.data.length = m := by rw [hdata, List.length_take, List.length_drop]; omega
  have htail : doc.drop (a + m) = [] ∨ WholeLines s.data := by
    rcases h2 with h2 | h2
    · left; rw [h2]; simp
    · exact Or.inr h2
  have he' : k = s.data.length → doc.drop (a + m) = [] := by
    intro e
    rcases htail with h | h | h
    · exact h
    · rw [h] at hkn e; exact absurd (suf_nil (skip_suf s n) h) hn
    · exact absurd h (he e)
  obtain ⟨j, j1, j2, j3, j4⟩ := to_line_end hk htail he'
  obtain ⟨raw, r1, r2, r3, r4⟩ := skip_prefix s n
  have hw : WholeLines raw := by
    rcases r4 with h | h
    · exact absurd h hn
    · exact h
  have hnl : n < (lines s.data).length := by
    rcases Nat.lt_or_ge n (lines s.data).length with h | h
    · exact h
    · have := lines_skip s n
      rw [List.drop_eq_nil_of_le h, lines_eq_nil] at this
      exact absurd this hn
  have hrl : (lines raw).length = n := by rw [r3, List.length_take]; omega
  have hlen1 := congrArg List.length r1
  rw [List.length_append] at hlen1
  have hN : n < (lines (s.data.take j)).length := by
    have hx : ∃ c x, s.data.take j = raw ++ c :: x := by
      have : s.data.take j = raw ++ (s.skip n).data.take (j - raw.length) := by
        conv => lhs; rw [r1]
        rw [List.take_append, List.take_of_length_le (by omega)]
      cases hd : (s.skip n).data.take (j - raw.length) with
      | nil =>
        have := congrArg List.length hd
        rw [List.length_take, List.length_nil] at this
        have := List.length_pos_iff.mpr hn
        omega
      | cons c x => exact ⟨c, x, by rw [this, hd]⟩
    obtain ⟨c, x, hx⟩ := hx
    have hpos : 0 < (lines (c :: x)).length := by
      rw [List.length_pos_iff]; intro h; exact absurd (lines_eq_nil.mp h) (by simp)
    rw [hx]
    rcases hw with rfl | ⟨r, rfl⟩
    · rw [lines_nil] at hrl; rw [List.nil_append]; simp at hrl; omega
    · have e : r ++ ['\n'] ++ c :: x = r ++ '\n' :: (c :: x) := by simp
      rw [e, lines_append, List.length_append, hrl]
      omega
  refine ⟨(lines (s.data.take j)).length, hN, fun b hb ls => ?_⟩
  have htake : lines (s.data.take j) = (lines s.data).take (lines (s.data.take j)).length :=
    List.prefix_iff_eq_take.mp (lines_take j3)
  rw [← htake, ← j4]
  have hsrc : b.source = ((Span.new doc).dropN a).takeN (min k m) := by rw [hb, hs, takeN_takeN]
  have hbd : b.source.data = s.data.take k := by rw [hb, takeN_data]
  have hdoc : doc = doc.take a ++ s.data.take k ++ (s.data.drop k ++ doc.drop (a + m)) := by
    rw [List.append_assoc, ← List.append_assoc (s.data.take k), List.take_append_drop, hdata, ← List.drop_drop,
      List.take_append_drop, List.take_append_drop]
  constructor
  · rintro ⟨pre, post, q1, q2, rfl⟩
    rw [hsrc] at q1
    have := at_pre q1
    subst this
    rw [hbd] at q2 ⊢
    have := q2.symm.trans hdoc
    rw [List.append_cancel_left this]
  · rintro rfl
    obtain ⟨pre, q⟩ := (faithful_iff_sub doc b.source).mpr (by
      rw [hsrc]; exact ⟨a, min k m, by simp [Span.new]; omega, rfl⟩)
    have q' := q
    rw [hsrc] at q'
    have := at_pre q'
    subst this
    exact ⟨_, _, q, by rw [hbd]; exact hdoc, by rw [hbd]⟩

/-- The metadata do not depend on the lines behind the line behind them. -/
theorem metaItems_swap [Uni] {used : List MetaKind} {ls r : List Text} {is : List MetaItem} {d : Text} {rest : List Text}
    (h : MetaItems used ls is r) (hr : r = d :: rest) :
    ∃ ms, ls = ms ++ d :: rest ∧ ms.length = is.length ∧ ∀ rest', MetaItems used (ms ++ d :: rest') is (d :: rest') := by
  induction h with
  | stop hn =>
    subst hr
    refine ⟨[], rfl, rfl, fun rest' => .stop ?_⟩
    intro l rs i e hl
    cases e
    exact hn _ _ _ rfl hl
  | item hl hu _ ih =>
    obtain ⟨ms, e, hlen, h⟩ := ih hr
    exact ⟨_ :: ms, by rw [e]; rfl, by simp [hlen], fun rest' => .item hl hu (h rest')⟩

theorem whole_count {raw : Text} (h : WholeLines raw) : (rawLines raw).length = raw.count '\n' := by
  generalize hn : raw.length = n
  induction n using Nat.strongRecOn generalizing raw with
  | ind n ih =>
    rcases h with rfl | ⟨r, rfl⟩
    · simp
    · by_cases h : '\n' ∈ r
      · obtain ⟨p, q, rfl, hp⟩ := List.eq_append_cons_of_mem h
        have e : p ++ '\n' :: q ++ ['\n'] = p ++ '\n' :: (q ++ ['\n']) := by simp
        rw [e, rawLines_cons hp, List.length_cons, ih (q ++ ['\n']).length (by simp at hn ⊢; omega) (Or.inr ⟨q, rfl⟩) rfl,
          List.count_append (l₁ := p), List.count_cons (l := q ++ ['\n']), List.count_eq_zero.mpr hp]
        simp
      · rw [rawLines_cons h, List.count_append, List.count_eq_zero.mpr h]
        simp

theorem takeN_line (s : Span) (k : Nat) : (s.takeN k).line = s.line := by
  rw [takeN_eq]; simp [mkPos, pos]

variable [Uni]

/-- The line of a line. -/
theorem skip_line_no {s : Span} {n : Nat} (h : (s.skip n).data ≠ []) : (s.skip n).line = s.line + n := by
  obtain ⟨raw, r1, r2, r3, r4⟩ := skip_prefix s n
  have hw : WholeLines raw := by
    rcases r4 with h' | h'
    · exact absurd h' h
    · exact h'
  have hnl : n < (lines s.data).length := by
    rcases Nat.lt_or_ge n (lines s.data).length with h' | h'
    · exact h'
    · have := lines_skip s n
      rw [List.drop_eq_nil_of_le h', lines_eq_nil] at this
      exact absurd this h
  have hrl : (lines raw).length = n := by rw [r3, List.length_take]; omega
  rw [lines, List.length_map, whole_count hw] at hrl
  rw [r2, dropN_line]
  congr 1
  rw [r1, List.take_left, hrl]

/-- How many lines of metadata there are in front of a block. -/
theorem meta_count {subs : Subs} {store : AttrStore} {s : Span} {m : BlockMetadata} {mw : List Warning}
    (hm : BlockMetadata.parse subs store s = .ok (m, mw)) (h : m.blockStart.data ≠ []) :
    ∃ is, MetaItems [] (lines m.source.data) is (lines m.blockStart.data) ∧ m.blockStart = m.source.skip is.length := by
  obtain ⟨is, h1, _⟩ := Props.C27_reads hm
  rw [← lines_discardEmptyLines, ← meta_source hm] at h1
  obtain ⟨_, ⟨n, _, h2⟩, _⟩ := Props.C27_spans hm
  have hn : n = is.length := by
    have e := lines_skip m.source n
    rw [← h2] at e
    cases hl : lines m.blockStart.data with
    | nil => exact absurd (lines_eq_nil.mp hl) h
    | cons d rest =>
      obtain ⟨ms, e1, e2, _⟩ := metaItems_swap h1 hl
      rw [hl] at e
      have l1 := congrArg List.length e1
      have l2 := congrArg List.length e
      simp only [List.length_append, List.length_cons, List.length_drop] at l1 l2
      omega
  exact ⟨is, h1, by rw [← hn]; exact h2⟩

theorem opened {doc : Text} {subs : Subs} {store : AttrStore} {s : Span} {m : BlockMetadata} {mw : List Warning}
    (hm : BlockMetadata.parse subs store s = .ok (m, mw)) (hr : Region doc s) {d : Text} {rest : List Text} {b : Block} {k : Nat}
    (hl : lines m.blockStart.data = d :: rest) (hd : d ∉ rest) (hb : Delimited b) (hs : b.source = m.source.takeN k)
    (hk : k ≤ m.source.data.length) (he : k = m.source.data.length → ¬ ∃ r, m.source.data = r ++ ['\n'])
    (hkn : m.source.data.length < k + m.blockStart.data.length) :
    ∃ n, Unclosed doc b n d ∧ m.blockStart.line = b.source.line + n := by
  have hne : m.blockStart.data ≠ [] := by intro h; rw [h, lines_nil] at hl; cases hl
  obtain ⟨is, h1, h2⟩ := meta_count hm hne
  rw [h2] at hkn hne
  obtain ⟨N, hN, hls⟩ := blockLines (hr.suf (meta_suf hm).1) hk he hne hkn
  obtain ⟨ms, e1, e2, e3⟩ := metaItems_swap h1 hl
  have et : (lines m.source.data).take N = ms ++ d :: rest.take (N - ms.length - 1) := by
    rw [e1, List.take_append, List.take_of_length_le (by omega)]
    obtain ⟨i, hi⟩ : ∃ i, N - ms.length = i + 1 := ⟨N - ms.length - 1, by omega⟩
    rw [hi, List.take_succ_cons]; rfl
  refine ⟨is.length, ⟨hb, _, is, _, (hls b hs _).mpr rfl, et ▸ e3 _, rfl, fun h => hd (List.mem_of_mem_take h)⟩, ?_⟩
  have : b.source.line = m.source.line := by rw [hs, takeN_line]
  rw [h2, skip_line_no hne, this]

theorem closed {doc : Text} {subs : Subs} {store : AttrStore} {s : Span} {m : BlockMetadata} {mw : List Warning}
    (hm : BlockMetadata.parse subs store s = .ok (m, mw)) (hr : Region doc s) {d : Text} {pre post : List Text} {b : Block}
    {k : Nat} (hl : lines m.blockStart.data = d :: pre ++ d :: post) (hs : b.source = m.source.takeN k)
    (hk : k ≤ m.source.data.length) (he : k = m.source.data.length → ¬ ∃ r, m.source.data = r ++ ['\n'])
    (hc : (m.blockStart.skip (pre.length + 1)).data ≠ [])
    (hkn : m.source.data.length < k + (m.blockStart.skip (pre.length + 1)).data.length) : ¬ ∃ n d, Unclosed doc b n d := by
  have hne : m.blockStart.data ≠ [] := by intro h; rw [h, lines_nil] at hl; cases hl
  obtain ⟨is, h1, h2⟩ := meta_count hm hne
  rw [h2, skip_add] at hkn hc
  obtain ⟨N, hN, hls⟩ := blockLines (hr.suf (meta_suf hm).1) hk he hc hkn
  obtain ⟨ms, e1, e2, e3⟩ := metaItems_swap h1 hl
  rintro ⟨n, d', _, ls, is', rest, q1, q2, _, q3⟩
  rw [(hls b hs ls).mp q1] at q2
  have et : (lines m.source.data).take N = ms ++ d :: (pre ++ d :: post).take (N - ms.length - 1) := by
    rw [e1, List.take_append, List.take_of_length_le (by omega)]
    obtain ⟨i, hi⟩ : ∃ i, N - ms.length = i + 1 := ⟨N - ms.length - 1, by omega⟩
    rw [hi]
    show _ ++ (d :: (pre ++ d :: post)).take (i + 1) = _
    rw [List.take_succ_cons]; rfl
  rw [et] at q2
  have := ((e3 _).det q2).2
  cases this
  apply q3
  rw [List.take_append, List.mem_append]
  right
  obtain ⟨i, hi⟩ : ∃ i, N - ms.length - 1 - pre.length = i + 1 := ⟨N - ms.length - 1 - pre.length - 1, by omega⟩
  rw [hi, List.take_succ_cons]
  simp

omit [Uni] in
theorem trimEnd_reach {a r : Text} {c : Char} (hc : isWhite c = false) : a.length < (trimEnd (a ++ c :: r)).length := by
  obtain ⟨w, e, hw⟩ := trimEndP_spec isWhite (a ++ c :: r)
  have e : a ++ c :: r = trimEnd (a ++ c :: r) ++ w := e
  generalize trimEnd (a ++ c :: r) = x at e ⊢
  rcases Nat.lt_or_ge a.length x.length with h | h
  · exact h
  · rcases List.append_eq_append_iff.mp e with ⟨y, rfl, h2⟩ | ⟨y, rfl, h2⟩
    · cases y with
      | nil =>
        rw [List.nil_append] at h2
        rw [← h2] at hw
        simp [hc] at hw
      | cons z y => simp at h; omega
    · rw [h2] at hw
      simp [hc] at hw

omit [Uni] in
theorem trimEnd_no_end {t : Text} (h : (trimEnd t).length = t.length) : ¬ ∃ r, t = r ++ ['\n'] := by
  rintro ⟨r, rfl⟩
  have := trimEndP_length_le isWhite r
  rw [show r ++ ['\n'] = r ++ ['\n'] from rfl] at h
  have e : trimEnd (r ++ ['\n']) = trimEnd r := trimEndP_append_all (by decide)
  rw [e] at h
  unfold trimEnd at h
  simp at h
  omega

omit [Uni] in
theorem lineEnd_short {s : Span} : ∃ k, k ≤ s.data.length ∧ s.data.length ≤ k + 2 ∧ s.trimTrailingLineEnd = s.takeN k ∧
    (k = s.data.length → ¬ ∃ r, s.data = r ++ ['\n']) := by
  obtain ⟨k, hk, e, hw⟩ := trimTrailingLineEnd_spec s
  refine ⟨k, hk, ?_, e, ?_⟩
  · rcases hw with h | ⟨h, _⟩ | ⟨h, _⟩ <;> have := congrArg List.length h <;> simp at this <;> omega
  · rintro rfl ⟨r, hr⟩
    rw [List.take_length] at hw
    rcases hw with h | ⟨h, _⟩ | ⟨_, h⟩
    · have := congrArg List.length h; simp at this
    · have := congrArg List.length h; simp at this
    · exact h r hr

omit [Uni] in
/-- A line and what is behind it. -/
theorem line_length {s : Span} {d : Text} {rest : List Text} (h : lines s.data = d :: rest) :
    s.data ≠ [] ∧ (s.skip 1).data.length + d.length ≤ s.data.length := by
  have hne : s.data ≠ [] := by intro h0; rw [h0, lines_nil] at h; cases h
  refine ⟨hne, ?_⟩
  have hl := lines_cons s hne
  rw [h] at hl
  obtain ⟨rfl, _⟩ := List.cons.inj hl
  obtain ⟨i, k, e, h1, h2⟩ := normLine_shape s
  have ha : s.skip 1 = s.takeNormalizedLine.after := by rw [normLine_after]; rfl
  rw [ha, e]
  simp only [dropN_data, takeN_data, List.length_drop, List.length_take]
  omega

/-- No warning about an unterminated block. -/
def Quiet (ws : List Warning) : Prop := ∀ w ∈ ws, w.warning ≠ .unterminatedDelimitedBlock

omit [Uni] in
theorem Quiet.append {a b : List Warning} (ha : Quiet a) (hb : Quiet b) : Quiet (a ++ b) := by
  intro w hw
  rcases List.mem_append.mp hw with hw | hw
  · exact ha w hw
  · exact hb w hw

omit [Uni] in
theorem quiet_nil : Quiet [] := fun w hw => by cases hw

theorem meta_ended {subs : Subs} {store : AttrStore} {s : Span} {m : BlockMetadata} {mw : List Warning}
    (h : BlockMetadata.parse subs store s = .ok (m, mw)) : Quiet mw := by
  intro w hw he
  have := (meta_meek h w hw).2
  rw [he] at this
  exact this

omit [Uni] in
theorem titleLine_ended {ar : Arith} {s : Span} {mi : Option (MI (Nat × Span))} {tw : List Warning}
    (h : parseTitleLine ar s = .ok (mi, tw)) : Quiet tw := by
  rcases titleLine_cases ar s _ rfl with ⟨_, e⟩ | ⟨hm, e⟩ | ⟨n, hn, hm, e⟩ | ⟨_, t, e⟩ | ⟨l, t, _, e⟩ | ⟨_, _, _, _, _, e⟩
  · rw [e] at h; cases h; exact quiet_nil
  · rw [e] at h; cases h
    intro w hw; rw [List.mem_singleton.mp hw]; nofun
  · rw [e] at h; cases h
    intro w hw; rw [List.mem_singleton.mp hw]; nofun
  · rw [e] at h
    cases ar with
    | checked => cases h
    | wrapping => cases h; exact quiet_nil
  · rw [e] at h; cases h; exact quiet_nil
  · rw [e] at h; cases h; exact quiet_nil

omit [Uni] in
theorem noHeading_ended {e : BlockEnv} {m : BlockMetadata} {sw : List Warning} (h : NoHeading e m sw) : Quiet sw := by
  rcases h with rfl | h
  · exact quiet_nil
  · exact titleLine_ended h

theorem check_ended {e : BlockEnv} {s : Span} {stop stop' : Stop} {b : Bool} {sw : List Warning}
    (h : stop.check e s = .ok (b, stop', sw)) : Quiet sw := by
  cases stop with
  | never => cases h; exact quiet_nil
  | always => cases h; exact quiet_nil
  | peer level mr =>
    unfold Stop.check peerOrAncestor at h
    simp only [bind, Except.bind] at h
    cases hm : BlockMetadata.parse e.dsubs AttrStore.default s with
    | error x => rw [hm] at h; cases h
    | ok y =>
      obtain ⟨m, mw⟩ := y
      rw [hm] at h
      simp only at h
      cases hd : m.isDiscrete with
      | true => rw [hd] at h; cases h; exact quiet_nil
      | false =>
        rw [hd] at h
        simp only [Bool.false_eq_true, if_false] at h
        cases ht : parseTitleLine e.ar m.blockStart with
        | error x => rw [ht] at h; cases h
        | ok y =>
          obtain ⟨mi, tw⟩ := y
          have htw := titleLine_ended ht
          rw [ht] at h
          cases mi with
          | none => cases h; exact htw
          | some mi =>
            simp only at h
            cases hl : e.ar.succ mr with
            | error x => rw [hl] at h; cases h
            | ok limit =>
              rw [hl] at h
              cases h
              refine htw.append fun w hw => ?_
              split at hw
              · rw [List.mem_singleton.mp hw]; nofun
              · cases hw

omit [Uni] in
theorem register_ended (p : ParserState) (m : Meta) (sp : Span) : Quiet (registerBlockId p m sp).2 := by
  unfold registerBlockId
  intro w hw
  split at hw
  · split at hw
    · cases hw
    · rw [List.mem_singleton.mp hw]; nofun
  · cases hw

theorem entry_ended (s : AttrStore) (a : Attribute) : Quiet (s.setFromBody a).2.toList := by
  intro w hw
  unfold AttrStore.setFromBody at hw
  simp only at hw
  split at hw
  · simp at hw; subst hw; nofun
  · simp at hw

theorem Spec.Reports.append {doc : Text} {a b : List Warning} {as bs : List Block} (ha : Reports doc a as) (hb : Reports doc b bs) :
    Reports doc (a ++ b) (as ++ bs) := by
  induction ha with
  | nil => exact hb
  | other h _ ih => exact .other h ih
  | closed h _ ih => exact .closed h ih
  | unclosed h1 h2 h3 _ ih => exact .unclosed h1 h2 h3 ih

theorem Quiet.reports {doc : Text} : ∀ {ws : List Warning}, Quiet ws → Reports doc ws []
  | [], _ => .nil
  | _ :: _, h => .other (h _ (by simp)) (Quiet.reports fun w hw => h w (by simp [hw]))

theorem Quiet.front {doc : Text} {a b : List Warning} {bs : List Block} (h : Quiet a) (hb : Reports doc b bs) :
    Reports doc (a ++ b) bs := h.reports.append hb

theorem Quiet.back {doc : Text} {a b : List Warning} {bs : List Block} (ha : Reports doc a bs) (h : Quiet b) :
    Reports doc (a ++ b) bs := by
  have := ha.append (h.reports (doc := doc))
  rwa [List.append_nil] at this

theorem free_block {doc : Text} {b : Block} (h : ¬ Delimited b) {ws : List Warning} {bs : List Block} (hq : Reports doc ws bs) :
    Reports doc ws (b :: bs) := .closed (fun ⟨_, _, hu, _⟩ => h hu) hq

theorem raw_reports {doc : Text} {subs : Subs} {store store' : AttrStore} {subs' : Subs} {s : Span} {m : BlockMetadata}
    {mw ws : List Warning} {rb : RawBlock} {after : Span} (hm : BlockMetadata.parse subs' store' s = .ok (m, mw)) (hr : Region doc s)
    (h : RawBlock.parse subs store m = .ok (some (⟨rb, after⟩, ws))) :
    Reports doc ws [.mk (.raw rb.content rb.model rb.context rb.group) rb.source m.fields []] := by
  have hs := (meta_suf hm).2
  have hd : ∃ c, RawDelim c m.blockStart.takeNormalizedLine.item.data :=
    Classical.byContradiction fun hn => by
      have := rawBlock_none (subs := subs) (store := store) hn
      rw [h] at this; cases this
  obtain ⟨c, hc⟩ := hd
  have hlen : 4 ≤ m.blockStart.takeNormalizedLine.item.data.length := by
    obtain ⟨_, n, hn⟩ := hc
    rw [hn]; simp
  rcases rawBlock_spec (subs := subs) (store := store) rfl hc hs with
    ⟨pre, post, raw, body, src, aft, e1, e2, _, _, _, _, rfl, e7, e8, e⟩ | ⟨k, body, src, aft, e1, e2, _, rfl, e5, e6, e8, e⟩
  · rw [e] at h
    generalize subs _ _ _ _ = q at h
    cases q with
    | error x => cases h
    | ok r =>
      cases h
      obtain ⟨q, q1, q2, q3⟩ := trimRemainder?_suf ((skip_suf m.blockStart (pre.length + 2)).trans hs)
      rw [q3] at e8
      cases e8
      obtain ⟨k, k1, k2, k3, k4⟩ := lineEnd_short (s := m.source.takeN q)
      have hql : (m.source.takeN q).data.length = q := by rw [takeN_data, List.length_take]; omega
      rw [hql] at k1 k2 k4
      have hcl : lines (m.blockStart.skip (pre.length + 1)).data =
          m.blockStart.takeNormalizedLine.item.data :: post := by
        rw [lines_skip, e1]; simp
      have hll := (line_length hcl).2
      rw [skip_add] at hll
      have hql2 := congrArg (fun x => x.data.length) q2
      simp only [dropN_data, List.length_drop] at hql2
      refine .closed (closed (k := k) hm hr e1 ?_ (by omega) ?_ e7 ?_) .nil
      · show Span.trimTrailingLineEnd _ = _
        rw [k3, takeN_takeN, Nat.min_eq_left k1]
      · intro hk
        have hq : q = m.source.data.length := by omega
        have := k4 (by omega)
        rwa [takeN_data, hq, List.take_length] at this
      · show _ < k + (m.blockStart.skip (pre.length + 1)).data.length
        have : pre.length + 1 + 1 = pre.length + 2 := rfl
        rw [this] at hll
        omega
  · rw [e] at h
    cases h
    obtain ⟨q, q1, q2, q3⟩ := trimRemainder?_suf ((skip_suf m.blockStart k).trans hs)
    rw [q3] at e8
    cases e8
    obtain ⟨k', k1, k2, k3, k4⟩ := lineEnd_short (s := m.source.takeN q)
    have hql : (m.source.takeN q).data.length = q := by rw [takeN_data, List.length_take]; omega
    rw [hql] at k1 k2 k4
    have hll := (line_length e1).2
    have hql2 := congrArg (fun x => x.data.length) q2
    simp only [dropN_data, List.length_drop] at hql2
    rw [e6] at hql2
    simp only [List.length_nil] at hql2
    obtain ⟨n, u1, u2⟩ := opened (b := .mk (.raw ⟨m.blockStart.takeLine.after.trimTrailingLineEnd, m.blockStart.takeLine.after.trimTrailingLineEnd.data⟩
        (rawBlockKind c).1 (rawBlockKind c).2.1 (rawBlockKind c).2.2) (m.source.takeN q).trimTrailingLineEnd m.fields [])
      (k := k') hm hr e1 e2 trivial (by
        show Span.trimTrailingLineEnd _ = _
        rw [k3, takeN_takeN, Nat.min_eq_left k1]) (by omega) (by
        intro hk
        have hq : q = m.source.data.length := by omega
        have := k4 (by omega)
        rwa [takeN_data, hq, List.take_length] at this) (by omega)
    subst_vars
    refine .unclosed rfl u1 ?_ .nil
    rw [← u2]
    obtain ⟨i, k, e, _⟩ := normLine_shape m.blockStart
    rw [e]
    exact takeN_line _ _

theorem leaf_reports {doc : Text} {e : BlockEnv} {p p' : ParserState} {s : Span} {b : Option (MI Block)} {ws : List Warning}
    (h : LeafStep e p s b ws p') (hr : Region doc s) :
    Reports doc ws (b.toList.map fun mi => mi.item) := by
  cases h with
  | fast hf => exact free_block id .nil
  | @entry a after hf => exact free_block id (entry_ended _ _).reports
  | @raw m mw ws rb after hm hf =>
    exact (meta_ended hm.parse).front (Quiet.back (raw_reports hm.parse hr hf) (register_ended _ _ _))
  | @media m mw ws mb after hm hf =>
    refine (meta_ended hm.parse).front (Quiet.back ?_ (register_ended _ _ _))
    refine free_block id (Quiet.reports fun w hw he => ?_)
    have := (media_meek hm.parse (mediaAt_some hf).2 w hw).2
    rw [he] at this
    exact this
  | @brk m mw sw ty src after hm hn hf =>
    exact free_block id ((meta_ended hm.parse).append (noHeading_ended hn.noHeading)).reports
  | @simple m mw sw ws lit b p' hfb hp =>
    rw [← List.append_assoc]
    refine ((meta_ended hfb.parse).append (noHeading_ended hfb.noHeading)).front ?_
    cases b with
    | none =>
      obtain ⟨_, h2⟩ := parseSimple_none hp
      exact Quiet.reports fun w hw => by rw [h2 w hw]; nofun
    | some mi =>
      obtain ⟨b, after⟩ := mi
      obtain ⟨m', sb, _, _, rfl, h4, rfl⟩ := parseSimple_some hp
      refine free_block id ?_
      rcases h4 with ⟨_, rfl⟩ | ⟨_, _, _, _, rfl⟩
      · exact (register_ended _ _ _).reports
      · exact .other nofun (register_ended _ _ _).reports

/-- A delimited block with nested blocks. -/
theorem compound_reports {doc : Text} {subs : Subs} {store : AttrStore} {s : Span} {m : BlockMetadata} {mw : List Warning}
    {context : Text} {inside closing after src : Span} (hm : BlockMetadata.parse subs store s = .ok (m, mw)) (hr : Region doc s)
    (ho : CompoundOpen m context inside closing after src) :
    Region doc inside ∧ ∀ cbs ws bs, Reports doc ws bs →
      Reports doc (if closing.data = [] then ⟨m.blockStart.takeNormalizedLine.item, .unterminatedDelimitedBlock⟩ :: ws else ws)
        (.mk (.compound context) src.trimTrailingWhitespace m.fields cbs :: bs) := by
  obtain ⟨_, hdel, hclose, hbody, hwhole⟩ := ho
  have hsuf := (meta_suf hm).2
  have hhead : ∃ c r, m.blockStart.takeNormalizedLine.item.data = c :: r ∧ isWhite c = false := by
    rcases isCompoundDelimiter_iff.mp hdel with h | ⟨c, n, hc, h⟩
    · rw [h]; exact ⟨_, _, rfl, by decide⟩
    · rw [h]
      exact ⟨c, _, List.replicate_succ, by rcases hc with rfl | rfl | rfl <;> decide⟩
  obtain ⟨c, r, hline, hw⟩ := hhead
  obtain ⟨r', hstart⟩ := line_head hline
  have hne : m.blockStart.data ≠ [] := by rw [hstart]; simp
  have hl := lines_cons m.blockStart hne
  rw [normLine_after] at hclose hbody
  have hX : Region doc m.blockStart.takeLine.after :=
    hr.suf ((takeLine_after_suf _).trans (hsuf.trans (meta_suf hm).1))
  rcases findClosing_spec m.blockStart.takeNormalizedLine.item.data m.blockStart.takeLine.after.data.length
      m.blockStart.takeLine.after (Nat.le_refl _) with
    ⟨k, pre, post, l, e1, e2, e3, e4, e5, e6⟩ | ⟨k, e1, e2, e3⟩
  · rcases hclose with ⟨rest, hc⟩ | ⟨hc, _⟩
    · rw [e1] at hc
      have hl' : l = ⟨closing, after⟩ := by cases hc; rfl
      rw [hl'] at e2
      subst e5
      obtain ⟨i, k', h1, h2, h3⟩ := normLine_shape (m.blockStart.takeLine.after.skip pre.length)
      have hcd : lines (m.blockStart.takeLine.after.skip pre.length).data = m.blockStart.takeNormalizedLine.item.data :: post := by
        rw [lines_skip, e3]; simp
      have hcl := lines_cons _ e6
      rw [hcd] at hcl
      have hdd := (List.cons.inj hcl).1
      rw [h1] at e2 hdd
      cases e2
      have hcd' : ((m.blockStart.takeLine.after.skip pre.length).takeN i).data = c :: r := by rw [← hdd, hline]
      obtain ⟨raw, r1, r2, r3, r4⟩ := skip_prefix m.blockStart.takeLine.after pre.length
      have hrw : WholeLines raw := by
        rcases r4 with h | h
        · exact absurd h e6
        · exact h
      refine ⟨?_, fun cbs ws bs hb => ?_⟩
      · have := trimRemainder?_offset (s := m.blockStart.takeLine.after)
          (a := (m.blockStart.takeLine.after.skip pre.length).takeN i)
          (b := m.blockStart.takeLine.after.dropN raw.length) (by rw [takeN_offset, r2])
        rw [this, trimRemainder?_dropN _ (by rw [r1]; simp)] at hbody
        cases hbody
        exact hX.whole (by rw [r1, List.take_left]; exact hrw)
      · rw [if_neg (by rw [hcd']; simp)]
        refine .closed ?_ hb
        have hoff : ((m.blockStart.takeLine.after.skip pre.length).takeN i).discardAll.offset =
            ((m.blockStart.takeLine.after.skip pre.length).dropN i).offset := by
          unfold Span.discardAll Span.discard Span.cut
          simp only
          rw [dropN_offset, dropN_offset, takeN_offset, takeN_data]
          congr 2
          exact List.take_of_length_le (Nat.le_refl _)
        rw [trimRemainder?_offset hoff] at hwhole
        have hsk : m.blockStart.takeLine.after.skip pre.length = m.blockStart.skip (pre.length + 1) := rfl
        rw [hsk] at hwhole hcd' e6 h3
        obtain ⟨q, q1, q2, q3⟩ := trimRemainder?_suf
          ((dropN_suf (m.blockStart.skip (pre.length + 1)) i).trans ((skip_suf m.blockStart (pre.length + 1)).trans hsuf))
        rw [q3] at hwhole
        cases hwhole
        obtain ⟨j, j1, j2⟩ := (skip_suf m.blockStart (pre.length + 1)).trans hsuf
        have hjd : (m.blockStart.skip (pre.length + 1)).data = m.source.data.drop j := by rw [j2, dropN_data]
        have hjl := congrArg List.length hjd
        rw [List.length_drop] at hjl
        have hqj : q = j + i := by
          have := congrArg (fun x => x.data.length) q2
          simp only [dropN_data, List.length_drop] at this
          omega
        have hsd : (m.source.takeN q).data = m.source.data.take j ++ c :: r := by
          rw [takeN_data, hqj, List.take_add, ← hcd', takeN_data, hjd]
        have hreach := trimEnd_reach (a := m.source.data.take j) (r := r) hw
        rw [← hsd, List.length_take, Nat.min_eq_left j1] at hreach
        have hle := trimEndP_length_le isWhite (m.source.takeN q).data
        have hle' : (trimEnd (m.source.takeN q).data).length ≤ q := by
          have : (m.source.takeN q).data.length ≤ q := by rw [takeN_data, List.length_take]; omega
          exact Nat.le_trans hle this
        refine closed (d := m.blockStart.takeNormalizedLine.item.data) (pre := pre) (post := post)
          (k := (trimEnd (m.source.takeN q).data).length) hm hr ?_ ?_ ?_ ?_ ?_ ?_
        · rw [hl, e3]; rfl
        · show Span.trimTrailingWhitespace _ = _
          unfold Span.trimTrailingWhitespace
          rw [takeN_takeN, Nat.min_eq_left hle']
        · omega
        · intro hk
          have hq : q = m.source.data.length := by omega
          rw [hq, takeN_data, List.take_length] at hk
          exact trimEnd_no_end hk
        · exact e6
        · show m.source.data.length < _ + (m.blockStart.skip (pre.length + 1)).data.length
          omega
    · rw [e1] at hc; cases hc
  · rcases hclose with ⟨rest, hc⟩ | ⟨hc, hac⟩
    · rw [e1] at hc; cases hc
    · rw [e1] at hc
      have hcl : closing = m.blockStart.takeLine.after.skip k := by cases hc; rfl
      subst hcl
      refine ⟨?_, fun cbs ws bs hb => ?_⟩
      · obtain ⟨q, q1, q2, q3⟩ := trimRemainder?_suf (skip_suf m.blockStart.takeLine.after k)
        rw [q3] at hbody
        cases hbody
        rw [q2, dropN_data, List.drop_eq_nil_iff] at e2
        rw [takeN_all _ e2]
        exact hX
      · rw [if_pos e2]
        have hda : (m.blockStart.takeLine.after.skip k).discardAll = m.blockStart.takeLine.after.skip k := by
          unfold Span.discardAll Span.discard Span.cut
          simp only
          rw [e2]; simp
        rw [hda] at hwhole
        obtain ⟨q, q1, q2, q3⟩ := trimRemainder?_suf
          ((skip_suf m.blockStart.takeLine.after k).trans ((takeLine_after_suf _).trans hsuf))
        rw [q3] at hwhole
        cases hwhole
        rw [q2, dropN_data, List.drop_eq_nil_iff] at e2
        rw [takeN_all _ e2]
        obtain ⟨j, j1, j2⟩ := hsuf
        have hjd : m.blockStart.data = m.source.data.drop j := by
          have := congrArg Span.data j2
          rwa [dropN_data] at this
        have hsd : m.source.data = m.source.data.take j ++ c :: r' := by
          rw [← hstart, hjd, List.take_append_drop]
        have hreach := trimEnd_reach (a := m.source.data.take j) (r := r') hw
        rw [← hsd, List.length_take, Nat.min_eq_left j1] at hreach
        have hjl := congrArg List.length hjd
        rw [List.length_drop] at hjl
        have hle := trimEndP_length_le isWhite m.source.data
        obtain ⟨n, u1, u2⟩ := opened (b := .mk (.compound context) m.source.trimTrailingWhitespace m.fields cbs)
          (k := (trimEnd m.source.data).length) hm hr hl e3 trivial rfl hle trimEnd_no_end (by omega)
        refine .unclosed rfl u1 ?_ hb
        rw [← u2]
        obtain ⟨i, k, e, _⟩ := normLine_shape m.blockStart
        rw [e]
        exact takeN_line _ _

theorem leaf_children {e : BlockEnv} {p p' : ParserState} {s : Span} {b : Block} {after : Span} {ws : List Warning}
    (h : LeafStep e p s (some ⟨b, after⟩) ws p') : preorder b = [b] := by
  have := (leaf_geo h).2.1
  cases b
  simp only [Block.children] at this
  subst this
  rw [preorder, preorderAll]

theorem run_reports {doc : Text} {e : BlockEnv} {stop : Stop} {p p' : ParserState} {s s' : Span} {bs : List Block}
    {ws sw : List Warning} (h : Run e stop p s bs s' ws sw p') :
    Region doc s → Reports doc ws (preorderAll bs) ∧ Quiet sw := by
  induction h with
  | done _ => exact fun _ => ⟨.nil, quiet_nil⟩
  | halt _ hk => exact fun _ => ⟨.nil, check_ended hk⟩
  | @leaf stop stop' p p1 p2 s s' sw sw' ws ws' b after bs _ hk hl _ ih =>
    intro hr
    have h1 := leaf_reports hl hr
    obtain ⟨h2, h3⟩ := ih (hr.suf (leaf_geo hl).1.suf)
    refine ⟨?_, (check_ended hk).append h3⟩
    rw [preorderAll, leaf_children hl]
    exact h1.append h2
  | @stuck stop stop' p p1 p2 s s' sw sw' ws ws' bs _ hk hl _ ih =>
    intro hr
    obtain ⟨h2, h3⟩ := ih hr
    exact ⟨(leaf_reports hl hr).append h2, (check_ended hk).append h3⟩
  | @compound stop stop' p p1 p2 s s' sw sw' ws' bs m mw context inside closing after src cbs cs cws csw h1 hk hm ho r1 r2
      ih1 ih2 =>
    intro hr
    obtain ⟨g1, g2⟩ := compound_reports hm.parse hr ho
    obtain ⟨i1, _⟩ := ih1 (g1.suf (discardEmptyLines_suf _))
    obtain ⟨_, _, _, _, g5⟩ := compound_geo hm.parse ho
    have hs := meta_suf hm.parse
    obtain ⟨i2, i3⟩ := ih2 (hr.suf (g5.trans ((takeLine_after_suf _).trans (hs.2.trans hs.1))))
    refine ⟨?_, (check_ended hk).append i3⟩
    rw [preorderAll, preorder]
    exact Reports.append ((meta_ended hm.parse).front (Quiet.back (g2 cbs _ _ i1) (register_ended _ _ _))) i2
  | @«section» stop stop' p p1 p2 p3 s s' sw sw' ws' bs m mw mi tw cbs cs cws csw src dupSrc title base id dup h1 hk hm
      hstart ht r1 hclose r2 ih1 ih2 =>
    intro hr
    have hs := meta_suf hm.parse
    obtain ⟨t1, t2, t3, _⟩ := titleLine_geo ht
    have hbs : Suf m.blockStart.discardEmptyLines s := (discardEmptyLines_suf _).trans (hs.2.trans hs.1)
    have hin : Suf mi.after.discardEmptyLines s := by
      rw [t2]
      exact (discardEmptyLines_suf _).trans ((takeLine_after_suf _).trans hbs)
    have hcs : Suf cs s := by
      obtain ⟨k, _, he, _⟩ := run_tidy r1
      rw [he]
      exact (dropN_suf _ _).trans hin
    obtain ⟨i1, i1'⟩ := ih1 (hr.suf hin)
    obtain ⟨i2, i3⟩ := ih2 (hr.suf hcs)
    refine ⟨?_, (check_ended hk).append i3⟩
    rw [preorderAll, preorder]
    refine Reports.append ((meta_ended hm.parse).front (Quiet.front ?_ (free_block ?_ i1))) i2
    rotate_left
    · exact fun h => h
    refine ((titleLine_ended ht).append i1').append fun w hw => ?_
    obtain ⟨i, _, rfl⟩ := List.mem_map.mp hw
    nofun

end Adoc
