import Verif.Lemmas.Text
import Verif.Spec.Span
/-! # Helper lemmas about spans -/

namespace Adoc

theorem Span.ext' {a b : Span} (h1 : a.data = b.data) (h2 : a.line = b.line) (h3 : a.col = b.col)
    (h4 : a.offset = b.offset) : a = b := by
  cases a; cases b; simp_all

/-- Advance a (line, col, offset) position over one character. -/
def adv (p : Nat × Nat × Nat) (c : Char) : Nat × Nat × Nat :=
  if c = '\n' then (p.1 + 1, 1, p.2.2 + c.utf8Size) else (p.1, p.2.1 + 1, p.2.2 + c.utf8Size)

def Span.pos (s : Span) : Nat × Nat × Nat := (s.line, s.col, s.offset)

def Span.mkPos (data : Text) (p : Nat × Nat × Nat) : Span :=
  { data := data, line := p.1, col := p.2.1, offset := p.2.2 }

@[simp] theorem Span.mkPos_pos (d : Text) (p : Nat × Nat × Nat) : (Span.mkPos d p).pos = p := rfl
@[simp] theorem Span.mkPos_data (d : Text) (p : Nat × Nat × Nat) : (Span.mkPos d p).data = d := rfl
@[simp] theorem Span.mkPos_eta (s : Span) : Span.mkPos s.data s.pos = s := rfl

theorem foldl_adv (old : Text) (l c o : Nat) :
    old.foldl adv (l, c, o) =
      (l + old.count '\n',
       (if old.count '\n' = 0 then c + (old.reverse.takeWhile (· ≠ '\n')).length
        else (old.reverse.takeWhile (· ≠ '\n')).length + 1),
       o + blen old) := by
  induction old using snocInd with
  | nil => simp
  | snoc t d ih =>
    rw [List.foldl_append, ih]
    by_cases hd : d = '\n'
    · subst hd
      simp [adv, List.count_append]
      omega
    · simp [adv, hd, List.count_append, blen_append]
      constructor
      · split <;> omega
      · omega

namespace Span

theorem sliceInternal_eq (s : Span) (old new : Text) :
    s.sliceInternal old new = mkPos new (old.foldl adv s.pos) := by
  unfold sliceInternal pos
  rw [foldl_adv]
  split
  · rename_i h; subst h; simp [mkPos]
  · rfl

@[simp] theorem dropN_data (s : Span) (k : Nat) : (s.dropN k).data = s.data.drop k := by
  simp [dropN, sliceInternal_eq]

@[simp] theorem takeN_data (s : Span) (k : Nat) : (s.takeN k).data = s.data.take k := by
  simp [takeN, sliceInternal_eq]

@[simp] theorem takeN_pos (s : Span) (k : Nat) : (s.takeN k).pos = s.pos := by
  simp [takeN, sliceInternal_eq]

theorem dropN_eq (s : Span) (k : Nat) :
    s.dropN k = mkPos (s.data.drop k) ((s.data.take k).foldl adv s.pos) := by
  simp [dropN, sliceInternal_eq]

theorem takeN_eq (s : Span) (k : Nat) : s.takeN k = mkPos (s.data.take k) s.pos := by
  simp [takeN, sliceInternal_eq]

@[simp] theorem dropN_zero (s : Span) : s.dropN 0 = s := by
  simp [dropN_eq]

theorem takeN_all (s : Span) {k : Nat} (h : s.data.length ≤ k) : s.takeN k = s := by
  simp [takeN_eq, List.take_of_length_le h]

theorem dropN_dropN (s : Span) (a b : Nat) : (s.dropN a).dropN b = s.dropN (a + b) := by
  rw [dropN_eq, dropN_eq, dropN_eq]
  simp only [mkPos_data, mkPos_pos, List.drop_drop]
  congr 1
  rw [← List.foldl_append, List.take_add]

theorem takeN_takeN (s : Span) (a b : Nat) : (s.takeN a).takeN b = s.takeN (min b a) := by
  simp [takeN_eq, List.take_take]

theorem takeN_dropN (s : Span) {a b : Nat} (h : b ≤ a) :
    (s.takeN a).dropN b = (s.dropN b).takeN (a - b) := by
  simp only [takeN_eq, dropN_eq, mkPos_data, mkPos_pos, List.drop_take, List.take_take]
  rw [Nat.min_eq_left h]

theorem dropN_offset (s : Span) (k : Nat) :
    (s.dropN k).offset = s.offset + blen (s.data.take k) := by
  rw [dropN_eq]; simp [mkPos, pos, foldl_adv]

theorem takeN_offset (s : Span) (k : Nat) : (s.takeN k).offset = s.offset := by
  rw [takeN_eq]; simp [mkPos, pos]

/-- Byte-indexed slicing succeeds exactly on character boundaries and then is `sliceInternal`. -/
theorem slice?_iff {s r : Span} {i j : Nat} :
    s.slice? i j = some r ↔
      ∃ old mid post, s.data = old ++ mid ++ post ∧ blen old = i ∧ blen old + blen mid = j ∧
        r = s.sliceInternal old mid := by
  unfold slice?
  constructor
  · intro h
    split at h
    · rename_i old mid heq
      simp at h
      obtain ⟨post, h1, h2, h3⟩ := sliceB_iff.mp heq
      exact ⟨old, mid, post, h1, h2, h3, h.symm⟩
    · simp at h
  · rintro ⟨old, mid, post, h1, h2, h3, rfl⟩
    have := sliceB_iff.mpr ⟨post, h1, h2, h3⟩
    rw [this]

theorem sliceInternal_eq_dropN_takeN {s : Span} {old mid post : Text}
    (h : s.data = old ++ mid ++ post) :
    s.sliceInternal old mid = (s.dropN old.length).takeN mid.length := by
  rw [sliceInternal_eq, takeN_eq, dropN_eq]
  simp [h]

/-- A successful byte slice is a `dropN`/`takeN` pair. -/
theorem slice?_some {s r : Span} {i j : Nat} (h : s.slice? i j = some r) :
    ∃ k m, k + m ≤ s.data.length ∧ r = (s.dropN k).takeN m := by
  obtain ⟨old, mid, post, h1, _, _, rfl⟩ := slice?_iff.mp h
  exact ⟨old.length, mid.length, by simp [h1], sliceInternal_eq_dropN_takeN h1⟩

theorem slice?_blen {s : Span} {old mid post : Text} (h : s.data = old ++ mid ++ post) :
    s.slice? (blen old) (blen old + blen mid) = some ((s.dropN old.length).takeN mid.length) := by
  rw [slice?_iff]
  exact ⟨old, mid, post, h, rfl, rfl, (sliceInternal_eq_dropN_takeN h).symm⟩

/-- The character-indexed `cut` agrees with the byte-indexed `into_parse_result`. -/
theorem intoParseResult?_eq_cut (s : Span) (k : Nat) :
    s.intoParseResult? (blen (s.data.take k)) = some (s.cut k) := by
  have hle : blen (s.data.take k) ≤ blen s.data := by
    conv => rhs; rw [← List.take_append_drop k s.data]
    rw [blen_append]; omega
  unfold intoParseResult? sliceTo? sliceFrom?
  rw [Nat.min_eq_right hle]
  have h1 : s.slice? 0 (blen (s.data.take k)) = some (s.takeN k) := by
    have := slice?_blen (s := s) (old := []) (mid := s.data.take k) (post := s.data.drop k) (by simp)
    have e : ([] : Text).length = 0 := rfl
    rw [blen_nil, Nat.zero_add, e, dropN_zero] at this
    rw [this, takeN_eq, takeN_eq]
    congr 1
    rw [List.length_take]
    by_cases hk : k ≤ s.data.length
    · rw [Nat.min_eq_left hk]
    · rw [Nat.min_eq_right (by omega), List.take_of_length_le (Nat.le_refl _),
        List.take_of_length_le (by omega)]
  have h2 : s.slice? (blen (s.data.take k)) (blen s.data) = some (s.dropN k) := by
    have := slice?_blen (s := s) (old := s.data.take k) (mid := s.data.drop k) (post := []) (by simp)
    rw [← blen_append, List.take_append_drop] at this
    rw [this, takeN_all]
    · congr 1
      by_cases hk : k ≤ s.data.length
      · simp [Nat.min_eq_left hk]
      · rw [List.length_take, Nat.min_eq_right (by omega)]
        rw [dropN_eq, dropN_eq]
        rw [List.take_of_length_le (Nat.le_refl _), List.take_of_length_le (by omega : s.data.length ≤ k),
          List.drop_of_length_le (Nat.le_refl _), List.drop_of_length_le (by omega : s.data.length ≤ k)]
    · by_cases hk : k ≤ s.data.length
      · simp [Nat.min_eq_left hk]
      · simp [Nat.min_eq_right (by omega : s.data.length ≤ k)]
  simp only [h1, h2]; rfl

/-- `position` is the byte length of the longest prefix on which the predicate is false. -/
theorem position_eq (p : Char → Bool) (t : Text) :
    position p t =
      if prefLen (fun c => !p c) t = t.length then none
      else some (blen (t.take (prefLen (fun c => !p c) t))) := by
  induction t with
  | nil => simp [position, prefLen]
  | cons c cs ih =>
    rw [position, prefLen]
    by_cases hc : p c = true
    · simp [hc]
    · simp only [hc, Bool.false_eq_true, if_false, Bool.not_false, if_true, ih, List.length_cons]
      split
      · rename_i h; simp [h]
      · rename_i h
        rw [if_neg (by omega)]
        simp; omega

/-! ## Sub-spans -/

/-- `r` is a contiguous part of `s` with matching coordinates. -/
def Sub (r s : Span) : Prop := ∃ k m, k + m ≤ s.data.length ∧ r = (s.dropN k).takeN m

/-- `r` is what remains of `s` after consuming a prefix. -/
def Suf (r s : Span) : Prop := ∃ k, k ≤ s.data.length ∧ r = s.dropN k

theorem Suf.sub {r s : Span} (h : Suf r s) : Sub r s := by
  obtain ⟨k, hk, rfl⟩ := h
  exact ⟨k, s.data.length - k, by omega, by rw [takeN_all]; simp⟩

theorem Suf.refl (s : Span) : Suf s s := ⟨0, by omega, by simp⟩

theorem Suf.trans {a b c : Span} (h1 : Suf a b) (h2 : Suf b c) : Suf a c := by
  obtain ⟨k, hk, rfl⟩ := h1
  obtain ⟨l, hl, rfl⟩ := h2
  simp at hk
  exact ⟨l + k, by omega, by rw [dropN_dropN]⟩

theorem Sub.refl (s : Span) : Sub s s := (Suf.refl s).sub

theorem Sub.trans {a b c : Span} (h1 : Sub a b) (h2 : Sub b c) : Sub a c := by
  obtain ⟨k, m, hk, rfl⟩ := h1
  obtain ⟨l, n, hl, rfl⟩ := h2
  simp at hk
  refine ⟨l + k, m, by omega, ?_⟩
  rw [takeN_dropN _ (by omega), dropN_dropN, takeN_takeN, Nat.min_eq_left (by omega)]

theorem dropN_suf (s : Span) (k : Nat) : Suf (s.dropN k) s := by
  by_cases hk : k ≤ s.data.length
  · exact ⟨k, hk, rfl⟩
  · refine ⟨s.data.length, Nat.le_refl _, ?_⟩
    rw [dropN_eq, dropN_eq]
    rw [List.take_of_length_le (Nat.le_refl _), List.take_of_length_le (by omega : s.data.length ≤ k),
      List.drop_of_length_le (Nat.le_refl _), List.drop_of_length_le (by omega : s.data.length ≤ k)]

theorem takeN_sub (s : Span) (k : Nat) : Sub (s.takeN k) s := by
  by_cases hk : k ≤ s.data.length
  · exact ⟨0, k, by omega, by simp⟩
  · rw [takeN_all _ (by omega)]; exact Sub.refl s

theorem slice?_sub {s r : Span} {i j : Nat} (h : s.slice? i j = some r) : Sub r s := by
  obtain ⟨k, m, h1, h2⟩ := slice?_some h
  exact ⟨k, m, h1, h2⟩

/-! ## Faithfulness -/

theorem foldl_adv_new (pre : Text) :
    ∃ cur, Spec.CurrentLine pre cur ∧
      pre.foldl adv (1, 1, 0) = ((pre.filter (· = '\n')).length + 1, cur.length + 1, blen pre) := by
  rw [foldl_adv]
  have hcount : pre.count '\n' = (pre.filter (· = '\n')).length := by
    rw [List.count_eq_length_filter]
    congr 1
  refine ⟨(pre.reverse.takeWhile (· ≠ '\n')).reverse, ?_, ?_⟩
  · refine ⟨(pre.reverse.dropWhile (· ≠ '\n')).reverse, ?_, ?_, ?_⟩
    · rw [← List.reverse_append, List.takeWhile_append_dropWhile, List.reverse_reverse]
    · intro h
      have := mem_takeWhile (List.mem_reverse.mp h)
      simp at this
    · cases hd : pre.reverse.dropWhile (· ≠ '\n') with
      | nil => left; rfl
      | cons c cs =>
        right
        refine ⟨cs.reverse, ?_⟩
        have := List.head?_dropWhile_not (fun c => decide (c ≠ '\n')) pre.reverse
        rw [hd] at this
        simp at this
        simp [this]
  · rw [hcount]
    simp only [Nat.zero_add, List.length_reverse]
    rw [Nat.add_comm 1]
    split
    · rw [Nat.add_comm 1]
    · rfl

theorem faithful_iff_sub (doc : Text) (s : Span) : Spec.Faithful doc s ↔ Sub s (Span.new doc) := by
  constructor
  · rintro ⟨pre, ⟨post, hp⟩, ho, hl, hc⟩
    obtain ⟨cur, hcur, hcol⟩ := hc
    refine ⟨pre.length, s.data.length, ?_, ?_⟩
    · have := congrArg List.length hp; simp at this; simp [new]; omega
    · obtain ⟨cur', hcur', hf⟩ := foldl_adv_new pre
      have huniq : cur = cur' := by
        obtain ⟨a, e1, n1, o1⟩ := hcur
        obtain ⟨b, e2, n2, o2⟩ := hcur'
        have e : a ++ cur = b ++ cur' := e1.symm.trans e2
        rcases List.append_eq_append_iff.mp e with ⟨x, rfl, h⟩ | ⟨x, rfl, h⟩
        · subst h
          rcases o2 with h | ⟨b', h⟩
          · simp at h; simp [h.2]
          · rcases List.eq_nil_or_concat x with rfl | ⟨x', d, rfl⟩
            · simp
            · rw [List.concat_eq_append, ← List.append_assoc] at h
              have := (List.append_inj' h rfl).2
              simp at this; subst this
              simp at n1
        · subst h
          rcases o1 with h | ⟨b', h⟩
          · simp at h; simp [h.2]
          · rcases List.eq_nil_or_concat x with rfl | ⟨x', d, rfl⟩
            · simp
            · rw [List.concat_eq_append, ← List.append_assoc] at h
              have := (List.append_inj' h rfl).2
              simp at this; subst this
              simp at n2
      subst huniq
      rw [takeN_eq, dropN_eq]
      have h1 : doc.take pre.length = pre := by rw [hp]; simp
      have h2 : (doc.drop pre.length).take s.data.length = s.data := by rw [hp]; simp
      simp only [new, pos, h1, h2, hf, mkPos]
      apply Span.ext' <;> simp [ho, hl, hcol, blen_eq_utf8ByteSize]
  · rintro ⟨k, m, hkm, rfl⟩
    simp only [new] at hkm
    obtain ⟨cur, hcur, hf⟩ := foldl_adv_new (doc.take k)
    have hs : ((Span.new doc).dropN k).takeN m =
        mkPos ((doc.drop k).take m) ((doc.take k).foldl adv (1, 1, 0)) := by
      simp [takeN_eq, dropN_eq, new]; rfl
    refine ⟨doc.take k, ?_⟩
    rw [hs, hf]
    refine ⟨⟨(doc.drop k).drop m, ?_⟩, ?_, ?_, cur, hcur, ?_⟩
    · simp only [mkPos_data]
      rw [List.append_assoc, List.take_append_drop, List.take_append_drop]
    · simp [mkPos, blen_eq_utf8ByteSize]
    · simp [mkPos]
    · simp [mkPos]

end Span
end Adoc
