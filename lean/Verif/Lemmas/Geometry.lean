import Verif.Lemmas.Run
import Verif.Lemmas.Expansion
import Verif.Lemmas.Header
import Verif.Props.Metadata
import Verif.Props.Attrlist
import Verif.Spec.Tree
/-!
# Where blocks lie
-/

namespace Adoc
open Span Spec

/-- The text has a character that is no white space. -/
def Vis (t : Text) : Prop := ∃ c ∈ t, isWhite c = false

theorem Vis.trimEnd {t : Text} (h : Vis t) : Vis (trimEnd t) := by
  obtain ⟨c, hc, hw⟩ := h
  obtain ⟨sp, e, hs⟩ := trimEndP_spec isWhite t
  rw [e, List.mem_append] at hc
  rcases hc with hc | hc
  · exact ⟨c, hc, hw⟩
  · rw [List.all_eq_true.mp hs c hc] at hw; cases hw

theorem blen_prefix : ∀ {a b x y : Text}, a ++ x = b ++ y → blen a = blen b → a = b
  | [], b, _, _, _, h => (blen_eq_zero.mp (h.symm.trans rfl)).symm
  | a, [], _, _, _, h => blen_eq_zero.mp (h.trans rfl)
  | c :: a, d :: b, _, _, e, h => by
    have e1 := List.cons.inj e
    obtain ⟨rfl, e2⟩ := e1
    have : blen a = blen b := by
      have h1 := blen_append [c] a
      have h2 := blen_append [c] b
      simp only [List.cons_append, List.nil_append] at h1 h2
      omega
    rw [blen_prefix (a := a) (b := b) e2 this]

theorem Span.Sub.data {r s : Span} (h : Sub r s) : ∃ a b, s.data = a ++ r.data ++ b ∧ r.offset = s.offset + blen a := by
  obtain ⟨k, m, h1, rfl⟩ := h
  refine ⟨s.data.take k, (s.data.drop k).drop m, ?_, ?_⟩
  · rw [takeN_data, dropN_data, List.append_assoc, List.take_append_drop, List.take_append_drop]
  · rw [takeN_offset, dropN_offset]

theorem Vis.sub {r s : Span} (h : Vis r.data) (hs : Sub r s) : Vis s.data := by
  obtain ⟨c, hc, hw⟩ := h
  obtain ⟨a, b, e, _⟩ := hs.data
  exact ⟨c, by rw [e]; simp [hc], hw⟩

theorem Vis.trimTrailingWhitespace {s : Span} (h : Vis s.data) : Vis s.trimTrailingWhitespace.data := by
  have : s.trimTrailingWhitespace.data = Adoc.trimEnd s.data := by
    unfold Span.trimTrailingWhitespace
    rw [takeN_data]
    obtain ⟨sp, e, _⟩ := trimEndP_spec isWhite s.data
    have e : s.data = Adoc.trimEnd s.data ++ sp := e
    conv => lhs; rw [e]
    rw [List.take_left' (by rw [← e])]
  rw [this]; exact h.trimEnd

/-- The text ends with a visible character. -/
def LastVis (t : Text) : Prop := ∃ a c, t = a ++ [c] ∧ isWhite c = false

theorem LastVis.vis {t : Text} (h : LastVis t) : Vis t := by
  obtain ⟨a, c, rfl, hw⟩ := h
  exact ⟨c, by simp, hw⟩

theorem Vis.lastVis {t : Text} (h : Vis t) : LastVis (Adoc.trimEnd t) := by
  obtain ⟨c, hc, hw⟩ := h.trimEnd
  rcases List.eq_nil_or_concat (Adoc.trimEnd t) with h0 | ⟨a, c, h0⟩
  · rw [h0] at hc; simp at hc
  · rw [List.concat_eq_append] at h0
    exact ⟨a, c, h0, trimEndP_last isWhite t c a h0⟩

theorem trimTrailingWhitespace_data (s : Span) : s.trimTrailingWhitespace.data = Adoc.trimEnd s.data := by
  unfold Span.trimTrailingWhitespace
  rw [takeN_data]
  obtain ⟨sp, e, _⟩ := trimEndP_spec isWhite s.data
  have e : s.data = Adoc.trimEnd s.data ++ sp := e
  conv => lhs; rw [e]
  rw [List.take_left' (by rw [← e])]

theorem Vis.lastVis_trim {s : Span} (h : Vis s.data) : LastVis s.trimTrailingWhitespace.data := by
  rw [trimTrailingWhitespace_data]; exact h.lastVis

theorem trimTrailingWhitespace_sub (s : Span) : Sub s.trimTrailingWhitespace s := takeN_sub _ _

theorem Vis.trimTrailingLineEnd {s : Span} (h : Vis s.data) : Vis s.trimTrailingLineEnd.data := by
  obtain ⟨k, hk, e, hw⟩ := trimTrailingLineEnd_spec s
  rw [e, takeN_data]
  obtain ⟨c, hc, hv⟩ := h
  have key : ∀ w : Text, s.data = s.data.take k ++ w → (∀ x ∈ w, isWhite x = true) → Vis (s.data.take k) := by
    intro w e' hw'
    rw [e', List.mem_append] at hc
    rcases hc with hc | hc
    · exact ⟨c, hc, hv⟩
    · rw [hw' c hc] at hv; cases hv
  rcases hw with hw | ⟨hw, _⟩ | ⟨hw, _⟩
  · exact key _ hw (by decide)
  · exact key _ hw (by decide)
  · rw [← hw]; exact ⟨c, hc, hv⟩

theorem trimTrailingLineEnd_sub (s : Span) : Sub s.trimTrailingLineEnd s := by
  obtain ⟨k, _, e, _⟩ := trimTrailingLineEnd_spec s
  rw [e]; exact takeN_sub _ _

/-- The first `k` characters grow with `k`. -/
theorem takeN_sub_takeN (s : Span) {i k : Nat} (h : i ≤ k) : Sub (s.takeN i) (s.takeN k) := by
  have : s.takeN i = (s.takeN k).takeN i := by rw [takeN_takeN, Nat.min_eq_left h]
  rw [this]; exact takeN_sub _ _

/-- A block and the text behind it, in the text it was read from. -/
def Placed (s b after : Span) : Prop :=
  ∃ k, k ≤ s.data.length ∧ after = s.dropN k ∧ Sub b (s.takeN k) ∧ Vis b.data

/-- What lies in front of a later text. -/
theorem sub_takeN_of_suf {a s x r : Span} (ha : Suf a s) {j k : Nat} (hx : x = a.dropN j) (hk : x = s.dropN k)
    (hkl : k ≤ s.data.length) (hjl : j ≤ a.data.length) (hr : Sub r (a.takeN j)) : Sub r (s.takeN k) := by
  obtain ⟨i, hi, rfl⟩ := ha
  have hd : (s.data.drop i).drop j = s.data.drop k := by
    have := congrArg Span.data (hx.symm.trans hk)
    simpa using this
  have hl := congrArg List.length hd
  simp only [List.length_drop] at hl
  simp only [dropN_data, List.length_drop] at hjl
  have hkij : k = i + j := by omega
  subst hkij
  refine hr.trans ?_
  rw [show (s.dropN i).takeN j = (s.takeN (i + j)).dropN i from ?_]
  · exact (dropN_suf _ _).sub
  · rw [takeN_dropN s (Nat.le_add_right i j)]; congr 1; omega

theorem Placed.of_suf {a s b after : Span} (h : Placed a b after) (ha : Suf a s) : Placed s b after := by
  obtain ⟨k, hk, e, hs, hv⟩ := h
  obtain ⟨i, hi, e'⟩ := ha
  have e2 : after = s.dropN (i + k) := by rw [e, e', dropN_dropN]
  have hl : k ≤ s.data.length - i := by rw [e'] at hk; simpa using hk
  exact ⟨i + k, by omega, e2, sub_takeN_of_suf ⟨i, hi, e'⟩ e e2 (by omega) hk hs, hv⟩

theorem Placed.later {s b after after' : Span} (h : Placed s b after) (ha : Suf after' after) : Placed s b after' := by
  obtain ⟨k, hk, rfl, hs, hv⟩ := h
  obtain ⟨i, hi, rfl⟩ := ha
  simp only [dropN_data, List.length_drop] at hi
  exact ⟨k + i, by omega, by rw [dropN_dropN], hs.trans (takeN_sub_takeN _ (by omega)), hv⟩

theorem Placed.smaller {s b b' after : Span} (h : Placed s b after) (hb : Sub b' b) (hv : Vis b'.data) :
    Placed s b' after := by
  obtain ⟨k, hk, e, hs, _⟩ := h
  exact ⟨k, hk, e, hb.trans hs, hv⟩

theorem Placed.suf {s b after : Span} (h : Placed s b after) : Suf after s := by
  obtain ⟨k, hk, rfl, _, _⟩ := h
  exact ⟨k, hk, rfl⟩

theorem Placed.sub {s b after : Span} (h : Placed s b after) : Sub b s := by
  obtain ⟨k, hk, rfl, h, _⟩ := h
  exact h.trans (takeN_sub _ _)

/-- What `trim_remainder` returns for a text behind. -/
theorem trimRemainder?_suf {s a : Span} (h : Suf a s) :
    ∃ k, k ≤ s.data.length ∧ a = s.dropN k ∧ s.trimRemainder? a = some (s.takeN k) := by
  obtain ⟨k, hk, rfl⟩ := h
  exact ⟨k, hk, rfl, trimRemainder?_dropN s hk⟩

theorem trimRemainder?_offset {s a b : Span} (h : a.offset = b.offset) : s.trimRemainder? a = s.trimRemainder? b := by
  unfold trimRemainder?; rw [h]

/-- The text from `s` to a text behind `a`, where `a` starts with a visible character that is in between. -/
theorem placed_upto {s a x src : Span} (ha : Suf a s) (hx : Suf x a) (hlt : x.data.length < a.data.length)
    (hv : ∃ c r, a.data = c :: r ∧ isWhite c = false) (hs : s.trimRemainder? x = some src) :
    Placed s src x ∧ src.offset = s.offset ∧ ∀ c r, s.data = c :: r → ∃ r', src.data = c :: r' := by
  obtain ⟨k, hk, e, ht⟩ := trimRemainder?_suf (hx.trans ha)
  rw [ht] at hs; cases hs
  have hvis : Vis (s.takeN k).data → ∀ c r, s.data = c :: r → ∃ r', (s.takeN k).data = c :: r' := by
    rintro ⟨d, hd, _⟩ c r hc
    rw [takeN_data, hc] at hd ⊢
    cases k with
    | zero => simp at hd
    | succ k => exact ⟨_, rfl⟩
  suffices hV : Vis (s.takeN k).data from ⟨⟨k, hk, e, Sub.refl _, hV⟩, takeN_offset _ _, hvis hV⟩
  obtain ⟨i, hi, rfl⟩ := ha
  obtain ⟨c, r, hc, hw⟩ := hv
  rw [e] at hlt
  simp only [dropN_data, List.length_drop] at hlt
  refine ⟨c, ?_, hw⟩
  rw [takeN_data]
  have e1 : s.data = s.data.take i ++ c :: r := by rw [← hc, dropN_data, List.take_append_drop]
  have h1 : (s.data.take i).length = i := by rw [List.length_take]; omega
  rw [e1, List.take_append, h1]
  have : k - i = (k - i - 1) + 1 := by omega
  rw [this, List.take_succ_cons]
  simp

/-! ### Simple blocks -/

theorem parseLines_placed {subs : Subs} {store : AttrStore} {source : Span} {al : Option Attrlist}
    {c : Content} {style : SimpleStyle} {after : Span}
    (h : parseLines subs store source al = .ok (some ⟨(c, style), after⟩)) :
    Placed source c.original after ∧ LastVis c.original.data := by
  obtain ⟨k, raw, taken, texts, h1, h2, h3, h4, h5, h6, h7⟩ := parseLines_spec subs store source al
  rw [h7] at h
  by_cases hr : trimEnd raw = []
  · rw [if_pos hr] at h; cases h
  rw [if_neg hr] at h
  generalize subs store (Group.normal.overrideViaAttrlist al) al (joinWith ['\n'] texts) = q at h
  cases q with
  | error e => cases h
  | ok r =>
    simp only [Except.map, Except.ok.injEq, Option.some.injEq, MI.mk.injEq, Prod.mk.injEq] at h
    obtain ⟨⟨rfl, _⟩, rfl⟩ := h
    obtain ⟨j, hj, e⟩ := skip_suf source k
    have hjl : j = raw.length := by
      have hd : (source.skip k).data = source.data.drop j := by rw [e, dropN_data]
      rw [hd] at h1
      have := congrArg List.length h1
      simp at this; omega
    obtain ⟨sp, hs, hall⟩ := trimEndP_spec isWhite raw
    have hs : raw = trimEnd raw ++ sp := hs
    have hle : (trimEnd raw).length ≤ raw.length := trimEndP_length_le isWhite raw
    suffices hL : LastVis (source.takeN (trimEnd raw).length).data from
      ⟨Placed.later (after := source.skip k) ⟨j, hj, e, takeN_sub_takeN _ (by omega), hL.vis⟩ (discardEmptyLines_suf _), hL⟩
    · have : (source.takeN (trimEnd raw).length).data = trimEnd raw := by
        apply takeN_prefix (r := sp ++ (source.skip k).data)
        rw [h1]
        conv => lhs; rw [hs]
        simp
      rw [this]
      rcases List.eq_nil_or_concat (trimEnd raw) with h0 | ⟨a, c, h0⟩
      · exact absurd h0 hr
      · rw [List.concat_eq_append] at h0
        exact ⟨a, c, h0, trimEndP_last isWhite raw c a h0⟩

theorem simple_placed {subs : Subs} {store : AttrStore} {m : BlockMetadata} {sb : SimpleBlock} {after : Span}
    (hm : Suf m.blockStart m.source) (h : SimpleBlock.parse subs store m = .ok (some ⟨sb, after⟩)) :
    Placed m.source sb.source after ∧ LastVis sb.source.data ∧ Sub sb.content.original m.source := by
  unfold SimpleBlock.parse at h
  simp only [bind, Except.bind] at h
  cases hp : parseLines subs store m.blockStart m.fields.attrlist with
  | error e => rw [hp] at h; cases h
  | ok q =>
    rw [hp] at h
    cases q with
    | none => cases h
    | some mi =>
      obtain ⟨⟨c, style⟩, mid⟩ := mi
      have hpl := (parseLines_placed hp).1
      obtain ⟨k, hk, e, ht⟩ := trimRemainder?_suf (hpl.suf.trans hm)
      simp only at h
      rw [ht] at h
      simp only [Res.ofOption] at h
      cases h
      have hpl' := hpl.of_suf hm
      suffices hV : Vis (m.source.takeN k).data from
        ⟨Placed.later (after := mid) ⟨k, hk, e, trimTrailingWhitespace_sub _, hV.trimTrailingWhitespace⟩
          (discardEmptyLines_suf _), hV.lastVis_trim, hpl'.sub⟩
      obtain ⟨k', hk', e', hsub, hv⟩ := hpl'
      have : k' = k := by
        have hd := congrArg (fun x => (Span.data x).length) (e'.symm.trans e)
        simp only [dropN_data, List.length_drop] at hd
        omega
      subst this
      exact hv.sub hsub

theorem fast_placed {subs : Subs} {store : AttrStore} {s : Span} {sb : SimpleBlock} {after : Span}
    (h : SimpleBlock.parseFast subs store s = .ok (some ⟨sb, after⟩)) :
    Placed s sb.source after ∧ LastVis sb.source.data ∧ sb.content.original = sb.source := by
  unfold SimpleBlock.parseFast at h
  simp only [bind, Except.bind] at h
  cases hp : parseLines subs store s none with
  | error e => rw [hp] at h; cases h
  | ok q =>
    rw [hp] at h
    cases q with
    | none => cases h
    | some mi =>
      obtain ⟨⟨c, style⟩, mid⟩ := mi
      simp only at h
      cases h
      exact ⟨(parseLines_placed hp).1.later (discardEmptyLines_suf _), (parseLines_placed hp).2, rfl⟩

theorem identChar_not_white {c : Char} (h : (isAsciiAlpha c || c == '_') = true) : isWhite c = false := by
  simp only [isAsciiAlpha, Bool.or_eq_true, Bool.and_eq_true, decide_eq_true_eq, beq_iff_eq] at h
  have e1 : 'a'.toNat = 97 := rfl
  have e2 : 'z'.toNat = 122 := rfl
  have e3 : 'A'.toNat = 65 := rfl
  have e4 : 'Z'.toNat = 90 := rfl
  have e5 : '_'.toNat = 95 := rfl
  have : 65 ≤ c.toNat ∧ c.toNat ≤ 122 := by
    rcases h with h | rfl
    · omega
    · decide
  simp only [isWhite, Bool.or_eq_false_iff, Bool.and_eq_false_iff, decide_eq_false_iff_not, beq_eq_false_iff_ne]
  omega

/-! ### Blocks that start with a certain character -/

variable [Uni]

/-- Metadata, the text from which they were read, and the text of the block. -/
theorem meta_suf {subs : Subs} {store : AttrStore} {s : Span} {m : BlockMetadata} {ws : List Warning}
    (h : BlockMetadata.parse subs store s = .ok (m, ws)) : Suf m.source s ∧ Suf m.blockStart m.source := by
  obtain ⟨h1, ⟨n, _, h2⟩, _⟩ := Props.C27_spans h
  exact ⟨h1, by rw [h2]; exact skip_suf _ _⟩

theorem meta_source {subs : Subs} {store : AttrStore} {s : Span} {m : BlockMetadata} {ws : List Warning}
    (h : BlockMetadata.parse subs store s = .ok (m, ws)) : m.source = s.discardEmptyLines := by
  unfold BlockMetadata.parse at h
  simp only [bind, Except.bind] at h
  cases hl : metaLoop subs store 4 { blockStart := s.discardEmptyLines } with
  | error e' => rw [hl] at h; cases h
  | ok st =>
    rw [hl] at h
    simp only at h
    cases ht : st.titleSource.mapM (fun s => subs store .normal none s.data) with
    | error e => rw [ht] at h; cases h
    | ok title => rw [ht] at h; cases h; rfl

omit [Uni] in
/-- The first line of a text begins like the text. -/
theorem line_head {s : Span} {c : Char} {r : Text} (h : s.takeNormalizedLine.item.data = c :: r) :
    ∃ r', s.data = c :: r' := by
  obtain ⟨w, e, _⟩ := normLine_rest s
  rw [h] at e
  exact ⟨r ++ w, e⟩

theorem Spec.MetaLine.head {l : Text} {i : MetaItem} (h : MetaLine l i) : ∃ r, l = '.' :: r ∨ l = '[' :: r := by
  cases h with
  | title => exact ⟨_, Or.inl rfl⟩
  | anchor => exact ⟨_, Or.inr rfl⟩
  | anchorText => exact ⟨_, Or.inr rfl⟩
  | attrs => exact ⟨_, Or.inr rfl⟩

/-- Metadata begin with a visible character. -/
theorem meta_head {subs : Subs} {store : AttrStore} {s : Span} {m : BlockMetadata} {ws : List Warning}
    (h : BlockMetadata.parse subs store s = .ok (m, ws)) :
    (m.blockStart = m.source ∧ m.fields.attrlist = none ∧ m.fields.anchor = none ∧ m.fields.titleSource = none) ∨
    ∃ c r, m.source.data = c :: r ∧ (c = '.' ∨ c = '[') := by
  obtain ⟨is, h1, _, h3, h4, h5⟩ := Props.C27_reads h
  obtain ⟨_, ⟨n, _, h2⟩, _⟩ := Props.C27_spans h
  rw [← lines_discardEmptyLines, ← meta_source h] at h1
  generalize hl : lines m.source.data = ls at h1
  generalize hr : lines m.blockStart.data = rest at h1
  cases h1 with
  | stop hs =>
    left
    refine ⟨?_, by simpa using h5, by simpa using h4, by simpa using h3⟩
    have : (lines m.source.data).drop n = lines m.source.data := by
      rw [← lines_skip, ← h2, hr, hl]
    have hlen := congrArg List.length this
    simp only [List.length_drop] at hlen
    by_cases h0 : (lines m.source.data).length = 0
    · have hnil := lines_eq_nil.mp (List.length_eq_zero_iff.mp h0)
      obtain ⟨k, hk, e⟩ := (meta_suf h).2
      rw [hnil] at hk
      have : k = 0 := by simpa using hk
      rw [e, this]; simp
    · have : n = 0 := by omega
      rw [h2, this]; rfl
  | item hl' _ _ =>
    right
    have hne : m.source.data ≠ [] := by intro h0; rw [h0] at hl; simp at hl
    rw [lines_cons _ hne] at hl
    have hl := List.cons.inj hl
    obtain ⟨r, hr'⟩ := hl'.head
    rcases hr' with hr' | hr'
    · obtain ⟨r', e⟩ := line_head (hl.1.trans hr'); exact ⟨_, _, e, Or.inl rfl⟩
    · obtain ⟨r', e⟩ := line_head (hl.1.trans hr'); exact ⟨_, _, e, Or.inr rfl⟩

omit [Uni] in
theorem normLine_after_lt {s : Span} (h : s.data ≠ []) : s.takeNormalizedLine.after.data.length < s.data.length := by
  rw [normLine_after]; exact takeLine_progress s h

omit [Uni] in
theorem skip_lt {s : Span} (h : s.data ≠ []) (n : Nat) : (s.skip (n + 1)).data.length < s.data.length := by
  have h1 := takeLine_progress s h
  obtain ⟨k, _, e⟩ := skip_suf s.takeLine.after n
  have : (s.skip (n + 1)).data = s.takeLine.after.data.drop k := by
    show (s.takeLine.after.skip n).data = _
    rw [e, dropN_data]
  rw [this, List.length_drop]; omega

omit [Uni] in
/-- The span of a media block or break. -/
theorem trimmedLength_spec {s r : Span} (h : trimmedLength s = .ok r)
    (hv : ∃ c x, s.data = c :: x ∧ isWhite c = false) : Sub r s ∧ LastVis r.data := by
  unfold trimmedLength at h
  cases hs : s.slice? 0 (blen (trim s.data)) with
  | none => rw [hs] at h; cases h
  | some q =>
    rw [hs] at h
    cases h
    refine ⟨slice?_sub hs, ?_⟩
    obtain ⟨old, mid, post, e1, e2, e3, rfl⟩ := slice?_iff.mp hs
    have := blen_eq_zero.mp e2
    subst this
    rw [sliceInternal_eq_dropN_takeN e1]
    obtain ⟨c, x, hc, hw⟩ := hv
    simp only [List.nil_append] at e1
    simp only [List.length_nil, dropN_zero, takeN_data, e1, List.take_left]
    have ht : trim s.data = trimEnd s.data := by
      unfold trim trimStart
      rw [hc, List.dropWhile_cons, hw]
      rfl
    have hm : mid = trimEnd s.data := by
      obtain ⟨sp, e, _⟩ := trimEndP_spec isWhite s.data
      have e : s.data = trimEnd s.data ++ sp := e
      rw [ht] at e3
      have e3 : blen mid = blen (trimEnd s.data) := by simpa using e3
      exact blen_prefix (e1.symm.trans e) e3
    rw [e1] at hm
    rw [hm]
    apply Vis.lastVis
    rw [← e1]
    exact ⟨c, by rw [hc]; simp, hw⟩

/-- The block behind metadata begins with a visible character, and so do the metadata. -/
theorem source_head {subs : Subs} {store : AttrStore} {s : Span} {m : BlockMetadata} {ws : List Warning}
    (h : BlockMetadata.parse subs store s = .ok (m, ws)) (hv : ∃ c r, m.blockStart.data = c :: r ∧ isWhite c = false) :
    ∃ c r, m.source.data = c :: r ∧ isWhite c = false := by
  rcases meta_head h with ⟨e, _⟩ | ⟨c, r, e, hc⟩
  · rw [← e]; exact hv
  · exact ⟨c, r, e, by rcases hc with rfl | rfl <;> decide⟩

theorem Spec.RawDelim.vis {c : Char} {t : Text} (h : RawDelim c t) : ∃ r, t = c :: r ∧ isWhite c = false := by
  have h1 := h.head
  cases t with
  | nil => cases h1
  | cons d r =>
    cases h1
    refine ⟨r, rfl, ?_⟩
    rcases h.1 with rfl | rfl | rfl | rfl <;> decide

theorem raw_placed {subs : Subs} {store store' : AttrStore} {subs' : Subs} {s : Span} {m : BlockMetadata}
    {mw ws : List Warning} {rb : RawBlock} {after : Span} (hm : BlockMetadata.parse subs store s = .ok (m, mw))
    (h : RawBlock.parse subs' store' m = .ok (some (⟨rb, after⟩, ws))) :
    Placed m.source rb.source after ∧ Sub rb.content.original m.source := by
  by_cases hd : ∃ c, RawDelim c m.blockStart.takeNormalizedLine.item.data
  · obtain ⟨c, hd⟩ := hd
    obtain ⟨r, hr, hw⟩ := hd.vis
    obtain ⟨r', hr'⟩ := line_head hr
    have hne : m.blockStart.data ≠ [] := by rw [hr']; simp
    have hsuf := (meta_suf hm).2
    have hsub1 : Sub m.blockStart.takeLine.after m.source := ((takeLine_after_suf _).trans hsuf).sub
    rcases rawBlock_spec (subs := subs') (store := store') rfl hd hsuf with
      ⟨pre, post, raw, body, src, after', _, _, _, _, _, h6, h7, _, h9, h10⟩ |
      ⟨k, body, src, after', _, _, h3, h4, h5, _, h7, h8⟩
    · rw [h10] at h
      generalize subs' store' _ _ _ = q at h
      cases q with
      | error e => cases h
      | ok x =>
        simp only [Except.map, Except.ok.injEq, Option.some.injEq, Prod.mk.injEq, MI.mk.injEq] at h
        obtain ⟨⟨rfl, rfl⟩, _⟩ := h
        obtain ⟨hp, _⟩ := placed_upto hsuf (x := after') (by rw [h7]; exact skip_suf _ _)
          (by rw [h7]; exact skip_lt hne (pre.length + 1)) ⟨c, r', hr', hw⟩ h9
        refine ⟨hp.smaller (trimTrailingLineEnd_sub _) ?_, ?_⟩
        · obtain ⟨_, _, _, _, hv⟩ := hp; exact hv.trimTrailingLineEnd
        · simp only; rw [h6]; exact (trimTrailingLineEnd_sub _).trans ((takeN_sub _ _).trans hsub1)
    · rw [h8] at h
      simp only [Except.ok.injEq, Option.some.injEq, Prod.mk.injEq, MI.mk.injEq] at h
      obtain ⟨⟨rfl, rfl⟩, _⟩ := h
      obtain ⟨n, rfl⟩ := Nat.exists_eq_succ_of_ne_zero h5
      obtain ⟨hp, _⟩ := placed_upto hsuf (x := after') (by rw [h4]; exact skip_suf _ _)
        (by rw [h4]; exact skip_lt hne n) ⟨c, r', hr', hw⟩ h7
      refine ⟨hp.smaller (trimTrailingLineEnd_sub _) ?_, ?_⟩
      · obtain ⟨_, _, _, _, hv⟩ := hp; exact hv.trimTrailingLineEnd
      · simp only; rw [h3]; exact (trimTrailingLineEnd_sub _).trans hsub1
  · rw [rawBlock_none hd] at h; cases h

theorem media_placed {subs : Subs} {store store' : AttrStore} {subs' : Subs} {s : Span} {m : BlockMetadata}
    {mw ws : List Warning} {mb : MediaBlock} {after : Span} (hm : BlockMetadata.parse subs store s = .ok (m, mw))
    (h : MediaBlock.parse subs' store' m = .ok (some (⟨mb, after⟩, ws))) :
    Placed m.source mb.source after ∧ LastVis mb.source.data ∧ Sub mb.target m.source ∧
      Sub mb.attrs.source m.source := by
  have hsuf := (meta_suf hm).2
  unfold MediaBlock.parse at h
  simp only at h
  by_cases h1 : endsWith m.blockStart.takeNormalizedLine.item.data [']'] = true
  case neg => rw [Bool.eq_false_iff.mpr h1] at h; cases h
  rw [h1] at h
  simp only [Bool.not_true, Bool.false_eq_true, if_false] at h
  cases h2 : m.blockStart.takeNormalizedLine.item.takeIdent with
  | none => rw [h2] at h; cases h
  | some name =>
    rw [h2] at h
    simp only at h
    cases h3 : mediaType name.item.data with
    | none => rw [h3] at h; cases h
    | some ty =>
      rw [h3] at h
      simp only at h
      cases h4 : name.after.takePrefix [':', ':'] with
      | none => rw [h4] at h; cases h
      | some colons =>
        rw [h4] at h
        simp only at h
        by_cases h5 : (colons.after.takeWhile (· ≠ '[')).item.data = []
        · rw [if_pos h5] at h; cases h
        rw [if_neg h5] at h
        cases h6 : (colons.after.takeWhile (· ≠ '[')).after.takePrefix ['['] with
        | none => rw [h6] at h; cases h
        | some brace =>
          rw [h6] at h
          simp only [bind, Except.bind] at h
          generalize hq : Attrlist.parse (subs' store' .normal none) store'
                (brace.after.takeN (brace.after.data.length - 1)) .inline = q at h
          cases q with
          | error e => cases h
          | ok q =>
            simp only at h
            have hname : MISub name m.blockStart.takeNormalizedLine.item ∧
                ∃ c r, m.blockStart.takeNormalizedLine.item.data = c :: r ∧ isWhite c = false := by
              unfold takeIdent at h2
              cases hd : m.blockStart.takeNormalizedLine.item.data with
              | nil => rw [hd] at h2; cases h2
              | cons c cs =>
                rw [hd] at h2
                simp only at h2
                by_cases hc : (isAsciiAlpha c || c == '_') = true
                · rw [if_pos hc] at h2
                  cases h2
                  refine ⟨cut_misub _ _, c, cs, rfl, ?_⟩
                  exact identChar_not_white hc
                · rw [if_neg hc] at h2; cases h2
            have hcol : MISub colons name.after := by
              unfold takePrefix at h4
              split at h4
              · cases h4; exact cut_misub _ _
              · cases h4
            obtain ⟨hname, c, r, hline, hw⟩ := hname
            have hhead : ∃ c r, m.blockStart.data = c :: r ∧ isWhite c = false := by
              obtain ⟨r', e⟩ := line_head hline
              exact ⟨c, r', e, hw⟩
            have hne : m.blockStart.data ≠ [] := by obtain ⟨c, r, e, _⟩ := hhead; rw [e]; simp
            obtain ⟨src, hsrc⟩ : ∃ src, m.source.trimRemainder? m.blockStart.takeNormalizedLine.after = some src :=
              trimRemainder?_ne_none (Sub.refl _) ((takeLine_after_suf _).trans hsuf).sub
            rw [hsrc] at h
            simp only [Res.ofOption] at h
            obtain ⟨hp, ho, hc⟩ := placed_upto hsuf (x := m.blockStart.takeNormalizedLine.after) (takeLine_after_suf _)
              (normLine_after_lt hne) hhead hsrc
            cases ht : trimmedLength src with
            | error e => rw [ht] at h; cases h
            | ok src' =>
              rw [ht] at h
              cases h
              have hsh : ∃ c x, src.data = c :: x ∧ isWhite c = false := by
                obtain ⟨c, r, e, hw⟩ := source_head hm hhead
                obtain ⟨r', e'⟩ := hc _ _ e
                exact ⟨c, r', e', hw⟩
              obtain ⟨t1, t2⟩ := trimmedLength_spec ht hsh
              refine ⟨(hp.later (discardEmptyLines_suf _)).smaller t1 t2.vis, t2, ?_, ?_⟩
              rotate_left
              · obtain ⟨_, _, hal, _⟩ := Props.C33_elements hq
                simp only
                rw [hal]
                have hbr : MISub brace (colons.after.takeWhile (· ≠ '[')).after := by
                  unfold takePrefix at h6
                  split at h6
                  · cases h6; exact cut_misub _ _
                  · cases h6
                exact (takeN_sub _ _).trans (hbr.2.sub.trans ((dropN_suf _ _).sub.trans
                  (hcol.2.sub.trans (hname.2.sub.trans ((normLine_item_sub _).trans hsuf.sub)))))
              exact (takeN_sub _ _).trans (hcol.2.sub.trans (hname.2.sub.trans ((normLine_item_sub _).trans hsuf.sub)))

omit [Uni] in
theorem breakType_head {t : Text} {ty : BreakType} (h : breakType t = some ty) :
    ∃ c r, t = c :: r ∧ isWhite c = false := by
  unfold breakType at h
  by_cases h1 : t = "'''".toList ∨ t = "---".toList ∨ t = "- - -".toList ∨ t = "***".toList ∨ t = "* * *".toList
  · rcases h1 with rfl | rfl | rfl | rfl | rfl <;> exact ⟨_, _, rfl, by decide⟩
  · rw [if_neg h1] at h
    by_cases h2 : t = "<<<".toList
    · rw [h2]; exact ⟨_, _, rfl, by decide⟩
    · rw [if_neg h2] at h; cases h

theorem break_placed {subs : Subs} {store : AttrStore} {s : Span} {m : BlockMetadata}
    {mw : List Warning} {ty : BreakType} {src after : Span} (hm : BlockMetadata.parse subs store s = .ok (m, mw))
    (h : Break.parse m = .ok (some ⟨(ty, src), after⟩)) : Placed m.source src after ∧ LastVis src.data := by
  have hsuf := (meta_suf hm).2
  unfold Break.parse at h
  simp only at h
  cases h1 : breakType m.blockStart.takeNormalizedLine.item.data with
  | none => rw [h1] at h; cases h
  | some ty' =>
    rw [h1] at h
    simp only [bind, Except.bind] at h
    obtain ⟨c, r, hline, hw⟩ := breakType_head h1
    obtain ⟨r', e⟩ := line_head hline
    have hhead : ∃ c r, m.blockStart.data = c :: r ∧ isWhite c = false := ⟨c, r', e, hw⟩
    have hne : m.blockStart.data ≠ [] := by rw [e]; simp
    obtain ⟨src', hsrc⟩ : ∃ src, m.source.trimRemainder? m.blockStart.takeNormalizedLine.after = some src :=
      trimRemainder?_ne_none (Sub.refl _) ((takeLine_after_suf _).trans hsuf).sub
    rw [hsrc] at h
    simp only [Res.ofOption] at h
    obtain ⟨hp, ho, hc⟩ := placed_upto hsuf (x := m.blockStart.takeNormalizedLine.after) (takeLine_after_suf _)
      (normLine_after_lt hne) hhead hsrc
    cases ht : trimmedLength src' with
    | error e => rw [ht] at h; cases h
    | ok s' =>
      rw [ht] at h
      cases h
      obtain ⟨c, r, e, hw⟩ := source_head hm hhead
      obtain ⟨r', e'⟩ := hc _ _ e
      obtain ⟨t1, t2⟩ := trimmedLength_spec ht ⟨c, r', e', hw⟩
      exact ⟨(hp.later (discardEmptyLines_suf _)).smaller t1 t2.vis, t2⟩

omit [Uni] in
theorem entry_placed {hdr : Text → Res Text} {s : Span} {a : Attribute} {after : Span}
    (h : Attribute.parse hdr s = .ok (some ⟨a, after⟩)) :
    Placed s a.source after ∧ LastVis a.source.data ∧ Sub a.name s ∧ ∀ v ∈ a.valueSource, Sub v s := by
  obtain ⟨c, sep, rest, hx⟩ := extent_exists s.data
  obtain ⟨u, hu⟩ := stripSpaces_exists c
  by_cases he : ∃ n k, Entry u n k
  · obtain ⟨n, k, he⟩ := he
    obtain ⟨nm, vs, h1, h2, h3, h4, h5⟩ := parse_entry (hdr := hdr) hx hu he
    rw [h] at h5
    cases hk : kindValue hdr k with
    | error e => rw [hk] at h5; cases h5
    | ok v =>
      rw [hk] at h5
      simp only [Except.map, Except.ok.injEq, Option.some.injEq, MI.mk.injEq] at h5
      obtain ⟨rfl, rfl⟩ := h5
      suffices hL : LastVis (s.takeN (trimEnd c).length).data by
        refine ⟨⟨c.length + sep.length, ?_, rfl, takeN_sub_takeN _ ?_, hL.vis⟩, hL, h1, h4⟩
        · rw [hx.eq]; simp
        · have := trimEndP_length_le isWhite c
          show (trimEnd c).length ≤ _
          unfold trimEnd; omega
      · have : (s.takeN (trimEnd c).length).data = trimEnd c := by
          obtain ⟨sp, hs, _⟩ := trimEndP_spec isWhite c
          have hs : c = trimEnd c ++ sp := hs
          apply takeN_prefix (r := sp ++ (sep ++ rest))
          rw [hx.eq]
          conv => lhs; rw [hs]
          simp
        rw [this]
        apply Vis.lastVis
        obtain ⟨y, hy⟩ := he.head
        obtain ⟨w, hw, _⟩ := trimEndP_spec (· == ' ') c
        rw [stripSpaces_iff.mp hu] at hy
        exact ⟨':', by rw [hw, hy]; simp, by decide⟩
  · have := parse_no_entry (hdr := hdr) hx hu (fun n k h => he ⟨n, k, h⟩)
    rw [this] at h
    cases h

end Adoc
