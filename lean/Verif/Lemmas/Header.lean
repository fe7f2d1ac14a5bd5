import Verif.Lemmas.AuthorLine
/-! # Lemmas about the document header -/

set_option linter.unusedSectionVars false
namespace Adoc
open Spec Re Span

/-! ### Lines -/

theorem headLine_span (s : Span) : ∃ l rest, HeadLine s.data l rest ∧ s.takeNormalizedLine.item.data = l ∧
    s.takeNormalizedLine.after.data = rest ∧ Sub s.takeNormalizedLine.item s ∧ Suf s.takeNormalizedLine.after s := by
  obtain ⟨l0, sep, rest, h, e⟩ := takeLine_first s
  obtain ⟨d1, d2⟩ := takeLine_data h.eq e
  refine ⟨_, rest, ⟨l0, sep, h, stripSpaces_iff.mpr rfl⟩, ?_, ?_, ?_, ?_⟩
  · rw [Span.normLine_item_data, d1]
  · rw [Span.normLine_after, d2]
  · exact (Span.trimSpaces_misub (Span.takeLine_misub s)).1
  · rw [Span.normLine_after]; exact Span.takeLine_after_suf s

theorem Spec.HeadLine.det {t l l' rest rest' : Text} (h : HeadLine t l rest) (h' : HeadLine t l' rest') :
    l = l' ∧ rest = rest' := by
  obtain ⟨l0, sep, h1, h2⟩ := h
  obtain ⟨l0', sep', h1', h2'⟩ := h'
  obtain ⟨rfl, rfl, rfl⟩ := h1.det h1'
  exact ⟨h2.det h2', rfl⟩

theorem Spec.HeadLine.exists (t : Text) : ∃ l rest, HeadLine t l rest := by
  obtain ⟨l, rest, h, _⟩ := headLine_span (Span.new t)
  exact ⟨l, rest, h⟩

theorem Spec.HeadLine.noNl {t l rest : Text} (h : HeadLine t l rest) : '\n' ∉ l := by
  obtain ⟨l0, sep, h1, sp, h2, _⟩ := h
  intro hm
  exact h1.noNl (by rw [h2]; exact List.mem_append_left _ hm)

theorem Spec.HeadLine.head {t l rest : Text} {c : Char} {x : Text} (h : HeadLine t l rest) (hl : l = c :: x) :
    ∃ y, t = c :: y := by
  obtain ⟨l0, sep, h1, sp, h2, _⟩ := h
  rw [h1.eq, h2, hl]
  exact ⟨_, rfl⟩

theorem comment_iff {l : Text} : (startsWith l ['/', '/'] && !startsWith l ['/', '/', '/']) = true ↔ IsComment l := by
  unfold IsComment
  simp only [Bool.and_eq_true, Bool.not_eq_true']
  constructor
  · rintro ⟨h1, h2⟩
    obtain ⟨r, hr⟩ := startsWith_iff.mp h1
    refine ⟨r, hr, ?_⟩
    intro hh
    have : startsWith l ['/', '/', '/'] = true := by
      cases r with
      | nil => cases hh
      | cons c cs => simp at hh; subst hh; rw [hr]; exact startsWith_iff.mpr ⟨cs, rfl⟩
    rw [h2] at this; cases this
  · rintro ⟨r, rfl, h2⟩
    refine ⟨startsWith_iff.mpr ⟨r, rfl⟩, ?_⟩
    cases hs : startsWith ('/' :: '/' :: r) ['/', '/', '/'] with
    | false => rfl
    | true =>
      obtain ⟨q, hq⟩ := startsWith_iff.mp hs
      simp at hq
      rw [hq] at h2
      exact absurd rfl h2

theorem Spec.HeaderEntry.det {t n n' rest rest' : Text} {k k' : EntryKind} (h : HeaderEntry t n k rest)
    (h' : HeaderEntry t n' k' rest') : n = n' ∧ k = k' ∧ rest = rest' := by
  obtain ⟨c, sep, u, h1, h2, h3⟩ := h
  obtain ⟨c', sep', u', h1', h2', h3'⟩ := h'
  obtain ⟨rfl, rfl, rfl⟩ := h1.det h1'
  have := h2.det h2'
  subst this
  obtain ⟨rfl, rfl⟩ := h3.det h3'
  exact ⟨rfl, rfl, rfl⟩

theorem Spec.Entry.head {u n : Text} {k : EntryKind} (h : Entry u n k) : ∃ y, u = ':' :: y := by
  obtain ⟨a, b, rest, hu, _⟩ := entry_cases h
  exact ⟨_, hu⟩

/-- The first line of an entry begins with a colon. -/
theorem Spec.HeaderEntry.head {t n rest l r : Text} {k : EntryKind} (h : HeaderEntry t n k rest) (hl : HeadLine t l r) :
    ∃ y, l = ':' :: y := by
  obtain ⟨c, sep, u, h1, ⟨sp, h2, _⟩, h3⟩ := h
  obtain ⟨y, hy⟩ := h3.head
  obtain ⟨l0, sep0, g1, g2⟩ := hl
  have ht : ∃ z, t = ':' :: z := ⟨_, by rw [h1.eq, h2, hy]; rfl⟩
  obtain ⟨z, hz⟩ := ht
  have hl0 : ∃ w, l0 = ':' :: w := by
    cases l0 with
    | nil =>
      have e := g1.eq
      rw [hz] at e
      rcases g1.term with rfl | rfl | ⟨rfl, rfl | rfl⟩ <;> simp at e
    | cons d ds =>
      have e := g1.eq
      rw [hz] at e
      simp at e
      exact ⟨ds, by rw [← e.1]⟩
  obtain ⟨w, rfl⟩ := hl0
  obtain ⟨sp0, e1, e2, _⟩ := g2
  cases l with
  | nil =>
    simp at e1
    rw [← e1] at e2
    exact absurd (e2 ':' (by simp)) (by decide)
  | cons d ds =>
    simp at e1
    exact ⟨ds, by rw [← e1.1]⟩

theorem Spec.HeadLine.nil_not_entry {t r n rest : Text} {k : EntryKind} (hl : HeadLine t [] r) : ¬ HeaderEntry t n k rest := by
  intro h
  obtain ⟨y, hy⟩ := h.head hl
  cases hy

/-- A line of the header has one reading. -/
theorem Spec.HeaderLine.det {s s1 s1' : Stage} {t r r' : Text} {l l' : HLine} (h : HeaderLine s t l s1 r)
    (h' : HeaderLine s t l' s1' r') : l = l' ∧ s1 = s1' ∧ r = r' := by
  have nc : ∀ {r : Text}, ¬ IsComment (':' :: r) := by rintro r ⟨_, e, _⟩; cases e
  cases h with
  | blank h1 =>
    cases h' with
    | blank g1 => obtain ⟨_, rfl⟩ := h1.det g1; exact ⟨rfl, rfl, rfl⟩
    | comment g1 g2 =>
      obtain ⟨rfl, _⟩ := h1.det g1
      obtain ⟨_, e, _⟩ := g2; cases e
    | entry g1 => exact absurd g1 h1.nil_not_entry
    | title g1 _ _ => have := (h1.det g1).1; cases this
  | comment h1 h2 =>
    cases h' with
    | blank g1 =>
      obtain ⟨rfl, _⟩ := h1.det g1
      obtain ⟨_, e, _⟩ := h2; cases e
    | comment g1 g2 => obtain ⟨rfl, rfl⟩ := h1.det g1; exact ⟨rfl, rfl, rfl⟩
    | entry g1 =>
      obtain ⟨y, rfl⟩ := g1.head h1
      exact absurd h2 nc
    | title g1 _ _ =>
      obtain ⟨rfl, _⟩ := h1.det g1
      obtain ⟨_, e, _⟩ := h2; simp at e
    | author g1 => obtain ⟨rfl, _⟩ := h1.det g1.1; exact absurd h2 g1.2.2.1
    | revision g1 => obtain ⟨rfl, _⟩ := h1.det g1.1; exact absurd h2 g1.2.2.1
  | entry h1 =>
    cases h' with
    | blank g1 => exact absurd h1 g1.nil_not_entry
    | comment g1 g2 =>
      obtain ⟨y, rfl⟩ := h1.head g1
      exact absurd g2 nc
    | entry g1 => obtain ⟨rfl, rfl, rfl⟩ := h1.det g1; exact ⟨rfl, rfl, rfl⟩
    | title g1 _ _ =>
      obtain ⟨y, e⟩ := h1.head g1
      simp at e
    | author g1 => exact absurd h1 (g1.2.2.2 _ _ _)
    | revision g1 => exact absurd h1 (g1.2.2.2 _ _ _)
  | @title _ sp x _ h1 h2 h3 =>
    cases h' with
    | blank g1 => have := (h1.det g1).1; cases this
    | comment g1 g2 =>
      obtain ⟨rfl, _⟩ := h1.det g1
      obtain ⟨_, e, _⟩ := g2; simp at e
    | entry g1 =>
      obtain ⟨y, e⟩ := g1.head h1
      simp at e
    | @title _ sp' x' _ g1 g2 g3 =>
      obtain ⟨e, rfl⟩ := h1.det g1
      simp only [List.cons_append, List.cons.injEq, true_and] at e
      have hd : ∀ {sp x : Text}, Blank sp → (∀ c, x.head? = some c → c ≠ ' ' ∧ c ≠ '\t') →
          (sp ++ x).dropWhile isBlank = x := by
        intro sp x hb hx
        rw [List.dropWhile_append_of_pos (fun c hc => by rcases hb c hc with rfl | rfl <;> decide)]
        cases x with
        | nil => rfl
        | cons c cs =>
          have := hx c rfl
          have : isBlank c = false := by
            unfold isBlank
            simp [this.1, this.2]
          simp [this]
      have : x = x' := by rw [← hd h2 h3, ← hd g2 g3, e]
      subst this
      exact ⟨rfl, rfl, rfl⟩
  | author h1 =>
    cases h' with
    | comment g1 g2 => obtain ⟨rfl, _⟩ := g1.det h1.1; exact absurd g2 h1.2.2.1
    | entry g1 => exact absurd g1 (h1.2.2.2 _ _ _)
    | author g1 => obtain ⟨rfl, rfl⟩ := g1.1.det h1.1; exact ⟨rfl, rfl, rfl⟩
  | revision h1 =>
    cases h' with
    | comment g1 g2 => obtain ⟨rfl, _⟩ := g1.det h1.1; exact absurd g2 h1.2.2.1
    | entry g1 => exact absurd g1 (h1.2.2.2 _ _ _)
    | revision g1 => obtain ⟨rfl, rfl⟩ := g1.1.det h1.1; exact ⟨rfl, rfl, rfl⟩

/-- A text has one header. -/
theorem Spec.HeaderReads.det {s s1 s2 : Stage} {t r1 r2 : Text} {ls1 ls2 : List HLine} (h : HeaderReads s t ls1 s1 r1)
    (h' : HeaderReads s t ls2 s2 r2) : ls1 = ls2 ∧ s1 = s2 ∧ r1 = r2 := by
  induction h generalizing ls2 with
  | stop hn =>
    cases h' with
    | stop _ => exact ⟨rfl, rfl, rfl⟩
    | line ht hl _ => exact absurd hl (hn ht _ _ _)
  | line ht hl _ ih =>
    cases h' with
    | stop hn => exact absurd hl (hn ht _ _ _)
    | line _ hl' hr =>
      obtain ⟨rfl, rfl, rfl⟩ := hl.det hl'
      obtain ⟨rfl, rfl, rfl⟩ := ih hr
      exact ⟨rfl, rfl, rfl⟩

/-- Reading a header line consumes text. -/
theorem Spec.HeaderLine.shorter {s s1 : Stage} {t r : Text} {l : HLine} (h : HeaderLine s t l s1 r) (ht : t ≠ []) :
    ∃ pre, t = pre ++ r ∧ pre ≠ [] := by
  have hh : ∀ {l r}, HeadLine t l r → ∃ pre, t = pre ++ r ∧ pre ≠ [] := by
    rintro l r ⟨l0, sep, h1, _⟩
    refine ⟨l0 ++ sep, h1.eq, ?_⟩
    intro e
    have := h1.eq
    rw [e] at this
    rcases h1.term with rfl | rfl | ⟨rfl, rfl | rfl⟩ <;> simp at e
    subst e; simp at this; exact ht this
  cases h with
  | blank h => exact hh h
  | comment h _ => exact hh h
  | entry h =>
    obtain ⟨c, sep, u, h1, ⟨sp, h2, _⟩, h3⟩ := h
    obtain ⟨y, hy⟩ := h3.head
    exact ⟨c ++ sep, h1.eq, by rw [h2, hy]; simp⟩
  | title h _ _ => exact hh h
  | author h => exact hh h.1
  | revision h => exact hh h.1

/-! ### Skipping empty lines -/

theorem takeEmptyLine_some {s : Span} {l sep rest : Text} (h : FirstLine s.data l sep rest) :
    s.takeEmptyLine = if l.all isBlank then some s.takeLine else none := by
  unfold Span.takeEmptyLine
  simp only
  rw [(takeLine_data h.eq h.takeLine_eq).1]

theorem blank_iff {l : Text} : l.all isBlank = true ↔ Blank l := by
  unfold Blank isBlank
  rw [List.all_eq_true]
  simp

theorem discardAux_skip (n : Nat) (s : Span) (h : s.data.length ≤ n) :
    SkipEmpty s.data (Span.discardEmptyLinesAux n s).data := by
  induction n generalizing s with
  | zero =>
    have : s.data = [] := List.length_eq_zero_iff.mp (by omega)
    rw [Span.discardEmptyLinesAux, this]
    exact .stop (fun _ _ _ _ hne => absurd rfl hne)
  | succ n ih =>
    rw [Span.discardEmptyLinesAux]
    by_cases hs : s.data = []
    · rw [if_pos hs, hs]
      exact .stop (fun _ _ _ _ hne => absurd rfl hne)
    · rw [if_neg hs]
      obtain ⟨l, sep, rest, hl, e⟩ := takeLine_first s
      rw [takeEmptyLine_some hl]
      by_cases hb : l.all isBlank = true
      · rw [if_pos hb]
        simp only
        have hr := (takeLine_data hl.eq e).2
        have hp := Span.takeLine_progress s hs
        refine .skip hs hl (blank_iff.mp hb) ?_
        rw [← hr]
        exact ih _ (by omega)
      · rw [if_neg hb]
        refine .stop ?_
        intro l' sep' rest' hl' _ hbl
        obtain ⟨rfl, _, _⟩ := hl.det hl'
        exact hb (blank_iff.mpr hbl)

theorem discardEmptyLines_skip (s : Span) : SkipEmpty s.data s.discardEmptyLines.data :=
  discardAux_skip _ _ (Nat.le_refl _)

theorem Spec.SkipEmpty.det {t u v : Text} (h : SkipEmpty t u) (h' : SkipEmpty t v) : u = v := by
  induction h with
  | stop hn =>
    cases h' with
    | stop _ => rfl
    | skip hs hl hb _ => exact absurd hb (hn _ _ _ hl hs)
  | skip hs hl hb _ ih =>
    cases h' with
    | stop hn => exact absurd hb (hn _ _ _ hl hs)
    | skip _ hl' _ hr =>
      obtain ⟨rfl, rfl, rfl⟩ := hl.det hl'
      exact ih hr

/-! ### The loop -/

variable [Uni]

def stageOf (st : HState) : Stage :=
  if st.title.isNone then .start else if st.authorLine.isNone then .titled else if st.revisionLine.isNone then .authored
  else .revised

/-- The state agrees with the lines read so far. -/
structure HInv (source : Span) (st : HState) (lines : List HLine) : Prop where
  author : st.authorLine.isSome = true → st.title.isSome = true
  revision : st.revisionLine.isSome = true → st.authorLine.isSome = true
  titleSrc : st.titleSource.isSome = st.title.isSome
  titles : st.titleSource.toList.map Span.data = lines.filterMap HLine.title?
  authors : st.authorLine.toList.map (fun a => a.source.data) = lines.filterMap HLine.author?
  revisions : st.revisionLine.toList.map (fun a => a.source.data) = lines.filterMap HLine.revision?
  comments : st.comments.map Span.data = lines.filterMap HLine.comment?
  entries : st.attributes.map (fun a => (a.name.data, a.valueSource.map Span.data)) = lines.filterMap HLine.entry?
  subs : (∀ s ∈ st.titleSource, Sub s source) ∧ (∀ a ∈ st.authorLine, Sub a.source source) ∧
    (∀ a ∈ st.revisionLine, Sub a.source source) ∧ (∀ s ∈ st.comments, Sub s source) ∧
    (∀ a ∈ st.attributes, Sub a.source source ∧ Sub a.name source ∧ ∀ v ∈ a.valueSource, Sub v source)
  warns : ∀ w ∈ st.warnings, (∃ n, w.warning = .attributeValueIsLocked n) ∧ Sub w.source source

theorem setFromHeader_warn (s : AttrStore) (a : Attribute) :
    ∀ w ∈ (s.setFromHeader a).2.toList, (∃ n, w.warning = .attributeValueIsLocked n) ∧ w.source = a.source := by
  intro w hw
  unfold AttrStore.setFromHeader at hw
  simp only at hw
  split at hw
  · simp at hw; subst hw; simp
  · simp at hw

theorem setFromHeader_congr (s : AttrStore) {a b : Attribute} (h1 : a.name.data = b.name.data) (h2 : a.value = b.value) :
    (s.setFromHeader a).1 = (s.setFromHeader b).1 := by
  unfold AttrStore.setFromHeader
  simp only [h1, h2]
  split <;> rfl

theorem authorEntry_effect {r : Renderer} {store : AttrStore} {attr : Attribute} {k : EntryKind}
    (hk : attr.valueSource.map Span.data = kindRaw k) :
    ∃ s', authorEntry r store attr = .ok s' ∧ AuthorEffect r store attr.name.data k s' := by
  unfold authorEntry
  have hl : "author".toList.map Char.toLower = "author".toList := by decide
  by_cases hn : eqIgnoreAsciiCase attr.name.data "author".toList = true
  · rw [if_pos hn]
    have hn' : attr.name.data.map Char.toLower = "author".toList := by
      unfold eqIgnoreAsciiCase at hn
      rw [hl] at hn
      simpa using hn
    cases hv : attr.valueSource with
    | none =>
      rw [hv] at hk
      refine ⟨store, rfl, .noValue ?_⟩
      rintro raw rfl
      cases hk
    | some v =>
      rw [hv] at hk
      cases k with
      | unset => cases hk
      | set => cases hk
      | value raw =>
        simp only [Option.map_some, kindRaw, Option.some.injEq] at hk
        simp only
        rw [hk]
        obtain ⟨o, ho⟩ := author_total r store raw
        rw [ho]
        cases o with
        | none => exact ⟨store, rfl, .blank ho⟩
        | some a =>
          refine ⟨setAuthorEntry store a, rfl, ?_⟩
          have : setAuthorEntry store a = setAll store (authorEntryAttrs a) := by
            obtain ⟨n, f, m, l, e⟩ := a
            cases m <;> cases l <;> cases e <;> rfl
          rw [this]
          exact .author hn' ho
  · rw [if_neg hn]
    refine ⟨store, rfl, .other ?_⟩
    intro h
    apply hn
    unfold eqIgnoreAsciiCase
    rw [hl, h]
    simp

theorem headerEntryAt_spec (hdr : HeaderSubs) (store : AttrStore) (source : Span) {l rest : Text}
    (hl : HeadLine source.data l rest) :
    (headerEntryAt hdr store source l = .ok none ∧ ∀ n k r, ¬ HeaderEntry source.data n k r) ∨
    (∃ n k r nm vs src aft, HeaderEntry source.data n k r ∧ nm.data = n ∧ vs.map Span.data = kindRaw k ∧ aft.data = r ∧
      Suf aft source ∧ Sub src source ∧ Sub nm source ∧ (∀ v ∈ vs, Sub v source) ∧
      headerEntryAt hdr store source l = (kindValue (hdr store) k).map fun v => some ⟨⟨nm, vs, v, src⟩, aft⟩) := by
  unfold headerEntryAt
  obtain ⟨c, sep, r, hx⟩ := extent_exists source.data
  obtain ⟨u, hu⟩ := stripSpaces_exists c
  by_cases he : ∃ n k, Entry u n k
  · obtain ⟨n, k, he⟩ := he
    right
    have hh : HeaderEntry source.data n k r := ⟨c, sep, u, hx, hu, he⟩
    obtain ⟨nm, vs, s1, e1, e2, s2, e3⟩ := parse_entry (hdr := hdr store) hx hu he
    refine ⟨n, k, r, nm, vs, source.takeN (trimEnd c).length, source.dropN (c.length + sep.length), hh, e1, e2, ?_,
      Span.dropN_suf _ _, Span.takeN_sub _ _, s1, s2, ?_⟩
    · rw [Span.dropN_data]
      conv => lhs; rw [hx.eq]
      rw [List.drop_left' (by simp)]
    · obtain ⟨y, rfl⟩ := hh.head hl
      have hs : startsWith (':' :: y) [':'] = true := startsWith_iff.mpr ⟨y, rfl⟩
      rw [if_pos hs, e3]
  · left
    refine ⟨?_, ?_⟩
    · split
      · exact parse_no_entry hx hu (fun n k h => he ⟨n, k, h⟩)
      · rfl
    · rintro n k r' ⟨c', sep', u', h1, h2, h3⟩
      obtain ⟨rfl, rfl, rfl⟩ := hx.det h1
      have := hu.det h2
      subst this
      exact he ⟨n, k, h3⟩

theorem authorLine_congr {r : Renderer} {s s' : AttrStore} {sp : Span} {a : AuthorLine}
    (h : AuthorLine.parse r s sp = .ok (a, s')) :
    a.source = sp ∧ AuthorLine.parse r s (Span.new sp.data) = .ok (⟨a.authors, Span.new sp.data⟩, s') := by
  unfold AuthorLine.parse at h ⊢
  have : (Span.new sp.data).data = sp.data := rfl
  rw [this]
  cases hp : parseAuthors r s (splitStr "; ".toList sp.data) with
  | error e => rw [hp] at h; cases h
  | ok as =>
    rw [hp] at h
    simp only [bind, Except.bind, Except.ok.injEq, Prod.mk.injEq] at h ⊢
    obtain ⟨rfl, rfl⟩ := h
    exact ⟨rfl, rfl, rfl⟩

theorem revisionLine_congr {hdr : HeaderSubs} {s s' : AttrStore} {sp : Span} {a : RevisionLine}
    (h : RevisionLine.parse hdr s sp = .ok (a, s')) :
    a.source = sp ∧ RevisionLine.parse hdr s (Span.new sp.data) =
      .ok (⟨a.revnumber, a.revdate, a.revremark, Span.new sp.data⟩, s') := by
  unfold RevisionLine.parse at h ⊢
  have : (Span.new sp.data).data = sp.data := rfl
  rw [this]
  simp only [bind, Except.bind] at h ⊢
  cases h1 : (revisionParts sp.data).1.mapM (hdr (setRevision s (revisionParts sp.data))) with
  | error e => rw [h1] at h; cases h
  | ok n =>
    rw [h1] at h
    simp only at h ⊢
    cases h2 : hdr (setRevision s (revisionParts sp.data)) (revisionParts sp.data).2.1 with
    | error e => rw [h2] at h; cases h
    | ok d =>
      rw [h2] at h
      simp only at h ⊢
      cases h3 : (revisionParts sp.data).2.2.mapM (hdr (setRevision s (revisionParts sp.data))) with
      | error e => rw [h3] at h; cases h
      | ok r =>
        rw [h3] at h
        simp only [Except.ok.injEq, Prod.mk.injEq] at h ⊢
        obtain ⟨rfl, rfl⟩ := h
        exact ⟨rfl, rfl, rfl⟩

/-- What the state of the loop shows. -/
def shownBy (st : HState) : Contents :=
  ⟨st.title, st.authorLine.map (·.authors), st.revisionLine.map fun a => (a.revnumber, a.revdate, a.revremark),
    st.attributes.map fun a => (a.name.data, a.value)⟩

/-- The entries of the lines of a header, what is reported, and the attributes behind them. -/
inductive Trace (hdr : HeaderSubs) (r : Renderer) : AttrStore → List HLine → List Attribute → List Warning → AttrStore → Prop
  | nil {s} : Trace hdr r s [] [] [] s
  | plain {s l s1 ls as ws s2} : LineEffect hdr r s l s1 → (∀ n k, l ≠ .entry n k) → Trace hdr r s1 ls as ws s2 →
      Trace hdr r s (l :: ls) as ws s2
  | entry {s a k s1 ls as ws s2} : EntryValue (hdr s) k a.value → AuthorEffect r s a.name.data k s1 →
      Trace hdr r (s1.setFromHeader a).1 ls as ws s2 →
      Trace hdr r s (.entry a.name.data k :: ls) (a :: as) ((s1.setFromHeader a).2.toList ++ ws) s2

theorem Trace.append {hdr : HeaderSubs} {r : Renderer} {s s1 s2 : AttrStore} {ls ls' : List HLine} {as as' : List Attribute}
    {ws ws' : List Warning} (h : Trace hdr r s ls as ws s1) (h' : Trace hdr r s1 ls' as' ws' s2) :
    Trace hdr r s (ls ++ ls') (as ++ as') (ws ++ ws') s2 := by
  induction h with
  | nil => exact h'
  | plain h1 h2 _ ih => exact .plain h1 h2 (ih h')
  | entry h1 h2 _ ih =>
    rw [List.append_assoc]
    exact .entry h1 h2 (ih h')

/-- What one iteration does when it goes on. -/
def StepMore (hdr : HeaderSubs) (r : Renderer) (doc source : Span) (st st' : HState) (lines : List HLine) (src' : Span) : Prop :=
  ∃ line, HeaderLine (stageOf st) source.data line (stageOf st') src'.data ∧ Suf src' source ∧
    HInv doc st' (lines ++ [line]) ∧ LineEffect hdr r st.store line st'.store ∧
    (∃ c, LineShows hdr r st.store line c ∧ shownBy st' = (shownBy st).append c) ∧
    ∃ as w, Trace hdr r st.store [line] as w st'.store ∧ st'.attributes = st.attributes ++ as ∧
      st'.warnings = st.warnings ++ w

/-- What the last iteration does. -/
def StepLast (source : Span) (st st' : HState) : Prop :=
  (∀ l s' r', ¬ HeaderLine (stageOf st) source.data l s' r') ∧
  ((st' = st ∧ ¬ (stageOf st = .revised ∧ ∃ l r, HeadLine source.data l r ∧ l ≠ [])) ∨
   (∃ line, st' = { st with warnings := st.warnings ++ [⟨line, .documentHeaderNotTerminated⟩] } ∧
    stageOf st = .revised ∧ ∃ r, HeadLine source.data line.data r ∧ line.data ≠ [] ∧ Sub line source))

theorem stage_start {st : HState} : stageOf st = .start ↔ st.title = none := by
  unfold stageOf
  cases st.title with
  | none => simp
  | some x =>
    simp only [Option.isNone_some, Bool.false_eq_true, if_false, reduceCtorEq, iff_false]
    split
    · simp
    · split <;> simp

theorem headerStep_spec {hdr : HeaderSubs} {r : Renderer} {doc source src' : Span} {st st' : HState} {lines : List HLine}
    {more : Bool} (hsuf : Suf source doc) (inv : HInv doc st lines)
    (h : headerStep hdr r source st = .ok (st', src', more)) :
    (more = true ∧ StepMore hdr r doc source st st' lines src') ∨
    (more = false ∧ src' = source ∧ StepLast source st st') := by
  obtain ⟨l, rest, hl, d1, d2, sub1, suf2⟩ := headLine_span source
  have sub1' : Sub source.takeNormalizedLine.item doc := sub1.trans hsuf.sub
  unfold headerStep at h
  simp only at h
  generalize source.takeNormalizedLine = mi at *
  obtain ⟨item, after⟩ := mi
  simp only at h d1 d2 sub1 suf2 sub1'
  subst d1
  subst d2
  by_cases hemp : item.data = []
  · rw [if_pos hemp] at h
    rw [hemp] at hl
    cases ht : st.title with
    | none =>
      rw [ht] at h
      simp only [Option.isSome_none, Bool.false_eq_true, if_false, Except.ok.injEq, Prod.mk.injEq] at h
      obtain ⟨rfl, rfl, rfl⟩ := h
      left
      refine ⟨rfl, .blank, ?_, suf2, ?_, .blank, ⟨_, .blank, by simp [shownBy, Contents.append]⟩, [], [], .plain .blank nofun .nil, by simp, by simp⟩
      · rw [stage_start.mpr ht]
        exact .blank hl
      · obtain ⟨i1, i2, i3, i4, i5, i6, i7, i8, i9, i10⟩ := inv
        refine ⟨i1, i2, i3, ?_, ?_, ?_, ?_, ?_, i9, i10⟩
        · simp [i4, HLine.title?]
        · simp [i5, HLine.author?]
        · simp [i6, HLine.revision?]
        · simp [i7, HLine.comment?]
        · simp [i8, HLine.entry?]
    | some x =>
      rw [ht] at h
      simp only [Option.isSome_some, if_true, Except.ok.injEq, Prod.mk.injEq] at h
      obtain ⟨rfl, rfl, rfl⟩ := h
      right
      refine ⟨rfl, rfl, ?_, .inl ⟨rfl, ?_⟩⟩
      · intro l s' r' hh
        cases hh' : stageOf st with
        | start => rw [stage_start.mp hh'] at ht; cases ht
        | titled =>
          rw [hh'] at hh
          cases hh with
          | comment g1 g2 => obtain ⟨rfl, _⟩ := hl.det g1; obtain ⟨_, e, _⟩ := g2; cases e
          | entry g => exact hl.nil_not_entry g
          | author g => obtain ⟨rfl, _⟩ := hl.det g.1; exact g.2.1 rfl
        | authored =>
          rw [hh'] at hh
          cases hh with
          | comment g1 g2 => obtain ⟨rfl, _⟩ := hl.det g1; obtain ⟨_, e, _⟩ := g2; cases e
          | entry g => exact hl.nil_not_entry g
          | revision g => obtain ⟨rfl, _⟩ := hl.det g.1; exact g.2.1 rfl
        | revised =>
          rw [hh'] at hh
          cases hh with
          | comment g1 g2 => obtain ⟨rfl, _⟩ := hl.det g1; obtain ⟨_, e, _⟩ := g2; cases e
          | entry g => exact hl.nil_not_entry g
      · rintro ⟨_, l, r', g1, g2⟩
        obtain ⟨rfl, _⟩ := hl.det g1
        exact g2 rfl
  · rw [if_neg hemp] at h
    by_cases hcom : (startsWith item.data ['/', '/'] && !startsWith item.data ['/', '/', '/']) = true
    · rw [if_pos hcom] at h
      simp only [Except.ok.injEq, Prod.mk.injEq] at h
      obtain ⟨rfl, rfl, rfl⟩ := h
      left
      refine ⟨rfl, .comment item.data, .comment hl (comment_iff.mp hcom), suf2, ?_, .comment, ⟨_, .comment, by simp [shownBy, Contents.append]⟩, [], [], .plain .comment nofun .nil, by simp, by simp⟩
      obtain ⟨i1, i2, i3, i4, i5, i6, i7, i8, i9, i10⟩ := inv
      refine ⟨i1, i2, i3, ?_, ?_, ?_, ?_, ?_, ?_, i10⟩
      · simp [i4, HLine.title?]
      · simp [i5, HLine.author?]
      · simp [i6, HLine.revision?]
      · simp [i7, HLine.comment?]
      · simp [i8, HLine.entry?]
      · refine ⟨i9.1, i9.2.1, i9.2.2.1, ?_, i9.2.2.2.2⟩
        intro s hs
        rcases List.mem_append.mp hs with hs | hs
        · exact i9.2.2.2.1 s hs
        · simp at hs; subst hs; exact sub1'
    · rw [if_neg hcom] at h
      have hnc : ¬ IsComment item.data := fun hc => hcom (comment_iff.mpr hc)
      rcases headerEntryAt_spec hdr st.store source hl with ⟨e1, e2⟩ | ⟨n, k, rr, nm, vs, src, aft, g1, g2, g3, g4, g5, g6, g7, g8, g9⟩
      · rw [e1] at h
        simp only [bind, Except.bind] at h
        have hplain : PlainLine source.data item.data after.data := ⟨hl, hemp, hnc, e2⟩
        by_cases htl : (st.title.isNone && startsWith item.data ['=', ' ']) = true
        · rw [if_pos htl] at h
          simp only [Bool.and_eq_true, Option.isNone_iff_eq_none] at htl
          obtain ⟨ht, hst⟩ := htl
          obtain ⟨y, hy⟩ := startsWith_iff.mp hst
          have hd2 : (item.discard 2).data = y := by
            show (item.dropN 2).data = y
            rw [Span.dropN_data, hy]
            rfl
          have hd3 : (item.discard 2).discardWhitespace.data = y.dropWhile Span.isBlank := by
            rw [← hd2]
            exact takeWhile_after_data _ _
          have hsub : Sub (item.discard 2).discardWhitespace item :=
            (Span.dropN_suf _ _).sub.trans (Span.dropN_suf item 2).sub
          cases hh : hdr st.store (item.discard 2).discardWhitespace.data with
          | error e => rw [hh] at h; cases h
          | ok v =>
            rw [hh] at h
            simp only [Except.ok.injEq, Prod.mk.injEq] at h
            obtain ⟨rfl, rfl, rfl⟩ := h
            left
            obtain ⟨i1, i2, i3, i4, i5, i6, i7, i8, i9, i10⟩ := inv
            have i3' : st.titleSource = none := by rw [ht] at i3; simpa using i3
            have ia : st.authorLine = none := by
              cases ha : st.authorLine with
              | none => rfl
              | some a => rw [ha, ht] at i1; simp at i1
            refine ⟨rfl, .title (y.dropWhile Span.isBlank), ?_, suf2, ?_, ?_⟩
            · have e1 : stageOf { st with store := st.store.setByValueFromHeader "doctitle".toList v, title := some v,
                                          titleSource := some (item.discard 2).discardWhitespace } = .titled := by
                unfold stageOf
                simp [ia]
              rw [stage_start.mpr ht, e1]
              refine .title (sp := y.takeWhile Span.isBlank) ?_ ?_ ?_
              · have : '=' :: ' ' :: y.takeWhile Span.isBlank ++ y.dropWhile Span.isBlank = item.data := by
                  rw [hy]
                  simp [List.takeWhile_append_dropWhile]
                rw [this]
                exact hl
              · intro c hc
                have := mem_takeWhile hc
                unfold Span.isBlank at this
                simpa using this
              · intro c hc
                have := List.head?_dropWhile_not (p := Span.isBlank) y
                rw [hc] at this
                unfold Span.isBlank at this
                simpa using this
            · refine ⟨by simp, i2, by simp, ?_, ?_, ?_, ?_, ?_, ⟨?_, i9.2⟩, i10⟩
              · rw [i3'] at i4
                simp [← i4, HLine.title?, hd3]
              · simp [i5, HLine.author?]
              · simp [i6, HLine.revision?]
              · simp [i7, HLine.comment?]
              · simp [i8, HLine.entry?]
              · intro s hs
                simp only [Option.mem_def, Option.some.injEq] at hs
                subst hs
                exact hsub.trans sub1'
            · rw [hd3] at hh
              exact ⟨.title hh, ⟨_, .title hh, by simp [shownBy, Contents.append, ht]⟩, [], [], .plain (.title hh) nofun .nil, by simp, by simp⟩
        · rw [if_neg htl] at h
          by_cases hau : (st.title.isSome && st.authorLine.isNone) = true
          · rw [if_pos hau] at h
            cases hp : AuthorLine.parse r st.store item with
            | error e => rw [hp] at h; cases h
            | ok as =>
              obtain ⟨a, s'⟩ := as
              rw [hp] at h
              simp only [Except.ok.injEq, Prod.mk.injEq] at h
              obtain ⟨rfl, rfl, rfl⟩ := h
              obtain ⟨hsrc, ha'⟩ := authorLine_congr hp
              simp only [Bool.and_eq_true, Option.isNone_iff_eq_none] at hau
              left
              obtain ⟨i1, i2, i3, i4, i5, i6, i7, i8, i9, i10⟩ := inv
              have ir : st.revisionLine = none := by
                cases hr : st.revisionLine with
                | none => rfl
                | some a => rw [hr, hau.2] at i2; simp at i2
              refine ⟨rfl, .author item.data, ?_, suf2, ?_, .author ha', ⟨_, .author ha', by simp [shownBy, Contents.append, hau.2]⟩, [], [], .plain (.author ha') nofun .nil, by simp, by simp⟩
              · have e1 : stageOf { st with store := s', authorLine := some a } = .authored := by
                  unfold stageOf
                  have : st.title.isNone = false := by
                    rw [Option.isNone_eq_false_iff]; exact hau.1
                  simp [this, ir]
                have e0 : stageOf st = .titled := by
                  unfold stageOf
                  have : st.title.isNone = false := by
                    rw [Option.isNone_eq_false_iff]; exact hau.1
                  simp [this, hau.2]
                rw [e0, e1]
                exact .author hplain
              · refine ⟨fun _ => hau.1, fun _ => rfl, i3, ?_, ?_, ?_, ?_, ?_, ⟨i9.1, ?_, i9.2.2⟩, i10⟩
                · simp [i4, HLine.title?]
                · rw [hau.2] at i5
                  simp [← i5, HLine.author?, hsrc]
                · simp [i6, HLine.revision?]
                · simp [i7, HLine.comment?]
                · simp [i8, HLine.entry?]
                · intro s hs
                  simp only [Option.mem_def, Option.some.injEq] at hs
                  subst hs
                  rw [hsrc]
                  exact sub1'
          · rw [if_neg hau] at h
            by_cases hre : (st.title.isSome && st.authorLine.isSome && st.revisionLine.isNone) = true
            · rw [if_pos hre] at h
              cases hp : RevisionLine.parse hdr st.store item with
              | error e => rw [hp] at h; cases h
              | ok as =>
                obtain ⟨a, s'⟩ := as
                rw [hp] at h
                simp only [Except.ok.injEq, Prod.mk.injEq] at h
                obtain ⟨rfl, rfl, rfl⟩ := h
                obtain ⟨hsrc, ha'⟩ := revisionLine_congr hp
                simp only [Bool.and_eq_true, Option.isNone_iff_eq_none] at hre
                left
                obtain ⟨i1, i2, i3, i4, i5, i6, i7, i8, i9, i10⟩ := inv
                have t1 : st.title.isNone = false := by
                  rw [Option.isNone_eq_false_iff]; exact hre.1.1
                have t2 : st.authorLine.isNone = false := by
                  rw [Option.isNone_eq_false_iff]; exact hre.1.2
                refine ⟨rfl, .revision item.data, ?_, suf2, ?_, .revision ha', ⟨_, .revision ha', by simp [shownBy, Contents.append, hre.2]⟩, [], [], .plain (.revision ha') nofun .nil, by simp, by simp⟩
                · have e1 : stageOf { st with store := s', revisionLine := some a } = .revised := by
                    unfold stageOf
                    simp [t1, t2]
                  have e0 : stageOf st = .authored := by
                    unfold stageOf
                    simp [t1, t2, hre.2]
                  rw [e0, e1]
                  exact .revision hplain
                · refine ⟨i1, fun _ => hre.1.2, i3, ?_, ?_, ?_, ?_, ?_, ⟨i9.1, i9.2.1, ?_, i9.2.2.2⟩, i10⟩
                  · simp [i4, HLine.title?]
                  · simp [i5, HLine.author?]
                  · rw [hre.2] at i6
                    simp [← i6, HLine.revision?, hsrc]
                  · simp [i7, HLine.comment?]
                  · simp [i8, HLine.entry?]
                  · intro s hs
                    simp only [Option.mem_def, Option.some.injEq] at hs
                    subst hs
                    rw [hsrc]
                    exact sub1'
            · rw [if_neg hre] at h
              by_cases ht : st.title.isSome = true
              · rw [if_pos ht] at h
                simp only [Except.ok.injEq, Prod.mk.injEq] at h
                obtain ⟨rfl, rfl, rfl⟩ := h
                have t1 : st.title.isNone = false := by
                  rw [Option.isNone_eq_false_iff]; exact ht
                rw [ht] at hau hre
                simp only [Bool.true_and, Bool.not_eq_true] at hau hre
                have t2 : st.authorLine.isSome = true := by
                  rw [Option.isNone_eq_false_iff] at hau; exact hau
                rw [t2] at hre
                simp only [Bool.true_and] at hre
                have e0 : stageOf st = .revised := by
                  unfold stageOf
                  simp [t1, hau, hre]
                right
                refine ⟨rfl, rfl, ?_, .inr ⟨item, rfl, e0, after.data, hl, hemp, sub1⟩⟩
                intro l s' r' hh
                rw [e0] at hh
                cases hh with
                | comment g1 g2 => obtain ⟨rfl, _⟩ := hl.det g1; exact hnc g2
                | entry g => exact e2 _ _ _ g
              · rw [if_neg ht] at h
                simp only [Except.ok.injEq, Prod.mk.injEq] at h
                obtain ⟨rfl, rfl, rfl⟩ := h
                have t0 : st.title = none := by
                  cases hh : st.title with
                  | none => rfl
                  | some x => rw [hh] at ht; simp at ht
                have e0 := stage_start.mpr t0
                right
                refine ⟨rfl, rfl, ?_, .inl ⟨rfl, ?_⟩⟩
                · intro l s' r' hh
                  rw [e0] at hh
                  cases hh with
                  | blank g => exact hemp (hl.det g).1
                  | comment g1 g2 => obtain ⟨rfl, _⟩ := hl.det g1; exact hnc g2
                  | entry g => exact e2 _ _ _ g
                  | title g1 g2 g3 =>
                    apply htl
                    rw [t0, (hl.det g1).1]
                    rfl
                · rintro ⟨g, _⟩
                  rw [e0] at g
                  cases g
      · rw [g9] at h
        cases hv : kindValue (hdr st.store) k with
        | error e => rw [hv] at h; cases h
        | ok v =>
          rw [hv] at h
          simp only [Except.map, bind, Except.bind] at h
          obtain ⟨s1, hs1, he1⟩ := authorEntry_effect (r := r) (store := st.store) (attr := ⟨nm, vs, v, src⟩) (k := k) g3
          rw [hs1] at h
          simp only [Except.ok.injEq, Prod.mk.injEq] at h
          obtain ⟨rfl, rfl, rfl⟩ := h
          left
          subst g2
          refine ⟨rfl, .entry nm.data k, ?_, g5, ?_, ?_⟩
          · have e1 : stageOf { st with store := (s1.setFromHeader ⟨nm, vs, v, src⟩).1, warnings := st.warnings ++ (s1.setFromHeader ⟨nm, vs, v, src⟩).2.toList, attributes := st.attributes ++ [⟨nm, vs, v, src⟩] } = stageOf st := rfl
            rw [e1, g4]
            exact .entry g1
          · obtain ⟨i1, i2, i3, i4, i5, i6, i7, i8, i9, i10⟩ := inv
            refine ⟨i1, i2, i3, ?_, ?_, ?_, ?_, ?_, ⟨i9.1, i9.2.1, i9.2.2.1, i9.2.2.2.1, ?_⟩, ?_⟩
            · simp [i4, HLine.title?]
            · simp [i5, HLine.author?]
            · simp [i6, HLine.revision?]
            · simp [i7, HLine.comment?]
            · cases k <;> simp [i8, HLine.entry?, g3, kindRaw]
            · intro a ha
              rcases List.mem_append.mp ha with ha | ha
              · exact i9.2.2.2.2 a ha
              · simp only [List.mem_singleton] at ha
                subst ha
                exact ⟨g6.trans hsuf.sub, g7.trans hsuf.sub, fun v hv => (g8 v hv).trans hsuf.sub⟩
            · intro w hw
              rcases List.mem_append.mp hw with hw | hw
              · exact i10 w hw
              · obtain ⟨h1, h2⟩ := setFromHeader_warn _ _ w hw
                exact ⟨h1, h2 ▸ g6.trans hsuf.sub⟩
          · have := setFromHeader_congr s1 (a := ⟨nm, vs, v, src⟩) (b := ⟨Span.new nm.data, none, v, Span.new []⟩) rfl rfl
            refine ⟨this ▸ .entry ((kindValue_ok).mp hv) he1,
              ⟨_, .entry ((kindValue_ok).mp hv), by simp [shownBy, Contents.append]⟩, [⟨nm, vs, v, src⟩], _,
              .entry (a := ⟨nm, vs, v, src⟩) ((kindValue_ok).mp hv) he1 .nil, rfl, by simp⟩

end Adoc
