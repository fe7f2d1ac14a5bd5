import Verif.Lemmas.Author
/-! # Lemmas about revision lines -/

set_option linter.unusedSectionVars false
namespace Adoc
open Spec Re

variable [Uni]

/-! ### Trimming and splitting -/

theorem dropWhile_head {p : Char → Bool} {t : Text} {c : Char} (h : (t.dropWhile p).head? = some c) : p c = false := by
  have := List.head?_dropWhile_not p t
  rw [h] at this
  simpa using this

theorem Spec.Trimmed.trim_eq {t u : Text} (h : Trimmed t u) : trim t = u := by
  obtain ⟨a, b, rfl, ha, hb, h1, h2⟩ := h
  unfold trim trimStart trimEnd
  cases u with
  | nil =>
    have : (a ++ [] ++ b).dropWhile isWhite = [] := by
      rw [dropWhile_nil_iff]
      intro x hx
      simp only [List.append_nil, List.mem_append] at hx
      rcases hx with hx | hx
      · exact ha x hx
      · exact hb x hx
    rw [this]; rfl
  | cons c cs =>
    have hw := h1 c rfl
    have : (a ++ (c :: cs) ++ b).dropWhile isWhite = (c :: cs) ++ b := by
      rw [List.append_assoc, List.dropWhile_append_of_pos ha]
      simp [hw]
    rw [this, trimEndP_append_all (by rw [List.all_eq_true]; exact hb)]
    apply trimEndP_eq_self
    intro d r e
    exact h2 d (by rw [e]; simp)

theorem trim_trimmed (t : Text) : Trimmed t (trim t) := by
  unfold trim trimStart trimEnd
  obtain ⟨w, h1, h2⟩ := trimEndP_spec isWhite (t.dropWhile isWhite)
  refine ⟨t.takeWhile isWhite, w, ?_, fun c hc => mem_takeWhile hc, ?_, ?_, ?_⟩
  · rw [List.append_assoc, ← h1, List.takeWhile_append_dropWhile]
  · rw [List.all_eq_true] at h2; exact h2
  · intro c hc
    apply dropWhile_head (p := isWhite) (t := t)
    rw [h1, List.head?_append, hc]; rfl
  · intro c hc
    obtain ⟨r, hr⟩ := List.getLast?_eq_some_iff.mp hc
    exact trimEndP_last _ _ c r hr

theorem trimmed_iff {t u : Text} : Trimmed t u ↔ trim t = u :=
  ⟨fun h => h.trim_eq, fun h => h ▸ trim_trimmed t⟩

theorem Spec.Trimmed.mem {t u : Text} (h : Trimmed t u) {c : Char} (hc : c ∈ u) : c ∈ t := by
  obtain ⟨a, b, rfl, _⟩ := h
  simp [hc]

theorem splitOnce_none {c : Char} {t : Text} : splitOnce c t = none ↔ c ∉ t := by
  induction t with
  | nil => simp [splitOnce]
  | cons x xs ih =>
    rw [splitOnce]
    by_cases h : x = c
    · simp [h]
    · rw [if_neg h]
      simp only [Option.map_eq_none_iff, ih, List.mem_cons, not_or]
      exact ⟨fun h' => ⟨fun e => h e.symm, h'⟩, fun h' => h'.2⟩

theorem splitOnce_some {c : Char} {t a b : Text} : splitOnce c t = some (a, b) ↔ SplitAt c t a b := by
  unfold SplitAt
  induction t generalizing a with
  | nil => simp [splitOnce]
  | cons x xs ih =>
    rw [splitOnce]
    by_cases h : x = c
    · subst h
      simp only [if_true, Option.some.injEq, Prod.mk.injEq]
      constructor
      · rintro ⟨rfl, rfl⟩; simp
      · rintro ⟨e, ha⟩
        cases a with
        | nil => simp at e; simp [e]
        | cons y ys =>
          simp at e
          simp [e.1] at ha
    · rw [if_neg h]
      simp only [Option.map_eq_some_iff, Prod.mk.injEq, Prod.exists]
      constructor
      · rintro ⟨p, q, e, rfl, rfl⟩
        obtain ⟨e1, e2⟩ := ih.mp e
        refine ⟨by rw [e1]; rfl, ?_⟩
        simp only [List.mem_cons, not_or]
        exact ⟨fun e => h e.symm, e2⟩
      · rintro ⟨e, ha⟩
        cases a with
        | nil => simp at e; exact absurd e.1 h
        | cons y ys =>
          simp at e
          obtain ⟨rfl, e⟩ := e
          simp only [List.mem_cons, not_or] at ha
          exact ⟨ys, b, ih.mpr ⟨e, ha.2⟩, rfl, rfl⟩

/-! ### Greedy repetition -/

theorem starM_cls_max {p : Char → Bool} {k : RS → Option RS} (n : Nat) (s : RS) (hn : s.rest.length ≤ n)
    (hk : (k ⟨prevAfter s.prev (s.rest.takeWhile p), s.rest.dropWhile p, s.caps⟩).isSome = true) :
    starM true (m (cls p)) n k s = k ⟨prevAfter s.prev (s.rest.takeWhile p), s.rest.dropWhile p, s.caps⟩ := by
  induction n generalizing s with
  | zero =>
    obtain ⟨pv, rest, caps⟩ := s
    cases rest with
    | nil => rfl
    | cons c cs => simp at hn
  | succ n ih =>
    obtain ⟨pv, rest, caps⟩ := s
    rw [starM]
    cases rest with
    | nil => simp [m_cls_nil, prevAfter_nil]
    | cons c cs =>
      simp only [m_cls_cons, if_true]
      by_cases h : p c = true
      · simp only [h, if_true, List.takeWhile_cons, List.dropWhile_cons, List.length_cons, Nat.lt_succ_self,
          prevAfter_cons] at hk ⊢
        have := ih ⟨some c, cs, caps⟩ (by simpa using hn) hk
        simp only at this
        rw [this]
        obtain ⟨z, hz⟩ := Option.isSome_iff_exists.mp hk
        rw [hz]
      · simp [h, prevAfter_nil]

/-- Greedy repetition of a class takes as much as it can when the rest of the expression then matches. -/
theorem m_star_cls_max {p : Char → Bool} {k : RS → Option RS} (s : RS)
    (hk : (k ⟨prevAfter s.prev (s.rest.takeWhile p), s.rest.dropWhile p, s.caps⟩).isSome = true) :
    m (star true (cls p)) k s = k ⟨prevAfter s.prev (s.rest.takeWhile p), s.rest.dropWhile p, s.caps⟩ := by
  rw [m]; exact starM_cls_max _ _ (Nat.le_refl _) hk

/-! ### The parts of a revision line -/

theorem stripNonNumericPrefix_eq {t : Text} (h : '\n' ∉ t) :
    stripNonNumericPrefix t = t.dropWhile (fun c => !isAsciiDigit c) := by
  have hm : m nonNumericPrefixRe some ⟨none, t, []⟩ =
      some ⟨prevAfter none t, [], [(1, t.dropWhile (fun c => !isAsciiDigit c))]⟩ := by
    have hd : ∀ (pv : Option Char) (u : Text), '\n' ∉ u →
        m (cat [cap 1 (star true dot), eot]) some ⟨pv, u, []⟩ = some ⟨prevAfter pv u, [], [(1, u)]⟩ := by
      intro pv u hu
      rw [cat_cons, cat_one, m, m]
      have e2 : u.dropWhile (· != '\n') = [] := by
        rw [dropWhile_nil_iff]
        intro x hx
        have : x ≠ '\n' := fun e => hu (e ▸ hx)
        simpa using this
      have e1 : u.takeWhile (· != '\n') = u := by
        have := List.takeWhile_append_dropWhile (p := (· != '\n')) (l := u)
        rwa [e2, List.append_nil] at this
      unfold dot
      rw [m_star_cls_max]
      · simp only [e1, e2]; simp [m]
      · simp only [e1, e2]; simp [m]
    unfold nonNumericPrefixRe
    rw [cat_cons, cat_cons, m, m]
    simp only [if_true]
    have hn : '\n' ∉ t.dropWhile (fun c => !isAsciiDigit c) := fun hx => h ((List.dropWhile_sublist _).mem hx)
    rw [m, m_star_cls_max]
    · simp only
      rw [hd _ _ hn, prevAfter_append, List.takeWhile_append_dropWhile]
    · simp only
      rw [hd _ _ hn]; rfl
  have hc : captures nonNumericPrefixRe t =
      some ⟨t, [(1, t.dropWhile (fun c => !isAsciiDigit c))]⟩ := by
    unfold captures
    have e : nonNumericPrefixRe = .seq .bot (cat [star true (cls fun c => !isAsciiDigit c), cap 1 (star true dot), eot]) := rfl
    rw [e, search_bot, ← e]
    unfold matchAt
    rw [hm]
    simp
  unfold stripNonNumericPrefix
  rw [hc]
  rfl

theorem fromDigit_iff {t u : Text} : FromDigit t u ↔ t.dropWhile (fun c => !isAsciiDigit c) = u := by
  constructor
  · rintro ⟨a, rfl, h1, h2⟩
    rw [List.dropWhile_append_of_pos (by intro c hc; simp [h1 c hc])]
    cases u with
    | nil => rfl
    | cons c cs => simp [h2 c rfl]
  · rintro rfl
    refine ⟨t.takeWhile (fun c => !isAsciiDigit c), (List.takeWhile_append_dropWhile).symm, ?_, ?_⟩
    · intro c hc
      simpa using mem_takeWhile hc
    · intro c hc
      simpa using dropWhile_head hc

theorem standalone_iff {t : Text} : isMatch standaloneRevisionRe t = true ↔ ∃ c r, t = 'v' :: c :: r ∧ Uni.isNd c = true := by
  unfold isMatch
  have e : standaloneRevisionRe = .seq .bot (cat [chr 'v', cls Uni.isNd]) := rfl
  rw [e, search_bot, ← e]
  simp only [Option.isSome_map]
  unfold matchAt
  simp only [Option.isSome_map]
  unfold standaloneRevisionRe
  rw [cat_cons, cat_cons, cat_one, m, m, m]
  simp only [if_true]
  cases t with
  | nil => simp [m_chr_nil]
  | cons x xs =>
    rw [m_chr]
    by_cases h : x = 'v'
    · subst h
      rw [if_pos rfl]
      cases xs with
      | nil => simp [m_cls_nil]
      | cons c cs =>
        rw [m_cls_cons]
        by_cases hc : Uni.isNd c = true
        · simp [hc]
        · simp [hc]
    · rw [if_neg h]
      simp [h]

theorem fromDigit_v {t n : Text} : FromDigit ('v' :: t) n ↔ FromDigit t n := by
  rw [fromDigit_iff, fromDigit_iff]
  simp [show isAsciiDigit 'v' = false from by decide]

theorem revisionLeft_iff {t : Text} {n : Option Text} {d : Text} (ht : '\n' ∉ t) :
    RevisionLeft t n d ↔
      (match splitOnce ',' t with
        | some (rev, date) => (some (stripNonNumericPrefix (trim rev)), trim date)
        | none =>
          if isMatch standaloneRevisionRe (trim t) then (some (stripNonNumericPrefix (trim t)), [])
          else (none, trim t)) = (n, d) := by
  have hv : ∀ (x : Text), List.dropWhile (fun c => !isAsciiDigit c) ('v' :: x) = x.dropWhile (fun c => !isAsciiDigit c) := by
    intro x; simp [show isAsciiDigit 'v' = false from by decide]
  have htr : ∀ {x}, '\n' ∉ x → '\n' ∉ trim x := fun hx hc => hx ((trim_trimmed _).mem hc)
  constructor
  · intro h
    cases h with
    | both h1 h2 h3 h4 =>
      rw [splitOnce_some.mpr h1]
      have : '\n' ∉ _ := fun hc => ht (by rw [h1.1]; exact List.mem_append_left _ (h2.mem hc))
      simp only [h2.trim_eq, h4.trim_eq]
      rw [stripNonNumericPrefix_eq this, fromDigit_iff.mp h3]
    | number h1 h2 h3 h4 =>
      rw [splitOnce_none.mpr h1]
      simp only
      rw [if_pos (standalone_iff.mpr ⟨_, _, h2.trim_eq, h3⟩), stripNonNumericPrefix_eq (htr ht), h2.trim_eq, hv,
        fromDigit_iff.mp h4]
    | date h1 h2 h3 =>
      rw [splitOnce_none.mpr h1]
      simp only
      rw [if_neg, h2.trim_eq]
      intro hs
      obtain ⟨c, r, e1, e2⟩ := standalone_iff.mp hs
      rw [h2.trim_eq] at e1
      rw [h3 c r e1] at e2; cases e2
  · intro h
    cases hs : splitOnce ',' t with
    | some p =>
      obtain ⟨a, b⟩ := p
      rw [hs] at h
      simp only [Prod.mk.injEq] at h
      obtain ⟨rfl, rfl⟩ := h
      have hab := splitOnce_some.mp hs
      refine .both hab (trim_trimmed _) ?_ (trim_trimmed _)
      rw [fromDigit_iff, stripNonNumericPrefix_eq]
      exact htr (fun hc => ht (by rw [hab.1]; exact List.mem_append_left _ hc))
    | none =>
      rw [hs] at h
      simp only at h
      have hno := splitOnce_none.mp hs
      by_cases hst : isMatch standaloneRevisionRe (trim t) = true
      · rw [if_pos hst] at h
        simp only [Prod.mk.injEq] at h
        obtain ⟨rfl, rfl⟩ := h
        obtain ⟨c, r, e1, e2⟩ := standalone_iff.mp hst
        refine .number (c := c) (r := r) hno (trimmed_iff.mpr e1) e2 ?_
        rw [fromDigit_iff, stripNonNumericPrefix_eq (htr ht), e1, hv]
      · rw [if_neg hst] at h
        simp only [Prod.mk.injEq] at h
        obtain ⟨rfl, rfl⟩ := h
        refine .date hno (trim_trimmed _) ?_
        intro c r e
        cases hc : Uni.isNd c with
        | false => rfl
        | true => exact absurd (standalone_iff.mpr ⟨c, r, e, hc⟩) hst

theorem revision_iff {t : Text} {n : Option Text} {d : Text} {r : Option Text} (ht : '\n' ∉ t) :
    Revision t n d r ↔ revisionParts t = (n, d, r) := by
  have e : revisionParts t =
      (let p := (match splitOnce ':' t with
        | some (l, r) => (l, some (trim r))
        | none => (t, none) : Text × Option Text)
       let q := (match splitOnce ',' p.1 with
        | some (rev, date) => (some (stripNonNumericPrefix (trim rev)), trim date)
        | none =>
          if isMatch standaloneRevisionRe (trim p.1) then (some (stripNonNumericPrefix (trim p.1)), [])
          else (none, trim p.1) : Option Text × Text)
       (q.1, q.2, p.2)) := by
    unfold revisionParts
    cases splitOnce ':' t with
    | none =>
      simp only
      cases splitOnce ',' t with
      | none => simp only; split <;> rfl
      | some p => rfl
    | some p =>
      obtain ⟨l, r⟩ := p
      simp only
      cases splitOnce ',' l with
      | none => simp only; split <;> rfl
      | some p => rfl
  rw [e]
  cases hs : splitOnce ':' t with
  | none =>
    have hno := splitOnce_none.mp hs
    simp only
    constructor
    · intro h
      cases h with
      | remark h1 => exact absurd (by rw [h1.1]; simp) hno
      | plain h1 h2 =>
        rw [(revisionLeft_iff ht).mp h2]
    · intro h
      simp only [Prod.mk.injEq] at h
      obtain ⟨h1, h2, rfl⟩ := h
      exact .plain hno ((revisionLeft_iff ht).mpr (Prod.ext h1 h2))
  | some p =>
    obtain ⟨a, b⟩ := p
    have hab := splitOnce_some.mp hs
    have ha : '\n' ∉ a := fun hc => ht (by rw [hab.1]; exact List.mem_append_left _ hc)
    simp only
    constructor
    · intro h
      cases h with
      | remark h1 h2 h3 =>
        have := splitOnce_some.mpr h1
        rw [hs] at this
        simp only [Option.some.injEq, Prod.mk.injEq] at this
        obtain ⟨rfl, rfl⟩ := this
        rw [(revisionLeft_iff ha).mp h2, h3.trim_eq]
      | plain h1 h2 => exact absurd (by rw [hab.1]; simp) h1
    · intro h
      simp only [Prod.mk.injEq] at h
      obtain ⟨h1, h2, rfl⟩ := h
      exact .remark hab ((revisionLeft_iff ha).mpr (Prod.ext h1 h2)) (trim_trimmed _)

end Adoc
