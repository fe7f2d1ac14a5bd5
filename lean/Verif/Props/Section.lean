import Verif.Lemmas.Section
/-!
# C17, C18, C20: section numbers and section ids
-/

namespace Adoc.Props
open Adoc Adoc.Spec

/-- The numbers given to a sequence of sections, each with the type of its topmost section and its level. -/
def numbers (n : Numbering) : List (SectionType × Nat) → List (SectionType × SectionNumber)
  | [] => []
  | (ty, level) :: rest =>
    let r := { n with topmost := ty }.assign level
    (ty, r.2) :: numbers r.1 rest

/-- The numbers given to the sections of one type, in order. -/
def numbersOf (ty : SectionType) (n : Numbering) (secs : List (SectionType × Nat)) : List (List Nat) :=
  ((numbers n secs).filter (fun p => p.1 == ty)).map (fun p => p.2.components)

/-- The last number given to a section of a type. -/
def lastOf (n : Numbering) : SectionType → List Nat
  | .appendix => n.lastAppendix.components
  | _ => n.last.components

theorem assign_last {n : Numbering} {ty ty' : SectionType} {level : Nat} (h : ty ≠ .discrete) (h' : ty' ≠ .discrete) :
    lastOf ({ n with topmost := ty }.assign level).1 ty' =
      if ty' = ty then ({ n with topmost := ty }.assign level).2.components else lastOf n ty' := by
  cases ty <;> cases ty' <;> simp_all [Numbering.assign, lastOf]

theorem assign_next {n : Numbering} {ty : SectionType} {level : Nat} (h : ty ≠ .discrete) (hl : 1 ≤ level) :
    NextNumber (lastOf n ty) level ({ n with topmost := ty }.assign level).2.components := by
  cases ty with
  | normal => exact assignNext_next _ hl
  | appendix => exact assignNext_next _ hl
  | discrete => exact absurd rfl h

theorem numbers_above {secs : List (SectionType × Nat)} : ∀ {n : Numbering},
    (∀ p ∈ secs, p.1 ≠ .discrete ∧ 1 ≤ p.2) → ∀ {ty}, ty ≠ .discrete →
    (lastOf n ty :: numbersOf ty n secs).Pairwise (· < ·) := by
  induction secs with
  | nil => intro n _ ty _; simp [numbersOf, numbers]
  | cons p secs ih =>
    obtain ⟨t, l⟩ := p
    intro n hs ty hty
    obtain ⟨ht, hl⟩ := hs (t, l) (by simp)
    have := ih (n := ({ n with topmost := t }.assign l).1) (fun p hp => hs p (by simp [hp])) hty
    rw [assign_last ht hty] at this
    by_cases e : ty = t
    · subst e
      rw [if_pos rfl] at this
      have hlt := (assign_next (n := n) ht hl).lt
      have e2 : numbersOf ty n ((ty, l) :: secs) =
          ({ n with topmost := ty }.assign l).2.components :: numbersOf ty ({ n with topmost := ty }.assign l).1 secs := by
        simp [numbersOf, numbers]
      rw [e2]
      refine List.pairwise_cons.mpr ⟨?_, this⟩
      intro x hx
      rcases List.mem_cons.mp hx with rfl | hx
      · exact hlt
      · exact List.lt_trans hlt ((List.pairwise_cons.mp this).1 x hx)
    · rw [if_neg e] at this
      have e2 : numbersOf ty n ((t, l) :: secs) = numbersOf ty ({ n with topmost := t }.assign l).1 secs := by
        simp [numbersOf, numbers, Ne.symm e]
      rw [e2]; exact this

/-- Along any sequence of sections the numbers given to normal sections, and those given to appendices, increase strictly
in lexicographic order; in particular no number is given twice. -/
theorem C17_increasing (n : Numbering) (secs : List (SectionType × Nat))
    (hs : ∀ p ∈ secs, p.1 ≠ .discrete ∧ 1 ≤ p.2) (ty : SectionType) (hty : ty ≠ .discrete) :
    (numbersOf ty n secs).Pairwise (· < ·) ∧ (numbersOf ty n secs).Nodup := by
  have := (List.pairwise_cons.mp (numbers_above (n := n) hs hty)).2
  refine ⟨this, this.imp ?_⟩
  intro a b h e
  subst e
  exact absurd h (List.lt_irrefl a)

/-- A sequence that goes down, up and into an appendix. -/
example : numbersOf .normal .default [(.normal, 1), (.normal, 2), (.normal, 2), (.appendix, 1), (.appendix, 2), (.normal, 1), (.normal, 3)]
      = [[1], [1, 1], [1, 2], [2], [2, 1, 1]] ∧
    numbersOf .appendix .default [(.normal, 1), (.normal, 2), (.normal, 2), (.appendix, 1), (.appendix, 2), (.normal, 1), (.normal, 3)]
      = [[1], [1, 1]] := by decide

/-- Every number has as many components as the level says, and none of them is 0. -/
theorem C17_length (n : Numbering) (secs : List (SectionType × Nat)) (hs : ∀ p ∈ secs, p.1 ≠ .discrete ∧ 1 ≤ p.2) :
    (numbers n secs).map (fun p => p.2.components.length) = secs.map Prod.snd := by
  induction secs generalizing n with
  | nil => rfl
  | cons p secs ih =>
    obtain ⟨t, l⟩ := p
    obtain ⟨ht, hl⟩ := hs (t, l) (by simp)
    simp only [numbers, List.map_cons]
    rw [ih _ (fun p hp => hs p (by simp [hp])), (assign_next (n := n) ht hl).length]

theorem C17_positive (n : Numbering) (secs : List (SectionType × Nat)) (hs : ∀ p ∈ secs, p.1 ≠ .discrete ∧ 1 ≤ p.2)
    (h1 : ∀ x ∈ n.last.components, 1 ≤ x) (h2 : ∀ x ∈ n.lastAppendix.components, 1 ≤ x) :
    ∀ p ∈ numbers n secs, ∀ x ∈ p.2.components, 1 ≤ x := by
  induction secs generalizing n with
  | nil => simp [numbers]
  | cons p secs ih =>
    obtain ⟨t, l⟩ := p
    obtain ⟨ht, hl⟩ := hs (t, l) (by simp)
    have hnew : ∀ x ∈ ({ n with topmost := t }.assign l).2.components, 1 ≤ x := by
      refine (assign_next (n := n) ht hl).pos ?_
      cases t <;> simp only [lastOf] <;> assumption
    intro q hq
    simp only [numbers, List.mem_cons] at hq
    rcases hq with rfl | hq
    · exact hnew
    · refine ih _ (fun p hp => hs p (by simp [hp])) ?_ ?_ q hq
      · have := assign_last (n := n) (level := l) ht (ty' := .normal) (by simp)
        simp only [lastOf] at this
        rw [this]; split
        · exact hnew
        · exact h1
      · have := assign_last (n := n) (level := l) ht (ty' := .appendix) (by simp)
        simp only [lastOf] at this
        rw [this]; split
        · exact hnew
        · exact h2

example : ∀ p ∈ [(SectionType.normal, 1), (.appendix, 1), (.normal, 3)], p.1 ≠ SectionType.discrete ∧ 1 ≤ p.2 := by decide

/-- What the next number is: for a section no deeper than the last one of its type, the number of the last section at that
level with the last component increased by one; for a deeper one, the last number continued with ones. -/
theorem C17_next (n : Numbering) (level : Nat) (hl : 1 ≤ level) (ht : n.topmost ≠ .discrete) :
    NextNumber (lastOf n n.topmost) level (n.assign level).2.components ∧ lastOf (n.assign level).1 n.topmost = (n.assign level).2.components :=
  ⟨assign_next (n := n) ht hl, by have := assign_last (n := n) (level := level) ht ht; rw [if_pos rfl] at this; exact this⟩

/-- A section one level below the previous one gets the number of the previous one extended with `.1`. -/
theorem C17_child (n : Numbering) (level : Nat) (hl : 1 ≤ level) (ht : n.topmost ≠ .discrete) :
    ((n.assign level).1.assign (level + 1)).2.components = (n.assign level).2.components ++ [1] := by
  have h1 := C17_next n level hl ht
  have htop : (n.assign level).1.topmost = n.topmost := by
    unfold Numbering.assign; split <;> rfl
  have h2 := C17_next (n.assign level).1 (level + 1) (by omega) (by rw [htop]; exact ht)
  rw [htop, h1.2] at h2
  have hlen := h1.1.length
  generalize ((n.assign level).1.assign (level + 1)).2.components = q at h2 ⊢
  generalize (n.assign level).2.components = p at h2 hlen ⊢
  obtain ⟨h2, _⟩ := h2
  generalize hk : level + 1 = k at h2
  cases h2 with
  | sibling => simp at hlen hk; omega
  | @deeper _ j =>
    have : j = 0 := by omega
    subst this; rfl

example : (Numbering.default.assign 2).2.display = "1.1".toList ∧ ((Numbering.default.assign 2).1.assign 3).2.display = "1.1.1".toList := by
  decide +kernel

/-! ### C18 -/

/-- The first 26 appendices and their sections: the displayed number begins with a capital letter. -/
theorem C18_letter_partial (n : SectionNumber) (x : Nat) (r : List Nat) (ht : n.ty = .appendix)
    (hc : n.components = x :: r) (h1 : 1 ≤ x) (h2 : x ≤ 26) :
    ∃ c t, n.display = c :: t ∧ CapitalLetter c ∧ c.toNat = 'A'.toNat + (x - 1) ∧ (r = [] → t = []) := by
  rw [display_appendix ht hc]
  obtain ⟨h3, h4⟩ := letter_of_le h1 h2
  refine ⟨SectionNumber.letter x, ?_⟩
  cases r with
  | nil => exact ⟨[], rfl, h3, by rw [h4]; show 64 + x = 65 + (x - 1); omega, fun _ => rfl⟩
  | cons a r =>
    exact ⟨['.'] ++ joinWith ['.'] ((a :: r).map decimal), rfl, h3, by rw [h4]; show 64 + x = 65 + (x - 1); omega,
      fun h => by cases h⟩

/-- Exactly the first 26 appendices and their sections are displayed with a capital letter.  (Beyond 32 bits the code would
start again, which is not modelled; hence the last hypothesis.) -/
theorem C18_letter_iff (n : SectionNumber) (x : Nat) (r : List Nat) (ht : n.ty = .appendix)
    (hc : n.components = x :: r) (h1 : 1 ≤ x) (_h : 'A'.toNat + (x - 1) < 2 ^ 32) :
    (∃ c t, n.display = c :: t ∧ CapitalLetter c) ↔ x ≤ 26 := by
  constructor
  · rintro ⟨c, t, hd, hcl⟩
    rw [display_appendix ht hc] at hd
    obtain ⟨t', ht'⟩ := display_cons_ne ['.'] [SectionNumber.letter x] (by simp) (r.map decimal)
    rw [ht'] at hd
    have hcx : SectionNumber.letter x = c := (List.cons.inj hd).1
    subst hcx
    unfold SectionNumber.letter at hcl
    split at hcl
    · rename_i hv
      have e : (Char.ofNat ('A'.toNat + (x - 1))).toNat = 'A'.toNat + (x - 1) := by
        generalize 'A'.toNat + (x - 1) = k at hv
        unfold Char.ofNat
        rw [dif_pos hv]
        rfl
      have hle : ∀ d, CapitalLetter d → d.toNat ≤ 90 := by unfold CapitalLetter; decide
      have := hle _ hcl
      rw [e] at this
      have : 'A'.toNat = 65 := rfl
      omega
    · exact absurd hcl (by unfold CapitalLetter; decide)
  · intro h
    obtain ⟨c, t, h, hc, _⟩ := C18_letter_partial n x r ht hc h1 h
    exact ⟨c, t, h, hc⟩

/-- Different numbers among the first 26 appendices are displayed differently. -/
theorem C18_distinct_partial (n m : SectionNumber) (x y : Nat) (r q : List Nat) (ht : n.ty = .appendix)
    (hm : m.ty = .appendix) (hc : n.components = x :: r) (hd : m.components = y :: q) (h1 : 1 ≤ x) (h2 : x ≤ 26)
    (h3 : 1 ≤ y) (h4 : y ≤ 26) (h : n.display = m.display) : n = m := by
  rw [display_appendix ht hc, display_appendix hm hd] at h
  obtain ⟨c1, v1⟩ := letter_of_le h1 h2
  obtain ⟨c2, v2⟩ := letter_of_le h3 h4
  have nodot : ∀ c, CapitalLetter c → c ≠ '.' := by
    intro c hc e; subst e; revert hc; unfold CapitalLetter; decide
  have ok : ∀ c, CapitalLetter c → ∀ l : List Nat, ∀ t ∈ [c] :: l.map decimal, '.' ∉ t ∧ t ≠ [] := by
    intro c hc l t ht
    rcases List.mem_cons.mp ht with rfl | ht
    · exact ⟨by simpa using (nodot c hc).symm, by simp⟩
    · obtain ⟨k, _, rfl⟩ := List.mem_map.mp ht
      exact ⟨decimal_no_dot k, decimal_ne_nil k⟩
  have := joinWith_inj (ok _ c1 r) (ok _ c2 q) h
  simp only [List.cons.injEq, and_true] at this
  have e1 : x = y := by
    have : (SectionNumber.letter x).toNat = (SectionNumber.letter y).toNat := by rw [this.1]
    omega
  have e2 : r = q := (List.map_inj_right (fun a b => decimal_inj')).mp this.2
  obtain ⟨t1, k1⟩ := n
  obtain ⟨t2, k2⟩ := m
  simp only at ht hm hc hd
  rw [ht, hm, hc, hd, e1, e2]

example : (⟨.appendix, [2, 3]⟩ : SectionNumber).display = "B.3".toList := by decide +kernel

/-- Numbers of normal sections are displayed differently when they are different. -/
theorem C18_normal_distinct (n m : SectionNumber) (hn : n.ty = .normal) (hm : m.ty = .normal)
    (h : n.display = m.display) : n = m := by
  rw [display_normal (by rw [hn]; simp), display_normal (by rw [hm]; simp)] at h
  have ok : ∀ l : List Nat, ∀ t ∈ l.map decimal, '.' ∉ t ∧ t ≠ [] := by
    intro l t ht
    obtain ⟨k, _, rfl⟩ := List.mem_map.mp ht
    exact ⟨decimal_no_dot k, decimal_ne_nil k⟩
  have := (List.map_inj_right (fun a b => decimal_inj')).mp (joinWith_inj (ok _) (ok _) h)
  obtain ⟨t1, k1⟩ := n
  obtain ⟨t2, k2⟩ := m
  simp only at hn hm this
  rw [hn, hm, this]

/-- The `n`-th of a sequence of appendices has the number `n`. -/
theorem nth_appendix (k : Nat) : ∀ n : Numbering, (∃ x, n.lastAppendix = ⟨.appendix, [x]⟩) → ∃ x, n.lastAppendix = ⟨.appendix, [x]⟩ ∧
    (numbers n (List.replicate (k + 1) (.appendix, 1))).getLast? = some (.appendix, ⟨.appendix, [x + (k + 1)]⟩) := by
  induction k with
  | zero =>
    rintro n ⟨x, hx⟩
    exact ⟨x, hx, by simp [List.replicate, numbers, Numbering.assign, SectionNumber.assignNext, hx]⟩
  | succ k ih =>
    rintro n ⟨x, hx⟩
    refine ⟨x, hx, ?_⟩
    have e : ({ n with topmost := .appendix }.assign 1).1.lastAppendix = ⟨.appendix, [x + 1]⟩ := by
      simp [Numbering.assign, SectionNumber.assignNext, hx]
    obtain ⟨y, hy, hl⟩ := ih ({ n with topmost := .appendix }.assign 1).1 ⟨x + 1, e⟩
    rw [e] at hy
    simp only [SectionNumber.mk.injEq, List.cons.injEq, and_true, true_and] at hy
    subst hy
    rw [List.replicate_succ, numbers, List.getLast?_cons, hl]
    simp; omega

/-- The 27th appendix is displayed as `[`. -/
theorem C18_not_letter : ∃ num : SectionNumber,
    (numbers .default (List.replicate 27 (.appendix, 1))).getLast? = some (.appendix, num) ∧ num.display = ['['] := by
  refine ⟨⟨.appendix, [27]⟩, ?_, by decide⟩
  decide +kernel

/-- Two different appendices are displayed alike: those whose letters would be surrogates are all shown as `?`. -/
theorem C18_collision : ∃ i j, ∃ a b : SectionNumber, i ≠ j ∧
    (numbers .default (List.replicate i (.appendix, 1))).getLast? = some (.appendix, a) ∧
    (numbers .default (List.replicate j (.appendix, 1))).getLast? = some (.appendix, b) ∧ a ≠ b ∧ a.display = b.display := by
  have nth : ∀ k, (numbers .default (List.replicate (k + 2) (.appendix, 1))).getLast? =
      some (.appendix, ⟨.appendix, [1 + (k + 1)]⟩) := by
    intro k
    have e : ({ Numbering.default with topmost := .appendix }.assign 1).1.lastAppendix = ⟨.appendix, [1]⟩ := by decide
    obtain ⟨x, hx, hl⟩ := nth_appendix k _ ⟨1, e⟩
    rw [e] at hx
    simp only [SectionNumber.mk.injEq, List.cons.injEq, and_true, true_and] at hx
    subst hx
    rw [List.replicate_succ, numbers, List.getLast?_cons, hl]
    rfl
  refine ⟨55230 + 2, 55231 + 2, _, _, by decide, nth 55230, nth 55231, by decide, ?_⟩
  decide +kernel

/-! ### C20 -/

theorem flatMap_sublist {f : Char → Text} : ∀ {a b : Text}, a.Sublist b → (a.flatMap f).Sublist (b.flatMap f)
  | _, _, .slnil => List.Sublist.refl _
  | _, _, .cons a h => by
    rw [List.flatMap_cons]; exact (flatMap_sublist h).trans (List.sublist_append_right _ _)
  | _, _, .cons_cons a h => by
    rw [List.flatMap_cons, List.flatMap_cons]; exact (List.Sublist.refl _).append (flatMap_sublist h)

variable [Uni]
open Re

/-- The id proposed for any title, prefix and separator: it never fails; behind the prefix there are only word characters
and separators, in the order in which they stand in the title (in lower case, with spaces, full stops and hyphens turned into
separators); no separator is doubled, none stands at the end, and none at the beginning when the prefix is empty.  Only
the first character of the separator counts. -/
theorem C20_well_formed (pre sep title : Text) : ∃ body, sectionId pre sep title = .ok (pre ++ body) ∧
    (∀ c ∈ body, Uni.isWord c = true ∨ sep.head? = some c) ∧
    body.Sublist ((Uni.toLowercase title).flatMap (fun c => if c == ' ' || c == '.' || c == '-' then sep.take 1 else [c])) ∧
    ∀ s, sep.head? = some s → NotDoubled s body ∧ body.getLast? ≠ some s ∧ (pre = [] → body.head? ≠ some s) := by
  obtain ⟨g, hg⟩ := replaceAll_total (re := invalidSectionIdRe) (rep := fun _ => .ok [])
    (fun _ _ _ _ _ => ⟨[], rfl⟩) (Uni.toLowercase title)
  obtain ⟨h1, h2⟩ := replaced_idChars (replaceAll_ok hg)
  have hsep : ∀ c ∈ sepChars (sep.take 1) g, Uni.isWord c = true ∨ sep.head? = some c := by
    intro c hc
    obtain ⟨d, hd, hc⟩ := List.mem_flatMap.mp hc
    have := h1 d hd
    split at hc
    · right; cases sep <;> simp_all
    · rename_i hn
      rw [List.mem_singleton] at hc
      subst hc
      left
      simp only [idChar, Bool.or_eq_true] at this hn
      rcases this with ((h | h) | h) | h
      · exact absurd (.inl (.inl h)) hn
      · exact h
      · exact absurd (.inr h) hn
      · exact absurd (.inl (.inr h)) hn
  have hsub : (sepChars (sep.take 1) g).Sublist (sepChars (sep.take 1) (Uni.toLowercase title)) := flatMap_sublist h2
  unfold sectionId
  rw [hg]
  cases sep with
  | nil => exact ⟨_, rfl, hsep, hsub, by simp⟩
  | cons s sep =>
    simp only [bind, Except.bind]
    generalize sepChars ((s :: sep).take 1) g = w at hsep hsub
    rw [undouble_eq s _ _ (Nat.lt_succ_self _)]
    simp only
    generalize hb : squeeze s w = b
    have hb1 : b.Sublist w := hb ▸ squeeze_sublist s w
    have hb2 : NotDoubled s b := hb ▸ squeeze_notDoubled s w
    have hl : ∃ b', (if endsWith b [s] = true then b.dropLast else b) = b' ∧ b'.Sublist w ∧ NotDoubled s b' ∧
        b'.getLast? ≠ some s := by
      by_cases he : endsWith b [s] = true
      · rw [if_pos he]
        refine ⟨_, rfl, (List.dropLast_sublist _).trans hb1, hb2.dropLast, ?_⟩
        obtain ⟨a, rfl⟩ := endsWith_iff.mp he
        rw [List.dropLast_concat]
        intro hl
        obtain ⟨l, rfl⟩ := List.getLast?_eq_some_iff.mp hl
        exact hb2 l [] (by simp)
      · rw [if_neg he]
        refine ⟨_, rfl, hb1, hb2, ?_⟩
        intro hl
        obtain ⟨l, rfl⟩ := List.getLast?_eq_some_iff.mp hl
        exact he (endsWith_iff.mpr ⟨l, rfl⟩)
    obtain ⟨b', e, hb3, hb4, hb5⟩ := hl
    rw [e]
    by_cases hp : pre = [] ∧ startsWith b' [s] = true
    · rw [if_pos hp]
      obtain ⟨rfl, hp⟩ := hp
      obtain ⟨r, rfl⟩ := startsWith_iff.mp hp
      simp only [List.cons_append, List.nil_append, List.tail_cons] at hb3 hb4 hb5 ⊢
      refine ⟨r, rfl, fun c hc => hsep c (hb3.subset (by simp [hc])), ((List.sublist_cons_self s r).trans hb3).trans hsub, ?_⟩
      rintro s' ⟨⟩
      refine ⟨hb4.tail, ?_, ?_⟩
      · intro hl
        apply hb5
        cases r with
        | nil => cases hl
        | cons a r => rw [List.getLast?_cons_cons]; exact hl
      · intro _ hh
        cases r with
        | nil => cases hh
        | cons a r => cases hh; exact hb4 [] r rfl
    · rw [if_neg hp]
      refine ⟨b', rfl, fun c hc => hsep c (hb3.subset hc), hb3.trans hsub, ?_⟩
      rintro s' ⟨⟩
      refine ⟨hb4, hb5, ?_⟩
      intro h1 hh
      apply hp
      refine ⟨h1, startsWith_iff.mpr ?_⟩
      cases b' with
      | nil => cases hh
      | cons a r => cases hh; exact ⟨r, rfl⟩

/-- The title `Café <b>&` … with the default prefix and separator. -/
example : letI := asciiUni
    sectionId ['_'] ['_'] "  Wiley &amp; Sons, Inc. -- <b>x</b> ".toList = .ok "__wiley_sons_inc_x".toList := by
  decide +kernel

/-- For a title without markup (no `<` and no `&`) the id is known exactly: the word characters of the title in lower case,
spaces, full stops and hyphens turned into separators, runs of separators shortened, a separator at the end (and at the
beginning, without a prefix) removed. -/
theorem C20_plain (pre title : Text) (s : Char) (rest : Text) (h1 : '<' ∉ Uni.toLowercase title)
    (h2 : '&' ∉ Uni.toLowercase title) :
    ∃ b : Text, b = squeeze s (((Uni.toLowercase title).filter
        (fun c => Uni.isWord c || c == ' ' || c == '.' || c == '-')).map
        (fun c => if c == ' ' || c == '.' || c == '-' then s else c)) ∧
      ((∃ w, b = w ++ [s] ∧ ((pre = [] ∧ ∃ v, w = s :: v ∧ sectionId pre (s :: rest) title = .ok v) ∨
          (¬ (pre = [] ∧ w.head? = some s) ∧ sectionId pre (s :: rest) title = .ok (pre ++ w)))) ∨
       (b.getLast? ≠ some s ∧ ((pre = [] ∧ ∃ v, b = s :: v ∧ sectionId pre (s :: rest) title = .ok v) ∨
          (¬ (pre = [] ∧ b.head? = some s) ∧ sectionId pre (s :: rest) title = .ok (pre ++ b))))) := by
  refine ⟨_, rfl, ?_⟩
  obtain ⟨g, hg⟩ := replaceAll_total (re := invalidSectionIdRe) (rep := fun _ => .ok [])
    (fun _ _ _ _ _ => ⟨[], rfl⟩) (Uni.toLowercase title)
  have hp := replaced_plain (replaceAll_ok hg) h1 h2
  have hf : (fun c => Uni.isWord c || c == ' ' || c == '.' || c == '-') = idChar := by
    funext c; simp only [idChar]
    cases Uni.isWord c <;> cases c == ' ' <;> cases c == '.' <;> cases c == '-' <;> rfl
  have hm : ∀ t : Text, sepChars [s] t = t.map (fun c => if c == ' ' || c == '.' || c == '-' then s else c) := by
    intro t
    induction t with
    | nil => rfl
    | cons c t ih =>
      rw [sepChars, List.flatMap_cons, ← sepChars, ih, List.map_cons]
      split <;> rfl
  rw [hf, ← hp, ← hm]
  unfold sectionId
  rw [hg]
  simp only [bind, Except.bind, List.take_succ_cons, List.take_zero]
  rw [undouble_eq s _ _ (Nat.lt_succ_self _)]
  simp only
  generalize squeeze s (sepChars [s] g) = b
  have key : ∀ w : Text, ((pre = [] ∧ ∃ v, w = s :: v ∧ (Except.ok (pre ++ if pre = [] ∧ startsWith w [s] = true then w.tail else w) : Res Text) = .ok v) ∨
      (¬ (pre = [] ∧ w.head? = some s) ∧ (Except.ok (pre ++ if pre = [] ∧ startsWith w [s] = true then w.tail else w) : Res Text) = .ok (pre ++ w))) := by
    intro w
    have hiff : startsWith w [s] = true ↔ w.head? = some s := by
      rw [startsWith_iff]
      cases w with
      | nil => simp
      | cons a r => simp [eq_comm]
    by_cases hh : pre = [] ∧ startsWith w [s] = true
    · left
      rw [if_pos hh]
      obtain ⟨rfl, hh⟩ := hh
      obtain ⟨v, rfl⟩ := startsWith_iff.mp hh
      exact ⟨rfl, v, rfl, rfl⟩
    · right
      rw [if_neg hh]
      exact ⟨fun ⟨a, b⟩ => hh ⟨a, hiff.mpr b⟩, rfl⟩
  by_cases he : endsWith b [s] = true
  · left
    obtain ⟨w, rfl⟩ := endsWith_iff.mp he
    refine ⟨w, rfl, ?_⟩
    rw [if_pos he, List.dropLast_concat]
    exact key w
  · right
    refine ⟨?_, ?_⟩
    · intro hl
      obtain ⟨l, rfl⟩ := List.getLast?_eq_some_iff.mp hl
      exact he (endsWith_iff.mpr ⟨l, rfl⟩)
    · rw [if_neg he]; exact key b

example : letI := asciiUni
    sectionId [] ['-', '!'] " Getting Started: v1.0 - Intro. ".toList = .ok "getting-started-v1-0-intro".toList := by
  decide +kernel

end Adoc.Props
