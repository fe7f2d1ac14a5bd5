import Verif.Spec.Section
import Verif.Lemmas.RegexRel
import Verif.Lemmas.Text
/-! Lemmas about section numbers and ids. -/

namespace Adoc
open Spec

theorem assignNext_ty (n : SectionNumber) (l : Nat) : (n.assignNext l).ty = n.ty := by
  simp only [SectionNumber.assignNext]; split
  · rfl
  · split <;> rfl

theorem modify_last : ∀ (pre : List Nat) (x : Nat) (f : Nat → Nat), (pre ++ [x]).modify pre.length f = pre ++ [f x]
  | [], x, f => by simp [List.modify]
  | p :: pre, x, f => by
    have := modify_last pre x f
    simp only [List.cons_append, List.length_cons, List.modify_succ_cons, this]

theorem assignNext_next (n : SectionNumber) {l : Nat} (h : 1 ≤ l) :
    NextNumber n.components l (n.assignNext l).components := by
  obtain ⟨ty, c⟩ := n
  simp only [SectionNumber.assignNext]
  by_cases hl : c.length < l
  · have : (List.take l c).length < l := by simp; omega
    rw [if_pos this]
    obtain ⟨k, rfl⟩ : ∃ k, l = c.length + (k + 1) := ⟨l - c.length - 1, by omega⟩
    rw [List.take_of_length_le (by omega)]
    have e : c.length + (k + 1) - c.length = k + 1 := by omega
    rw [e]; exact .deeper
  · have h1 : ¬ (List.take l c).length < l := by simp; omega
    rw [if_neg h1, if_pos (by omega)]
    obtain ⟨k, rfl⟩ : ∃ k, l = k + 1 := ⟨l - 1, by omega⟩
    have hk : k < c.length := by omega
    have e : c = c.take k ++ c[k] :: c.drop (k + 1) := by
      rw [List.getElem_cons_drop]; simp
    have hlen : (c.take k).length = k := by simp; omega
    have e2 : c.take (k + 1) = c.take k ++ [c[k]] := by rw [List.take_succ_eq_append_getElem hk]
    simp only [Nat.add_sub_cancel, e2]
    have := modify_last (c.take k) c[k] (· + 1)
    rw [hlen] at this
    rw [this]
    have := NextNumber.sibling (pre := c.take k) (x := c[k]) (deeper := c.drop (k + 1))
    rw [hlen, ← e] at this
    exact this

theorem Spec.NextNumber.length {p q : List Nat} {l : Nat} (h : NextNumber p l q) : q.length = l := by
  cases h <;> simp

theorem lt_snoc_succ : ∀ (pre : List Nat) (x : Nat) (d : List Nat), pre ++ x :: d < pre ++ [x + 1]
  | [], x, d => List.Lex.rel (by omega)
  | p :: pre, x, d => List.Lex.cons (lt_snoc_succ pre x d)

theorem lt_append_cons : ∀ (p : List Nat) (a : Nat) (r : List Nat), p < p ++ a :: r
  | [], a, r => List.Lex.nil
  | x :: p, a, r => List.Lex.cons (lt_append_cons p a r)

theorem Spec.NextNumber.lt {p q : List Nat} {l : Nat} (h : NextNumber p l q) : p < q := by
  cases h with
  | sibling => exact lt_snoc_succ _ _ _
  | deeper => exact lt_append_cons _ _ _

theorem Spec.NextNumber.pos {p q : List Nat} {l : Nat} (h : NextNumber p l q) (hp : ∀ x ∈ p, 1 ≤ x) : ∀ x ∈ q, 1 ≤ x := by
  cases h with
  | sibling =>
    intro x hx
    simp only [List.mem_append, List.mem_cons, List.not_mem_nil, or_false] at hx
    rcases hx with hx | rfl
    · exact hp x (by simp [hx])
    · omega
  | deeper =>
    intro x hx
    rw [List.mem_append] at hx
    rcases hx with hx | hx
    · exact hp x hx
    · rw [List.mem_replicate] at hx; omega

/-! Displayed numbers -/

theorem decimal_no_dot (n : Nat) : '.' ∉ decimal n := by
  intro h
  have := Nat.isDigit_of_mem_toDigits (b := 10) (by omega) (by omega) h
  exact absurd this (by decide)

theorem decimal_ne_nil (n : Nat) : decimal n ≠ [] := Nat.toDigits_ne_nil

theorem decimal_inj' {a b : Nat} (h : decimal a = decimal b) : a = b := by
  have : Nat.ofDigitChars 10 (decimal a) 0 = Nat.ofDigitChars 10 (decimal b) 0 := by rw [h]
  simpa [decimal, Nat.ofDigitChars_ten_toDigits] using this

/-- Pieces without the separator can be recovered from their join. -/
theorem append_sep_inj {s : Char} : ∀ {a b x y : Text}, s ∉ a → s ∉ b → a ++ s :: x = b ++ s :: y → a = b ∧ x = y
  | [], [], _, _, _, _, h => by simpa using h
  | [], b :: bs, _, _, _, hb, h => by
    simp only [List.nil_append, List.cons_append, List.cons.injEq] at h
    exact absurd (by simp [h.1]) hb
  | a :: as, [], _, _, ha, _, h => by
    simp only [List.nil_append, List.cons_append, List.cons.injEq] at h
    exact absurd (by simp [← h.1]) ha
  | a :: as, b :: bs, x, y, ha, hb, h => by
    simp only [List.cons_append, List.cons.injEq] at h
    simp only [List.mem_cons, not_or] at ha hb
    obtain ⟨e1, e2⟩ := append_sep_inj ha.2 hb.2 h.2
    exact ⟨by rw [h.1, e1], e2⟩

theorem joinWith_cons_cons (s : Text) (a b : Text) (r : List Text) :
    joinWith s (a :: b :: r) = a ++ s ++ joinWith s (b :: r) := rfl

theorem joinWith_inj {s : Char} : ∀ {xs ys : List Text}, (∀ t ∈ xs, s ∉ t ∧ t ≠ []) → (∀ t ∈ ys, s ∉ t ∧ t ≠ []) →
    joinWith [s] xs = joinWith [s] ys → xs = ys := by
  intro xs
  induction xs with
  | nil =>
    intro ys _ hy h
    match ys with
    | [] => rfl
    | [y] => exact absurd h.symm (hy y (by simp)).2
    | y :: y' :: r => simp [joinWith] at h
  | cons x xs ih =>
    intro ys hx hy h
    match xs, ys with
    | xs, [] =>
      match xs with
      | [] => exact absurd h (hx x (by simp)).2
      | x' :: r => simp [joinWith] at h
    | [], [y] => simpa [joinWith] using h
    | [], y :: y' :: r =>
      simp only [joinWith, List.append_assoc, List.cons_append, List.nil_append] at h
      exact absurd (by rw [h]; simp) (hx x (by simp)).1
    | x' :: r, [y] =>
      simp only [joinWith, List.append_assoc, List.cons_append, List.nil_append] at h
      exact absurd (by rw [← h]; simp) (hy y (by simp)).1
    | x' :: r, y :: y' :: r' =>
      rw [joinWith_cons_cons, joinWith_cons_cons] at h
      simp only [List.append_assoc, List.cons_append, List.nil_append] at h
      obtain ⟨e1, e2⟩ := append_sep_inj (hx x (by simp)).1 (hy y (by simp)).1 h
      have := ih (ys := y' :: r') (fun t ht => hx t (List.mem_cons_of_mem _ ht))
        (fun t ht => hy t (List.mem_cons_of_mem _ ht)) e2
      rw [e1, this]

theorem display_normal {n : SectionNumber} (h : n.ty ≠ .appendix) :
    n.display = joinWith ['.'] (n.components.map decimal) := by
  unfold SectionNumber.display
  congr 1
  apply List.ext_getElem <;> simp [SectionNumber.showComponent, h]

theorem display_appendix {n : SectionNumber} {x : Nat} {r : List Nat} (h : n.ty = .appendix)
    (hc : n.components = x :: r) :
    n.display = joinWith ['.'] ([SectionNumber.letter x] :: r.map decimal) := by
  unfold SectionNumber.display
  rw [hc, List.mapIdx_cons]
  congr 1
  simp only [SectionNumber.showComponent, h, and_self, if_true, List.cons.injEq, true_and]
  apply List.ext_getElem
  · simp
  · intro i h1 h2
    simp [SectionNumber.showComponent]

theorem letter_of_le {x : Nat} (h1 : 1 ≤ x) (h2 : x ≤ 26) :
    CapitalLetter (SectionNumber.letter x) ∧ (SectionNumber.letter x).toNat = 64 + x := by
  have : ∀ x : Fin 27, 1 ≤ x.val → CapitalLetter (SectionNumber.letter x.val) ∧
      (SectionNumber.letter x.val).toNat = 64 + x.val := by
    unfold CapitalLetter; decide
  exact this ⟨x, by omega⟩ h1

theorem display_cons_ne (s a : Text) (ha : a ≠ []) : ∀ r, ∃ t, joinWith s (a :: r) = a ++ t
  | [] => ⟨[], by simp [joinWith]⟩
  | b :: r => ⟨s ++ joinWith s (b :: r), by simp [joinWith]⟩

/-! Section ids -/

section ids
variable [Uni]
open Re

/-- What the first stage leaves: spaces, word characters, hyphens and full stops. -/
def idChar (c : Char) : Bool := c == ' ' || Uni.isWord c || c == '-' || c == '.'

theorem rel_length {r : Re} {s s' : RS} (h : Rel r s s') : s'.rest.length ≤ s.rest.length := by
  obtain ⟨u, e, _⟩ := h.consumes
  rw [e, List.length_append]; omega

theorem rel_cls_lt {p : Char → Bool} {s s' : RS} (h : Rel (cls p) s s') : s'.rest.length < s.rest.length := by
  obtain ⟨c, r, e1, _, rfl⟩ := rel_cls_iff.mp h
  rw [e1]; simp

theorem rel_seq_cls_lt {p : Char → Bool} {r : Re} {s s' : RS} (h : Rel (.seq (cls p) r) s s') :
    s'.rest.length < s.rest.length := by
  obtain ⟨x, h1, h2⟩ := rel_seq_iff.mp h
  exact Nat.lt_of_le_of_lt (rel_length h2) (rel_cls_lt h1)

/-- The head of what the pattern matches: it is `<`, `&` or a character that may not occur in an id. -/
theorem rel_invalid {s s' : RS} (h : Rel invalidSectionIdRe s s') :
    s'.rest.length < s.rest.length ∧
      (s.rest.head? = some '<' ∨ s.rest.head? = some '&' ∨
        ∃ u, u ≠ [] ∧ s.rest = u ++ s'.rest ∧ ∀ c ∈ u, idChar c = false) := by
  simp only [invalidSectionIdRe, oneOf, cat, lit, chr] at h
  rcases rel_alt_iff.mp h with h | h
  · refine ⟨rel_seq_cls_lt h, .inl ?_⟩
    obtain ⟨x, h1, _⟩ := rel_seq_iff.mp h
    obtain ⟨c, r, e1, e2, _⟩ := rel_cls_iff.mp h1
    rw [e1]; simpa using e2
  rcases rel_alt_iff.mp h with h | h
  · obtain ⟨x, h1, h2⟩ := rel_seq_iff.mp h
    refine ⟨Nat.lt_of_le_of_lt (rel_length h2) (rel_seq_cls_lt h1), .inr (.inl ?_)⟩
    obtain ⟨y, h1, _⟩ := rel_seq_iff.mp h1
    obtain ⟨c, r, e1, e2, _⟩ := rel_cls_iff.mp h1
    rw [e1]; simpa using e2
  rcases rel_alt_iff.mp h with h | h
  · refine ⟨rel_seq_cls_lt h, .inr (.inl ?_)⟩
    obtain ⟨x, h1, _⟩ := rel_seq_iff.mp h
    obtain ⟨c, r, e1, e2, _⟩ := rel_cls_iff.mp h1
    rw [e1]; simpa using e2
  · obtain ⟨u, r, h1, h2, h3, rfl⟩ := rel_plus_cls_iff.mp h
    refine ⟨?_, .inr (.inr ⟨u, h1, h2, ?_⟩)⟩
    · rw [h2, List.length_append]
      have := List.length_pos_iff.mpr h1
      show r.length < u.length + r.length
      omega
    · intro c hc
      have := h3 c hc
      simpa [idChar] using this

theorem invalid_matches {pv : Option Char} {c : Char} {cs : Text} (h : idChar c = false) :
    ∃ s, Rel invalidSectionIdRe ⟨pv, c :: cs, []⟩ s := by
  simp only [invalidSectionIdRe, oneOf]
  refine ⟨⟨prevAfter pv [c], cs, []⟩, rel_alt_iff.mpr (.inr (rel_alt_iff.mpr (.inr (rel_alt_iff.mpr (.inr ?_)))))⟩
  refine rel_plus_cls_iff.mpr ⟨[c], cs, by simp, rfl, ?_, rfl⟩
  intro d hd
  rw [List.mem_singleton] at hd
  subst hd
  simpa [idChar] using h

theorem matchAt_text_ne {pv : Option Char} {t : Text} {mt : Match} {s : RS}
    (h : matchAt invalidSectionIdRe pv t = some (mt, s)) : mt.text ≠ [] ∧ Rel invalidSectionIdRe ⟨pv, t, []⟩ s ∧
      t = mt.text ++ s.rest := by
  obtain ⟨h1, h2, _⟩ := matchAt_sound h
  refine ⟨?_, h1, h2⟩
  intro e
  have := (rel_invalid h1).1
  rw [e] at h2
  simp only [h2, List.nil_append, Nat.lt_irrefl] at this

theorem skip_idChar {pv : Option Char} {c : Char} {cs : Text}
    (h : ∀ mt s, matchAt invalidSectionIdRe pv (c :: cs) = some (mt, s) → mt.text = [] ∧ false = false) :
    idChar c = true := by
  cases hc : idChar c with
  | true => rfl
  | false =>
    obtain ⟨s, hs⟩ := invalid_matches (pv := pv) (cs := cs) hc
    cases hm : matchAt invalidSectionIdRe pv (c :: cs) with
    | none => exact absurd hs (matchAt_none.mp hm s)
    | some r =>
      obtain ⟨mt, s⟩ := r
      exact absurd (h mt s hm).1 (matchAt_text_ne hm).1

theorem replaced_idChars {pv : Option Char} {e : Bool} {t o : Text}
    (h : Replaced invalidSectionIdRe (fun _ => .ok []) pv e t o) : (∀ c ∈ o, idChar c = true) ∧ o.Sublist t := by
  induction h with
  | done _ => simp
  | doneEmpty h1 h2 => exact absurd (matchAt_text_ne h1).2.2 (by have := (matchAt_text_ne h1).1; simp [this])
  | skip h1 _ ih =>
    refine ⟨?_, ih.2.cons_cons _⟩
    intro d hd
    rcases List.mem_cons.mp hd with rfl | hd
    · exact skip_idChar (fun mt s hm => ⟨(h1 mt s hm).1, rfl⟩)
    · exact ih.1 d hd
  | hit h1 h2 h3 _ ih =>
    cases h3
    simp only [List.nil_append]
    refine ⟨ih.1, ?_⟩
    rw [(matchAt_text_ne h1).2.2]
    exact ih.2.trans (List.sublist_append_right _ _)
  | hitEmpty h1 h2 _ _ => exact absurd h2 (matchAt_text_ne h1).1

/-- Without markup the first stage keeps exactly the admissible characters. -/
theorem replaced_plain {pv : Option Char} {e : Bool} {t o : Text}
    (h : Replaced invalidSectionIdRe (fun _ => .ok []) pv e t o) (h1 : '<' ∉ t) (h2 : '&' ∉ t) : o = t.filter idChar := by
  induction h with
  | done _ => rfl
  | doneEmpty h3 _ => exact absurd (matchAt_text_ne h3).2.2 (by have := (matchAt_text_ne h3).1; simp [this])
  | skip h3 _ ih =>
    simp only [List.mem_cons, not_or] at h1 h2
    rw [List.filter_cons, skip_idChar (fun mt s hm => ⟨(h3 mt s hm).1, rfl⟩), if_pos rfl, ih h1.2 h2.2]
  | @hit pv e t mt s x out h3 h4 h5 _ ih =>
    cases h5
    obtain ⟨h6, h7, h8⟩ := matchAt_text_ne h3
    have hh : ∀ c, t.head? = some c → c ∈ t := fun c hc => List.mem_of_mem_head? hc
    rcases (rel_invalid h7).2 with h | h | ⟨u, h9, h10, h11⟩
    · exact absurd (hh _ h) h1
    · exact absurd (hh _ h) h2
    · have hr : s.rest.Sublist t := by rw [h8]; exact List.sublist_append_right _ _
      have h10 : t = u ++ s.rest := h10
      rw [List.nil_append, ih (fun h => h1 (hr.subset h)) (fun h => h2 (hr.subset h)), h10, List.filter_append]
      have : u.filter idChar = [] := by
        rw [List.filter_eq_nil_iff]; intro c hc; rw [h11 c hc]; simp
      rw [this, List.nil_append]
  | hitEmpty h3 h4 _ _ => exact absurd h4 (matchAt_text_ne h3).1

/-! Removing doubled separators -/

theorem go_cons_ss (s : Char) (r : Text) : replaceStrGo [s, s] [s] 0 (s :: s :: r) = s :: replaceStrGo [s, s] [s] 0 r := by
  simp [replaceStrGo]

theorem go_cons (s c : Char) (r : Text) (h : ¬ (c = s ∧ r.head? = some s)) :
    replaceStrGo [s, s] [s] 0 (c :: r) = c :: replaceStrGo [s, s] [s] 0 r := by
  have : List.isPrefixOf [s, s] (c :: r) = false := by
    cases r with
    | nil => simp [List.isPrefixOf]
    | cons d r =>
      simp only [List.head?_cons, Option.some.injEq] at h
      simp only [List.isPrefixOf, Bool.and_eq_false_imp, beq_iff_eq]
      intro e1
      have : ¬ d = s := fun e2 => h ⟨e1.symm, e2⟩
      simp [Ne.symm this]
  simp [replaceStrGo, this]

theorem go_head (s : Char) (t : Text) : (replaceStrGo [s, s] [s] 0 t).head? = t.head? := by
  match t with
  | [] => rfl
  | c :: r =>
    by_cases h : c = s ∧ r.head? = some s
    · obtain ⟨rfl, h⟩ := h
      cases r with
      | nil => cases h
      | cons d r =>
        simp only [List.head?_cons, Option.some.injEq] at h
        subst h; rw [go_cons_ss]; rfl
    · rw [go_cons s c r h]; rfl

theorem squeeze_head (s : Char) : ∀ t : Text, (squeeze s t).head? = t.head?
  | [] => rfl
  | c :: r => by
    rw [squeeze]
    split
    · rename_i h; rw [squeeze_head s r, h.2, h.1]; rfl
    · rfl

theorem squeeze_go (s : Char) : ∀ (n : Nat) (t : Text), t.length ≤ n →
    squeeze s (replaceStrGo [s, s] [s] 0 t) = squeeze s t
  | _, [], _ => rfl
  | 0, _ :: _, h => by simp at h
  | n + 1, c :: r, hn => by
    simp only [List.length_cons] at hn
    by_cases h : c = s ∧ r.head? = some s
    · obtain ⟨rfl, h⟩ := h
      cases r with
      | nil => cases h
      | cons d r =>
        simp only [List.head?_cons, Option.some.injEq] at h
        subst h
        rw [go_cons_ss]
        have e : squeeze d (d :: d :: r) = squeeze d (d :: r) := by rw [squeeze]; simp
        rw [e, squeeze, squeeze, go_head, squeeze_go d n r (by simp at hn; omega)]
    · rw [go_cons s c r h, squeeze, squeeze, go_head, squeeze_go s n r (by omega)]

theorem contains_cons (s c : Char) (r : Text) :
    containsSub (c :: r) [s, s] = ((c == s && r.head? == some s) || containsSub r [s, s]) := by
  rw [containsSub]
  congr 1
  cases r with
  | nil => simp [List.isPrefixOf]
  | cons d r =>
    simp only [List.isPrefixOf, Bool.and_true, List.head?_cons]
    rw [BEq.comm (a := s) (b := c), BEq.comm (a := s) (b := d)]
    simp

theorem squeeze_id (s : Char) : ∀ t : Text, containsSub t [s, s] = false → squeeze s t = t
  | [], _ => rfl
  | c :: r, h => by
    rw [contains_cons] at h
    simp only [Bool.or_eq_false_iff] at h
    rw [squeeze, squeeze_id s r h.2, if_neg]
    rintro ⟨e1, e2⟩
    rw [e1, e2] at h
    simp at h

theorem go_shorter (s : Char) : ∀ (n : Nat) (t : Text), t.length ≤ n →
    (replaceStrGo [s, s] [s] 0 t).length ≤ t.length ∧
    (containsSub t [s, s] = true → (replaceStrGo [s, s] [s] 0 t).length < t.length)
  | _, [], _ => ⟨Nat.le_refl _, by simp [containsSub]⟩
  | 0, _ :: _, h => by simp at h
  | n + 1, c :: r, hn => by
    simp only [List.length_cons] at hn
    by_cases h : c = s ∧ r.head? = some s
    · obtain ⟨rfl, h⟩ := h
      cases r with
      | nil => cases h
      | cons d r =>
        simp only [List.head?_cons, Option.some.injEq] at h
        subst h
        have := (go_shorter d n r (by simp at hn; omega)).1
        rw [go_cons_ss]
        simp only [List.length_cons]
        exact ⟨by omega, fun _ => by omega⟩
    · have ih := go_shorter s n r (by omega)
      rw [go_cons s c r h]
      simp only [List.length_cons]
      refine ⟨by omega, ?_⟩
      intro hc
      rw [contains_cons] at hc
      have : (c == s && r.head? == some s) = false := by
        rw [Bool.eq_false_iff]; intro e; apply h; simpa using e
      rw [this, Bool.false_or] at hc
      have := ih.2 hc
      omega

theorem undouble_eq (s : Char) : ∀ (n : Nat) (t : Text), t.length < n → undouble s n t = .ok (squeeze s t)
  | 0, _, h => by omega
  | n + 1, t, h => by
    rw [undouble]
    by_cases hc : containsSub t [s, s] = true
    · rw [if_pos hc, undouble_eq s n _ ?_]
      · rw [replaceStr, squeeze_go s _ t (Nat.le_refl _)]
      · have := (go_shorter s _ t (Nat.le_refl _)).2 hc
        unfold replaceStr; omega
    · rw [if_neg hc]
      rw [Bool.not_eq_true] at hc
      rw [squeeze_id s t hc]

theorem squeeze_sublist (s : Char) : ∀ t : Text, (squeeze s t).Sublist t
  | [] => List.Sublist.refl _
  | c :: r => by
    rw [squeeze]
    split
    · exact (squeeze_sublist s r).cons _
    · exact (squeeze_sublist s r).cons_cons _

theorem squeeze_notDoubled (s : Char) : ∀ t : Text, NotDoubled s (squeeze s t)
  | [] => by intro a b h; simp [squeeze] at h
  | c :: r => by
    have ih := squeeze_notDoubled s r
    rw [squeeze]
    split
    · exact ih
    · rename_i h
      intro a b e
      cases a with
      | nil =>
        simp only [List.nil_append, List.cons.injEq] at e
        apply h
        refine ⟨e.1, ?_⟩
        rw [← squeeze_head, e.2]; rfl
      | cons a0 a =>
        simp only [List.cons_append, List.cons.injEq] at e
        exact ih _ _ e.2

theorem Spec.NotDoubled.dropLast {s : Char} {t : Text} (h : NotDoubled s t) : NotDoubled s t.dropLast := by
  intro a b e
  cases t.eq_nil_or_concat with
  | inl e2 => subst e2; simp at e
  | inr e2 =>
    obtain ⟨l, x, rfl⟩ := e2
    rw [List.concat_eq_append, List.dropLast_concat] at e
    rw [List.concat_eq_append] at h
    exact h a (b ++ [x]) (by rw [e]; simp)

theorem Spec.NotDoubled.tail {s : Char} {t : Text} (h : NotDoubled s t) : NotDoubled s t.tail := by
  intro a b e
  cases t with
  | nil => simp at e
  | cons c r => exact h (c :: a) b (by rw [List.cons_append, ← e]; rfl)

end ids

end Adoc
