import Verif.Spec.Formatting
import Verif.Lemmas.Typography
import Verif.Lemmas.Look
import Verif.Lemmas.Attrlist
/-!
# Formatted text against its specification
-/

namespace Adoc
open Adoc.Spec Re
variable [Uni]

/-! ### How the matcher searches -/

theorem m_literal {w : Text} {k : RS → Option RS} {s : RS} :
    m (lit w) k s = match (if w.isPrefixOf s.rest then some (s.rest.drop w.length) else none) with
      | some r => k ⟨prevAfter s.prev w, r, s.caps⟩
      | none => none := by
  obtain ⟨pv, t, caps⟩ := s
  induction w generalizing pv t with
  | nil => simp [lit, m, prevAfter]
  | cons c w ih =>
    have hc : m (lit (c :: w)) k ⟨pv, t, caps⟩ = m (chr c) (m (lit w) k) ⟨pv, t, caps⟩ := by
      cases w with
      | nil =>
        have : (m (lit []) k : RS → Option RS) = k := by funext s; simp [lit, m]
        rw [this]; rfl
      | cons d w => rw [lit, m]; exact fun h => by cases h
    rw [hc]
    cases t with
    | nil => rw [m_chr_nil]; simp
    | cons d t =>
      rw [m_chr]
      by_cases h : d = c
      · subst h
        rw [if_pos rfl, ih]
        simp only [List.isPrefixOf_cons₂, beq_self_eq_true, Bool.true_and, List.length_cons, List.drop_succ_cons,
          prevAfter_cons]
      · rw [if_neg h]
        have : (c == d) = false := by rw [Bool.eq_false_iff]; intro e; exact h (beq_iff_eq.mp e).symm
        simp [List.isPrefixOf_cons₂, this]

theorem m_lit_some {w : Text} {k : RS → Option RS} {s z : RS} (h : m (lit w) k s = some z) :
    ∃ r, s.rest = w ++ r ∧ k ⟨prevAfter s.prev w, r, s.caps⟩ = some z := by
  rw [m_literal] at h
  split at h
  · rename_i r hr
    split at hr
    · rename_i hp
      cases hr
      rw [List.isPrefixOf_iff_prefix] at hp
      obtain ⟨u, hu⟩ := hp
      refine ⟨_, ?_, h⟩
      rw [← hu]; simp
    · cases hr
  · cases h

/-- A lazy repetition stops as soon as it can. -/
theorem starM_lazy {p : Char → Bool} {k : RS → Option RS} {z : RS} : ∀ (n : Nat) (pv : Option Char) (t : Text)
    (caps : List (Nat × Text)), starM false (m (cls p)) n k ⟨pv, t, caps⟩ = some z →
    ∃ b r, t = b ++ r ∧ (∀ c ∈ b, p c = true) ∧ k ⟨prevAfter pv b, r, caps⟩ = some z ∧
      ∀ b' r', b' ++ r' = t → b'.length < b.length → k ⟨prevAfter pv b', r', caps⟩ = none := by
  intro n
  induction n with
  | zero => intro pv t caps h; exact ⟨[], t, rfl, by simp, h, by simp⟩
  | succ n ih =>
    intro pv t caps h
    rw [starM, if_neg (by simp)] at h
    cases hk : k ⟨pv, t, caps⟩ with
    | some y =>
      rw [hk] at h
      exact ⟨[], t, rfl, by simp, by rw [← h]; exact hk, by simp⟩
    | none =>
      rw [hk] at h
      simp only at h
      cases t with
      | nil => rw [m_cls_nil] at h; cases h
      | cons c t =>
        rw [m_cls_cons] at h
        split at h
        · rename_i hp
          rw [if_pos (by simp)] at h
          obtain ⟨b, r, rfl, g1, g2, g3⟩ := ih _ _ _ h
          refine ⟨c :: b, r, rfl, ?_, ?_, ?_⟩
          · intro x hx
            rcases List.mem_cons.mp hx with rfl | hx
            · exact hp
            · exact g1 x hx
          · rw [prevAfter_cons]; exact g2
          · intro b' r' e hl
            cases b' with
            | nil => rw [List.nil_append] at e; rw [e]; exact hk
            | cons d b' =>
              rw [List.cons_append] at e
              obtain ⟨rfl, e2⟩ := List.cons.inj e
              rw [prevAfter_cons]
              exact g3 b' r' e2 (by simpa using hl)
        · cases h

/-- The shortest text that makes the rest match. -/
theorem m_plusLazy {n : Nat} {p : Char → Bool} {k : RS → Option RS} {s z : RS} (h : m (cap n (plusLazy (cls p))) k s = some z) :
    ∃ b r, s.rest = b ++ r ∧ (b ≠ [] ∧ ∀ c ∈ b, p c = true) ∧ k ⟨prevAfter s.prev b, r, (n, b) :: s.caps⟩ = some z ∧
      ∀ b' r', b' ++ r' = s.rest → b'.length < b.length → (b' ≠ [] ∧ ∀ c ∈ b', p c = true) →
        k ⟨prevAfter s.prev b', r', (n, b') :: s.caps⟩ = none := by
  obtain ⟨pv, t, caps⟩ := s
  rw [m, plusLazy, m] at h
  cases t with
  | nil => rw [m_cls_nil] at h; cases h
  | cons c t =>
    rw [m_cls_cons] at h
    split at h
    · rename_i hp
      rw [m] at h
      obtain ⟨b, r, rfl, g1, g2, g3⟩ := starM_lazy _ _ _ _ h
      have htake : ∀ b r : Text, (c :: (b ++ r)).take ((c :: (b ++ r)).length - r.length) = c :: b := by
        intro b r
        have : (c :: (b ++ r)).length - r.length = (c :: b).length := by simp; omega
        rw [this, ← List.cons_append, List.take_left']
        rfl
      refine ⟨c :: b, r, rfl, ⟨by simp, ?_⟩, ?_, ?_⟩
      · intro x hx
        rcases List.mem_cons.mp hx with rfl | hx
        · exact hp
        · exact g1 x hx
      · simp only [htake] at g2
        rw [prevAfter_cons]; exact g2
      · intro b' r' e hl hb
        cases b' with
        | nil => exact absurd rfl hb.1
        | cons d b' =>
          rw [List.cons_append] at e
          obtain ⟨rfl, e2⟩ := List.cons.inj e
          have := g3 b' r' e2 (by simpa using hl)
          simp only [← e2, htake] at this
          rw [prevAfter_cons]; exact this
    · cases h

/-- The shortest text without white space at its ends that makes the rest match. -/
theorem m_quotedBody {n : Nat} {k : RS → Option RS} {s z : RS} (h : m (cap n quotedBody) k s = some z) :
    ∃ b r, s.rest = b ++ r ∧ Solid b ∧ k ⟨prevAfter s.prev b, r, (n, b) :: s.caps⟩ = some z ∧
      ∀ b' r', b' ++ r' = s.rest → b'.length < b.length → Solid b' →
        k ⟨prevAfter s.prev b', r', (n, b') :: s.caps⟩ = none := by
  obtain ⟨pv, t, caps⟩ := s
  rw [m, quotedBody, m] at h
  have hns : ∀ (K : RS → Option RS) (pv : Option Char) (c : Char) (t : Text) (cp : List (Nat × Text)),
      m nonSpace K ⟨pv, c :: t, cp⟩ = if (!isWhite c) = true then K ⟨some c, t, cp⟩ else none := by
    intro K pv c t cp; rw [nonSpace, m_cls_cons]
  cases t with
  | nil =>
    have : ∀ K cp, m nonSpace K ⟨pv, [], cp⟩ = none := by intro K cp; rw [nonSpace, m_cls_nil]
    rw [this] at h
    simp only [cat] at h
    rw [m, this] at h
    cases h
  | cons c t =>
    rw [hns] at h
    have htake : ∀ b r : Text, (b ++ r).take ((b ++ r).length - r.length) = b := by
      intro b r
      have : (b ++ r).length - r.length = b.length := by simp
      rw [this, List.take_left' rfl]
    by_cases hw : isWhite c = true
    · rw [if_neg (by simp [hw])] at h
      simp only [cat] at h
      rw [m, hns, if_neg (by simp [hw])] at h
      cases h
    · have hw : isWhite c = false := Bool.eq_false_iff.mpr hw
      rw [if_pos (by simp [hw])] at h
      have h1 := htake [c] t
      rw [List.singleton_append] at h1
      simp only [h1] at h
      cases hk : k ⟨some c, t, (n, [c]) :: caps⟩ with
      | some y =>
        rw [hk] at h
        refine ⟨[c], t, rfl, ⟨⟨c, [], rfl, hw⟩, fun x hx => by cases hx; exact hw⟩, by rw [← h]; exact hk, ?_⟩
        intro b' r' e hl hb
        obtain ⟨x, y, rfl, _⟩ := hb.first
        simp at hl
      | none =>
        rw [hk] at h
        simp only [cat] at h
        rw [m, hns, if_pos (by simp [hw]), m, m] at h
        obtain ⟨b, r, rfl, _, g2, g3⟩ := starM_lazy _ _ _ _ h
        cases r with
        | nil => rw [nonSpace, m_cls_nil] at g2; cases g2
        | cons d r =>
          rw [hns] at g2
          split at g2
          · rename_i hd
            have hd : isWhite d = false := by simpa using hd
            have h2 := htake (c :: (b ++ [d])) r
            simp only [List.cons_append, List.append_assoc, List.singleton_append] at h2
            simp only [List.nil_append] at h2
            simp only [h2] at g2
            have hp : ∀ x : Text, prevAfter (some c) (x ++ [d]) = some d := by intro x; simp [prevAfter]
            refine ⟨c :: (b ++ [d]), r, by simp, ⟨⟨c, _, rfl, hw⟩, ?_⟩, ?_, ?_⟩
            · intro x hx
              rw [← List.cons_append, List.getLast?_append] at hx
              cases hx
              exact hd
            · rw [prevAfter_cons, hp]; exact g2
            · intro b' r' e hl hb
              obtain ⟨x, y, rfl, _⟩ := hb.first
              rw [List.cons_append] at e
              obtain ⟨rfl, e2⟩ := List.cons.inj e
              rcases List.eq_nil_or_concat y with rfl | ⟨y, w, rfl⟩
              · rw [List.nil_append] at e2
                subst e2
                exact hk
              · rw [List.concat_eq_append] at e2 hl hb ⊢
                have g := g3 y (w :: r') (by rw [← e2]; simp) (by simp at hl; omega)
                have hwd : isWhite w = false := hb.last w (by rw [← List.cons_append, List.getLast?_append]; rfl)
                rw [hns, if_pos (by simp [hwd])] at g
                have h3 := htake (x :: (y ++ [w])) r'
                have e' : x :: (y ++ [w]) ++ r' = x :: (b ++ d :: r) := by rw [List.cons_append, e2]
                rw [e'] at h3
                simp only [h3] at g
                rw [prevAfter_cons]
                have : prevAfter (some x) (y ++ [w]) = some w := by simp [prevAfter]
                rw [this]
                exact g
          · cases g2

/-- The groups so far and one that may have matched. -/
def addGroup (n : Nat) (o : Option Text) (caps : List (Nat × Text)) : List (Nat × Text) :=
  match o with
  | some a => (n, a) :: caps
  | none => caps

theorem m_optAttrs {n : Nat} {k : RS → Option RS} {s z : RS} (h : m (optAttrs n) k s = some z) :
    ∃ p o r, AttrPart p o ∧ s.rest = p ++ r ∧ k ⟨prevAfter s.prev p, r, addGroup n o s.caps⟩ = some z := by
  obtain ⟨pv, t, caps⟩ := s
  rw [optAttrs, opt, m] at h
  split at h
  · rename_i y hy
    cases h
    simp only [cat] at hy
    rw [m] at hy
    cases t with
    | nil => rw [m_chr_nil] at hy; cases hy
    | cons c t =>
      rw [m_chr] at hy
      split at hy
      · rename_i hc
        subst hc
        rw [m, m, plus, m] at hy
        cases t with
        | nil => rw [m_cls_nil] at hy; cases hy
        | cons d t =>
          rw [m_cls_cons] at hy
          split at hy
          · rename_i hd
            rw [m_star_cls_det] at hy
            · simp only at hy
              generalize hu : t.takeWhile (fun c => c != '[' && c != ']') = u at hy
              generalize hv : t.dropWhile (fun c => c != '[' && c != ']') = v at hy
              have ht : t = u ++ v := by rw [← hu, ← hv, List.takeWhile_append_dropWhile]
              cases v with
              | nil => rw [m_chr_nil] at hy; cases hy
              | cons x v =>
                rw [m_chr] at hy
                split at hy
                · rename_i hx
                  subst hx
                  have hall : ∀ y ∈ d :: u, y ≠ '[' ∧ y ≠ ']' := by
                    intro y hyy
                    have : (y != '[' && y != ']') = true := by
                      rcases List.mem_cons.mp hyy with rfl | hyy
                      · exact hd
                      · rw [← hu] at hyy
                        have := List.all_eq_true.mp (List.all_takeWhile (p := fun c => c != '[' && c != ']') (l := t)) y hyy
                        exact this
                    simpa using this
                  refine ⟨'[' :: (d :: u) ++ [']'], some (d :: u), v, .some (by simp) (fun hh => (hall _ hh).1 rfl)
                    (fun hh => (hall _ hh).2 rfl), by rw [ht]; simp, ?_⟩
                  have hl : prevAfter pv ('[' :: (d :: u) ++ [']']) = some ']' := by
                    rw [prevAfter, List.getLast?_append]; rfl
                  rw [hl]
                  have htk : (d :: t).take ((d :: t).length - (']' :: v).length) = d :: u := by
                    rw [ht]
                    have : (d :: (u ++ ']' :: v)).length - (']' :: v).length = (d :: u).length := by simp; omega
                    rw [this, ← List.cons_append, List.take_left' rfl]
                  simp only [htk] at hy
                  exact hy
                · cases hy
            · intro pv c cs caps hc
              rw [m_chr]
              have : c ≠ ']' := by rintro rfl; revert hc; decide
              rw [if_neg this]
          · cases hy
      · cases hy
  · exact ⟨[], none, t, .none, rfl, by rw [m] at h; exact h⟩

/-! ### Passages -/

theorem attrPart_rel {n : Nat} {p : Text} {o : Option Text} (h : AttrPart p o) (pv : Option Char) (r : Text)
    (caps : List (Nat × Text)) : Rel (optAttrs n) ⟨pv, p ++ r, caps⟩ ⟨prevAfter pv p, r, addGroup n o caps⟩ := by
  cases h with
  | none => exact rel_opt_iff.mpr (Or.inr rfl)
  | @some a h1 h2 h3 =>
    refine rel_opt_iff.mpr (Or.inl ?_)
    simp only [cat]
    refine rel_seq_iff.mpr ⟨⟨some '[', a ++ ']' :: r, caps⟩, rel_chr_iff.mpr ⟨_, by simp, rfl⟩,
      rel_seq_iff.mpr ⟨⟨prevAfter (some '[') a, ']' :: r, (n, a) :: caps⟩, ?_, rel_chr_iff.mpr ⟨_, rfl, ?_⟩⟩⟩
    · refine rel_cap_iff.mpr ⟨⟨prevAfter (some '[') a, ']' :: r, caps⟩, a, ?_, rfl, rfl⟩
      refine rel_plus_cls_iff.mpr ⟨a, _, h1, rfl, fun c hc => ?_, rfl⟩
      have h4 : c ≠ '[' := fun e => h2 (e ▸ hc)
      have h5 : c ≠ ']' := fun e => h3 (e ▸ hc)
      simp [h4, h5]
    · have : prevAfter pv ('[' :: a ++ [']']) = some ']' := by rw [prevAfter, List.getLast?_append]; rfl
      rw [this]; rfl

/-- The part of an expression for a passage with its marks. -/
def passageRe (n : Nat) (op cl : Text) (body tail : Re) : Re :=
  seq (optAttrs n) (seq (lit op) (seq (cap (n + 1) body) (seq (lit cl) tail)))

/-- What is needed to know about the parts of such an expression. -/
structure PassageRe (op : Text) (n : Nat) (body tail : Re) (ok after : Text → Prop) : Prop where
  open_ : op ≠ [] ∧ op.head? ≠ some '['
  inner : ∀ {k : RS → Option RS} {s z : RS}, m (cap n body) k s = some z → ∃ b r, s.rest = b ++ r ∧ ok b ∧
    k ⟨prevAfter s.prev b, r, (n, b) :: s.caps⟩ = some z ∧ ∀ b' r', b' ++ r' = s.rest → b'.length < b.length → ok b' →
      k ⟨prevAfter s.prev b', r', (n, b') :: s.caps⟩ = none
  innerRel : ∀ {b : Text}, ok b → ∀ pv r caps, Rel (cap n body) ⟨pv, b ++ r, caps⟩ ⟨prevAfter pv b, r, (n, b) :: caps⟩
  outer : ∀ {s s' : RS}, Rel tail s s' ↔ after s.rest ∧ s' = s

theorem passage_sound {n : Nat} {op cl : Text} {body tail : Re} {ok after : Text → Prop}
    (h : PassageRe op (n + 1) body tail ok after) {s z : RS} (hm : m (passageRe n op cl body tail) some s = some z) :
    ∃ p o b, Passage op cl ok after p o b z.rest ∧ s.rest = p ++ z.rest ∧
      z = ⟨prevAfter s.prev p, z.rest, (n + 1, b) :: addGroup n o s.caps⟩ := by
  rw [passageRe, m] at hm
  obtain ⟨a, o, r, ha, e1, hm⟩ := m_optAttrs hm
  rw [m] at hm
  obtain ⟨r1, e2, hm⟩ := m_lit_some hm
  rw [m] at hm
  obtain ⟨b, r2, e3, hb, hm, hmin⟩ := h.inner hm
  have hcl : ∀ pv t cp, Closes cl after t → ((m (seq (lit cl) tail)) some ⟨pv, t, cp⟩).isSome = true := by
    rintro pv t cp ⟨u, rfl, hu⟩
    refine m_complete _ some _ _ (rel_seq_iff.mpr ⟨_, rel_lit_iff.mpr ⟨u, rfl, rfl⟩, h.outer.mpr ⟨hu, rfl⟩⟩) rfl
  obtain ⟨s', g1, g2⟩ := m_sound _ _ _ _ hm
  cases g2
  obtain ⟨x, g1, g3⟩ := rel_seq_iff.mp g1
  obtain ⟨u, e4, rfl⟩ := rel_lit_iff.mp g1
  obtain ⟨g4, rfl⟩ := h.outer.mp g3
  simp only at e2 e3 e4 g4
  refine ⟨a ++ op ++ b ++ cl, o, b, ⟨a, ha, rfl, hb, ⟨u, rfl, g4⟩, ?_⟩, ?_, ?_⟩
  · intro b' r' e hl ho hc
    have h1 := hmin b' r' (by rw [e]; simp only; rw [e3, e4]) hl ho
    exact Option.isSome_iff_ne_none.mp (hcl _ _ _ hc) h1
  · rw [e1, e2, e3, e4]; simp
  · simp only [← prevAfter_append]

theorem passage_rel {n : Nat} {op cl : Text} {body tail : Re} {ok after : Text → Prop}
    (h : PassageRe op (n + 1) body tail ok after) {p : Text} {o : Option Text} {b r : Text} (hp : Passage op cl ok after p o b r)
    (pv : Option Char) (caps : List (Nat × Text)) : ∃ z, Rel (passageRe n op cl body tail) ⟨pv, p ++ r, caps⟩ z := by
  obtain ⟨a, ha, rfl, hb, ⟨u, e, hu⟩, _⟩ := hp
  have e := List.append_cancel_left e
  subst e
  have h1 := attrPart_rel (n := n) ha pv (op ++ (b ++ (cl ++ r))) caps
  have e : a ++ (op ++ (b ++ (cl ++ r))) = a ++ op ++ b ++ cl ++ r := by simp
  rw [e] at h1
  exact ⟨_, rel_seq_iff.mpr ⟨_, h1, rel_seq_iff.mpr ⟨_, rel_lit_iff.mpr ⟨_, rfl, rfl⟩, rel_seq_iff.mpr
    ⟨_, h.innerRel hb _ _ _, rel_seq_iff.mpr ⟨_, rel_lit_iff.mpr ⟨r, rfl, rfl⟩, h.outer.mpr ⟨hu, rfl⟩⟩⟩⟩⟩⟩

omit [Uni] in
/-- What the replacer for a format writes when it does not ask to skip. -/
theorem take_rest {p r : Text} : (p ++ r).take ((p ++ r).length - r.length) = p := by
  have : (p ++ r).length - r.length = p.length := by simp
  rw [this, List.take_left' rfl]

/-- Expressions and replacers with look-ahead that do what `P` says, in all suffixes of a text. -/
structure LookRenders (re : Re) (rep : LookReplacer) (P : Option Char → Text → Text → Text → Prop) (whole : Text) : Prop where
  sound : ∀ pv t mt s, t <:+ whole → matchAt re pv t = some (mt, s) →
    ∃ x, rep mt s.rest = .ok (x, .continue_) ∧ mt.text ≠ [] ∧ P pv mt.text s.rest x
  complete : ∀ pv m b x, P pv m b x → ∃ s, Rel re ⟨pv, m ++ b, []⟩ s

theorem LookRenders.rewrites {re : Re} {rep : LookReplacer} {P : Option Char → Text → Text → Text → Prop} {whole : Text}
    (h : LookRenders re rep P whole) {strict d : Bool} {pv : Option Char} {e : Bool} {t out : Text}
    (hl : Looked re rep strict d pv e t out) (ht : t <:+ whole) : Rewrites P pv t out := by
  induction hl with
  | finish _ => exact .done
  | @keep d pv e c cs out hn _ ih =>
    refine .miss (fun m b x he hp => ?_) (ih ((List.suffix_cons c cs).trans ht))
    obtain ⟨s, hs⟩ := h.complete _ _ _ _ hp
    rw [← he] at hs
    cases hm : matchAt re pv (c :: cs) with
    | none => exact matchAt_none.mp hm s hs
    | some y =>
      obtain ⟨_, _, hne, _⟩ := h.sound _ _ _ _ ht hm
      exact hne (hn _ _ hm).1
  | @replace d pv e mt s x out hm hne hx _ ih =>
    obtain ⟨y, hy, _, hp⟩ := h.sound _ _ _ _ ht hm
    rw [hx] at hy
    cases hy
    obtain ⟨_, _, ep, _⟩ := matchAt_sound hm
    have ih := ih ((List.suffix_append _ _).trans ht)
    rw [ep, prevAfter_ne hne] at ih
    exact .hit hp ih
  | replaceEmpty hm he _ _ =>
    obtain ⟨_, _, hne, _⟩ := h.sound _ _ _ _ ht hm
    exact absurd he hne
  | replaceEnd hm _ =>
    obtain ⟨_, _, hne, _⟩ := h.sound _ _ _ _ ht hm
    obtain ⟨_, e, _⟩ := matchAt_sound hm
    exact absurd (List.append_eq_nil_iff.mp e.symm).1 hne
  | skip hm _ hx _ _ _ _ =>
    obtain ⟨y, hy, _⟩ := h.sound _ _ _ _ ht hm
    rw [hx] at hy
    cases hy

/-! ### The expressions -/

theorem passageRe_quoted {op : Text} {n : Nat} (h : op ≠ [] ∧ op.head? ≠ some '[') :
    PassageRe op n quotedBody endHalf Solid WordEnds where
  open_ := h
  inner := m_quotedBody
  innerRel := by
    intro b hb pv r caps
    refine rel_cap_iff.mpr ⟨⟨prevAfter pv b, r, caps⟩, b, ?_, rfl, rfl⟩
    obtain ⟨c, u, rfl, hc⟩ := hb.first
    rcases List.eq_nil_or_concat u with rfl | ⟨u, d, rfl⟩
    · exact rel_alt_iff.mpr (Or.inl (rel_cls_iff.mpr ⟨c, r, rfl, by simp [hc], rfl⟩))
    · rw [List.concat_eq_append] at hb ⊢
      have hd : isWhite d = false := hb.last d (by rw [← List.cons_append, List.getLast?_append]; rfl)
      refine rel_alt_iff.mpr (Or.inr ?_)
      simp only [cat]
      refine rel_seq_iff.mpr ⟨⟨some c, u ++ d :: r, caps⟩, rel_cls_iff.mpr ⟨c, _, by simp, by simp [hc], rfl⟩,
        rel_seq_iff.mpr ⟨⟨prevAfter (some c) u, d :: r, caps⟩, rel_star_cls_iff.mpr ⟨u, _, rfl, fun _ _ => rfl, rfl⟩,
          rel_cls_iff.mpr ⟨d, r, rfl, by simp [hd], ?_⟩⟩⟩
      have : prevAfter pv (c :: (u ++ [d])) = some d := by
        rw [prevAfter, ← List.cons_append, List.getLast?_append]; rfl
      rw [this]
  outer := by
    intro s s'
    have : (!wordAt s.rest.head?) = true ↔ WordEnds s.rest := by
      unfold WordEnds wordAt
      cases s.rest.head? <;> simp
    rw [← this]
    constructor
    · intro h; cases h with | endHalf h => exact ⟨h, rfl⟩
    · rintro ⟨h, rfl⟩; exact .endHalf h

theorem passageRe_lazy {op : Text} {n : Nat} {p : Char → Bool} {ok : Text → Prop}
    (hok : ∀ b, ok b ↔ (b ≠ [] ∧ ∀ c ∈ b, p c = true)) (h : op ≠ [] ∧ op.head? ≠ some '[') :
    PassageRe op n (plusLazy (cls p)) eps ok (fun _ => True) where
  open_ := h
  inner := by
    simp only [hok]
    exact m_plusLazy
  innerRel := by
    intro b hb pv r caps
    refine rel_cap_iff.mpr ⟨⟨prevAfter pv b, r, caps⟩, b, ?_, rfl, rfl⟩
    obtain ⟨hne, hb⟩ := (hok b).mp hb
    cases b with
    | nil => exact absurd rfl hne
    | cons c b =>
      refine rel_seq_iff.mpr ⟨⟨some c, b ++ r, caps⟩, rel_cls_iff.mpr ⟨c, _, rfl, hb c (by simp), rfl⟩,
        rel_star_cls_iff.mpr ⟨b, r, rfl, fun x hx => hb x (by simp [hx]), ?_⟩⟩
      rw [prevAfter_cons]
  outer := by
    intro s s'
    rw [rel_eps_iff]; simp

theorem constrained_eq {ex : List Char} {op cl : Text} : constrainedRe ex op cl =
    seq (cap 1 (alt bot (cls fun c => !Uni.isWord c && !ex.contains c))) (passageRe 2 op cl quotedBody endHalf) := rfl

/-- A passage there makes the expression match. -/
theorem passage_some {n : Nat} {op cl : Text} {body tail : Re} {ok after : Text → Prop}
    (h : PassageRe op (n + 1) body tail ok after) {p : Text} {o : Option Text} {b r t : Text} (hp : Passage op cl ok after p o b r)
    (e : t = p ++ r) (pv : Option Char) (caps : List (Nat × Text)) :
    m (passageRe n op cl body tail) some ⟨pv, t, caps⟩ ≠ none := by
  obtain ⟨z, hz⟩ := passage_rel h hp pv caps
  subst e
  exact Option.isSome_iff_ne_none.mp (m_complete _ some _ _ hz rfl)

theorem constrained_match {ex : List Char} {op cl : Text} (hop : op ≠ [] ∧ op.head? ≠ some '[') {pv : Option Char} {t : Text}
    {mt : Match} {s : RS} (h : matchAt (constrainedRe ex op cl) pv t = some (mt, s)) :
    ∃ a p o b, mt.text = a ++ p ∧ Passage op cl Solid WordEnds p o b s.rest ∧ mt.caps = (3, b) :: addGroup 2 o [(1, a)] ∧
      ((a = [] ∧ pv = none) ∨ ∃ c, a = [c] ∧ Uni.isWord c = false ∧ c ∉ ex ∧
        (pv = none → ¬ ∃ p x b r, Passage op cl Solid WordEnds p x b r ∧ mt.text ++ s.rest = p ++ r)) := by
  obtain ⟨_, et, _, ec⟩ := matchAt_sound h
  unfold matchAt at h
  obtain ⟨z, hm, hz⟩ := Option.map_eq_some_iff.mp h
  simp only [Prod.mk.injEq] at hz
  obtain ⟨_, rfl⟩ := hz
  rw [constrained_eq, m, m, m] at hm
  have hq := passageRe_quoted (n := 3) hop
  split at hm
  · rename_i y hy
    cases hm
    rw [m] at hy
    split at hy
    · rename_i hpv
      simp only at hy
      obtain ⟨p, o, b, hp, e, hz⟩ := passage_sound hq hy
      simp only [Nat.sub_self, List.take_zero] at e hz
      refine ⟨[], p, o, b, ?_, hp, ?_, Or.inl ⟨rfl, hpv⟩⟩
      · rw [e] at et; exact (List.append_cancel_right et).symm
      · rw [ec, hz]
    · cases hy
  · rename_i hy
    cases t with
    | nil => rw [m_cls_nil] at hm; cases hm
    | cons c t =>
      rw [m_cls_cons] at hm
      split at hm
      · rename_i hc
        simp only [Bool.and_eq_true, Bool.not_eq_true', List.contains_eq_mem, decide_eq_false_iff_not] at hc
        have htk : (c :: t).take ((c :: t).length - t.length) = [c] := by
          have : (c :: t).length - t.length = 1 := by simp
          rw [this]; rfl
        simp only [htk] at hm
        obtain ⟨p, o, b, hp, e, hz⟩ := passage_sound hq hm
        simp only at e hz
        have e2 : mt.text = [c] ++ p := by
          rw [e, ← List.cons_append] at et
          exact (List.append_cancel_right et).symm
        refine ⟨[c], p, o, b, e2, hp, ?_, Or.inr ⟨c, rfl, hc.1, hc.2, ?_⟩⟩
        · rw [ec, hz]
        · rintro rfl ⟨p', o', b', r', hp', e'⟩
          rw [← et] at e'
          rw [m, if_pos rfl] at hy
          exact passage_some hq hp' e' _ _ hy
      · cases hm

theorem constrained_rel {ex : List Char} {op cl : Text} (hop : op ≠ [] ∧ op.head? ≠ some '[')
    {f : Option Text → Text → Text} {pv : Option Char} {u r x : Text} (h : Constrained ex op cl f pv u r x) :
    ∃ s, Rel (constrainedRe ex op cl) ⟨pv, u ++ r, []⟩ s := by
  obtain ⟨a, p, o, b, rfl, hp, h⟩ := h
  have hq := passageRe_quoted (n := 3) hop
  rw [constrained_eq]
  rcases h with ⟨rfl, rfl, _⟩ | ⟨c, rfl, h1, h2, _, _⟩
  · obtain ⟨z, hz⟩ := passage_rel hq hp none [(1, [])]
    exact ⟨z, rel_seq_iff.mpr ⟨⟨none, p ++ r, [(1, [])]⟩, rel_cap_iff.mpr ⟨⟨none, p ++ r, []⟩, [],
      rel_alt_iff.mpr (Or.inl (.bot rfl)), rfl, rfl⟩, hz⟩⟩
  · obtain ⟨z, hz⟩ := passage_rel hq hp (some c) [(1, [c])]
    exact ⟨z, rel_seq_iff.mpr ⟨⟨some c, p ++ r, [(1, [c])]⟩, rel_cap_iff.mpr ⟨⟨some c, p ++ r, []⟩, [c],
      rel_alt_iff.mpr (Or.inr (rel_cls_iff.mpr ⟨c, p ++ r, rfl, by simp [h1, h2], rfl⟩)), rfl, rfl⟩, hz⟩⟩

/-- The expressions for passages anywhere. -/
def anywhereRe (mark : Text) (p : Char → Bool) : Re := seq (opt (chr '\\')) (passageRe 1 mark mark (plusLazy (cls p)) eps)

theorem m_litEps {w : Text} : (m (seq (lit w) eps) : Matcher) = m (lit w) := by
  funext k s; rw [m]; rfl

theorem unconstrained_same {mark : Text} {k : RS → Option RS} {s : RS} :
    m (unconstrainedRe mark) k s = m (anywhereRe mark fun _ => true) k s := by
  unfold unconstrainedRe anywhereRe passageRe
  simp only [cat, anyChar]
  simp only [m]

theorem script_same {c : Char} {p : Char → Bool} {k : RS → Option RS} {s : RS} :
    m (cat [opt (chr '\\'), optAttrs 1, chr c, cap 2 (plusLazy (cls p)), chr c]) k s = m (anywhereRe [c] p) k s := by
  unfold anywhereRe passageRe
  simp only [cat, lit]
  simp only [m]

theorem anywhere_match {mark : Text} {q : Char → Bool} {ok : Text → Prop} (hok : ∀ b, ok b ↔ (b ≠ [] ∧ ∀ c ∈ b, q c = true))
    (hop : mark ≠ [] ∧ mark.head? ≠ some '[') {pv : Option Char} {t : Text}
    {mt : Match} {s : RS} (h : matchAt (anywhereRe mark q) pv t = some (mt, s)) :
    ∃ a p o b, mt.text = a ++ p ∧ Passage mark mark ok (fun _ => True) p o b s.rest ∧ mt.caps = (2, b) :: addGroup 1 o [] ∧
      (a = [] ∨ a = ['\\']) := by
  obtain ⟨_, et, _, ec⟩ := matchAt_sound h
  unfold matchAt at h
  obtain ⟨z, hm, hz⟩ := Option.map_eq_some_iff.mp h
  simp only [Prod.mk.injEq] at hz
  obtain ⟨_, rfl⟩ := hz
  rw [anywhereRe, m, opt, m] at hm
  have hq := passageRe_lazy (n := 2) hok hop
  split at hm
  · rename_i y hy
    cases hm
    cases t with
    | nil => rw [m_chr_nil] at hy; cases hy
    | cons c t =>
      rw [m_chr] at hy
      split at hy
      · rename_i hc
        subst hc
        obtain ⟨p, o, b, hp, e, hz⟩ := passage_sound hq hy
        simp only at e hz
        refine ⟨['\\'], p, o, b, ?_, hp, by rw [ec, hz], Or.inr rfl⟩
        rw [e, ← List.cons_append] at et
        exact (List.append_cancel_right et).symm
      · cases hy
  · rw [m] at hm
    obtain ⟨p, o, b, hp, e, hz⟩ := passage_sound hq hm
    simp only at e hz
    refine ⟨[], p, o, b, ?_, hp, by rw [ec, hz], Or.inl rfl⟩
    rw [e] at et; exact (List.append_cancel_right et).symm

theorem anywhere_rel {mark : Text} {q : Char → Bool} {ok : Text → Prop} (hok : ∀ b, ok b ↔ (b ≠ [] ∧ ∀ c ∈ b, q c = true))
    (hop : mark ≠ [] ∧ mark.head? ≠ some '[') {f : Option Text → Text → Text} {pv : Option Char} {u r x : Text}
    (h : Unconstrained mark ok f pv u r x) : ∃ s, Rel (anywhereRe mark q) ⟨pv, u ++ r, []⟩ s := by
  have hq := passageRe_lazy (n := 2) hok hop
  obtain ⟨p, o, b, hp, ⟨rfl, _⟩ | ⟨rfl, _⟩⟩ := h
  · obtain ⟨z, hz⟩ := passage_rel hq hp pv []
    exact ⟨z, rel_seq_iff.mpr ⟨_, rel_opt_iff.mpr (Or.inr rfl), hz⟩⟩
  · obtain ⟨z, hz⟩ := passage_rel hq hp (some '\\') []
    exact ⟨z, rel_seq_iff.mpr ⟨_, rel_opt_iff.mpr (Or.inl (rel_chr_iff.mpr ⟨_, rfl, rfl⟩)), hz⟩⟩

/-! ### A passage is determined by the text -/

omit [Uni] in
theorem attrPart_det {a a' : Text} {o o' : Option Text} {r r' : Text} (h : AttrPart a o) (h' : AttrPart a' o')
    (e : a ++ r = a' ++ r') (hr : r.head? ≠ some '[') (hr' : r'.head? ≠ some '[') : a = a' ∧ o = o' ∧ r = r' := by
  cases h with
  | none =>
    cases h' with
    | none => exact ⟨rfl, rfl, e⟩
    | some _ _ _ => rw [List.nil_append] at e; rw [e] at hr; exact absurd rfl hr
  | @some x h1 h2 h3 =>
    cases h' with
    | none => rw [List.nil_append] at e; rw [← e] at hr'; exact absurd rfl hr'
    | @some y g1 g2 g3 =>
      simp only [List.cons_append, List.append_assoc, List.nil_append, List.cons.injEq, true_and] at e
      have h := until_inj h3 g3 e
      subst h
      exact ⟨rfl, rfl, (List.cons.inj (List.append_cancel_left e)).2⟩

omit [Uni] in
theorem Spec.Passage.det {op cl : Text} {ok after : Text → Prop} (hop : op ≠ [] ∧ op.head? ≠ some '[')
    {p p' : Text} {o o' : Option Text} {b b' r r' : Text}
    (h : Passage op cl ok after p o b r) (h' : Passage op cl ok after p' o' b' r') (e : p ++ r = p' ++ r') :
    p = p' ∧ o = o' ∧ b = b' ∧ r = r' := by
  obtain ⟨a, ha, rfl, h1, h2, h3⟩ := h
  obtain ⟨a', ha', rfl, h1', h2', h3'⟩ := h'
  have hh : ∀ t : Text, (op ++ t).head? ≠ some '[' := by
    intro t
    cases op with
    | nil => exact absurd rfl hop.1
    | cons c op => exact hop.2
  simp only [List.append_assoc] at e
  obtain ⟨rfl, rfl, e2⟩ := attrPart_det ha ha' e (hh _) (hh _)
  replace e := List.append_cancel_left e2
  have hl : b.length = b'.length := by
    rcases Nat.lt_trichotomy b.length b'.length with hl | hl | hl
    · exact absurd h2 (h3' b _ e hl h1)
    · exact hl
    · exact absurd h2' (h3 b' _ e.symm hl h1')
  obtain ⟨rfl, e3⟩ := List.append_inj e hl
  exact ⟨rfl, rfl, rfl, List.append_cancel_left e3⟩

omit [Uni] in
/-- The first character of a passage. -/
theorem Spec.Passage.head {op cl : Text} {ok after : Text → Prop} (hop : op ≠ []) {p : Text} {o : Option Text} {b r : Text}
    (h : Passage op cl ok after p o b r) : ∃ c t, p = c :: t ∧ (c = '[' ∨ op.head? = some c) := by
  obtain ⟨a, ha, rfl, _⟩ := h
  cases ha with
  | none =>
    cases op with
    | nil => exact absurd rfl hop
    | cons c op => exact ⟨c, op ++ b ++ cl, by simp, Or.inr rfl⟩
  | @some x _ _ _ => exact ⟨'[', x ++ [']'] ++ op ++ b ++ cl, by simp, Or.inl rfl⟩

theorem determined_constrained {ex : List Char} {op cl : Text} (hop : op ≠ [] ∧ op.head? ≠ some '[')
    (f : Option Text → Text → Text) : Determined (Constrained ex op cl f) := by
  rintro pv u r x u' r' x' ⟨a, p, o, b, rfl, hp, h⟩ ⟨a', p', o', b', rfl, hp', h'⟩ e
  refine ⟨?_, ?_⟩
  · obtain ⟨c, t, rfl, _⟩ := hp.head hop.1
    simp
  rcases h with ⟨rfl, rfl, rfl⟩ | ⟨c, rfl, h1, h2, h3, rfl⟩
  · rcases h' with ⟨rfl, _, rfl⟩ | ⟨c', rfl, _, _, h3', rfl⟩
    · obtain ⟨rfl, rfl, rfl, rfl⟩ := hp.det hop hp' (by simpa using e)
      exact ⟨rfl, rfl⟩
    · exact absurd ⟨p, o, b, r, hp, by simpa using e.symm⟩ (h3' rfl)
  · rcases h' with ⟨rfl, rfl, rfl⟩ | ⟨c', rfl, _, _, h3', rfl⟩
    · exact absurd ⟨p', o', b', r', hp', by simpa using e⟩ (h3 rfl)
    · simp only [List.singleton_append, List.cons_append] at e
      obtain ⟨rfl, e2⟩ := List.cons.inj e
      obtain ⟨rfl, rfl, rfl, rfl⟩ := hp.det hop hp' e2
      exact ⟨rfl, rfl⟩

omit [Uni] in
theorem determined_unconstrained {mark : Text} {ok : Text → Prop}
    (hop : mark ≠ [] ∧ mark.head? ≠ some '[' ∧ mark.head? ≠ some '\\') (f : Option Text → Text → Text) :
    Determined (Unconstrained mark ok f) := by
  rintro pv u r x u' r' x' ⟨p, o, b, hp, h⟩ ⟨p', o', b', hp', h'⟩ e
  have hne : ∀ {p o b r} {t : Text}, Passage mark mark ok (fun _ => True) p o b r → p ++ r ≠ '\\' :: t := by
    intro p o b r t hp e
    obtain ⟨c, y, rfl, h⟩ := hp.head hop.1
    rw [List.cons_append] at e
    obtain ⟨rfl, _⟩ := List.cons.inj e
    rcases h with h | h
    · revert h; decide
    · exact hop.2.2 h
  have hh : mark ≠ [] ∧ mark.head? ≠ some '[' := ⟨hop.1, hop.2.1⟩
  rcases h with ⟨rfl, rfl⟩ | ⟨rfl, rfl⟩
  · refine ⟨by obtain ⟨c, t, e, _⟩ := hp.head hop.1; rw [e]; simp, ?_⟩
    rcases h' with ⟨rfl, rfl⟩ | ⟨rfl, rfl⟩
    · obtain ⟨rfl, rfl, rfl, rfl⟩ := hp.det hh hp' e
      exact ⟨rfl, rfl⟩
    · exact absurd e (hne hp)
  · refine ⟨by simp, ?_⟩
    rcases h' with ⟨rfl, rfl⟩ | ⟨rfl, rfl⟩
    · exact absurd e.symm (hne hp')
    · simp only [List.cons_append, List.cons.injEq, true_and] at e
      obtain ⟨rfl, rfl, rfl, rfl⟩ := hp.det hh hp' e
      exact ⟨rfl, rfl⟩

end Adoc
