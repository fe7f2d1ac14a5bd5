import Verif.Lemmas.FormatReplacer
/-!
# A single formatted passage
-/

namespace Adoc
open Adoc.Spec

section
variable {c : Char} {n : Nat}

/-- A passage between `n` marks, if the text around and inside them has none. -/
theorem passage_only {ok after : Text → Prop} {p : Text} {o : Option Text} {b r u w v : Text}
    (h : Passage (List.replicate (n + 1) c) (List.replicate (n + 1) c) ok after p o b r)
    (e : p ++ r = u ++ List.replicate (n + 1) c ++ w ++ List.replicate (n + 1) c ++ v) (hu : c ∉ u) (hw : c ∉ w) (hv : c ∉ v) :
    AttrPart u o ∧ b = w ∧ r = v ∧ ok w ∧ after v := by
  obtain ⟨a, ha, rfl, hok, ⟨y, ey, hy⟩, _⟩ := h
  have hc := congrArg (List.count c) e
  simp only [List.count_append, List.count_replicate_self, List.count_eq_zero.mpr hu, List.count_eq_zero.mpr hw,
    List.count_eq_zero.mpr hv] at hc
  have ca : c ∉ a := List.count_eq_zero.mp (by omega)
  have cb : c ∉ b := List.count_eq_zero.mp (by omega)
  have e1 : a ++ c :: (List.replicate n c ++ (b ++ c :: (List.replicate n c ++ r))) =
      u ++ c :: (List.replicate n c ++ (w ++ c :: (List.replicate n c ++ v))) := by
    simpa [List.replicate_succ] using e
  have e2 := until_inj ca hu e1
  subst e2
  have e3 := List.append_cancel_left (List.cons.inj (List.append_cancel_left e1)).2
  have e4 := until_inj cb hw e3
  subst e4
  have e5 := List.append_cancel_left (List.cons.inj (List.append_cancel_left e3)).2
  subst e5
  have e6 := List.append_cancel_left ey
  subst e6
  exact ⟨ha, rfl, rfl, hok, hy⟩

theorem only_passage {ok after : Text → Prop} {w v : Text} (hw : c ∉ w) (hok : ok w) (hv : after v) :
    Passage (List.replicate (n + 1) c) (List.replicate (n + 1) c) ok after
      (List.replicate (n + 1) c ++ w ++ List.replicate (n + 1) c) none w v := by
  refine ⟨[], .none, by simp, hok, ⟨v, rfl, hv⟩, ?_⟩
  rintro b r e hl _ ⟨z, rfl, _⟩
  have e1 : b ++ c :: (List.replicate n c ++ z) = w ++ c :: (List.replicate n c ++ v) := by
    simpa [List.replicate_succ] using e
  by_cases hb : c ∈ b
  · have : b <+: w := by
      have h1 : b <+: w ++ c :: (List.replicate n c ++ v) := e1 ▸ List.prefix_append _ _
      exact List.prefix_of_prefix_length_le h1 (List.prefix_append _ _) (by omega)
    exact hw (this.subset hb)
  · have := until_inj hb hw e1
    subst this
    omega

/-- Attributes end with a bracket. -/
theorem attrPart_last {u : Text} {o : Option Text} (h : AttrPart u o) (hl : u.getLast? ≠ some ']') : u = [] ∧ o = none := by
  cases h with
  | none => exact ⟨rfl, rfl⟩
  | some _ _ _ => rw [List.getLast?_append] at hl; exact absurd rfl hl

theorem no_passage_in {ok after : Text → Prop} {u w v : Text} (hu : c ∉ u) (hw : c ∉ w) (hv : c ∉ v)
    (hl : u.getLast? ≠ some ']') (hne : u ≠ []) :
    ¬ ∃ p o b r, Passage (List.replicate (n + 1) c) (List.replicate (n + 1) c) ok after p o b r ∧
      u ++ List.replicate (n + 1) c ++ w ++ List.replicate (n + 1) c ++ v = p ++ r := by
  rintro ⟨p, o, b, r, hp, e⟩
  exact hne (attrPart_last (passage_only hp e.symm hu hw hv).1 hl).1

/-- Too few marks. -/
theorem no_passage_few {op cl : Text} {k : Nat} {ok after : Text → Prop} {p : Text} {o : Option Text} {b r t : Text}
    (h : Passage op cl ok after p o b r) (hk : k < op.count c + cl.count c) (ht : t.count c ≤ k) : t ≠ p ++ r := by
  rintro rfl
  obtain ⟨a, _, rfl, _⟩ := h
  simp only [List.count_append] at ht
  omega

end

section
variable [Uni]

/-- A passage of whole words. -/
theorem word_constrained {ex : List Char} {c : Char} {f : Option Text → Text → Text} {w v : Text}
    (hw : c ∉ w) (hv : c ∉ v) (hs : Solid w) (he : WordEnds v) : ∀ {u : Text} {pv : Option Char}, c ∉ u →
    (u = [] → pv = none) → (∀ x, u.getLast? = some x → Uni.isWord x = false ∧ x ∉ ex ∧ x ≠ ']' ∧ x ≠ '\\') →
    Rewrites (Constrained ex [c] [c] f) pv (u ++ [c] ++ w ++ [c] ++ v) (u ++ f none w ++ v) := by
  have hno : ∀ pv, Rewrites (Constrained ex [c] [c] f) pv v v := by
    intro pv
    refine Adoc.Rewrites.same ?_
    rintro a y b x pv e ⟨z, p, o, b', rfl, hp, _⟩
    have : (z ++ p ++ b).count c = 0 := by
      have h := List.count_eq_zero.mpr hv
      rw [e] at h
      simp only [List.count_append] at h ⊢
      omega
    obtain ⟨a', _, rfl, _⟩ := hp
    simp at this
  have hpass := only_passage (c := c) (n := 0) (ok := Solid) (after := WordEnds) hw hs he
  intro u
  induction u with
  | nil =>
    intro pv _ h0 _
    cases h0 rfl
    have := Rewrites.hit (P := Constrained ex [c] [c] f) (before := none) (piece := [c] ++ w ++ [c]) (behind := v)
      (new := f none w) ⟨[], _, none, w, rfl, hpass, Or.inl ⟨rfl, rfl, rfl⟩⟩ (hno _)
    simpa using this
  | cons x u ih =>
    intro pv hu _ hl
    have hlast : (x :: u).getLast? ≠ some ']' := fun h => (hl _ h).2.2.1 rfl
    have hx := no_passage_in (ok := Solid) (after := WordEnds) (n := 0) hu hw hv hlast (by simp)
    cases u with
    | nil =>
      obtain ⟨h1, h2, _, h4⟩ := hl x rfl
      have := Rewrites.hit (P := Constrained ex [c] [c] f) (before := pv) (piece := [x] ++ ([c] ++ w ++ [c])) (behind := v)
        (new := x :: f none w) (out := v) ⟨[x], _, none, w, rfl, hpass, Or.inr ⟨x, rfl, h1, h2, fun _ => by
          simpa [List.replicate] using hx, by rw [if_pos h4]⟩⟩ (hno _)
      simpa using this
    | cons y u =>
      have hlast' : (y :: u).getLast? ≠ some ']' := fun h => hlast (by rw [List.getLast?_cons_cons]; exact h)
      have hy := no_passage_in (ok := Solid) (after := WordEnds) (n := 0) (fun h => hu (List.mem_cons_of_mem _ h)) hw hv
        hlast' (by simp)
      refine .miss ?_ (ih (pv := some x) (fun h => hu (List.mem_cons_of_mem _ h)) (fun h => by cases h) fun z hz => hl z (by
        rw [List.getLast?_cons_cons]; exact hz))
      rintro m b z e ⟨a, p, o, b', rfl, hp, h⟩
      rcases h with ⟨rfl, _, _⟩ | ⟨d, rfl, _, _, _, _⟩
      · exact hx ⟨p, o, b', b, hp, by simpa using e⟩
      · simp only [List.cons_append, List.nil_append] at e
        obtain ⟨rfl, e2⟩ := List.cons.inj e
        exact hy ⟨p, o, b', b, hp, by simpa using e2⟩

omit [Uni] in
/-- A passage anywhere. -/
theorem word_unconstrained {c : Char} {n : Nat} {ok : Text → Prop} {f : Option Text → Text → Text} {w v : Text}
    (hw : c ∉ w) (hv : c ∉ v) (hs : ok w) : ∀ {u : Text} {pv : Option Char}, c ∉ u →
    (∀ x, u.getLast? = some x → x ≠ ']' ∧ x ≠ '\\') →
    Rewrites (Unconstrained (List.replicate (n + 1) c) ok f) pv
      (u ++ List.replicate (n + 1) c ++ w ++ List.replicate (n + 1) c ++ v) (u ++ f none w ++ v) := by
  have hno : ∀ pv, Rewrites (Unconstrained (List.replicate (n + 1) c) ok f) pv v v := by
    intro pv
    refine Adoc.Rewrites.same ?_
    rintro a y b x pv e ⟨p, o, b', hp, h⟩
    have hyp : c ∉ y := fun h => hv (by rw [e]; simp [h])
    obtain ⟨a', _, rfl, _⟩ := hp
    rcases h with ⟨rfl, _⟩ | ⟨rfl, _⟩ <;> exact hyp (by simp [List.replicate_succ])
  have hpass := only_passage (c := c) (n := n) (ok := ok) (after := fun _ => True) (v := v) hw hs trivial
  intro u
  induction u with
  | nil =>
    intro pv _ _
    have := Rewrites.hit (P := Unconstrained (List.replicate (n + 1) c) ok f) (before := pv)
      (piece := List.replicate (n + 1) c ++ w ++ List.replicate (n + 1) c) (behind := v)
      (new := f none w) ⟨_, none, w, hpass, Or.inl ⟨rfl, rfl⟩⟩ (hno _)
    simpa using this
  | cons x u ih =>
    intro pv hu hl
    have hlast : (x :: u).getLast? ≠ some ']' := fun h => (hl _ h).1 rfl
    have hx := no_passage_in (ok := ok) (after := fun _ => True) (n := n) hu hw hv hlast (by simp)
    refine .miss ?_ (ih (pv := some x) (fun h => hu (List.mem_cons_of_mem _ h)) fun z hz => hl z ?_)
    · rintro m b z e ⟨p, o, b', hp, h⟩
      rcases h with ⟨rfl, _⟩ | ⟨rfl, _⟩
      · exact hx ⟨m, o, b', b, hp, by simpa using e⟩
      · rw [List.cons_append] at e
        obtain ⟨rfl, e2⟩ := List.cons.inj e
        cases u with
        | nil => exact (hl _ rfl).2 rfl
        | cons y u =>
          have hlast' : (y :: u).getLast? ≠ some ']' := fun h => hlast (by rw [List.getLast?_cons_cons]; exact h)
          exact no_passage_in (ok := ok) (after := fun _ => True) (n := n) (fun h => hu (List.mem_cons_of_mem _ h)) hw hv
            hlast' (by simp) ⟨p, o, b', b, hp, by simpa using e2⟩
    · cases u with
      | nil => cases hz
      | cons y u => rw [List.getLast?_cons_cons]; exact hz

end

/-! ### One format after the other -/

/-- What keeps the formats from finding anything. -/
inductive Idle : List (Option Char → Text → Text → Text → Prop) → List (Text → Prop) → Prop
  | nil : Idle [] []
  | cons {P Ps Q Qs} : (∀ t, Q t → Rewrites P none t t) → Idle Ps Qs → Idle (P :: Ps) (Q :: Qs)

theorem idle_typeset {Ps : List (Option Char → Text → Text → Text → Prop)} {Qs : List (Text → Prop)} (h : Idle Ps Qs) {t : Text}
    (ht : ∀ Q ∈ Qs, Q t) : Typeset Ps t t := by
  induction h with
  | nil => exact .nil
  | @cons P Ps Q Qs h1 _ ih => exact .cons (h1 t (ht Q (by simp))) (ih fun Q hQ => ht Q (by simp [hQ]))

theorem idle_hit {Ps : List (Option Char → Text → Text → Text → Prop)} {Qs : List (Text → Prop)} (h : Idle Ps Qs) {t u : Text}
    (i : Nat) {P : Option Char → Text → Text → Text → Prop} (hP : Ps[i]? = some P) (ht : ∀ Q ∈ Qs.take i, Q t)
    (hr : Rewrites P none t u) (hu : ∀ Q ∈ Qs, Q u) : Typeset Ps t u := by
  induction h generalizing i with
  | nil => cases hP
  | @cons P' Ps Q Qs h1 h2 ih =>
    cases i with
    | zero =>
      cases hP
      exact .cons hr (idle_typeset h2 fun Q hQ => hu Q (by simp [hQ]))
    | succ i =>
      exact .cons (h1 t (ht Q (by simp))) (ih i hP (fun Q hQ => ht Q (by simp [hQ])) fun Q hQ => hu Q (by simp [hQ]))

/-- Fewer than `k` of a character. -/
def Few (d : Char) (k : Nat) (t : Text) : Prop := t.count d < k

theorem idle_constrained [Uni] {ex : List Char} {op cl : Text} {f : Option Text → Text → Text} (d : Char) (k : Nat)
    (hk : op.count d + cl.count d = k) (t : Text) (ht : Few d k t) : Rewrites (Constrained ex op cl f) none t t := by
  refine Adoc.Rewrites.same ?_
  rintro a y b x pv rfl ⟨z, p, o, b', rfl, ⟨q, _, rfl, _⟩, _⟩
  simp only [Few, List.count_append] at ht
  omega

theorem idle_unconstrained {op : Text} {ok : Text → Prop} {f : Option Text → Text → Text} (d : Char) (k : Nat)
    (hk : op.count d + op.count d = k) (t : Text) (ht : Few d k t) : Rewrites (Unconstrained op ok f) none t t := by
  refine Adoc.Rewrites.same ?_
  rintro a y b x pv rfl ⟨p, o, b', ⟨q, _, rfl, _⟩, ⟨rfl, _⟩ | ⟨rfl, _⟩⟩
  · simp only [Few, List.count_append] at ht
    omega
  · simp only [Few, List.count_append, List.count_cons] at ht
    omega

theorem idle_open [Uni] {ex : List Char} {op cl : Text} {f : Option Text → Text → Text} (t : Text) (ht : ¬ op <:+: t) :
    Rewrites (Constrained ex op cl f) none t t := by
  refine Adoc.Rewrites.same ?_
  rintro a y b x pv rfl ⟨z, p, o, b', rfl, ⟨q, _, rfl, _⟩, _⟩
  exact ht ⟨a ++ z ++ q, b' ++ cl ++ b, by simp⟩

def idleBefore : List (Text → Prop) :=
  [Few '*' 4, Few '*' 2, fun t => ¬ ['"', '`'] <:+: t, fun t => ¬ ['\'', '`'] <:+: t, Few '`' 4]

def idleBehind : List (Text → Prop) :=
  [Few '`' 2, Few '_' 4, Few '_' 2, Few '#' 4, Few '#' 2, Few '^' 2, Few '~' 2]

theorem idle_before [Uni] (f : QuoteType → QuoteScope → Option Text → Text → Text) : Idle (formatsBefore f) idleBefore :=
  .cons (idle_unconstrained '*' 4 (by decide)) (.cons (idle_constrained '*' 2 (by decide)) (.cons idle_open (.cons idle_open
    (.cons (idle_unconstrained '`' 4 (by decide)) .nil))))

theorem idle_behind [Uni] (f : QuoteType → QuoteScope → Option Text → Text → Text) : Idle (formatsBehind f) idleBehind :=
  .cons (idle_constrained '`' 2 (by decide)) (.cons (idle_unconstrained '_' 4 (by decide))
    (.cons (idle_constrained '_' 2 (by decide)) (.cons (idle_unconstrained '#' 4 (by decide))
      (.cons (idle_constrained '#' 2 (by decide)) (.cons (idle_unconstrained '^' 2 (by decide))
        (.cons (idle_unconstrained '~' 2 (by decide)) .nil))))))

theorem unmarked_few {t : Text} (h : Unmarked t) {d : Char} (hd : d ∈ marks) {k : Nat} (hk : 0 < k) : Few d k t := by
  unfold Few
  rw [List.count_eq_zero.mpr (h d hd)]
  exact hk

theorem no_infix_of {x d : Char} {t : Text} (h : d ∉ t) : ¬ [x, d] <:+: t := fun hi => h (hi.subset (by simp))

theorem unmarked_before {t : Text} (h : Unmarked t) : ∀ Q ∈ idleBefore, Q t := by
  simp only [idleBefore, List.mem_cons, List.not_mem_nil, or_false, forall_eq_or_imp, forall_eq]
  exact ⟨unmarked_few h (by decide) (by decide), unmarked_few h (by decide) (by decide), no_infix_of (h _ (by decide)),
    no_infix_of (h _ (by decide)), unmarked_few h (by decide) (by decide)⟩

theorem unmarked_behind {t : Text} (h : Unmarked t) : ∀ Q ∈ idleBehind, Q t := by
  simp only [idleBehind, List.mem_cons, List.not_mem_nil, or_false, forall_eq_or_imp, forall_eq]
  refine ⟨?_, ?_, ?_, ?_, ?_, ?_, ?_⟩ <;> exact unmarked_few h (by decide) (by decide)

theorem unmarked_append {a b : Text} (ha : Unmarked a) (hb : Unmarked b) : Unmarked (a ++ b) := fun c hc h =>
  (List.mem_append.mp h).elim (ha c hc) (hb c hc)

/-- A character and the one behind it, in a text of two parts. -/
theorem pair_append {x y : Char} {a b : Text} (h : [x, y] <:+: a ++ b) :
    [x, y] <:+: a ∨ [x, y] <:+: b ∨ (a.getLast? = some x ∧ b.head? = some y) := by
  obtain ⟨p, q, e⟩ := h
  rw [List.append_assoc] at e
  rcases List.append_eq_append_iff.mp e with ⟨z, rfl, e2⟩ | ⟨z, rfl, e2⟩
  · cases z with
    | nil => exact Or.inr (Or.inl ⟨[], q, by simpa using e2⟩)
    | cons z1 z =>
      simp only [List.cons_append, List.nil_append] at e2
      obtain ⟨rfl, e3⟩ := List.cons.inj e2
      cases z with
      | nil => simp only [List.nil_append] at e3; refine Or.inr (Or.inr ⟨by simp, by rw [← e3]; rfl⟩)
      | cons z2 z =>
        rw [List.cons_append] at e3
        obtain ⟨rfl, e4⟩ := List.cons.inj e3
        exact Or.inl ⟨p, z, by simp⟩
  · exact Or.inr (Or.inl ⟨z, q, by rw [e2]; simp⟩)

/-- The marks of a text with one passage. -/
theorem marked_count {d c : Char} {n : Nat} {u w v : Text} (hu : d ∉ u) (hw : d ∉ w) (hv : d ∉ v) :
    (u ++ List.replicate n c ++ w ++ List.replicate n c ++ v).count d = if d = c then 2 * n else 0 := by
  simp only [List.count_append, List.count_eq_zero.mpr hu, List.count_eq_zero.mpr hw, List.count_eq_zero.mpr hv,
    List.count_replicate, beq_iff_eq]
  by_cases h : d = c
  · subst h; simp; omega
  · have : ¬ c = d := fun e => h e.symm
    simp [h, this]

end Adoc
