import Verif.Lemmas.Regex
/-!
# Inversion of the declarative semantics
-/

namespace Adoc
namespace Re
variable [Uni]

theorem prevAfter_nil (pv : Option Char) : prevAfter pv [] = pv := rfl

theorem prevAfter_cons (pv : Option Char) (c : Char) (u : Text) : prevAfter pv (c :: u) = prevAfter (some c) u := by
  have := prevAfter_append pv [c] u
  simpa [prevAfter] using this.symm

theorem rel_eps_iff {s s' : RS} : Rel eps s s' ↔ s' = s :=
  ⟨fun h => by cases h; rfl, fun h => by subst h; exact .eps⟩

theorem rel_seq_iff {a b : Re} {s s' : RS} : Rel (.seq a b) s s' ↔ ∃ x, Rel a s x ∧ Rel b x s' :=
  ⟨fun h => by cases h with | seq h1 h2 => exact ⟨_, h1, h2⟩, fun ⟨_, h1, h2⟩ => .seq h1 h2⟩

theorem rel_alt_iff {a b : Re} {s s' : RS} : Rel (.alt a b) s s' ↔ Rel a s s' ∨ Rel b s s' :=
  ⟨fun h => by cases h with | altL h => exact Or.inl h | altR h => exact Or.inr h,
   fun h => h.elim .altL .altR⟩

theorem rel_opt_iff {a : Re} {s s' : RS} : Rel (opt a) s s' ↔ Rel a s s' ∨ s' = s := by
  unfold opt; rw [rel_alt_iff, rel_eps_iff]

theorem rel_cls_iff {p : Char → Bool} {s s' : RS} :
    Rel (cls p) s s' ↔ ∃ c r, s.rest = c :: r ∧ p c = true ∧ s' = ⟨some c, r, s.caps⟩ := by
  constructor
  · intro h; cases h with | cls h => exact ⟨_, _, rfl, h, rfl⟩
  · rintro ⟨c, r, h1, h2, rfl⟩
    obtain ⟨pv, t, cs⟩ := s
    simp only at h1; subst h1
    exact .cls h2

theorem rel_chr_iff {c : Char} {s s' : RS} :
    Rel (chr c) s s' ↔ ∃ r, s.rest = c :: r ∧ s' = ⟨some c, r, s.caps⟩ := by
  unfold chr
  rw [rel_cls_iff]
  constructor
  · rintro ⟨d, r, h1, h2, h3⟩
    have := eq_of_beq h2; subst this
    exact ⟨r, h1, h3⟩
  · rintro ⟨r, h1, h2⟩; exact ⟨c, r, h1, by simp, h2⟩

theorem rel_lit_iff {w : Text} {s s' : RS} :
    Rel (lit w) s s' ↔ ∃ r, s.rest = w ++ r ∧ s' = ⟨prevAfter s.prev w, r, s.caps⟩ := by
  induction w generalizing s with
  | nil =>
    rw [lit, rel_eps_iff]
    exact ⟨fun h => ⟨s.rest, rfl, by rw [h]; rfl⟩, fun ⟨r, h1, h2⟩ => by rw [h2, ← (show s.rest = r from h1)]; rfl⟩
  | cons c cs ih =>
    have hstep : Rel (lit (c :: cs)) s s' ↔ ∃ x, Rel (chr c) s x ∧ Rel (lit cs) x s' := by
      cases cs with
      | nil =>
        rw [lit]
        constructor
        · intro h; exact ⟨_, h, .eps⟩
        · rintro ⟨x, h1, h2⟩
          have h2 := rel_eps_iff.mp h2; subst h2; exact h1
      | cons d ds => rw [lit, rel_seq_iff]; simp
    rw [hstep]
    constructor
    · rintro ⟨x, h1, h2⟩
      obtain ⟨r, e1, rfl⟩ := rel_chr_iff.mp h1
      obtain ⟨r', e2, rfl⟩ := ih.mp h2
      simp only at e2
      exact ⟨r', by rw [e1, e2]; rfl, by rw [prevAfter_cons]⟩
    · rintro ⟨r, e1, rfl⟩
      exact ⟨_, rel_chr_iff.mpr ⟨cs ++ r, e1, rfl⟩, ih.mpr ⟨r, rfl, by rw [prevAfter_cons]⟩⟩

theorem rel_star_cls_iff {g : Bool} {p : Char → Bool} {s s' : RS} :
    Rel (.star g (cls p)) s s' ↔
      ∃ u r, s.rest = u ++ r ∧ (∀ c ∈ u, p c = true) ∧ s' = ⟨prevAfter s.prev u, r, s.caps⟩ := by
  constructor
  · intro h
    generalize hre : Re.star g (cls p) = re at h
    induction h with
    | starNil => exact ⟨[], _, rfl, by simp, rfl⟩
    | starStep h1 _ _ _ ih =>
      cases hre
      obtain ⟨c, r, e1, e2, rfl⟩ := rel_cls_iff.mp h1
      obtain ⟨u, r', e3, e4, rfl⟩ := ih rfl
      simp only at e3
      refine ⟨c :: u, r', by rw [e1, e3]; rfl, ?_, by rw [prevAfter_cons]⟩
      intro d hd
      rcases List.mem_cons.mp hd with rfl | hd
      · exact e2
      · exact e4 d hd
    | _ => cases hre
  · rintro ⟨u, r, e1, e2, rfl⟩
    obtain ⟨pv, t, cs⟩ := s
    simp only at e1 ⊢
    subst e1
    induction u generalizing pv with
    | nil => exact .starNil
    | cons c u ih =>
      rw [prevAfter_cons]
      refine .starStep (s' := ⟨some c, u ++ r, cs⟩) (.cls (e2 c (by simp))) (by simp) ?_
      exact ih (fun d hd => e2 d (by simp [hd])) (some c)

theorem rel_plus_cls_iff {p : Char → Bool} {s s' : RS} :
    Rel (plus (cls p)) s s' ↔
      ∃ u r, u ≠ [] ∧ s.rest = u ++ r ∧ (∀ c ∈ u, p c = true) ∧ s' = ⟨prevAfter s.prev u, r, s.caps⟩ := by
  unfold plus
  rw [rel_seq_iff]
  constructor
  · rintro ⟨x, h1, h2⟩
    obtain ⟨c, r, e1, e2, rfl⟩ := rel_cls_iff.mp h1
    obtain ⟨u, r', e3, e4, rfl⟩ := rel_star_cls_iff.mp h2
    simp only at e3
    refine ⟨c :: u, r', by simp, by rw [e1, e3]; rfl, ?_, by rw [prevAfter_cons]⟩
    intro d hd
    rcases List.mem_cons.mp hd with rfl | hd
    · exact e2
    · exact e4 d hd
  · rintro ⟨u, r, hne, e1, e2, rfl⟩
    cases u with
    | nil => exact absurd rfl hne
    | cons c u =>
      refine ⟨⟨some c, u ++ r, s.caps⟩, rel_cls_iff.mpr ⟨c, u ++ r, e1, e2 c (by simp), rfl⟩, ?_⟩
      exact rel_star_cls_iff.mpr ⟨u, r, rfl, fun d hd => e2 d (by simp [hd]), by rw [prevAfter_cons]⟩

theorem rel_cap_iff {n : Nat} {r : Re} {s s' : RS} :
    Rel (.cap n r) s s' ↔ ∃ x u, Rel r s x ∧ s.rest = u ++ x.rest ∧ s' = ⟨x.prev, x.rest, (n, u) :: x.caps⟩ := by
  constructor
  · intro h
    cases h with
    | cap h =>
      obtain ⟨u, e1, _⟩ := h.consumes
      refine ⟨_, u, h, e1, ?_⟩
      rw [e1]; simp
  · rintro ⟨x, u, h, e, rfl⟩
    have := Rel.cap (n := n) h
    rw [e] at this
    simpa using this

theorem rel_bot_iff {s s' : RS} : Rel .bot s s' ↔ s.prev = none ∧ s' = s :=
  ⟨fun h => by cases h with | bot h => exact ⟨h, rfl⟩, fun ⟨h, e⟩ => by subst e; exact .bot h⟩

theorem rel_eot_iff {s s' : RS} : Rel .eot s s' ↔ s.rest = [] ∧ s' = s :=
  ⟨fun h => by cases h with | eot h => exact ⟨h, rfl⟩, fun ⟨h, e⟩ => by subst e; exact .eot h⟩

/-- An expression that begins with `^` can only match at the beginning. -/
theorem search_bot (re : Re) (t : Text) :
    search (.seq .bot re) none t = (matchAt (.seq .bot re) none t).map fun r => ([], r.1, r.2) := by
  have hno : ∀ (c : Char) (t : Text), matchAt (.seq .bot re) (some c) t = none := by
    intro c t
    rw [matchAt_none]
    intro s hs
    obtain ⟨x, h1, _⟩ := rel_seq_iff.mp hs
    have := (rel_bot_iff.mp h1).1
    cases this
  have hsome : ∀ (t : Text) (c : Char), search (.seq .bot re) (some c) t = none := by
    intro t
    induction t with
    | nil => intro c; rw [search, hno]; rfl
    | cons d t ih => intro c; rw [search, hno]; simp only; rw [ih]; rfl
  cases t with
  | nil => rw [search]
  | cons c t =>
    rw [search]
    cases h : matchAt (.seq .bot re) none (c :: t) with
    | none => simp only; rw [hsome]; rfl
    | some r => rfl

end Re
end Adoc
