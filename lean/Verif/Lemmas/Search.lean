import Verif.Lemmas.Formatting
import Verif.Spec.InlineMacros
/-!
# How the matcher searches, and what it finds between brackets
-/

namespace Adoc
open Adoc.Spec Re
variable [Uni]

theorem m_seq {a b : Re} {k : RS → Option RS} {s : RS} : m (.seq a b) k s = m a (m b k) s := by rw [m]

theorem m_eps {k : RS → Option RS} {s : RS} : m .eps k s = k s := by rw [m]

theorem m_alt_some {a b : Re} {k : RS → Option RS} {s z : RS} (h : m (.alt a b) k s = some z) :
    m a k s = some z ∨ (m a k s = none ∧ m b k s = some z) := by
  rw [m] at h
  cases ha : m a k s with
  | some y => rw [ha] at h; exact .inl h
  | none => rw [ha] at h; exact .inr ⟨rfl, h⟩

theorem m_opt_some {a : Re} {k : RS → Option RS} {s z : RS} (h : m (opt a) k s = some z) :
    m a k s = some z ∨ (m a k s = none ∧ k s = some z) := by
  rcases m_alt_some h with h | ⟨h1, h2⟩
  · exact .inl h
  · rw [m_eps] at h2; exact .inr ⟨h1, h2⟩

theorem m_cls_some {p : Char → Bool} {k : RS → Option RS} {s z : RS} (h : m (cls p) k s = some z) :
    ∃ c r, s.rest = c :: r ∧ p c = true ∧ k ⟨some c, r, s.caps⟩ = some z := by
  obtain ⟨pv, t, caps⟩ := s
  cases t with
  | nil => rw [m_cls_nil] at h; cases h
  | cons c t =>
    rw [m_cls_cons] at h
    split at h
    · rename_i hp; exact ⟨c, t, rfl, hp, h⟩
    · cases h

theorem m_chr_some {c : Char} {k : RS → Option RS} {s z : RS} (h : m (chr c) k s = some z) :
    ∃ r, s.rest = c :: r ∧ k ⟨some c, r, s.caps⟩ = some z := by
  obtain ⟨d, r, e, hd, h2⟩ := m_cls_some h
  have : d = c := by simpa using hd
  subst this
  exact ⟨r, e, h2⟩

theorem m_chr_none {c : Char} {k : RS → Option RS} {s : RS} (h : s.rest.head? ≠ some c) : m (chr c) k s = none := by
  obtain ⟨pv, t, caps⟩ := s
  cases t with
  | nil => exact m_chr_nil _ _ _ _
  | cons d t => rw [m_chr, if_neg]; rintro rfl; exact h rfl

omit [Uni] in
theorem take_used (b r : Text) : (b ++ r).take ((b ++ r).length - r.length) = b := by
  have : (b ++ r).length - r.length = b.length := by simp
  rw [this, List.take_left' rfl]

/-- A group around something that takes `b` and lets the search go on. -/
theorem m_cap {n : Nat} {r : Re} {k : RS → Option RS} {s : RS} : m (cap n r) k s =
    m r (fun s' => k { s' with caps := (n, s.rest.take (s.rest.length - s'.rest.length)) :: s'.caps }) s := by rw [m]

/-- A greedy repetition takes as much as it can. -/
theorem starM_greedy {p : Char → Bool} {k : RS → Option RS} {z : RS} : ∀ (n : Nat) (pv : Option Char) (t : Text)
    (caps : List (Nat × Text)), t.length ≤ n → starM true (m (cls p)) n k ⟨pv, t, caps⟩ = some z →
    ∃ b r, t = b ++ r ∧ (∀ c ∈ b, p c = true) ∧ k ⟨prevAfter pv b, r, caps⟩ = some z ∧
      ∀ b' r', b' ++ r' = t → b.length < b'.length → (∀ c ∈ b', p c = true) → k ⟨prevAfter pv b', r', caps⟩ = none := by
  intro n
  induction n with
  | zero =>
    intro pv t caps hn h
    cases t with
    | nil =>
      refine ⟨[], [], rfl, by simp, h, ?_⟩
      intro b' r' e hl
      rw [(List.append_eq_nil_iff.mp e).1] at hl
      simp at hl
    | cons c t => simp at hn
  | succ n ih =>
    intro pv t caps hn h
    rw [starM, if_pos rfl] at h
    simp only at h
    have stop : ∀ (hp : ∀ c r, t = c :: r → p c = false ∨ (starM true (m (cls p)) n k ⟨some c, r, caps⟩ = none))
        (hk : k ⟨pv, t, caps⟩ = some z), ∃ b r, t = b ++ r ∧ (∀ c ∈ b, p c = true) ∧ k ⟨prevAfter pv b, r, caps⟩ = some z ∧
      ∀ b' r', b' ++ r' = t → b.length < b'.length → (∀ c ∈ b', p c = true) → k ⟨prevAfter pv b', r', caps⟩ = none := by
      intro hp hk
      refine ⟨[], t, rfl, by simp, hk, ?_⟩
      intro b' r' e hl ha
      cases b' with
      | nil => simp at hl
      | cons c b' =>
        rcases hp c (b' ++ r') (by rw [← e]; rfl) with h0 | h0
        · rw [ha c (by simp)] at h0; cases h0
        · cases hk' : k ⟨prevAfter pv (c :: b'), r', caps⟩ with
          | none => rfl
          | some y =>
            exfalso
            have hrel : Rel (star true (cls p)) ⟨some c, b' ++ r', caps⟩ ⟨prevAfter (some c) b', r', caps⟩ :=
              rel_star_cls_iff.mpr ⟨b', r', rfl, fun x hx => ha x (by simp [hx]), rfl⟩
            have hlen : (b' ++ r').length ≤ n := by rw [← e] at hn; simpa using hn
            have := starM_complete (g := true) (r := cls p) (fun k s s' h hk => m_complete _ k s s' h hk)
              n k ⟨some c, b' ++ r', caps⟩ ⟨prevAfter (some c) b', r', caps⟩ hlen hrel
              (by rw [prevAfter_cons] at hk'; rw [hk']; rfl)
            rw [h0] at this
            cases this
    cases t with
    | nil =>
      rw [m_cls_nil] at h
      exact stop (by intro c r e; cases e) h
    | cons c t =>
      rw [m_cls_cons] at h
      by_cases hp : p c = true
      · rw [if_pos hp, if_pos (by simp)] at h
        cases hs : starM true (m (cls p)) n k ⟨some c, t, caps⟩ with
        | none =>
          rw [hs] at h
          exact stop (by intro d r e; cases e; exact .inr hs) h
        | some y =>
          rw [hs] at h
          simp only at h
          cases h
          obtain ⟨b, r, rfl, g1, g2, g3⟩ := ih _ _ _ (by simpa using hn) hs
          refine ⟨c :: b, r, rfl, ?_, by rw [prevAfter_cons]; exact g2, ?_⟩
          · intro x hx
            rcases List.mem_cons.mp hx with rfl | hx
            · exact hp
            · exact g1 x hx
          · intro b' r' e hl ha
            cases b' with
            | nil => simp at hl
            | cons d b' =>
              rw [List.cons_append] at e
              obtain ⟨rfl, e2⟩ := List.cons.inj e
              rw [prevAfter_cons]
              exact g3 b' r' e2 (by simpa using hl) (fun x hx => ha x (by simp [hx]))
      · rw [if_neg hp] at h
        exact stop (by intro d r e; cases e; exact .inl (Bool.eq_false_iff.mpr hp)) h

theorem m_star_greedy {p : Char → Bool} {k : RS → Option RS} {s z : RS} (h : m (star true (cls p)) k s = some z) :
    ∃ b r, s.rest = b ++ r ∧ (∀ c ∈ b, p c = true) ∧ k ⟨prevAfter s.prev b, r, s.caps⟩ = some z ∧
      ∀ b' r', b' ++ r' = s.rest → b.length < b'.length → (∀ c ∈ b', p c = true) →
        k ⟨prevAfter s.prev b', r', s.caps⟩ = none := by
  rw [m] at h
  obtain ⟨pv, t, caps⟩ := s
  exact starM_greedy _ _ _ _ (Nat.le_refl _) h

theorem m_star_lazy {p : Char → Bool} {k : RS → Option RS} {s z : RS} (h : m (star false (cls p)) k s = some z) :
    ∃ b r, s.rest = b ++ r ∧ (∀ c ∈ b, p c = true) ∧ k ⟨prevAfter s.prev b, r, s.caps⟩ = some z ∧
      ∀ b' r', b' ++ r' = s.rest → b'.length < b.length → k ⟨prevAfter s.prev b', r', s.caps⟩ = none := by
  rw [m] at h
  obtain ⟨pv, t, caps⟩ := s
  exact starM_lazy _ _ _ _ h

/-! ### Brackets -/

/-- `.*?[^\\]` up to a closing bracket, when that does not stand there right away. -/
theorem m_enclosed {p : Char → Bool} {n : Nat} {s z : RS} (h0 : s.rest.head? ≠ some ']')
    (h : m (cap n (cat [star false (cls p), cls (· != '\\')])) (m (chr ']') some) s = some z) :
    ∃ t r, s.rest = t ++ ']' :: r ∧ t ≠ [] ∧ Enclosed t ∧ (∀ c ∈ t.dropLast, p c = true) ∧
      z = ⟨some ']', r, (n, t) :: s.caps⟩ := by
  rw [m_cap] at h
  simp only [cat] at h
  rw [m_seq] at h
  obtain ⟨b, r, e, hb, hk, hmin⟩ := m_star_lazy h
  obtain ⟨c, r2, e2, hc, hk⟩ := m_cls_some hk
  simp only at e2
  subst e2
  obtain ⟨r3, e3, hz⟩ := m_chr_some hk
  simp only at e3
  subst e3
  have hcn : c ≠ '\\' := by simpa using hc
  refine ⟨b ++ [c], r3, by rw [e]; simp, by simp, ⟨?_, ?_⟩, ?_, ?_⟩
  · intro x y hxy
    rcases List.eq_nil_or_concat x with rfl | ⟨x, d, rfl⟩
    · exfalso; apply h0
      rw [e]
      cases b with
      | nil => rw [List.nil_append, List.nil_append] at hxy; cases hxy; rfl
      | cons f b => rw [List.nil_append, List.cons_append] at hxy; cases hxy; rfl
    · rw [List.concat_eq_append] at hxy ⊢
      rw [List.getLast?_append]
      by_cases hd : d = '\\'
      · subst hd; rfl
      · exfalso
        have hl : x.length < b.length := by
          have := congrArg List.length hxy
          simp at this; omega
        have hs : x ++ d :: ']' :: (y ++ ']' :: r3) = s.rest := by
          rw [e]
          have := congrArg (· ++ ']' :: r3) hxy
          simpa using this.symm
        have := hmin x (d :: ']' :: (y ++ ']' :: r3)) hs hl
        rw [m_cls_cons, if_pos (by simpa using hd), m_chr, if_pos rfl] at this
        cases this
  · rw [List.getLast?_append]
    simpa using hcn
  · rw [List.dropLast_concat]; exact hb
  · cases hz
    have : s.rest = (b ++ [c]) ++ (']' :: r3) := by rw [e]; simp
    rw [this, take_used]

/-- What is found between brackets. -/
theorem m_bracketed {n : Nat} {s z : RS} (h : m (cat [chr '[', bracketed n, chr ']']) some s = some z) :
    ∃ t r, s.rest = '[' :: t ++ ']' :: r ∧ Enclosed t ∧ z = ⟨some ']', r, (n, t) :: s.caps⟩ := by
  simp only [cat] at h
  rw [m_seq] at h
  obtain ⟨r, e, h⟩ := m_chr_some h
  rw [m_seq, bracketed, m_cap] at h
  rcases m_alt_some h with h | ⟨h0, h⟩
  · rw [m_eps] at h
    simp only at h
    obtain ⟨r2, e2, hz⟩ := m_chr_some h
    simp only at e2
    subst e2
    refine ⟨[], r2, by rw [e]; rfl, ⟨?_, by simp⟩, ?_⟩
    · intro a b he; simp at he
    · cases hz; simp
  · have h1 : r.head? ≠ some ']' := by
      intro hr
      rw [m_eps] at h0
      cases r with
      | nil => cases hr
      | cons c r => cases hr; rw [m_chr, if_pos rfl] at h0; cases h0
    obtain ⟨t, r2, e2, _, h3, _, hz⟩ := m_enclosed (n := n) (p := fun _ => true) (s := ⟨some '[', r, s.caps⟩) h1
      (by rw [m_cap]; exact h)
    simp only at e2
    exact ⟨t, r2, by rw [e, e2]; rfl, h3, hz⟩

theorem enclosed_rel {p : Char → Bool} {n : Nat} {t : Text} (h : Enclosed t) (hne : t ≠ []) (hp : ∀ c ∈ t.dropLast, p c = true)
    (pv : Option Char) (r : Text) (caps : List (Nat × Text)) :
    Rel (cap n (cat [star false (cls p), cls (· != '\\')])) ⟨pv, t ++ r, caps⟩ ⟨prevAfter pv t, r, (n, t) :: caps⟩ := by
  rcases List.eq_nil_or_concat t with rfl | ⟨b, c, rfl⟩
  · exact absurd rfl hne
  · rw [List.concat_eq_append] at h hp ⊢
    rw [List.dropLast_concat] at hp
    refine rel_cap_iff.mpr ⟨⟨prevAfter pv (b ++ [c]), r, caps⟩, b ++ [c], ?_, rfl, rfl⟩
    simp only [cat]
    refine rel_seq_iff.mpr ⟨⟨prevAfter pv b, c :: r, caps⟩, rel_star_cls_iff.mpr ⟨b, _, by simp, hp, rfl⟩, ?_⟩
    refine rel_cls_iff.mpr ⟨c, r, rfl, ?_, ?_⟩
    · have := h.2
      rw [List.getLast?_append] at this
      simpa using this
    · simp [prevAfter]

theorem bracketed_rel {n : Nat} {t : Text} (h : Enclosed t) (pv : Option Char) (r : Text) (caps : List (Nat × Text)) :
    Rel (cat [chr '[', bracketed n, chr ']']) ⟨pv, '[' :: t ++ ']' :: r, caps⟩ ⟨some ']', r, (n, t) :: caps⟩ := by
  simp only [cat]
  refine rel_seq_iff.mpr ⟨⟨some '[', t ++ ']' :: r, caps⟩, rel_chr_iff.mpr ⟨_, rfl, rfl⟩,
    rel_seq_iff.mpr ⟨⟨prevAfter (some '[') t, ']' :: r, (n, t) :: caps⟩, ?_, rel_chr_iff.mpr ⟨_, rfl, rfl⟩⟩⟩
  by_cases ht : t = []
  · subst ht
    exact rel_cap_iff.mpr ⟨⟨some '[', ']' :: r, caps⟩, [], rel_alt_iff.mpr (.inl (rel_eps_iff.mpr rfl)), rfl, rfl⟩
  · obtain ⟨x, u, h1, h2, h3⟩ := rel_cap_iff.mp (enclosed_rel (p := fun _ => true) (n := n) h ht (by simp) (some '[')
      (']' :: r) caps)
    exact rel_cap_iff.mpr ⟨x, u, rel_alt_iff.mpr (.inr h1), h2, h3⟩

omit [Uni] in
/-- There is only one way to find the closing bracket. -/
theorem Spec.Enclosed.inj : ∀ {t u x y : Text}, Enclosed t → Enclosed u → t ++ ']' :: x = u ++ ']' :: y → t = u ∧ x = y := by
  have key : ∀ {t u x y : Text}, Enclosed t → Enclosed u → t ++ ']' :: x = u ++ ']' :: y → t.length < u.length → False := by
    intro t u x y ht hu e hl
    have hp : t <+: u := List.prefix_of_prefix_length_le ⟨_, rfl⟩ ⟨_, e.symm⟩ (by omega)
    obtain ⟨v, rfl⟩ := hp
    cases v with
    | nil => simp at hl
    | cons c v =>
      rw [List.append_assoc] at e
      have := List.append_cancel_left e
      rw [List.cons_append] at this
      obtain ⟨rfl, _⟩ := List.cons.inj this
      exact ht.2 (hu.1 t v rfl)
  intro t u x y ht hu e
  have hl : t.length = u.length := by
    rcases Nat.lt_trichotomy t.length u.length with h | h | h
    · exact absurd (key ht hu e h) id
    · exact h
    · exact absurd (key hu ht e.symm h) id
  obtain ⟨rfl, e2⟩ := List.append_inj e hl
  exact ⟨rfl, (List.cons.inj e2).2⟩

/-! ### Replacements that may fail -/

/-- Whenever the replacer succeeds, it does what `P` says. -/
structure RendersIf (re : Re) (rep : Match → Res Text) (P : Option Char → Text → Text → Text → Prop) : Prop where
  sound : ∀ pv t mt s, matchAt re pv t = some (mt, s) → mt.text ≠ [] ∧ ∀ x, rep mt = .ok x → P pv mt.text s.rest x
  complete : ∀ pv m b x, P pv m b x → ∃ s, Rel re ⟨pv, m ++ b, []⟩ s

theorem RendersIf.rewrites {re : Re} {rep : Match → Res Text} {P : Option Char → Text → Text → Text → Prop}
    (h : RendersIf re rep P) {pv : Option Char} {e : Bool} {t out : Text} (hr : Replaced re rep pv e t out) :
    Rewrites P pv t out := by
  induction hr with
  | done _ => exact .done
  | doneEmpty hm _ =>
    obtain ⟨hne, _⟩ := h.sound _ _ _ _ hm
    obtain ⟨_, e, _⟩ := matchAt_sound hm
    exact absurd (List.append_eq_nil_iff.mp e.symm).1 hne
  | @skip pv e c cs out hn _ ih =>
    refine .miss (fun m b x he hp => ?_) ih
    obtain ⟨s, hs⟩ := h.complete _ _ _ _ hp
    rw [← he] at hs
    cases hm : matchAt re pv (c :: cs) with
    | none => exact matchAt_none.mp hm s hs
    | some y =>
      obtain ⟨hne, _⟩ := h.sound _ _ _ _ hm
      exact hne (hn _ _ hm).1
  | @hit pv e t mt s x out hm hne hx _ ih =>
    obtain ⟨_, hp⟩ := h.sound _ _ _ _ hm
    obtain ⟨_, e, ep, _⟩ := matchAt_sound hm
    rw [ep, prevAfter_ne hne] at ih
    rw [e]
    exact .hit (hp x hx) ih
  | hitEmpty hm he _ _ =>
    obtain ⟨hne, _⟩ := h.sound _ _ _ _ hm
    exact absurd he hne

/-- From the position at which the matcher stops. -/
theorem RendersIf.of {re : Re} {rep : Match → Res Text} {P : Option Char → Text → Text → Text → Prop}
    (sound : ∀ pv t s, m re some ⟨pv, t, []⟩ = some s → ∃ u, t = u ++ s.rest ∧ u ≠ [] ∧
      ∀ x, rep ⟨u, s.caps⟩ = .ok x → P pv u s.rest x)
    (complete : ∀ pv m b x, P pv m b x → ∃ s, Rel re ⟨pv, m ++ b, []⟩ s) : RendersIf re rep P := by
  refine ⟨fun pv t mt s h => ?_, complete⟩
  unfold matchAt at h
  cases hm : m re some ⟨pv, t, []⟩ with
  | none => rw [hm] at h; cases h
  | some z =>
    rw [hm] at h
    simp only [Option.map_some, Option.some.injEq, Prod.mk.injEq] at h
    obtain ⟨rfl, rfl⟩ := h
    obtain ⟨u, hu, hne, hx⟩ := sound pv t z hm
    have ht : t.take (t.length - z.rest.length) = u := by rw [hu, take_used]
    rw [ht]
    exact ⟨hne, hx⟩

end Adoc
