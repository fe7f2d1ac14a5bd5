import Verif.Lemmas.PassLong
/-!
# There is only one way to take a passthrough out: the longer marks
-/

namespace Adoc
open Adoc.Spec

theorem strip_backslashes {x y : Text} (hx : x.head? ≠ some '\\') (hy : y.head? ≠ some '\\') : ∀ {i j : Nat},
    List.replicate i '\\' ++ x = List.replicate j '\\' ++ y → i = j ∧ x = y := by
  intro i
  induction i with
  | zero =>
    intro j e
    cases j with
    | zero => exact ⟨rfl, e⟩
    | succ j =>
      exfalso; apply hx
      have e : x = List.replicate (j + 1) '\\' ++ y := e
      rw [e]; rfl
  | succ i ih =>
    intro j e
    cases j with
    | zero =>
      exfalso; apply hy
      have e : List.replicate (i + 1) '\\' ++ x = y := e
      rw [← e]; rfl
    | succ j =>
      rw [List.replicate_succ, List.replicate_succ, List.cons_append, List.cons_append] at e
      obtain ⟨h1, h2⟩ := ih (List.cons.inj e).2
      exact ⟨by omega, h2⟩

theorem nearest_det {d b b' r r' : Text} (h : Nearest d b r) (h' : Nearest d b' r')
    (e : d ++ b ++ d ++ r = d ++ b' ++ d ++ r') : b = b' ∧ r = r' := by
  simp only [List.append_assoc] at e
  have e := List.append_cancel_left e
  have := shortest_unique h h' e
  subst this
  exact ⟨rfl, List.append_cancel_left (List.append_cancel_left e)⟩

theorem marked_det {d d' b b' r r' : Text} (h : Marked d b r) (h' : Marked d' b' r')
    (e : d ++ b ++ d ++ r = d' ++ b' ++ d' ++ r') : d = d' ∧ b = b' ∧ r = r' := by
  cases h with
  | triple h =>
    cases h' with
    | triple h' => exact ⟨rfl, nearest_det h h' e⟩
    | double hn h' => exact absurd ⟨_, _, e.symm⟩ hn
    | dollars h' => simp at e
  | double hn h =>
    cases h' with
    | triple h' => exact absurd ⟨_, _, e⟩ hn
    | double hn h' => exact ⟨rfl, nearest_det h h' e⟩
    | dollars h' => simp at e
  | dollars h =>
    cases h' with
    | triple h' => simp at e
    | double hn h' => simp at e
    | dollars h' => exact ⟨rfl, nearest_det h h' e⟩

theorem marked_head {d b r : Text} (h : Marked d b r) (y : Text) : ∃ c, (d ++ y).head? = some c ∧ (c = '+' ∨ c = '$') := by
  cases h
  · exact ⟨'+', rfl, .inl rfl⟩
  · exact ⟨'+', rfl, .inl rfl⟩
  · exact ⟨'$', rfl, .inr rfl⟩

theorem marked_not_backslash {d b r : Text} (h : Marked d b r) (y : Text) : (d ++ y).head? ≠ some '\\' := by
  obtain ⟨c, hc, hd⟩ := marked_head h y
  rw [hc]
  rcases hd with rfl | rfl <;> decide

theorem oldStyle_det {a b b' : Text} (h : OldStyle a b) (h' : OldStyle a b') : b = b' := by
  rcases h with ⟨h1, rfl⟩ | h1 <;> rcases h' with ⟨h2, rfl⟩ | h2
  · rfl
  · exfalso
    have := congrArg List.length (h1.symm.trans h2)
    simp at this
  · exfalso
    have := congrArg List.length (h2.symm.trans h1)
    simp at this
  · exact List.append_cancel_right (h1.symm.trans h2)

theorem withAttrs_det {d a b : Text} {p p' : Passthrough} (h : WithAttrs d a b p) (h' : WithAttrs d a b p') : p = p' := by
  cases h with
  | old h =>
    cases h' with
    | old h' => rw [oldStyle_det h h']
    | new h' => exact absurd ⟨rfl, _, h⟩ h'
  | new h =>
    cases h' with
    | old h' => exact absurd ⟨rfl, _, h'⟩ h
    | new h' => rfl

/-- A passthrough behind its backslashes. -/
inductive LongForm : Nat → Text → Text → TakenOut → Prop
  | span {i d body b x} : Marked d body b →
      x = (if i = 0 then .out [] ⟨body, TakenOut.group d, none, none⟩ else .stays (List.replicate (i - 1) '\\' ++ d ++ body ++ d)) →
      LongForm i (d ++ body ++ d ++ b) b x
  | taken {i a d body b x} : Attrs a → Marked d body b →
      (if i = 0 then ∃ p, WithAttrs d a body p ∧ x = .out [] p
        else x = .out ('[' :: a ++ [']']) ⟨body, TakenOut.group d, none, none⟩) →
      LongForm i ('[' :: a ++ ']' :: (d ++ body ++ d ++ b)) b x
  | left {i j a d body b x} : Attrs a → Marked d body b →
      x = .stays (List.replicate i '\\' ++ '[' :: a ++ [']'] ++ List.replicate j '\\' ++ d ++ body ++ d) →
      LongForm i ('[' :: a ++ ']' :: (List.replicate (j + 1) '\\' ++ (d ++ body ++ d ++ b))) b x
  | pass {i names body b x} : '[' ∉ names → Enclosed body →
      x = (if i = 0 then .out [] ⟨Spec.unescape ']' body, passGroup names, none, none⟩
        else .stays ("pass:".toList ++ names ++ '[' :: body ++ [']'])) →
      LongForm i ("pass:".toList ++ (names ++ '[' :: (body ++ ']' :: b))) b x

theorem stepNames_bracket {w : Text} (h : w = [] ∨ StepNames w) : '[' ∉ w := by
  rcases h with rfl | ⟨w, ws, rfl, ⟨h1, h2⟩, h3⟩
  · simp
  · intro hm
    rcases List.mem_append.mp hm with hm | hm
    · exact absurd (h2 _ hm) (by decide)
    · obtain ⟨v, hv, hm⟩ := List.mem_flatMap.mp hm
      rcases List.mem_cons.mp hm with hm | hm
      · exact absurd hm (by decide)
      · exact absurd ((h3 v hv).2 _ hm) (by decide)

theorem LongForm.of {u b : Text} {x : TakenOut} (h : LongAt u b x) : ∃ i y, u ++ b = List.replicate i '\\' ++ y ∧ LongForm i y b x := by
  cases h with
  | @bare d body _ hm => exact ⟨0, _, rfl, .span hm rfl⟩
  | @bareEscaped d body _ k hm hk => exact ⟨k + 1, _, by simp [List.replicate_succ], .span hm (by rw [if_neg (by omega)]; rfl)⟩
  | @attrs a d body _ p ha hm hp => exact ⟨0, _, by simp, .taken ha hm (by rw [if_pos rfl]; exact ⟨p, hp, rfl⟩)⟩
  | @attrsEscaped a d body _ ha hm => exact ⟨1, _, by simp, .taken ha hm (by rw [if_neg (by omega)])⟩
  | @markEscaped esc a d body _ k hc ha hm hk =>
    rcases hc with rfl | rfl
    · exact ⟨0, _, by simp [List.replicate_succ], .left (j := k) ha hm (by simp)⟩
    · exact ⟨1, _, by simp [List.replicate_succ], .left (j := k) ha hm (by simp)⟩
  | @pass names body _ hn hb => exact ⟨0, _, by simp, .pass (stepNames_bracket hn) hb rfl⟩
  | @passEscaped names body _ hn hb => exact ⟨1, _, by simp, .pass (stepNames_bracket hn) hb rfl⟩

theorem LongForm.head {i : Nat} {y b : Text} {x : TakenOut} (h : LongForm i y b x) : y.head? ≠ some '\\' := by
  cases h with
  | @span d body _ _ hm _ => rw [List.append_assoc, List.append_assoc]; exact marked_not_backslash hm _
  | taken => simp
  | left => simp
  | pass => simp

theorem attrs_inj {a a' x y : Text} (h : Attrs a) (h' : Attrs a') (e : '[' :: a ++ ']' :: x = '[' :: a' ++ ']' :: y) :
    a = a' ∧ x = y := by
  simp only [List.cons_append] at e
  have e := (List.cons.inj e).2
  have := until_inj h.2.2 h'.2.2 e
  subst this
  exact ⟨rfl, (List.cons.inj (List.append_cancel_left e)).2⟩

theorem LongForm.det {i : Nat} {y b b' : Text} {x x' : TakenOut} (h : LongForm i y b x) (h' : LongForm i y b' x') : b = b' ∧ x = x' := by
  have nb : ∀ {d b r d' b' r' : Text} {j : Nat}, Marked d b r → Marked d' b' r' →
      d ++ b ++ d ++ r = List.replicate (j + 1) '\\' ++ (d' ++ b' ++ d' ++ r') → False := by
    intro d b r d' b' r' j hm hm' e
    refine marked_not_backslash hm (b ++ d ++ r) ?_
    have e' : d ++ (b ++ d ++ r) = d ++ b ++ d ++ r := by simp
    rw [e', e]
    rfl
  generalize hy : y = y' at h'
  cases h with
  | @span d body _ _ hm hx =>
    obtain ⟨c, hc, hd⟩ := marked_head hm (body ++ d ++ b)
    have hy0 : (d ++ body ++ d ++ b).head? = some c := by
      have : d ++ body ++ d ++ b = d ++ (body ++ d ++ b) := by simp
      rw [this]; exact hc
    cases h' with
    | @span d' body' _ _ hm' hx' =>
      obtain ⟨rfl, rfl, rfl⟩ := marked_det hm hm' hy
      exact ⟨rfl, by rw [hx, hx']⟩
    | taken => rw [hy] at hy0; cases hy0; rcases hd with h | h <;> exact absurd h (by decide)
    | left => rw [hy] at hy0; cases hy0; rcases hd with h | h <;> exact absurd h (by decide)
    | pass => rw [hy] at hy0; cases hy0; rcases hd with h | h <;> exact absurd h (by decide)
  | @taken a d body _ _ ha hm hx =>
    cases h' with
    | @span d' body' _ _ hm' hx' =>
      exfalso
      obtain ⟨c, hc, hd⟩ := marked_head hm' (body' ++ d' ++ b')
      have hy0 : (d' ++ body' ++ d' ++ b').head? = some c := by
        have : d' ++ body' ++ d' ++ b' = d' ++ (body' ++ d' ++ b') := by simp
        rw [this]; exact hc
      rw [← hy] at hy0; cases hy0; rcases hd with h | h <;> exact absurd h (by decide)
    | @taken a' d' body' _ _ ha' hm' hx' =>
      obtain ⟨rfl, e⟩ := attrs_inj ha ha' hy
      obtain ⟨rfl, rfl, rfl⟩ := marked_det hm hm' e
      refine ⟨rfl, ?_⟩
      split at hx
      · rename_i h0
        rw [if_pos h0] at hx'
        obtain ⟨p, hp, rfl⟩ := hx
        obtain ⟨p', hp', rfl⟩ := hx'
        rw [withAttrs_det hp hp']
      · rename_i h0
        rw [if_neg h0] at hx'
        rw [hx, hx']
    | @left j a' d' body' _ _ ha' hm' hx' =>
      obtain ⟨rfl, e⟩ := attrs_inj ha ha' hy
      exact absurd e (nb hm hm')
    | pass => simp at hy
  | @left j a d body _ _ ha hm hx =>
    cases h' with
    | @span d' body' _ _ hm' hx' =>
      exfalso
      obtain ⟨c, hc, hd⟩ := marked_head hm' (body' ++ d' ++ b')
      have hy0 : (d' ++ body' ++ d' ++ b').head? = some c := by
        have : d' ++ body' ++ d' ++ b' = d' ++ (body' ++ d' ++ b') := by simp
        rw [this]; exact hc
      rw [← hy] at hy0; cases hy0; rcases hd with h | h <;> exact absurd h (by decide)
    | @taken a' d' body' _ _ ha' hm' hx' =>
      obtain ⟨rfl, e⟩ := attrs_inj ha ha' hy
      exact absurd e.symm (nb hm' hm)
    | @left j' a' d' body' _ _ ha' hm' hx' =>
      obtain ⟨rfl, e⟩ := attrs_inj ha ha' hy
      have g : ∀ {d b r : Text}, Marked d b r → (d ++ b ++ d ++ r).head? ≠ some '\\' := by
        intro d b r h
        have : d ++ b ++ d ++ r = d ++ (b ++ d ++ r) := by simp
        rw [this]; exact marked_not_backslash h _
      obtain ⟨hj, e⟩ := strip_backslashes (g hm) (g hm') e
      have hj : j = j' := by omega
      obtain ⟨rfl, rfl, rfl⟩ := marked_det hm hm' e
      subst hj
      exact ⟨rfl, by rw [hx, hx']⟩
    | pass => simp at hy
  | @pass names body _ _ hn hb hx =>
    cases h' with
    | @span d' body' _ _ hm' hx' =>
      exfalso
      obtain ⟨c, hc, hd⟩ := marked_head hm' (body' ++ d' ++ b')
      have hy0 : (d' ++ body' ++ d' ++ b').head? = some c := by
        have : d' ++ body' ++ d' ++ b' = d' ++ (body' ++ d' ++ b') := by simp
        rw [this]; exact hc
      rw [← hy] at hy0; cases hy0; rcases hd with h | h <;> exact absurd h (by decide)
    | taken => simp at hy
    | left => simp at hy
    | @pass names' body' _ _ hn' hb' hx' =>
      have e := List.append_cancel_left hy
      have := until_inj hn hn' e
      subst this
      have e := (List.cons.inj (List.append_cancel_left e)).2
      obtain ⟨rfl, rfl⟩ := hb.inj hb' e
      exact ⟨rfl, by rw [hx, hx']⟩

theorem longAt_det {u u' b b' : Text} {x x' : TakenOut} (h : LongAt u b x) (h' : LongAt u' b' x') (e : u ++ b = u' ++ b') :
    u = u' ∧ b = b' ∧ x = x' := by
  obtain ⟨i, y, e1, f⟩ := LongForm.of h
  obtain ⟨i', y', e2, f'⟩ := LongForm.of h'
  rw [e1, e2] at e
  obtain ⟨rfl, rfl⟩ := strip_backslashes f.head f'.head e
  obtain ⟨rfl, rfl⟩ := f.det f'
  exact ⟨List.append_cancel_right (e1.trans e2.symm), rfl, rfl⟩

theorem longOut_det {n : Nat} {t : Text} {ps ps' : List Passthrough} {out out' : Text} (h : LongOut n t ps out)
    (h' : LongOut n t ps' out') : ps = ps' ∧ out = out' := by
  have ne : ∀ {u b : Text} {x : TakenOut}, LongAt u b x → u ≠ [] := by
    intro u b x h
    cases h with
    | bare hm => simp [marked_ne hm]
    | _ => simp
  induction h generalizing ps' out' with
  | done =>
    generalize hz : ([] : Text) = z at h'
    cases h' with
    | done => exact ⟨rfl, rfl⟩
    | hit h1 _ => exact absurd (List.append_eq_nil_iff.mp hz.symm).1 (ne h1)
    | miss => cases hz
  | @hit n u b x ps out h1 h2 ih =>
    generalize hz : u ++ b = z at h'
    cases h' with
    | done => exact absurd (List.append_eq_nil_iff.mp hz).1 (ne h1)
    | @hit _ u' b' x' ps' out' h1' h2' =>
      obtain ⟨rfl, rfl, rfl⟩ := longAt_det h1 h1' hz
      obtain ⟨rfl, rfl⟩ := ih h2'
      exact ⟨rfl, rfl⟩
    | miss hn _ => exact absurd h1 (hn _ _ _ hz.symm)
  | @miss n c t ps out hn h2 ih =>
    generalize hz : c :: t = z at h'
    cases h' with
    | done => cases hz
    | @hit _ u' b' x' ps' out' h1' h2' => exact absurd h1' (hn _ _ _ hz)
    | @miss _ c' t' ps' out' hn' h2' =>
      cases hz
      obtain ⟨rfl, rfl⟩ := ih h2'
      exact ⟨rfl, rfl⟩

/-! ### The loop -/

open Re
variable [Uni]

/-- The outcome of one try. -/
theorem matchAt_cases (re : Re) (pv : Option Char) (t : Text) :
    (matchAt re pv t = none ∧ ∀ s, ¬ Rel re ⟨pv, t, []⟩ s) ∨
      ∃ z, m re some ⟨pv, t, []⟩ = some z ∧ matchAt re pv t = some (⟨t.take (t.length - z.rest.length), z.caps⟩, z) := by
  cases hm : matchAt re pv t with
  | none => exact .inl ⟨rfl, matchAt_none.mp hm⟩
  | some y =>
    unfold matchAt at hm
    cases h : m re some ⟨pv, t, []⟩ with
    | none => rw [h] at hm; cases hm
    | some z =>
      rw [h] at hm
      cases hm
      exact .inr ⟨z, rfl, rfl⟩

theorem long_loop : ∀ (fuel : Nat) (ps : List Passthrough) (pv : Option Char) (t : Text) (em : Bool) (dest : Text), t.length < fuel →
    ∃ ps' out, replLoop inlinePassMacroRe passMacroReplacer fuel ps pv t em dest = .ok (ps ++ ps', dest ++ out) ∧
      LongOut ps.length t ps' out := by
  intro fuel
  induction fuel with
  | zero => intro ps pv t em dest h; omega
  | succ fuel ih =>
    intro ps pv t em dest hl
    rw [replLoop]
    rcases matchAt_cases inlinePassMacroRe pv t with ⟨hn, hr⟩ | ⟨z, hz, hm⟩
    · rw [hn]
      cases t with
      | nil => exact ⟨[], [], by simp, .done⟩
      | cons c t =>
        simp only
        obtain ⟨ps', out, e, h⟩ := ih ps (some c) t true (dest ++ [c]) (by simpa using hl)
        refine ⟨ps', c :: out, by rw [e]; simp, .miss ?_ h⟩
        intro u b x he hx
        obtain ⟨s, hs⟩ := long_rel hx pv
        rw [← he] at hs
        exact hr s hs
    · obtain ⟨u, x, e, hne, hx, hrep⟩ := m_long hz
      have ht : t.take (t.length - z.rest.length) = u := by
        have := take_used u z.rest
        rw [← e] at this
        exact this
      rw [hm, ht]
      simp only [if_pos hne]
      rw [hrep]
      simp only
      have hlen : z.rest.length < fuel := by
        have := List.length_pos_iff.mpr hne
        rw [e, List.length_append] at hl
        omega
      obtain ⟨ps', out, e2, h⟩ := ih (ps ++ x.entries) z.prev z.rest false (dest ++ x.text ps.length) hlen
      refine ⟨x.entries ++ ps', x.text ps.length ++ out, by rw [e2]; simp, ?_⟩
      rw [e]
      rw [List.length_append] at h
      exact .hit hx h

theorem long_all (t : Text) : ∃ ps out, replaceAllS inlinePassMacroRe passMacroReplacer [] t = .ok (ps, out) ∧ LongOut 0 t ps out := by
  obtain ⟨ps, out, e, h⟩ := long_loop (t.length + 1) [] none t true [] (Nat.lt_succ_self _)
  exact ⟨ps, out, by unfold replaceAllS; rw [e]; simp, h⟩

omit [Uni] in
/-- Nothing is taken out where no passthrough can begin. -/
theorem longOut_none {t : Text} (h : ∀ a u b x, t = a ++ (u ++ b) → ¬ LongAt u b x) (n : Nat) : LongOut n t [] t := by
  induction t with
  | nil => exact .done
  | cons c t ih =>
    refine .miss (fun u b x e => h [] u b x e) (ih fun a u b x e => h (c :: a) u b x (by rw [e]; rfl))

omit [Uni] in
theorem longAt_sniff {u b : Text} {x : TakenOut} (h : LongAt u b x) :
    Occurs "++".toList u ∨ Occurs "$$".toList u ∨ Occurs "ss:".toList u := by
  have hm : ∀ {d body b : Text} (p : Text), Marked d body b →
      Occurs "++".toList (p ++ d ++ body ++ d) ∨ Occurs "$$".toList (p ++ d ++ body ++ d) ∨
        Occurs "ss:".toList (p ++ d ++ body ++ d) := by
    intro d body b p hd
    cases hd with
    | triple _ => exact .inl ⟨p, '+' :: (body ++ "+++".toList), by simp⟩
    | double _ _ => exact .inl ⟨p, body ++ "++".toList, by simp⟩
    | dollars _ => exact .inr (.inl ⟨p, body ++ "$$".toList, by simp⟩)
  cases h with
  | bare h => exact hm [] h
  | bareEscaped h _ => exact hm _ h
  | attrs _ h _ => exact hm _ h
  | attrsEscaped _ h => exact hm _ h
  | markEscaped _ _ h _ => exact hm _ h
  | pass _ _ => exact .inr (.inr ⟨"pa".toList, _, by simp; rfl⟩)
  | passEscaped _ _ => exact .inr (.inr ⟨"\\pa".toList, _, by simp; rfl⟩)

end Adoc
