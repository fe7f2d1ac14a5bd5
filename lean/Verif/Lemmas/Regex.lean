import Verif.Model.Regex
import Verif.Lemmas.Text
/-!
# The matcher against a declarative semantics, and the replacement loop
-/

namespace Adoc
namespace Re
variable [Uni]

/-- Declarative semantics: `r` can take the position `s` to the position `s'`. -/
inductive Rel : Re → RS → RS → Prop
  | eps {s} : Rel .eps s s
  | cls {p : Char → Bool} {pv c cs caps} : p c = true → Rel (.cls p) ⟨pv, c :: cs, caps⟩ ⟨some c, cs, caps⟩
  | seq {a b s s' s''} : Rel a s s' → Rel b s' s'' → Rel (.seq a b) s s''
  | altL {a b s s'} : Rel a s s' → Rel (.alt a b) s s'
  | altR {a b s s'} : Rel b s s' → Rel (.alt a b) s s'
  | starNil {g r s} : Rel (.star g r) s s
  | starStep {g r s s' s''} : Rel r s s' → s'.rest.length < s.rest.length → Rel (.star g r) s' s'' →
      Rel (.star g r) s s''
  | cap {n r s s'} : Rel r s s' →
      Rel (.cap n r) s { s' with caps := (n, s.rest.take (s.rest.length - s'.rest.length)) :: s'.caps }
  | bot {s} : s.prev = none → Rel .bot s s
  | eot {s} : s.rest = [] → Rel .eot s s
  | bol {s} : s.prev = none ∨ s.prev = some '\n' → Rel .bol s s
  | eol {s} : s.rest = [] ∨ s.rest.head? = some '\n' → Rel .eol s s
  | wb {s} : (wordAt s.prev != wordAt s.rest.head?) = true → Rel .wb s s
  | startHalf {s} : (!wordAt s.prev) = true → Rel .startHalf s s
  | endHalf {s} : (!wordAt s.rest.head?) = true → Rel .endHalf s s

theorem starM_sound {g : Bool} {r : Re} (ih : ∀ k s z, m r k s = some z → ∃ s', Rel r s s' ∧ k s' = some z) :
    ∀ (n : Nat) (k : RS → Option RS) (s z : RS), starM g (m r) n k s = some z →
      ∃ s', Rel (.star g r) s s' ∧ k s' = some z := by
  intro n
  induction n with
  | zero => intro k s z h; exact ⟨s, .starNil, h⟩
  | succ n ihn =>
    intro k s z h
    rw [starM] at h
    have more : ∀ z, m r (fun s' => if s'.rest.length < s.rest.length then starM g (m r) n k s' else none) s = some z →
        ∃ s', Rel (.star g r) s s' ∧ k s' = some z := by
      intro z h
      obtain ⟨s1, h1, h2⟩ := ih _ _ _ h
      split at h2
      · rename_i hlt
        obtain ⟨s2, h3, h4⟩ := ihn _ _ _ h2
        exact ⟨s2, .starStep h1 hlt h3, h4⟩
      · cases h2
    simp only at h
    split at h
    · split at h
      · rename_i hm; cases h; exact more _ hm
      · exact ⟨s, .starNil, h⟩
    · split at h
      · rename_i hk; cases h; exact ⟨s, .starNil, hk⟩
      · exact more _ h

/-- Whatever the matcher finds is a match. -/
theorem m_sound (r : Re) : ∀ (k : RS → Option RS) (s z : RS), m r k s = some z →
    ∃ s', Rel r s s' ∧ k s' = some z := by
  induction r with
  | eps => intro k s z h; exact ⟨s, .eps, h⟩
  | cls p =>
    intro k s z h
    rw [m] at h
    obtain ⟨pv, rest, caps⟩ := s
    cases rest with
    | nil => cases h
    | cons c cs =>
      simp only at h
      split at h
      · rename_i hp; exact ⟨_, .cls hp, h⟩
      · cases h
  | seq a b iha ihb =>
    intro k s z h
    rw [m] at h
    obtain ⟨s1, h1, h2⟩ := iha _ _ _ h
    obtain ⟨s2, h3, h4⟩ := ihb _ _ _ h2
    exact ⟨s2, .seq h1 h3, h4⟩
  | alt a b iha ihb =>
    intro k s z h
    rw [m] at h
    split at h
    · rename_i hm
      cases h
      obtain ⟨s1, h1, h2⟩ := iha _ _ _ hm
      exact ⟨s1, .altL h1, h2⟩
    · obtain ⟨s1, h1, h2⟩ := ihb _ _ _ h
      exact ⟨s1, .altR h1, h2⟩
  | star g r ih =>
    intro k s z h
    rw [m] at h
    exact starM_sound ih _ _ _ _ h
  | cap n r ih =>
    intro k s z h
    rw [m] at h
    obtain ⟨s1, h1, h2⟩ := ih _ _ _ h
    exact ⟨_, .cap h1, h2⟩
  | bot => intro k s z h; rw [m] at h; split at h <;> first | exact ⟨s, .bot ‹_›, h⟩ | cases h
  | eot => intro k s z h; rw [m] at h; split at h <;> first | exact ⟨s, .eot ‹_›, h⟩ | cases h
  | bol => intro k s z h; rw [m] at h; split at h <;> first | exact ⟨s, .bol ‹_›, h⟩ | cases h
  | eol => intro k s z h; rw [m] at h; split at h <;> first | exact ⟨s, .eol ‹_›, h⟩ | cases h
  | wb => intro k s z h; rw [m] at h; split at h <;> first | exact ⟨s, .wb ‹_›, h⟩ | cases h
  | startHalf => intro k s z h; rw [m] at h; split at h <;> first | exact ⟨s, .startHalf ‹_›, h⟩ | cases h
  | endHalf => intro k s z h; rw [m] at h; split at h <;> first | exact ⟨s, .endHalf ‹_›, h⟩ | cases h

theorem starM_complete {g : Bool} {r : Re}
    (ih : ∀ k s s', Rel r s s' → (k s').isSome = true → (m r k s).isSome = true) :
    ∀ (n : Nat) (k : RS → Option RS) (s s' : RS), s.rest.length ≤ n → Rel (.star g r) s s' → (k s').isSome = true →
      (starM g (m r) n k s).isSome = true := by
  intro n
  induction n with
  | zero =>
    intro k s s' hn h hk
    rw [starM]
    cases h with
    | starNil => exact hk
    | starStep _ hlt _ => omega
  | succ n ihn =>
    intro k s s' hn h hk
    rw [starM]
    cases h with
    | starNil =>
      simp only
      split
      · split
        · rfl
        · exact hk
      · split
        · rfl
        · rename_i hk'; rw [hk'] at hk; cases hk
    | starStep h1 hlt h2 =>
      have hmore := ih (fun s' => if s'.rest.length < s.rest.length then starM g (m r) n k s' else none) _ _ h1 (by
        simp only [if_pos hlt]
        exact ihn _ _ _ (by omega) h2 hk)
      simp only
      split
      · split
        · rfl
        · rename_i hm; rw [hm] at hmore; cases hmore
      · split
        · rfl
        · exact hmore

/-- The matcher finds a match whenever there is one. -/
theorem m_complete (r : Re) : ∀ (k : RS → Option RS) (s s' : RS), Rel r s s' → (k s').isSome = true →
    (m r k s).isSome = true := by
  induction r with
  | eps => intro k s s' h hk; cases h; exact hk
  | cls p => intro k s s' h hk; cases h with | cls hp => rw [m]; simp only [hp, if_true]; exact hk
  | seq a b iha ihb =>
    intro k s s' h hk
    cases h with
    | seq h1 h2 => rw [m]; exact iha _ _ _ h1 (ihb _ _ _ h2 hk)
  | alt a b iha ihb =>
    intro k s s' h hk
    rw [m]
    cases h with
    | altL h1 =>
      have := iha _ _ _ h1 hk
      split
      · rfl
      · rename_i e; rw [e] at this; cases this
    | altR h1 =>
      split
      · rfl
      · exact ihb _ _ _ h1 hk
  | star g r ih =>
    intro k s s' h hk
    rw [m]
    exact starM_complete ih _ _ _ _ (Nat.le_refl _) h hk
  | cap n r ih =>
    intro k s s' h hk
    cases h with
    | cap h1 => rw [m]; exact ih _ _ _ h1 hk
  | bot => intro k s s' h hk; cases h with | bot h1 => rw [m, if_pos h1]; exact hk
  | eot => intro k s s' h hk; cases h with | eot h1 => rw [m, if_pos h1]; exact hk
  | bol => intro k s s' h hk; cases h with | bol h1 => rw [m, if_pos h1]; exact hk
  | eol => intro k s s' h hk; cases h with | eol h1 => rw [m, if_pos h1]; exact hk
  | wb => intro k s s' h hk; cases h with | wb h1 => rw [m, if_pos h1]; exact hk
  | startHalf => intro k s s' h hk; cases h with | startHalf h1 => rw [m, if_pos h1]; exact hk
  | endHalf => intro k s s' h hk; cases h with | endHalf h1 => rw [m, if_pos h1]; exact hk

/-- The character in front after reading `used`. -/
def prevAfter (pv : Option Char) (used : Text) : Option Char :=
  match used.getLast? with
  | some c => some c
  | none => pv

theorem prevAfter_append (pv : Option Char) (a b : Text) : prevAfter (prevAfter pv a) b = prevAfter pv (a ++ b) := by
  cases b using snocInd with
  | nil => simp [prevAfter]
  | snoc b c _ => simp [prevAfter, ← List.append_assoc]

/-- A match consumes a prefix. -/
theorem Rel.consumes {r : Re} {s s' : RS} (h : Rel r s s') :
    ∃ used, s.rest = used ++ s'.rest ∧ s'.prev = prevAfter s.prev used := by
  induction h with
  | cls => exact ⟨[_], rfl, rfl⟩
  | seq _ _ iha ihb =>
    obtain ⟨u, h1, h2⟩ := iha
    obtain ⟨v, h3, h4⟩ := ihb
    exact ⟨u ++ v, by rw [h1, h3, List.append_assoc], by rw [h4, h2, prevAfter_append]⟩
  | altL _ ih => exact ih
  | altR _ ih => exact ih
  | starStep _ _ _ iha ihb =>
    obtain ⟨u, h1, h2⟩ := iha
    obtain ⟨v, h3, h4⟩ := ihb
    exact ⟨u ++ v, by rw [h1, h3, List.append_assoc], by rw [h4, h2, prevAfter_append]⟩
  | cap _ ih => exact ih
  | _ => exact ⟨[], rfl, rfl⟩

theorem matchAt_sound {re : Re} {pv : Option Char} {t : Text} {mt : Match} {s : RS}
    (h : matchAt re pv t = some (mt, s)) :
    Rel re ⟨pv, t, []⟩ s ∧ t = mt.text ++ s.rest ∧ s.prev = prevAfter pv mt.text ∧ mt.caps = s.caps := by
  unfold matchAt at h
  cases hm : m re some ⟨pv, t, []⟩ with
  | none => rw [hm] at h; cases h
  | some z =>
    rw [hm] at h
    simp only [Option.map_some, Option.some.injEq, Prod.mk.injEq] at h
    obtain ⟨s', h1, h2⟩ := m_sound re _ _ _ hm
    cases h2
    obtain ⟨rfl, rfl⟩ := h
    obtain ⟨u, h3, h4⟩ := h1.consumes
    simp only at h3 h4
    have : t.take (t.length - z.rest.length) = u := by rw [h3]; simp
    simp only [this]
    exact ⟨h1, h3, h4, trivial⟩

theorem matchAt_none {re : Re} {pv : Option Char} {t : Text} :
    matchAt re pv t = none ↔ ∀ s, ¬ Rel re ⟨pv, t, []⟩ s := by
  unfold matchAt
  rw [Option.map_eq_none_iff]
  constructor
  · intro h s hs
    have := m_complete re some _ _ hs rfl
    rw [h] at this; cases this
  · intro h
    cases hm : m re some ⟨pv, t, []⟩ with
    | none => rfl
    | some z =>
      obtain ⟨s', h1, _⟩ := m_sound re _ _ _ hm
      exact absurd h1 (h s')

/-! ### Evaluation lemmas -/

theorem m_chr (c : Char) (k : RS → Option RS) (pv : Option Char) (d : Char) (ds : Text) (caps : List (Nat × Text)) :
    m (chr c) k ⟨pv, d :: ds, caps⟩ = if d = c then k ⟨some d, ds, caps⟩ else none := by
  simp [chr, m]

theorem m_chr_nil (c : Char) (k : RS → Option RS) (pv : Option Char) (caps : List (Nat × Text)) :
    m (chr c) k ⟨pv, [], caps⟩ = none := by
  simp [chr, m]

theorem m_cls_cons (p : Char → Bool) (k : RS → Option RS) (pv : Option Char) (d : Char) (ds : Text)
    (caps : List (Nat × Text)) :
    m (cls p) k ⟨pv, d :: ds, caps⟩ = if p d = true then k ⟨some d, ds, caps⟩ else none := by
  simp [m]

theorem m_cls_nil (p : Char → Bool) (k : RS → Option RS) (pv : Option Char) (caps : List (Nat × Text)) :
    m (cls p) k ⟨pv, [], caps⟩ = none := by
  simp [m]

theorem starM_cls_det {g : Bool} {p : Char → Bool} {k : RS → Option RS} (n : Nat) (s : RS) (hn : s.rest.length ≤ n)
    (hk : ∀ pv c cs caps, p c = true → k ⟨pv, c :: cs, caps⟩ = none) :
    starM g (m (cls p)) n k s =
      k ⟨prevAfter s.prev (s.rest.takeWhile p), s.rest.dropWhile p, s.caps⟩ := by
  induction n generalizing s with
  | zero =>
    obtain ⟨pv, rest, caps⟩ := s
    cases rest with
    | nil => rfl
    | cons c cs => simp at hn
  | succ n ih =>
    obtain ⟨pv, rest, caps⟩ := s
    rw [starM]
    cases rest with
    | nil =>
      simp only [m_cls_nil, List.takeWhile_nil, List.dropWhile_nil]
      cases g
      · simp only [Bool.false_eq_true, if_false]
        show _ = k ⟨pv, [], caps⟩
        cases k ⟨pv, [], caps⟩ <;> rfl
      · simp only [if_true]; rfl
    | cons c cs =>
      simp only [m_cls_cons]
      by_cases hp : p c = true
      · simp only [hp, if_true, List.length_cons, Nat.lt_succ_self, List.takeWhile_cons, List.dropWhile_cons]
        have := ih ⟨some c, cs, caps⟩ (by simpa using hn)
        simp only at this
        rw [this, hk _ _ _ _ hp]
        have hpa : prevAfter (some c) (cs.takeWhile p) = prevAfter pv (c :: cs.takeWhile p) := by
          have := prevAfter_append pv [c] (cs.takeWhile p)
          simpa [prevAfter] using this
        rw [hpa]
        cases g
        · simp
        · simp only [if_true]
          cases k ⟨prevAfter pv (c :: cs.takeWhile p), cs.dropWhile p, caps⟩ <;> rfl
      · simp only [hp, Bool.false_eq_true, if_false, List.takeWhile_cons, List.dropWhile_cons]
        show _ = k ⟨pv, c :: cs, caps⟩
        cases g
        · simp only [Bool.false_eq_true, if_false]
          cases k ⟨pv, c :: cs, caps⟩ <;> rfl
        · simp

/-- A repeated class whose continuation cannot start with a member of the class takes the maximal run. -/
theorem m_star_cls_det {g : Bool} {p : Char → Bool} {k : RS → Option RS} (s : RS)
    (hk : ∀ pv c cs caps, p c = true → k ⟨pv, c :: cs, caps⟩ = none) :
    m (star g (cls p)) k s = k ⟨prevAfter s.prev (s.rest.takeWhile p), s.rest.dropWhile p, s.caps⟩ := by
  rw [m]; exact starM_cls_det _ _ (Nat.le_refl _) hk

/-! ### The replacement loop -/

/-- What `replace_all` computes: scanning from the left, every match is replaced and every other character kept. -/
inductive Replaced (re : Re) (rep : Match → Res Text) : Option Char → Bool → Text → Text → Prop
  | done {pv e} : (∀ mt s, matchAt re pv [] = some (mt, s) → e = false) → Replaced re rep pv e [] []
  | doneEmpty {pv mt s x} : matchAt re pv [] = some (mt, s) → rep mt = .ok x → Replaced re rep pv true [] x
  | skip {pv e c cs out} : (∀ mt s, matchAt re pv (c :: cs) = some (mt, s) → mt.text = [] ∧ e = false) →
      Replaced re rep (some c) true cs out → Replaced re rep pv e (c :: cs) (c :: out)
  | hit {pv e t mt s x out} : matchAt re pv t = some (mt, s) → mt.text ≠ [] → rep mt = .ok x →
      Replaced re rep s.prev false s.rest out → Replaced re rep pv e t (x ++ out)
  | hitEmpty {pv c cs mt s x out} : matchAt re pv (c :: cs) = some (mt, s) → mt.text = [] → rep mt = .ok x →
      Replaced re rep (some c) true cs out → Replaced re rep pv true (c :: cs) (x ++ c :: out)

/-- The stateless replacer as the loop sees it. -/
def pureRep (rep : Match → Res Text) : Replacer Unit := fun _ mt dest => (rep mt).map fun x => ((), dest ++ x)

theorem replLoop_ok (re : Re) (rep : Match → Res Text) : ∀ (fuel : Nat) (pv : Option Char) (t : Text) (e : Bool)
    (dest : Text) (r : Unit × Text), replLoop re (pureRep rep) fuel () pv t e dest = .ok r →
      ∃ out, r.2 = dest ++ out ∧ Replaced re rep pv e t out := by
  intro fuel
  induction fuel with
  | zero => intro pv t e dest r h; cases h
  | succ fuel ih =>
    intro pv t e dest r h
    rw [replLoop] at h
    cases hm : matchAt re pv t with
    | none =>
      rw [hm] at h
      simp only at h
      cases t with
      | nil =>
        simp only [Except.ok.injEq] at h
        subst h
        exact ⟨[], by simp, .done (by rw [hm]; simp)⟩
      | cons c cs =>
        simp only at h
        obtain ⟨out, h1, h2⟩ := ih _ _ _ _ _ h
        exact ⟨c :: out, by simp [h1], .skip (by rw [hm]; simp) h2⟩
    | some p =>
      obtain ⟨mt, s'⟩ := p
      rw [hm] at h
      simp only at h
      split at h
      · rename_i hne
        unfold pureRep at h
        cases hr : rep mt with
        | error err => rw [hr] at h; cases h
        | ok x =>
          rw [hr] at h
          simp only [Except.map] at h
          obtain ⟨out, h1, h2⟩ := ih _ _ _ _ _ h
          exact ⟨x ++ out, by simp [h1], .hit hm hne hr h2⟩
      · rename_i hne
        have hne' : mt.text = [] := by simpa using hne
        split at h
        · rename_i he
          subst he
          unfold pureRep at h
          cases hr : rep mt with
          | error err => rw [hr] at h; cases h
          | ok x =>
            rw [hr] at h
            simp only [Except.map] at h
            cases t with
            | nil =>
              simp only [Except.ok.injEq] at h
              subst h
              exact ⟨x, rfl, .doneEmpty hm hr⟩
            | cons c cs =>
              simp only at h
              obtain ⟨out, h1, h2⟩ := ih _ _ _ _ _ h
              exact ⟨x ++ c :: out, by simp [h1], .hitEmpty hm hne' hr h2⟩
        · rename_i he
          have he' : e = false := by simpa using he
          cases t with
          | nil =>
            simp only [Except.ok.injEq] at h
            subst h
            exact ⟨[], by simp, .done (fun _ _ _ => he')⟩
          | cons c cs =>
            simp only at h
            obtain ⟨out, h1, h2⟩ := ih _ _ _ _ _ h
            refine ⟨c :: out, by simp [h1], .skip ?_ h2⟩
            intro mt2 s2 h3
            rw [hm] at h3
            cases h3
            exact ⟨hne', he'⟩

/-- The loop never runs out of fuel; it fails only when the replacer fails on a match. -/
theorem replLoop_error {σ : Type} (re : Re) (rep : Replacer σ) : ∀ (fuel : Nat) (st : σ) (pv : Option Char) (t : Text)
    (e : Bool) (dest : Text) (err : Fail), t.length < fuel →
      replLoop re rep fuel st pv t e dest = .error err →
      ∃ st mt d pv' t' s', matchAt re pv' t' = some (mt, s') ∧ t' <:+ t ∧ rep st mt d = .error err := by
  intro fuel
  induction fuel with
  | zero => intro st pv t e dest err hl h; omega
  | succ fuel ih =>
    intro st pv t e dest err hl h
    rw [replLoop] at h
    have adv : ∀ p : σ × Text, (match t with
        | [] => (Except.ok p : Res (σ × Text))
        | c :: cs => replLoop re rep fuel p.1 (some c) cs true (p.2 ++ [c])) = .error err →
        ∃ st mt d pv' t' s', matchAt re pv' t' = some (mt, s') ∧ t' <:+ t ∧ rep st mt d = .error err := by
      intro p h
      cases t with
      | nil => cases h
      | cons c cs =>
        obtain ⟨a, b, d, e, f, g, h0, h1, h2⟩ := ih _ _ _ _ _ _ (by simpa using hl) h
        exact ⟨a, b, d, e, f, g, h0, h1.trans (List.suffix_cons _ _), h2⟩
    cases hm : matchAt re pv t with
    | none => rw [hm] at h; exact adv _ h
    | some p =>
      obtain ⟨mt, s'⟩ := p
      obtain ⟨_, ht, _⟩ := matchAt_sound hm
      have hlen : t.length = mt.text.length + s'.rest.length := by rw [ht]; simp
      rw [hm] at h
      simp only at h
      split at h
      · rename_i hne
        have : 0 < mt.text.length := List.length_pos_iff.mpr hne
        cases hr : rep st mt dest with
        | error e2 =>
          rw [hr] at h
          simp only [Except.error.injEq] at h
          exact ⟨st, mt, dest, _, _, _, hm, List.suffix_refl _, by rw [hr, h]⟩
        | ok p =>
          rw [hr] at h
          obtain ⟨a, b, d, e, f, g, h0, h1, h2⟩ := ih _ _ _ _ _ _ (by omega) h
          exact ⟨a, b, d, e, f, g, h0, h1.trans ⟨mt.text, ht.symm⟩, h2⟩
      · split at h
        · cases hr : rep st mt dest with
          | error e2 =>
            rw [hr] at h
            simp only [Except.error.injEq] at h
            exact ⟨st, mt, dest, _, _, _, hm, List.suffix_refl _, by rw [hr, h]⟩
          | ok p => rw [hr] at h; exact adv _ h
        · exact adv _ h

theorem replaceAll_ok {re : Re} {rep : Match → Res Text} {t out : Text} (h : replaceAll re rep t = .ok out) :
    Replaced re rep none true t out := by
  unfold replaceAll replaceAllS at h
  cases hl : replLoop re (fun (_ : Unit) mt dest => (rep mt).map fun x => ((), dest ++ x)) (t.length + 1) () none t true []
    with
  | error e => rw [hl] at h; cases h
  | ok r =>
    rw [hl] at h
    simp only [Except.map, Except.ok.injEq] at h
    obtain ⟨o, h1, h2⟩ := replLoop_ok re rep _ _ _ _ _ _ hl
    rw [← h, h1]
    exact h2

/-- `replace_all` fails only when the replacer fails on a match somewhere in the text. -/
theorem replaceAll_error {re : Re} {rep : Match → Res Text} {t : Text} {err : Fail} (h : replaceAll re rep t = .error err) :
    ∃ pv t' mt s, matchAt re pv t' = some (mt, s) ∧ t' <:+ t ∧ rep mt = .error err := by
  unfold replaceAll replaceAllS at h
  cases hl : replLoop re (fun (_ : Unit) mt dest => (rep mt).map fun x => ((), dest ++ x)) (t.length + 1) () none t true []
    with
  | ok r => rw [hl] at h; cases h
  | error e2 =>
    rw [hl] at h
    cases h
    obtain ⟨_, mt, d, pv, t', s, hm, ht, h2⟩ := replLoop_error _ _ _ _ _ _ _ _ _ (Nat.lt_succ_self _) hl
    refine ⟨pv, t', mt, s, hm, ht, ?_⟩
    cases hr : rep mt with
    | ok x => rw [hr] at h2; cases h2
    | error e => rw [hr] at h2; cases h2; rfl

/-- With a replacer that does not fail on the matches in the text, `replace_all` does not fail. -/
theorem replaceAll_total_on {re : Re} {rep : Match → Res Text} (t : Text)
    (hr : ∀ pv t' mt s, t' <:+ t → matchAt re pv t' = some (mt, s) → ∃ x, rep mt = .ok x) :
    ∃ out, replaceAll re rep t = .ok out := by
  cases h : replaceAll re rep t with
  | ok o => exact ⟨o, rfl⟩
  | error e =>
    obtain ⟨pv, t', mt, s, hm, ht, h2⟩ := replaceAll_error h
    obtain ⟨x, hx⟩ := hr pv t' mt s ht hm
    rw [hx] at h2
    cases h2

/-- With a replacer that does not fail on matches, `replace_all` does not fail. -/
theorem replaceAll_total {re : Re} {rep : Match → Res Text}
    (hr : ∀ pv t mt s, matchAt re pv t = some (mt, s) → ∃ x, rep mt = .ok x) (t : Text) :
    ∃ out, replaceAll re rep t = .ok out :=
  replaceAll_total_on t fun pv t' mt s _ h => hr pv t' mt s h

/-- The scan is deterministic. -/
theorem Replaced.det {re : Re} {rep : Match → Res Text} {pv : Option Char} {e : Bool} {t a b : Text}
    (ha : Replaced re rep pv e t a) (hb : Replaced re rep pv e t b) : a = b := by
  induction ha generalizing b with
  | done h =>
    cases hb with
    | done _ => rfl
    | doneEmpty h2 _ => exact absurd (h _ _ h2) (by simp)
    | hit h2 h3 _ _ =>
      obtain ⟨_, h4, _⟩ := matchAt_sound h2
      exact absurd (List.append_eq_nil_iff.mp h4.symm).1 h3
  | doneEmpty h hr =>
    cases hb with
    | done h2 => exact absurd (h2 _ _ h) (by simp)
    | doneEmpty h2 hr2 => rw [h] at h2; cases h2; rw [hr] at hr2; cases hr2; rfl
    | hit h2 h3 _ _ =>
      obtain ⟨_, h4, _⟩ := matchAt_sound h2
      exact absurd (List.append_eq_nil_iff.mp h4.symm).1 h3
  | skip h _ ih =>
    cases hb with
    | skip _ h2 => rw [ih h2]
    | hit h2 h3 _ _ => exact absurd (h _ _ h2).1 h3
    | hitEmpty h2 _ _ _ => exact absurd (h _ _ h2).2 (by simp)
  | hit h hne hr _ ih =>
    cases hb with
    | done h2 =>
      obtain ⟨_, h4, _⟩ := matchAt_sound h
      exact absurd (List.append_eq_nil_iff.mp h4.symm).1 hne
    | doneEmpty h2 _ =>
      obtain ⟨_, h4, _⟩ := matchAt_sound h
      exact absurd (List.append_eq_nil_iff.mp h4.symm).1 hne
    | skip h2 _ => exact absurd (h2 _ _ h).1 hne
    | hit h2 _ hr2 h3 => rw [h] at h2; cases h2; rw [hr] at hr2; cases hr2; rw [ih h3]
    | hitEmpty h2 h3 _ _ => rw [h] at h2; cases h2; exact absurd h3 hne
  | hitEmpty h he hr _ ih =>
    cases hb with
    | skip h2 _ => exact absurd (h2 _ _ h).2 (by simp)
    | hit h2 h3 _ _ => rw [h] at h2; cases h2; exact absurd he h3
    | hitEmpty h2 _ hr2 h3 => rw [h] at h2; cases h2; rw [hr] at hr2; cases hr2; rw [ih h3]

end Re
end Adoc
