import Verif.Lemmas.Search
import Verif.Lemmas.Pass
import Verif.Lemmas.AnchorMacro
import Verif.Spec.Passthrough
/-!
# Passthroughs with the longer marks, and `pass:`
-/

namespace Adoc
open Adoc.Spec Re
variable [Uni]

/-! ### The matcher -/

/-- The groups of a span. -/
def spanCaps (d b : Text) : List (Nat × Text) :=
  if d = "+++".toList then [(6, d), (5, b), (4, d)]
  else if d = "++".toList then [(9, d), (8, b), (7, d)]
  else [(12, d), (11, b), (10, d)]

theorem m_spanRe {d : Text} {n : Nat} {s z : RS} (h : m (passSpanRe d n) some s = some z) :
    ∃ b r, s.rest = d ++ (b ++ (d ++ r)) ∧ Nearest d b r ∧
      z = ⟨prevAfter s.prev (d ++ b ++ d), r, (n + 2, d) :: (n + 1, b) :: (n, d) :: s.caps⟩ := by
  simp only [passSpanRe, cat] at h
  rw [m_seq, m_cap] at h
  obtain ⟨r1, e1, h⟩ := m_lit_some h
  simp only at h
  rw [e1, take_used, m_seq, m_cap, anyChar] at h
  obtain ⟨b, r2, e2, -, h, hmin⟩ := m_star_lazy h
  simp only at e2
  subst e2
  rw [take_used, m_cap] at h
  obtain ⟨r3, e3, h⟩ := m_lit_some h
  simp only at e3
  subst e3
  simp only at h
  rw [take_used] at h
  refine ⟨b, r3, e1, ⟨trivial, ⟨r3, rfl, trivial⟩, ?_⟩, ?_⟩
  · rintro b' r' e hl - ⟨x, rfl, -⟩
    have := hmin b' (d ++ x) e hl
    simp only at this
    rw [m_cap, m_lit] at this
    cases this
  · cases h
    simp only [prevAfter_append]

theorem spanRe_rel {d b r : Text} {n : Nat} (pv : Option Char) (caps : List (Nat × Text)) :
    ∃ z, Rel (passSpanRe d n) ⟨pv, d ++ (b ++ (d ++ r)), caps⟩ z := by
  simp only [passSpanRe, cat]
  refine ⟨⟨prevAfter (prevAfter (prevAfter pv d) b) d, r, (n + 2, d) :: (n + 1, b) :: (n, d) :: caps⟩, rel_seq_iff.mpr
    ⟨⟨prevAfter pv d, b ++ (d ++ r), (n, d) :: caps⟩, rel_cap_iff.mpr ⟨⟨prevAfter pv d, b ++ (d ++ r), caps⟩, d,
      rel_lit_iff.mpr ⟨_, rfl, rfl⟩, rfl, rfl⟩, rel_seq_iff.mpr
    ⟨⟨prevAfter (prevAfter pv d) b, d ++ r, (n + 1, b) :: (n, d) :: caps⟩, rel_cap_iff.mpr
      ⟨⟨prevAfter (prevAfter pv d) b, d ++ r, (n, d) :: caps⟩, b,
      rel_star_cls_iff.mpr ⟨b, _, rfl, fun _ _ => rfl, rfl⟩, rfl, rfl⟩, rel_cap_iff.mpr
      ⟨⟨prevAfter (prevAfter (prevAfter pv d) b) d, r, (n + 1, b) :: (n, d) :: caps⟩, d, rel_lit_iff.mpr ⟨_, rfl, rfl⟩, rfl, rfl⟩⟩⟩⟩

/-- The three kinds of spans. -/
def spansRe : Re := oneOf [passSpanRe "+++".toList 4, passSpanRe "++".toList 7, passSpanRe "$$".toList 10]

theorem m_spans {s z : RS} (h : m spansRe some s = some z) :
    ∃ d b r, s.rest = d ++ b ++ d ++ r ∧ Marked d b r ∧ z.rest = r ∧ z.caps = spanCaps d b ++ s.caps := by
  simp only [spansRe, oneOf] at h
  rcases m_alt_some h with h | ⟨h0, h⟩
  · obtain ⟨b, r, e, hn, rfl⟩ := m_spanRe h
    exact ⟨_, b, r, by rw [e]; simp, .triple hn, rfl, rfl⟩
  · rcases m_alt_some h with h | ⟨-, h⟩
    · obtain ⟨b, r, e, hn, rfl⟩ := m_spanRe h
      refine ⟨_, b, r, by rw [e]; simp, .double ?_ hn, rfl, rfl⟩
      rintro ⟨b', r', e'⟩
      obtain ⟨z, hz⟩ := spanRe_rel (d := "+++".toList) (b := b') (r := r') (n := 4) s.prev s.caps
      have : (m (passSpanRe "+++".toList 4) some s).isSome = true := by
        refine m_complete _ _ _ z ?_ rfl
        have e2 : s.rest = "+++".toList ++ (b' ++ ("+++".toList ++ r')) := by
          rw [e, ← List.append_assoc, ← List.append_assoc]
          rw [e']; simp
        rw [← e2] at hz
        exact hz
      rw [h0] at this
      cases this
    · obtain ⟨b, r, e, hn, rfl⟩ := m_spanRe h
      exact ⟨_, b, r, by rw [e]; simp, .dollars hn, rfl, rfl⟩

theorem spans_rel {d b r : Text} (h : Marked d b r) (pv : Option Char) (caps : List (Nat × Text)) :
    ∃ z, Rel spansRe ⟨pv, d ++ b ++ d ++ r, caps⟩ z := by
  have e : d ++ b ++ d ++ r = d ++ (b ++ (d ++ r)) := by simp
  rw [e]
  cases h with
  | triple _ =>
    obtain ⟨z, hz⟩ := spanRe_rel (d := "+++".toList) (b := b) (r := r) (n := 4) pv caps
    exact ⟨z, rel_alt_iff.mpr (.inl hz)⟩
  | double _ _ =>
    obtain ⟨z, hz⟩ := spanRe_rel (d := "++".toList) (b := b) (r := r) (n := 7) pv caps
    exact ⟨z, rel_alt_iff.mpr (.inr (rel_alt_iff.mpr (.inl hz)))⟩
  | dollars _ =>
    obtain ⟨z, hz⟩ := spanRe_rel (d := "$$".toList) (b := b) (r := r) (n := 10) pv caps
    exact ⟨z, rel_alt_iff.mpr (.inr (rel_alt_iff.mpr (.inr hz)))⟩

/-- Up to two backslashes. -/
theorem m_backslashes {n : Nat} {k : RS → Option RS} {s z : RS} (h : m (cap n (upTo (chr '\\') 2)) k s = some z) :
    ∃ j r pv, j ≤ 2 ∧ s.rest = List.replicate j '\\' ++ r ∧ k ⟨pv, r, (n, List.replicate j '\\') :: s.caps⟩ = some z := by
  rw [m_cap, upTo] at h
  rcases m_opt_some h with h | ⟨-, h⟩
  · rw [m_seq] at h
    obtain ⟨r1, e1, h⟩ := m_chr_some h
    rw [upTo] at h
    rcases m_opt_some h with h | ⟨-, h⟩
    · rw [m_seq] at h
      obtain ⟨r2, e2, h⟩ := m_chr_some h
      simp only at e2
      rw [upTo, m_eps, e1, e2, show '\\' :: '\\' :: r2 = ['\\', '\\'] ++ r2 from rfl, take_used] at h
      exact ⟨2, r2, _, Nat.le_refl _, by rw [e1, e2]; rfl, h⟩
    · rw [e1, show '\\' :: r1 = ['\\'] ++ r1 from rfl, take_used] at h
      exact ⟨1, r1, _, by omega, by rw [e1]; rfl, h⟩
  · have : s.rest.take (s.rest.length - s.rest.length) = [] := by simp
    rw [this] at h
    exact ⟨0, s.rest, s.prev, by omega, rfl, h⟩

theorem backslashes_rel {n j : Nat} (hj : j ≤ 2) (pv : Option Char) (r : Text) (caps : List (Nat × Text)) :
    ∃ pv', Rel (cap n (upTo (chr '\\') 2)) ⟨pv, List.replicate j '\\' ++ r, caps⟩ ⟨pv', r, (n, List.replicate j '\\') :: caps⟩ := by
  have h0 : j = 0 ∨ j = 1 ∨ j = 2 := by omega
  rcases h0 with rfl | rfl | rfl
  · exact ⟨pv, rel_cap_iff.mpr ⟨⟨pv, r, caps⟩, [], rel_opt_iff.mpr (.inr rfl), rfl, rfl⟩⟩
  · exact ⟨some '\\', rel_cap_iff.mpr ⟨⟨some '\\', r, caps⟩, ['\\'], rel_opt_iff.mpr (.inl (rel_seq_iff.mpr
      ⟨⟨some '\\', r, caps⟩, rel_chr_iff.mpr ⟨_, rfl, rfl⟩, rel_opt_iff.mpr (.inr rfl)⟩)), rfl, rfl⟩⟩
  · exact ⟨some '\\', rel_cap_iff.mpr ⟨⟨some '\\', r, caps⟩, ['\\', '\\'], rel_opt_iff.mpr (.inl (rel_seq_iff.mpr
      ⟨⟨some '\\', '\\' :: r, caps⟩, rel_chr_iff.mpr ⟨_, rfl, rfl⟩, rel_opt_iff.mpr (.inl (rel_seq_iff.mpr
        ⟨⟨some '\\', r, caps⟩, rel_chr_iff.mpr ⟨_, rfl, rfl⟩, rel_eps_iff.mpr rfl⟩))⟩)), rfl, rfl⟩⟩

/-- One or more characters of a kind. -/
theorem m_plusCls {n : Nat} {p : Char → Bool} {k : RS → Option RS} {s z : RS} (h : m (cap n (plus (cls p))) k s = some z) :
    ∃ b r, s.rest = b ++ r ∧ b ≠ [] ∧ (∀ c ∈ b, p c = true) ∧ k ⟨prevAfter s.prev b, r, (n, b) :: s.caps⟩ = some z := by
  rw [m_cap, plus, m_seq] at h
  obtain ⟨c, r1, e1, hc, h⟩ := m_cls_some h
  obtain ⟨b, r2, e2, hb, h, -⟩ := m_star_greedy h
  simp only at e2
  subst e2
  rw [e1, show c :: (b ++ r2) = (c :: b) ++ r2 from rfl, take_used] at h
  refine ⟨c :: b, r2, e1, by simp, ?_, by rw [prevAfter_cons]; exact h⟩
  intro x hx
  rcases List.mem_cons.mp hx with rfl | hx
  · exact hc
  · exact hb x hx

omit [Uni] in
theorem attrs_iff {a : Text} (h : a ≠ []) : (∀ c ∈ a, (c != '[' && c != ']') = true) ↔ Attrs a := by
  constructor
  · intro hc
    refine ⟨h, fun hm => ?_, fun hm => ?_⟩
    · exact absurd (hc _ hm) (by decide)
    · exact absurd (hc _ hm) (by decide)
  · rintro ⟨-, h1, h2⟩ c hc
    have : c ≠ '[' ∧ c ≠ ']' := ⟨fun e => h1 (e ▸ hc), fun e => h2 (e ▸ hc)⟩
    simpa using this

/-- Attributes in brackets. -/
theorem m_attrs {n : Nat} {k : RS → Option RS} {s z : RS}
    (h : m (cat [chr '[', cap n (plus (cls fun c => c != '[' && c != ']')), chr ']']) k s = some z) :
    ∃ a r, Attrs a ∧ s.rest = '[' :: a ++ ']' :: r ∧ k ⟨some ']', r, (n, a) :: s.caps⟩ = some z := by
  simp only [cat] at h
  rw [m_seq] at h
  obtain ⟨r1, e1, h⟩ := m_chr_some h
  rw [m_seq] at h
  obtain ⟨a, r2, e2, ha, hc, h⟩ := m_plusCls h
  obtain ⟨r3, e3, h⟩ := m_chr_some h
  simp only at e2 e3
  exact ⟨a, r3, (attrs_iff ha).mp hc, by rw [e1, e2, e3]; rfl, h⟩

theorem attrs_rel {n : Nat} {a : Text} (h : Attrs a) (pv : Option Char) (r : Text) (caps : List (Nat × Text)) :
    Rel (cat [chr '[', cap n (plus (cls fun c => c != '[' && c != ']')), chr ']']) ⟨pv, '[' :: a ++ ']' :: r, caps⟩
      ⟨some ']', r, (n, a) :: caps⟩ := by
  simp only [cat]
  refine rel_seq_iff.mpr ⟨⟨some '[', a ++ ']' :: r, caps⟩, rel_chr_iff.mpr ⟨_, rfl, rfl⟩, rel_seq_iff.mpr
    ⟨⟨prevAfter (some '[') a, ']' :: r, (n, a) :: caps⟩, rel_cap_iff.mpr ⟨⟨prevAfter (some '[') a, ']' :: r, caps⟩, a,
      rel_plus_cls_iff.mpr ⟨a, _, h.1, rfl, (attrs_iff h.1).mpr h, rfl⟩, rfl, rfl⟩, rel_chr_iff.mpr ⟨_, rfl, rfl⟩⟩⟩

/-- The names of substitutions. -/
def namesRe : Re := cat [plus lowerRe,
  star true (cat [chr ',', plus (cls fun c => ('a'.toNat ≤ c.toNat && c.toNat ≤ 'z'.toNat) || c == '-')])]

theorem rel_names {s x : RS} (h : Rel namesRe s x) : ∃ w, StepNames w ∧ s.rest = w ++ x.rest ∧ x.caps = s.caps := by
  simp only [namesRe, cat] at h
  obtain ⟨y, h1, h2⟩ := rel_seq_iff.mp h
  obtain ⟨w, r, hw, e1, hc, rfl⟩ := rel_plus_cls_iff.mp h1
  have key : ∀ {re : Re} {s x : RS}, Rel re s x →
      re = star true (seq (chr ',') (plus (cls fun c => ('a'.toNat ≤ c.toNat && c.toNat ≤ 'z'.toNat) || c == '-'))) →
      ∃ ws : List Text, s.rest = ws.flatMap (',' :: ·) ++ x.rest ∧ x.caps = s.caps ∧
      ∀ v ∈ ws, v ≠ [] ∧ ∀ c ∈ v, ('a'.toNat ≤ c.toNat ∧ c.toNat ≤ 'z'.toNat) ∨ c = '-' := by
    intro re s x h
    induction h with
    | starNil => intro _; exact ⟨[], rfl, rfl, by simp⟩
    | starStep g1 g2 g3 _ ih =>
      intro e
      cases e
      obtain ⟨ws, f1, f2, f3⟩ := ih rfl
      obtain ⟨y, k1, k2⟩ := rel_seq_iff.mp g1
      obtain ⟨r1, q1, rfl⟩ := rel_chr_iff.mp k1
      obtain ⟨v, r2, hv, q2, hc, rfl⟩ := rel_plus_cls_iff.mp k2
      simp only at q2 f1 f2
      refine ⟨v :: ws, ?_, f2, ?_⟩
      · rw [q1, q2, f1]; simp
      · intro u hu
        rcases List.mem_cons.mp hu with rfl | hu
        · refine ⟨hv, fun c hcu => ?_⟩
          have := hc c hcu
          simpa using this
        · exact f3 u hu
    | _ => intro e; cases e
  obtain ⟨ws, f1, f2, f3⟩ := key h2 rfl
  refine ⟨w ++ ws.flatMap (',' :: ·), ⟨w, ws, rfl, ⟨hw, fun c hcw => ?_⟩, f3⟩, ?_, f2⟩
  · have := hc c hcw
    simpa using this
  · rw [e1]
    simp only at f1
    rw [f1]; simp

theorem names_rel {w : Text} (h : StepNames w) (pv : Option Char) (r : Text) (caps : List (Nat × Text)) :
    ∃ pv', Rel namesRe ⟨pv, w ++ r, caps⟩ ⟨pv', r, caps⟩ := by
  obtain ⟨w, ws, rfl, ⟨hw, hc⟩, hws⟩ := h
  have key : ∀ (ws : List Text) (pv : Option Char), (∀ v ∈ ws, v ≠ [] ∧ ∀ c ∈ v, ('a'.toNat ≤ c.toNat ∧ c.toNat ≤ 'z'.toNat) ∨ c = '-') →
      ∃ pv', Rel (star true (seq (chr ',') (plus (cls fun c => ('a'.toNat ≤ c.toNat && c.toNat ≤ 'z'.toNat) || c == '-'))))
        ⟨pv, ws.flatMap (',' :: ·) ++ r, caps⟩ ⟨pv', r, caps⟩ := by
    intro ws
    induction ws with
    | nil => intro pv _; exact ⟨pv, .starNil⟩
    | cons v ws ih =>
      intro pv hv
      obtain ⟨pv', hp⟩ := ih (prevAfter (some ',') v) (fun u hu => hv u (by simp [hu]))
      refine ⟨pv', .starStep (s' := ⟨prevAfter (some ',') v, ws.flatMap (',' :: ·) ++ r, caps⟩) ?_ ?_ hp⟩
      · refine rel_seq_iff.mpr ⟨⟨some ',', v ++ (ws.flatMap (',' :: ·) ++ r), caps⟩, rel_chr_iff.mpr ⟨_, by simp, rfl⟩, ?_⟩
        refine rel_plus_cls_iff.mpr ⟨v, _, (hv v (by simp)).1, rfl, fun c hcv => ?_, rfl⟩
        have := (hv v (by simp)).2 c hcv
        simpa using this
      · simp
        omega
  obtain ⟨pv', hp⟩ := key ws (prevAfter pv w) hws
  refine ⟨pv', ?_⟩
  simp only [namesRe, cat]
  refine rel_seq_iff.mpr ⟨⟨prevAfter pv w, ws.flatMap (',' :: ·) ++ r, caps⟩, ?_, hp⟩
  refine rel_plus_cls_iff.mpr ⟨w, _, hw, by simp, fun c hcw => ?_, rfl⟩
  have := hc c hcw
  simpa using this

/-! ### The replacer -/

omit [Uni] in
theorem oldBehavior_old {a b : Text} (h : OldStyle a b) : oldBehavior a = (b, true) := by
  unfold oldBehavior
  rcases h with ⟨rfl, rfl⟩ | rfl
  · rfl
  · rw [if_neg, if_pos]
    · simp
    · exact endsWith_iff.mpr ⟨b, rfl⟩
    · intro e
      have := congrArg List.length e
      simp at this

omit [Uni] in
theorem oldBehavior_new {a : Text} (h : ¬ ∃ b, OldStyle a b) : oldBehavior a = (a, false) := by
  unfold oldBehavior
  rw [if_neg, if_neg]
  · intro e
    obtain ⟨b, rfl⟩ := endsWith_iff.mp e
    exact h ⟨b, .inr rfl⟩
  · rintro rfl
    exact h ⟨[], .inl ⟨rfl, rfl⟩⟩

omit [Uni] in
theorem replacer_bare {d b : Text} {r : Text} (hd : Marked d b r) (u e : Text) (ps : List Passthrough) (dest : Text) :
    passMacroReplacer ps ⟨u, spanCaps d b ++ [(3, e)]⟩ dest =
      if e = [] then .ok (ps ++ [⟨b, TakenOut.group d, none, none⟩], dest ++ placeholder ps.length)
      else .ok (ps, dest ++ (List.replicate (e.length - 1) '\\' ++ d ++ b ++ d)) := by
  rw [← passMark_eq]
  cases e with
  | nil => cases hd <;> rfl
  | cons c e =>
    rw [if_neg (by simp)]
    have : ∀ (x : Text), dest ++ List.replicate e.length '\\' ++ x ++ b ++ x =
      dest ++ (List.replicate ((c :: e).length - 1) '\\' ++ x ++ b ++ x) := by intro x; simp
    cases hd <;> exact congrArg (fun x => Except.ok (ps, x)) (this _)

omit [Uni] in
theorem replacer_attrs {d b : Text} {r : Text} (hd : Marked d b r) (u e a c : Text) (hc : c = [] ∨ c = ['\\'])
    (ps : List Passthrough) (dest : Text) :
    (e ≠ [] → passMacroReplacer ps ⟨u, spanCaps d b ++ [(3, e), (2, a), (1, c)]⟩ dest =
      .ok (ps, dest ++ (c ++ '[' :: a ++ [']'] ++ List.replicate (e.length - 1) '\\' ++ d ++ b ++ d))) ∧
    (e = [] → c ≠ [] → passMacroReplacer ps ⟨u, spanCaps d b ++ [(3, e), (2, a), (1, c)]⟩ dest =
      .ok (ps ++ [⟨b, TakenOut.group d, none, none⟩], dest ++ ('[' :: a ++ [']'] ++ placeholder ps.length))) ∧
    (e = [] → c = [] → ∀ p, WithAttrs d a b p → passMacroReplacer ps ⟨u, spanCaps d b ++ [(3, e), (2, a), (1, c)]⟩ dest =
      .ok (ps ++ [p], dest ++ placeholder ps.length)) := by
  rw [← passMark_eq]
  refine ⟨?_, ?_, ?_⟩
  · intro he
    obtain ⟨x, e, rfl⟩ := List.exists_cons_of_ne_nil he
    have : ∀ (y : Text), dest ++ c ++ ['['] ++ a ++ [']'] ++ List.replicate e.length '\\' ++ y ++ b ++ y =
      dest ++ (c ++ '[' :: a ++ [']'] ++ List.replicate ((x :: e).length - 1) '\\' ++ y ++ b ++ y) := by intro y; simp
    cases hd <;> exact congrArg (fun x => Except.ok (ps, x)) (this _)
  · rintro rfl h
    rcases hc with rfl | rfl
    · exact absurd rfl h
    have : dest ++ ['['] ++ a ++ [']'] ++ passMark ps.length = dest ++ ('[' :: a ++ [']'] ++ passMark ps.length) := by simp
    cases hd <;> exact congrArg (fun x => Except.ok (_, x)) this
  · rintro rfl rfl p hp
    have main : ∀ (dd : Text) (hdd : Marked dd b r), passMacroReplacer ps ⟨u, spanCaps dd b ++ [(3, []), (2, a), (1, [])]⟩ dest =
        if dd = "++".toList then
          (match oldBehavior a with
            | (a', old) => if old then .ok (passPush ps ⟨b, .normal, some .monospaced, some a'⟩ dest)
              else .ok (passPush ps ⟨b, TakenOut.group dd, some .unquoted, some a'⟩ dest))
        else .ok (passPush ps ⟨b, TakenOut.group dd, some .unquoted, some a⟩ dest) := by
      intro dd hdd
      cases hdd <;> rfl
    rw [main d hd]
    cases hp with
    | old h => rw [if_pos rfl, oldBehavior_old h]; rfl
    | new h =>
      by_cases h1 : d = "++".toList
      · rw [if_pos h1, oldBehavior_new (fun h2 => h ⟨h1, h2⟩)]
        rfl
      · rw [if_neg h1]; rfl

omit [Uni] in
theorem replacer_pass {u body : Text} {caps : List (Nat × Text)} {esc : Text} {names : Option Text}
    (h : caps = (15, body) :: addGroup 14 names [(13, esc)]) (ps : List Passthrough) (dest : Text) (hn : names ≠ some []) :
    passMacroReplacer ps ⟨u, caps⟩ dest =
      if esc = [] then .ok (ps ++ [⟨Spec.unescape ']' body, passGroup (names.getD []), none, none⟩], dest ++ placeholder ps.length)
      else .ok (ps, dest ++ ("pass:".toList ++ names.getD [] ++ '[' :: body ++ [']'])) := by
  rw [← passMark_eq, ← unescape_eq ']' (by decide)]
  subst h
  cases esc with
  | nil =>
    cases names with
    | none => rfl
    | some w =>
      have hw : w ≠ [] := fun h => hn (by rw [h])
      rw [if_pos rfl, passGroup, if_neg (by simpa using hw)]
      rfl
  | cons c esc =>
    rw [if_neg (by simp)]
    cases names with
    | none =>
      show Except.ok (ps, dest ++ "pass:".toList ++ [] ++ ['['] ++ body ++ [']']) = _
      simp
    | some w =>
      show Except.ok (ps, dest ++ "pass:".toList ++ w ++ ['['] ++ body ++ [']']) = _
      simp

omit [Uni] in
theorem withAttrs_exists (d a body : Text) : ∃ p, WithAttrs d a body p := by
  by_cases h : d = "++".toList ∧ ∃ b, OldStyle a b
  · obtain ⟨rfl, b, h⟩ := h
    exact ⟨_, .old h⟩
  · exact ⟨_, .new h⟩

/-! ### The whole expression -/

theorem inlinePassMacroRe_eq : inlinePassMacroRe = alt
    (seq (opt (seq (cap 1 (opt (chr '\\'))) (cat [chr '[', cap 2 (plus (cls fun c => c != '[' && c != ']')), chr ']'])))
      (seq (cap 3 (upTo (chr '\\') 2)) spansRe))
    (seq (cap 13 (opt (chr '\\'))) (seq (lit "pass:".toList) (seq (opt (cap 14 namesRe)) (cat [chr '[', bracketed 15, chr ']'])))) :=
  rfl

/-- A backslash or none. -/
theorem m_backslash {n : Nat} {k : RS → Option RS} {s z : RS} (h : m (cap n (opt (chr '\\'))) k s = some z) :
    ∃ c r pv, (c = [] ∨ c = ['\\']) ∧ s.rest = c ++ r ∧ k ⟨pv, r, (n, c) :: s.caps⟩ = some z := by
  rw [m_cap] at h
  rcases m_opt_some h with h | ⟨-, h⟩
  · obtain ⟨r, e, h⟩ := m_chr_some h
    rw [e, show '\\' :: r = ['\\'] ++ r from rfl, take_used] at h
    exact ⟨_, r, _, .inr rfl, e, h⟩
  · have : s.rest.take (s.rest.length - s.rest.length) = [] := by simp
    rw [this] at h
    exact ⟨[], s.rest, s.prev, .inl rfl, rfl, h⟩

theorem backslash_rel {n : Nat} {c : Text} (hc : c = [] ∨ c = ['\\']) (pv : Option Char) (r : Text) (caps : List (Nat × Text)) :
    ∃ pv', Rel (cap n (opt (chr '\\'))) ⟨pv, c ++ r, caps⟩ ⟨pv', r, (n, c) :: caps⟩ := by
  rcases hc with rfl | rfl
  · exact ⟨pv, rel_cap_iff.mpr ⟨⟨pv, r, caps⟩, [], rel_opt_iff.mpr (.inr rfl), rfl, rfl⟩⟩
  · exact ⟨some '\\', rel_cap_iff.mpr ⟨⟨some '\\', r, caps⟩, ['\\'], rel_opt_iff.mpr (.inl (rel_chr_iff.mpr ⟨_, rfl, rfl⟩)),
      rfl, rfl⟩⟩

/-- What the replacer makes of a match. -/
def DoesLong (t : Text) (z : RS) : Prop :=
  ∃ u x, t = u ++ z.rest ∧ u ≠ [] ∧ LongAt u z.rest x ∧
    ∀ ps dest, passMacroReplacer ps ⟨u, z.caps⟩ dest = .ok (ps ++ x.entries, dest ++ x.text ps.length)

omit [Uni] in
theorem marked_ne {d b r : Text} (h : Marked d b r) : d ≠ [] := by
  cases h <;> simp

theorem m_long {pv : Option Char} {t : Text} {z : RS} (h : m inlinePassMacroRe some ⟨pv, t, []⟩ = some z) : DoesLong t z := by
  rw [inlinePassMacroRe_eq] at h
  rcases m_alt_some h with h | ⟨-, h⟩
  · rw [m_seq] at h
    rcases m_opt_some h with h | ⟨-, h⟩
    · rw [m_seq] at h
      obtain ⟨c, r1, pv1, hc, e1, h⟩ := m_backslash h
      obtain ⟨a, r2, ha, e2, h⟩ := m_attrs h
      rw [m_seq] at h
      obtain ⟨j, r3, pv3, hj, e3, h⟩ := m_backslashes h
      obtain ⟨d, b, r4, e4, hm, hr, hcaps⟩ := m_spans h
      simp only at e1 e2 e3 e4 hcaps
      subst e2 e3 e4 hr
      cases j with
      | zero =>
        rcases hc with rfl | rfl
        · obtain ⟨p, hp⟩ := withAttrs_exists d a b
          refine ⟨'[' :: a ++ [']'] ++ d ++ b ++ d, .out [] p, by rw [e1]; simp, by simp, .attrs ha hm hp, ?_⟩
          intro ps dest
          rw [hcaps]
          obtain ⟨g1, g2, g3⟩ := replacer_attrs hm ('[' :: a ++ [']'] ++ d ++ b ++ d) (List.replicate 0 '\\') a [] (.inl rfl) ps dest
          exact g3 rfl rfl p hp
        · refine ⟨'\\' :: '[' :: a ++ [']'] ++ d ++ b ++ d, _, by rw [e1]; simp, by simp, .attrsEscaped ha hm, ?_⟩
          intro ps dest
          rw [hcaps]
          obtain ⟨g1, g2, g3⟩ := replacer_attrs hm ('\\' :: '[' :: a ++ [']'] ++ d ++ b ++ d) (List.replicate 0 '\\') a ['\\'] (.inr rfl) ps dest
          exact g2 rfl (by simp)
      | succ k =>
        refine ⟨c ++ '[' :: a ++ [']'] ++ '\\' :: List.replicate k '\\' ++ d ++ b ++ d, _, ?_, by simp, .markEscaped hc ha hm (by omega), ?_⟩
        · rw [e1]; simp [List.replicate_succ]
        · intro ps dest
          rw [hcaps]
          obtain ⟨g1, g2, g3⟩ := replacer_attrs hm (c ++ '[' :: a ++ [']'] ++ '\\' :: List.replicate k '\\' ++ d ++ b ++ d) (List.replicate (k + 1) '\\') a c hc ps dest
          have := g1 (by simp)
          rw [List.length_replicate] at this
          simp only [TakenOut.entries, TakenOut.text, List.append_nil]
          exact this
    · rw [m_seq] at h
      obtain ⟨j, r3, pv3, hj, e3, h⟩ := m_backslashes h
      obtain ⟨d, b, r4, e4, hm, hr, hcaps⟩ := m_spans h
      simp only at e3 e4 hcaps
      subst e3 e4 hr
      cases j with
      | zero =>
        refine ⟨d ++ b ++ d, _, by simp, by simp [marked_ne hm], .bare hm, ?_⟩
        intro ps dest
        rw [hcaps]
        exact replacer_bare hm _ [] ps dest
      | succ k =>
        refine ⟨'\\' :: List.replicate k '\\' ++ d ++ b ++ d, _, by simp [List.replicate_succ], by simp, .bareEscaped hm (by omega), ?_⟩
        intro ps dest
        rw [hcaps]
        have := replacer_bare hm ('\\' :: List.replicate k '\\' ++ d ++ b ++ d) (List.replicate (k + 1) '\\') ps dest
        rw [if_neg (by simp), List.length_replicate] at this
        simp only [TakenOut.entries, TakenOut.text, List.append_nil]
        exact this
  · rw [m_seq] at h
    obtain ⟨c, r1, pv1, hc, e1, h⟩ := m_backslash h
    rw [m_seq] at h
    obtain ⟨r2, e2, h⟩ := m_lit_some h
    rw [m_seq] at h
    simp only at e1 e2 h
    subst e2
    have fin : ∀ (w : Option Text) (r3 : Text) (z : RS) (hw : (∃ v, w = some v ∧ StepNames v) ∨ w = none) (e : r2 = w.getD [] ++ r3)
        (pv3 : Option Char),
        m (cat [chr '[', bracketed 15, chr ']']) some ⟨pv3, r3, addGroup 14 w [(13, c)]⟩ = some z → DoesLong t z := by
      intro w r3 z hw e pv3 h
      obtain ⟨b, r4, e4, hb, rfl⟩ := m_bracketed h
      simp only at e4
      subst e e4
      have hw' : w.getD [] = [] ∨ StepNames (w.getD []) := by
        rcases hw with ⟨v, rfl, hv⟩ | rfl
        · exact .inr hv
        · exact .inl rfl
      have hne : w ≠ some [] := by
        rintro rfl
        rcases hw with ⟨v, e, ⟨x, xs, hx, ⟨hx2, _⟩, _⟩⟩ | hw
        · cases e
          exact hx2 (List.append_eq_nil_iff.mp hx.symm).1
        · cases hw
      rcases hc with rfl | rfl
      · refine ⟨"pass:".toList ++ w.getD [] ++ '[' :: b ++ [']'], _, by rw [e1]; simp, by simp, .pass hw' hb, ?_⟩
        intro ps dest
        exact replacer_pass rfl ps dest hne
      · refine ⟨'\\' :: "pass:".toList ++ w.getD [] ++ '[' :: b ++ [']'], _, by rw [e1]; simp, by simp, .passEscaped hw' hb, ?_⟩
        intro ps dest
        have := replacer_pass (u := '\\' :: "pass:".toList ++ w.getD [] ++ '[' :: b ++ [']']) (caps := (15, b) :: addGroup 14 w [(13, ['\\'])]) rfl ps dest hne
        rw [if_neg (by simp)] at this
        simp only [TakenOut.entries, TakenOut.text, List.append_nil]
        exact this
    rcases m_opt_some h with h | ⟨-, h⟩
    · rw [m_cap] at h
      obtain ⟨x, hx, hk⟩ := m_sound _ _ _ _ h
      obtain ⟨w, hw, ew, ec⟩ := rel_names hx
      simp only at ew ec hk
      subst ew
      have hk : m (cat [chr '[', bracketed 15, chr ']']) some
          ⟨x.prev, x.rest, (14, (w ++ x.rest).take ((w ++ x.rest).length - x.rest.length)) :: x.caps⟩ = some z := hk
      rw [take_used, ec] at hk
      exact fin (some w) x.rest z (.inl ⟨w, rfl, hw⟩) rfl x.prev hk
    · exact fin none r2 z (.inr rfl) rfl _ h

theorem long_rel {u b : Text} {x : TakenOut} (h : LongAt u b x) (pv : Option Char) : ∃ z, Rel inlinePassMacroRe ⟨pv, u ++ b, []⟩ z := by
  rw [inlinePassMacroRe_eq]
  have spans : ∀ {esc : Option (Text × Text)} {j : Nat} {d body : Text}, Marked d body b → j ≤ 2 →
      (∀ c a, esc = some (c, a) → (c = [] ∨ c = ['\\']) ∧ Attrs a) →
      ∃ z, Rel (seq (opt (seq (cap 1 (opt (chr '\\'))) (cat [chr '[', cap 2 (plus (cls fun c => c != '[' && c != ']')), chr ']'])))
        (seq (cap 3 (upTo (chr '\\') 2)) spansRe))
        ⟨pv, (match esc with | some (c, a) => c ++ ('[' :: a ++ ']' :: (List.replicate j '\\' ++ (d ++ body ++ d ++ b))) | none => List.replicate j '\\' ++ (d ++ body ++ d ++ b)), []⟩ z := by
    intro esc j d body hm hj he
    have tail : ∀ pv caps, ∃ z, Rel (seq (cap 3 (upTo (chr '\\') 2)) spansRe) ⟨pv, List.replicate j '\\' ++ (d ++ body ++ d ++ b), caps⟩ z := by
      intro pv caps
      obtain ⟨pv', h1⟩ := backslashes_rel (n := 3) hj pv (d ++ body ++ d ++ b) caps
      obtain ⟨z, h2⟩ := spans_rel hm pv' ((3, List.replicate j '\\') :: caps)
      exact ⟨z, rel_seq_iff.mpr ⟨_, h1, h2⟩⟩
    cases esc with
    | none =>
      obtain ⟨z, hz⟩ := tail pv []
      exact ⟨z, rel_seq_iff.mpr ⟨_, rel_opt_iff.mpr (.inr rfl), hz⟩⟩
    | some p =>
      obtain ⟨c, a⟩ := p
      obtain ⟨hc, ha⟩ := he c a rfl
      obtain ⟨pv1, h1⟩ := backslash_rel (n := 1) hc pv ('[' :: a ++ ']' :: (List.replicate j '\\' ++ (d ++ body ++ d ++ b))) []
      have h2 := attrs_rel (n := 2) ha pv1 (List.replicate j '\\' ++ (d ++ body ++ d ++ b)) [(1, c)]
      obtain ⟨z, hz⟩ := tail (some ']') [(2, a), (1, c)]
      exact ⟨z, rel_seq_iff.mpr ⟨_, rel_opt_iff.mpr (.inl (rel_seq_iff.mpr ⟨_, h1, h2⟩)), hz⟩⟩
  have passes : ∀ {c names body : Text}, (c = [] ∨ c = ['\\']) → (names = [] ∨ StepNames names) → Enclosed body →
      ∃ z, Rel (seq (cap 13 (opt (chr '\\'))) (seq (lit "pass:".toList) (seq (opt (cap 14 namesRe)) (cat [chr '[', bracketed 15, chr ']']))))
        ⟨pv, c ++ ("pass:".toList ++ (names ++ ('[' :: body ++ ']' :: b))), []⟩ z := by
    intro c names body hc hn hb
    obtain ⟨pv1, h1⟩ := backslash_rel (n := 13) hc pv ("pass:".toList ++ (names ++ ('[' :: body ++ ']' :: b))) []
    have h2 : Rel (lit "pass:".toList) ⟨pv1, "pass:".toList ++ (names ++ ('[' :: body ++ ']' :: b)), [(13, c)]⟩ _ :=
      rel_lit_iff.mpr ⟨_, rfl, rfl⟩
    rcases hn with rfl | hn
    · have h3 := bracketed_rel (n := 15) hb (prevAfter pv1 "pass:".toList) b [(13, c)]
      exact ⟨_, rel_seq_iff.mpr ⟨_, h1, rel_seq_iff.mpr ⟨_, h2, rel_seq_iff.mpr ⟨_, rel_opt_iff.mpr (.inr rfl), h3⟩⟩⟩⟩
    · obtain ⟨pv3, h3⟩ := names_rel hn (prevAfter pv1 "pass:".toList) ('[' :: body ++ ']' :: b) [(13, c)]
      have h4 := bracketed_rel (n := 15) hb pv3 b ((14, names) :: [(13, c)])
      exact ⟨_, rel_seq_iff.mpr ⟨_, h1, rel_seq_iff.mpr ⟨_, h2, rel_seq_iff.mpr ⟨_, rel_opt_iff.mpr (.inl
        (rel_cap_iff.mpr ⟨_, names, h3, rfl, rfl⟩)), h4⟩⟩⟩⟩
  cases h with
  | @bare d body _ hm =>
    obtain ⟨z, hz⟩ := spans (esc := none) (j := 0) hm (by omega) (by simp)
    exact ⟨z, rel_alt_iff.mpr (.inl hz)⟩
  | @bareEscaped d body _ k hm hk =>
    obtain ⟨z, hz⟩ := spans (esc := none) (j := k + 1) hm (by omega) (by simp)
    refine ⟨z, rel_alt_iff.mpr (.inl ?_)⟩
    simp only [List.replicate_succ] at hz
    simpa using hz
  | @attrs a d body _ p ha hm hp =>
    obtain ⟨z, hz⟩ := spans (esc := some ([], a)) (j := 0) hm (by omega) (by simpa using ha)
    refine ⟨z, rel_alt_iff.mpr (.inl ?_)⟩
    simpa using hz
  | @attrsEscaped a d body _ ha hm =>
    obtain ⟨z, hz⟩ := spans (esc := some (['\\'], a)) (j := 0) hm (by omega) (by simpa using ha)
    refine ⟨z, rel_alt_iff.mpr (.inl ?_)⟩
    simpa using hz
  | @markEscaped esc a d body _ k hc ha hm hk =>
    obtain ⟨z, hz⟩ := spans (esc := some (esc, a)) (j := k + 1) hm (by omega) (by rintro c a' e; cases e; exact ⟨hc, ha⟩)
    refine ⟨z, rel_alt_iff.mpr (.inl ?_)⟩
    simp only [List.replicate_succ] at hz
    simpa using hz
  | @pass names body _ hn hb =>
    obtain ⟨z, hz⟩ := passes (.inl rfl) hn hb
    refine ⟨z, rel_alt_iff.mpr (.inr ?_)⟩
    simpa using hz
  | @passEscaped names body _ hn hb =>
    obtain ⟨z, hz⟩ := passes (.inr rfl) hn hb
    refine ⟨z, rel_alt_iff.mpr (.inr ?_)⟩
    simpa using hz

end Adoc
