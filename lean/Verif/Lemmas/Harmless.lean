import Verif.Props.Pass
import Verif.Props.Look
import Verif.Props.Macros
import Verif.Lemmas.Total
import Verif.Spec.Harmless
/-!
# Substitutions that cannot fail

The substitutions of a text without backquotes, braces, opening brackets, plus and dollar signs and without `:/` succeed with
the HTML renderer.
-/

namespace Adoc
open Re Spec Props

/-! ### Texts without `:/` -/

/-- No colon is followed by a slash. -/
def NoScheme : Text → Prop
  | [] => True
  | c :: t => NoScheme t ∧ ¬ (c = ':' ∧ t.head? = some '/')

theorem noScheme_append {a b : Text} :
    NoScheme (a ++ b) ↔ NoScheme a ∧ NoScheme b ∧ ¬ (a.getLast? = some ':' ∧ b.head? = some '/') := by
  induction a with
  | nil => simp [NoScheme]
  | cons c t ih =>
    rw [List.cons_append, NoScheme, NoScheme, ih]
    cases t with
    | nil => simp [NoScheme]
    | cons d t =>
      simp only [List.cons_append, List.head?_cons, List.getLast?_cons_cons]
      constructor
      · rintro ⟨⟨h1, h2, h3⟩, h4⟩; exact ⟨⟨h1, h4⟩, h2, h3⟩
      · rintro ⟨⟨h1, h4⟩, h2, h3⟩; exact ⟨⟨h1, h2, h3⟩, h4⟩

theorem noScheme_of {t : Text} (h : ':' ∉ t ∨ '/' ∉ t) : NoScheme t := by
  induction t with
  | nil => trivial
  | cons c t ih =>
    refine ⟨ih (h.imp (fun h hm => h (by simp [hm])) (fun h hm => h (by simp [hm]))), ?_⟩
    rintro ⟨rfl, hh⟩
    rcases h with h | h
    · exact h (by simp)
    · exact h (List.mem_cons_of_mem _ (List.mem_of_mem_head? hh))

theorem not_scheme [Uni] {t : Text} (h : NoScheme t) : containsSub t "://".toList = false := by
  cases hc : containsSub t "://".toList with
  | false => rfl
  | true =>
    exfalso
    obtain ⟨a, b, rfl⟩ := containsSub_iff.mp hc
    rw [List.append_assoc] at h
    have := (noScheme_append.mp h).2.1
    exact this.2 ⟨rfl, rfl⟩

/-- A text in which nothing dangerous can be found by the later substitutions. -/
def Free (t : Text) : Prop := (∀ c ∈ ['[', '`', '{'], c ∉ t) ∧ NoScheme t

theorem free_append {a b : Text} :
    Free (a ++ b) ↔ Free a ∧ Free b ∧ ¬ (a.getLast? = some ':' ∧ b.head? = some '/') := by
  unfold Free
  rw [noScheme_append]
  constructor
  · rintro ⟨h, h1, h2, h3⟩
    exact ⟨⟨fun c hc hm => h c hc (by simp [hm]), h1⟩, ⟨fun c hc hm => h c hc (by simp [hm]), h2⟩, h3⟩
  · rintro ⟨⟨ha, h1⟩, ⟨hb, h2⟩, h3⟩
    refine ⟨fun c hc hm => ?_, h1, h2, h3⟩
    rcases List.mem_append.mp hm with hm | hm
    · exact ha c hc hm
    · exact hb c hc hm

/-- `x` may be put where `m` was. -/
def Fits (m x : Text) : Prop := ∀ a b, Free (a ++ (m ++ b)) → Free (a ++ (x ++ b))

theorem Fits.behind {m x : Text} (u : Text) (h : Fits m x) : Fits (u ++ m) (u ++ x) := by
  intro a b hf
  have := h (a ++ u) b (by simpa using hf)
  simpa using this

/-- A harmless text fits everywhere. -/
theorem free_between {a x b : Text} (ha : Free a) (hb : Free b) (hx : Free x) (hne : x ≠ []) (h1 : x.head? ≠ some '/')
    (h2 : x.getLast? ≠ some ':') : Free (a ++ (x ++ b)) := by
  refine free_append.mpr ⟨ha, free_append.mpr ⟨hx, hb, fun h => h2 h.1⟩, fun h => h1 ?_⟩
  cases x with
  | nil => exact absurd rfl hne
  | cons c x => exact h.2

theorem fits_wrap {u body v p q : Text} (hp : Free p) (hq : Free q) (hpn : p ≠ []) (hqn : q ≠ []) (p1 : p.head? ≠ some '/')
    (p2 : p.getLast? ≠ some ':') (q1 : q.head? ≠ some '/') (q2 : q.getLast? ≠ some ':') :
    Fits (u ++ (body ++ v)) (p ++ (body ++ q)) := by
  intro a b hf
  obtain ⟨ha, hf, _⟩ := free_append.mp hf
  obtain ⟨hf, hb, _⟩ := free_append.mp hf
  obtain ⟨_, hf, _⟩ := free_append.mp hf
  obtain ⟨hbody, _, _⟩ := free_append.mp hf
  have h1 := free_between hbody hb hq hqn q1 q2
  have h2 := free_between ha h1 hp hpn p1 p2
  simpa using h2

theorem fits_tail {c : Char} {m : Text} (hne : m ≠ []) (hm : m.head? ≠ some '/') : Fits (c :: m) m := by
  intro a b hf
  obtain ⟨ha, hf, _⟩ := free_append.mp hf
  rw [List.cons_append, ← List.singleton_append] at hf
  obtain ⟨_, hf, _⟩ := free_append.mp hf
  refine free_append.mpr ⟨ha, hf, fun h => hm ?_⟩
  cases m with
  | nil => exact absurd rfl hne
  | cons c m => exact h.2

theorem fits_plain {m x : Text} (hne : x ≠ []) (hs : '/' ∉ x) (hc : ':' ∉ x)
    (hx : ∀ c ∈ ['[', '`', '{'], c ∈ x → c ∈ m) : Fits m x := by
  intro a b hf
  obtain ⟨ha, hf, _⟩ := free_append.mp hf
  obtain ⟨hm, hb, _⟩ := free_append.mp hf
  exact free_between ha hb ⟨fun c hc h => hm.1 c hc (hx c hc h), noScheme_of (Or.inl hc)⟩ hne
    (fun h => hs (List.mem_of_mem_head? h)) (fun h => hc (List.mem_of_getLast? h))

variable [Uni]

theorem replaced_free {re : Re} {rep : Match → Res Text}
    (hf : ∀ pv t mt s x, Free t → matchAt re pv t = some (mt, s) → rep mt = .ok x → Fits mt.text x) {pv : Option Char}
    {e : Bool} {t out : Text} (h : Replaced re rep pv e t out) : ∀ a, Free (a ++ t) → Free (a ++ out) := by
  induction h with
  | done _ => exact fun a h => h
  | doneEmpty hm hr =>
    intro a h
    have h0 := (matchAt_sound hm).2.1
    have := hf _ _ _ _ _ (free_append.mp h).2.1 hm hr a [] (by simpa [(List.append_eq_nil_iff.mp h0.symm).1] using h)
    simpa using this
  | @skip pv e c cs out _ _ ih =>
    intro a h
    have := ih (a ++ [c]) (by simpa using h)
    simpa using this
  | @hit pv e t mt s x out hm _ hr _ ih =>
    intro a h
    have ht := (matchAt_sound hm).2.1
    have h1 := hf _ _ _ _ _ (free_append.mp h).2.1 hm hr a s.rest (by rw [← ht]; exact h)
    have := ih (a ++ x) (by simpa using h1)
    simpa using this
  | @hitEmpty pv c cs mt s x out hm he hr _ ih =>
    intro a h
    have h1 := hf _ _ _ _ _ (free_append.mp h).2.1 hm hr a (c :: cs) (by rw [he]; exact h)
    have := ih (a ++ x ++ [c]) (by simpa using h1)
    simpa using this

theorem looked_free {re : Re} {rep : LookReplacer}
    (hf : ∀ pv t mt s x l, Free t → matchAt re pv t = some (mt, s) → rep mt s.rest = .ok (x, l) →
      l = .continue_ ∧ Fits mt.text x) {st d : Bool} {pv : Option Char}
    {e : Bool} {t out : Text} (h : Looked re rep st d pv e t out) : ∀ a, Free (a ++ t) → Free (a ++ out) := by
  induction h with
  | finish _ => exact fun a h => h
  | replaceEnd hm hr =>
    intro a h
    obtain ⟨_, h0, _⟩ := matchAt_sound hm
    have hx := List.append_eq_nil_iff.mp h0.symm
    have := (hf _ _ _ _ _ _ (free_append.mp h).2.1 hm (by rw [hx.2]; exact hr)).2 a [] (by simpa [hx.1] using h)
    simpa using this
  | @keep d pv e c cs out _ _ ih =>
    intro a h
    have := ih (a ++ [c]) (by simpa using h)
    simpa using this
  | @replace d pv e mt s x out hm _ hr _ ih =>
    intro a h
    have h1 := (hf _ _ _ _ _ _ (free_append.mp h).2.1 hm hr).2 a s.rest h
    have := ih (a ++ x) (by simpa using h1)
    simpa using this
  | @replaceEmpty d pv c cs mt s x out hm he hr _ ih =>
    intro a h
    have hs : s.rest = c :: cs := by
      have := (matchAt_sound hm).2.1
      rw [he] at this
      exact this.symm
    have h1 := (hf _ _ _ _ _ _ (free_append.mp h).2.1 hm (by rw [hs]; exact hr)).2 a (c :: cs) (by rw [he]; exact h)
    have := ih (a ++ x ++ [c]) (by simpa using h1)
    simpa using this
  | skip hm _ hr _ _ _ _ =>
    intro a h
    have := (hf _ _ _ _ _ _ (free_append.mp h).2.1 hm hr).1
    cases this

/-! ### What an expression can match -/

/-- The characters an expression accepts somewhere. -/
def accepts : Re → Char → Bool
  | .cls p, c => p c
  | .seq a b, c => accepts a c || accepts b c
  | .alt a b, c => accepts a c || accepts b c
  | .star _ r, c => accepts r c
  | .cap _ r, c => accepts r c
  | _, _ => false

/-- Every match has a character other than a backslash. -/
def solid : Re → Bool
  | .cls p => !p '\\'
  | .seq a b => solid a || solid b
  | .alt a b => solid a && solid b
  | .cap _ r => solid r
  | _ => false

theorem rel_accepts {re : Re} {s s' : RS} (h : Rel re s s') :
    ∃ used, s.rest = used ++ s'.rest ∧ (∀ c ∈ used, accepts re c = true) ∧
      ∀ n v, (n, v) ∈ s'.caps → (n, v) ∈ s.caps ∨ ∀ c ∈ v, accepts re c = true ∧ c ∈ used := by
  induction h with
  | cls hc => exact ⟨[_], rfl, by simpa [accepts] using hc, fun n v h => Or.inl h⟩
  | seq _ _ iha ihb =>
    obtain ⟨u, h1, h2, h3⟩ := iha
    obtain ⟨v, h4, h5, h6⟩ := ihb
    refine ⟨u ++ v, by rw [h1, h4, List.append_assoc], fun c hc => ?_, fun n w hw => ?_⟩
    · rw [accepts, Bool.or_eq_true]
      exact (List.mem_append.mp hc).imp (h2 c) (h5 c)
    · rcases h6 n w hw with h | h
      · rcases h3 n w h with h | h
        · exact Or.inl h
        · exact Or.inr fun c hc => ⟨by rw [accepts, (h c hc).1]; rfl, List.mem_append_left _ (h c hc).2⟩
      · exact Or.inr fun c hc => ⟨by rw [accepts, (h c hc).1, Bool.or_true], List.mem_append_right _ (h c hc).2⟩
  | altL _ ih =>
    obtain ⟨u, h1, h2, h3⟩ := ih
    refine ⟨u, h1, fun c hc => by rw [accepts, h2 c hc]; rfl, fun n w hw => (h3 n w hw).imp id fun h c hc => ?_⟩
    exact ⟨by rw [accepts, (h c hc).1]; rfl, (h c hc).2⟩
  | altR _ ih =>
    obtain ⟨u, h1, h2, h3⟩ := ih
    refine ⟨u, h1, fun c hc => by rw [accepts, h2 c hc, Bool.or_true], fun n w hw => (h3 n w hw).imp id fun h c hc => ?_⟩
    exact ⟨by rw [accepts, (h c hc).1, Bool.or_true], (h c hc).2⟩
  | starStep _ _ _ iha ihb =>
    obtain ⟨u, h1, h2, h3⟩ := iha
    obtain ⟨v, h4, h5, h6⟩ := ihb
    refine ⟨u ++ v, by rw [h1, h4, List.append_assoc], fun c hc => ?_, fun n w hw => ?_⟩
    · exact (List.mem_append.mp hc).elim (h2 c) (h5 c)
    · rcases h6 n w hw with h | h
      · rcases h3 n w h with h | h
        · exact Or.inl h
        · exact Or.inr fun c hc => ⟨(h c hc).1, List.mem_append_left _ (h c hc).2⟩
      · exact Or.inr fun c hc => ⟨(h c hc).1, List.mem_append_right _ (h c hc).2⟩
  | @cap n r s s' _ ih =>
    obtain ⟨u, h1, h2, h3⟩ := ih
    refine ⟨u, h1, h2, fun k w hw => ?_⟩
    rcases List.mem_cons.mp hw with h | h
    · cases h
      refine Or.inr fun c hc => ?_
      rw [h1] at hc
      have hc : c ∈ u := by simpa using hc
      exact ⟨h2 c hc, hc⟩
    · exact h3 k w h
  | _ => exact ⟨[], rfl, by simp, fun n v h => Or.inl h⟩

theorem rel_solid {re : Re} {s s' : RS} (h : Rel re s s') (hs : solid re = true) :
    ∃ used, s.rest = used ++ s'.rest ∧ ∃ c ∈ used, c ≠ '\\' := by
  induction h with
  | cls hc =>
    refine ⟨[_], rfl, _, List.mem_singleton.mpr rfl, ?_⟩
    rintro rfl
    rw [solid, hc] at hs
    cases hs
  | seq ha hb iha ihb =>
    rw [solid, Bool.or_eq_true] at hs
    obtain ⟨u, h1, _⟩ := ha.consumes
    obtain ⟨v, h2, _⟩ := hb.consumes
    rcases hs with hs | hs
    · obtain ⟨u, h1, c, hc, hne⟩ := iha hs
      exact ⟨u ++ v, by rw [h1, h2, List.append_assoc], c, by simp [hc], hne⟩
    · obtain ⟨v, h2, c, hc, hne⟩ := ihb hs
      exact ⟨u ++ v, by rw [h1, h2, List.append_assoc], c, by simp [hc], hne⟩
  | altL _ ih => rw [solid, Bool.and_eq_true] at hs; exact ih hs.1
  | altR _ ih => rw [solid, Bool.and_eq_true] at hs; exact ih hs.2
  | cap _ ih => rw [solid] at hs; exact ih hs
  | _ => cases hs

theorem match_accepts {re : Re} {pv : Option Char} {t : Text} {mt : Match} {s : RS} (h : matchAt re pv t = some (mt, s)) :
    (∀ c ∈ mt.text, accepts re c = true) ∧ ∀ n v, n ≠ 0 → mt.get n = some v → ∀ c ∈ v, accepts re c = true ∧ c ∈ mt.text := by
  obtain ⟨hr, ht, _, hc⟩ := matchAt_sound h
  obtain ⟨u, h1, h2, h3⟩ := rel_accepts hr
  have hu : u = mt.text := by
    rw [ht] at h1
    exact (List.append_cancel_right h1).symm
  subst hu
  refine ⟨h2, fun n v hn hv => ?_⟩
  rcases h3 n v (by rw [← hc]; exact mem_of_get hn hv) with h | h
  · cases h
  · exact h

theorem match_solid {re : Re} {pv : Option Char} {t : Text} {mt : Match} {s : RS} (h : matchAt re pv t = some (mt, s))
    (hs : solid re = true) : ∃ c ∈ mt.text, c ≠ '\\' := by
  obtain ⟨hr, ht, _, hc⟩ := matchAt_sound h
  obtain ⟨u, h1, h2⟩ := rel_solid hr hs
  rw [ht] at h1
  rw [List.append_cancel_right h1]
  exact h2

/-! ### The steps -/

/-- A text that fits everywhere. -/
def Good (p : Text) : Prop := (∀ c ∈ ['[', '`', '{', ':'], c ∉ p) ∧ p ≠ [] ∧ p.head? ≠ some '/'

instance (p : Text) : Decidable (Good p) := by unfold Good; infer_instance

omit [Uni] in
theorem Good.free {p : Text} (h : Good p) : Free p :=
  ⟨fun c hc => h.1 c (by simp only [List.mem_cons, List.not_mem_nil, or_false] at hc ⊢; rcases hc with h | h | h <;> simp [h]),
    noScheme_of (Or.inl (h.1 ':' (by simp)))⟩

omit [Uni] in
theorem Good.last {p : Text} (h : Good p) : p.getLast? ≠ some ':' :=
  fun hl => h.1 ':' (by simp) (List.mem_of_getLast? hl)

theorem special_free {t : Text} (ht : Free t) : ∃ out, applySpecialCharacters Html.renderer t = .ok out ∧ Free out := by
  refine ⟨_, C29_entities t, ?_⟩
  have key : ∀ t a, Free (a ++ t) → Free (a ++ t.flatMap entity) := by
    intro t
    induction t with
    | nil => exact fun a h => h
    | cons c t ih =>
      intro a h
      rw [List.flatMap_cons]
      have hc : entity c = [c] ∨ Good (entity c) := by
        unfold entity
        split
        · right; decide
        split
        · right; decide
        split
        · right; decide
        · left; rfl
      rcases hc with hc | hc
      · rw [hc]
        have := ih (a ++ [c]) (by simpa using h)
        simpa using this
      · obtain ⟨ha, h, _⟩ := free_append.mp h
        rw [← List.singleton_append] at h
        have hf := ih (a ++ entity c) (by
          have := free_between ha (free_append.mp h).2.1 hc.free hc.2.1 hc.2.2 hc.last
          simpa using this)
        simpa using hf
  simpa using key t [] (by simpa using ht)

/-! ### Quotes -/

theorem keeps_caps {r : Re} {s s' : RS} (h : Rel r s s') (hs : Re.sets r = []) : s'.caps = s.caps := by
  induction h with
  | seq _ _ iha ihb =>
    simp only [Re.sets, List.append_eq_nil_iff] at hs
    rw [ihb hs.2, iha hs.1]
  | altL _ ih => simp only [Re.sets, List.append_eq_nil_iff] at hs; exact ih hs.1
  | altR _ ih => simp only [Re.sets, List.append_eq_nil_iff] at hs; exact ih hs.2
  | starStep _ _ _ iha ihb => rw [ihb hs, iha hs]
  | cap _ ih => simp [Re.sets] at hs
  | _ => rfl

theorem attrs_none {n : Nat} {s s' : RS} (h : Rel (optAttrs n) s s') (hb : '[' ∉ s.rest) : s' = s := by
  unfold optAttrs at h
  rcases rel_opt_iff.mp h with h | h
  · exfalso
    simp only [cat] at h
    obtain ⟨x, h1, _⟩ := rel_seq_iff.mp h
    obtain ⟨r, h1, _⟩ := rel_chr_iff.mp h1
    exact hb (by rw [h1]; simp)
  · exact h

theorem unconstrained_parts {mark : Text} {body : Re} (hs : Re.sets body = []) {pv : Option Char} {t : Text} {mt : Match} {s : RS}
    (h : matchAt (cat [opt (chr '\\'), optAttrs 1, lit mark, cap 2 body, lit mark]) pv t = some (mt, s)) (hb : '[' ∉ t) :
    mt.get 1 = none ∧ ∃ v, mt.get 2 = some v ∧
      (mt.text = mark ++ (v ++ mark) ∨ mt.text = '\\' :: mark ++ (v ++ mark)) := by
  obtain ⟨hr, ht, _, hc⟩ := matchAt_sound h
  simp only [cat] at hr
  obtain ⟨x1, r1, hr⟩ := rel_seq_iff.mp hr
  obtain ⟨x2, r2, hr⟩ := rel_seq_iff.mp hr
  obtain ⟨x3, r3, hr⟩ := rel_seq_iff.mp hr
  obtain ⟨x4, r4, r5⟩ := rel_seq_iff.mp hr
  have e1 : x1.caps = [] ∧ (t = x1.rest ∨ t = '\\' :: x1.rest) := by
    rcases rel_opt_iff.mp r1 with r1 | r1
    · obtain ⟨y, e, rfl⟩ := rel_chr_iff.mp r1
      exact ⟨rfl, Or.inr e⟩
    · rw [r1]; exact ⟨rfl, Or.inl rfl⟩
  have e2 := attrs_none r2 (fun h => hb (by rcases e1.2 with e | e <;> rw [e] <;> simp [h]))
  subst e2
  obtain ⟨y3, e3, rfl⟩ := rel_lit_iff.mp r3
  obtain ⟨z, v, r6, e4, rfl⟩ := rel_cap_iff.mp r4
  obtain ⟨y5, e5, rfl⟩ := rel_lit_iff.mp r5
  have hz : z.caps = [] := by rw [keeps_caps r6 hs]; exact e1.1
  simp only at hc e3 e4 e5 ht
  rw [hz] at hc
  refine ⟨by unfold Match.get; rw [hc]; rfl, v, by unfold Match.get; rw [hc]; rfl, ?_⟩
  rcases e1.2 with e | e
  · left
    rw [e, e3, e4, e5] at ht
    have : (mark ++ (v ++ mark)) ++ y5 = mt.text ++ y5 := by rw [← ht]; simp
    exact (List.append_cancel_right this).symm
  · right
    rw [e, e3, e4, e5] at ht
    have : ('\\' :: mark ++ (v ++ mark)) ++ y5 = mt.text ++ y5 := by rw [← ht]; simp
    exact (List.append_cancel_right this).symm

theorem constrained_parts {ex : List Char} {op cl : Text} {pv : Option Char} {t : Text} {mt : Match} {s : RS}
    (h : matchAt (constrainedRe ex op cl) pv t = some (mt, s)) (hb : '[' ∉ t) :
    mt.get 2 = none ∧ ∃ g v, mt.get 1 = some g ∧ mt.get 3 = some v ∧ (g = [] ∨ ∃ c, g = [c]) ∧
      mt.text = g ++ (op ++ (v ++ cl)) := by
  obtain ⟨hr, ht, _, hc⟩ := matchAt_sound h
  unfold constrainedRe at hr
  simp only [cat] at hr
  obtain ⟨x1, r1, hr⟩ := rel_seq_iff.mp hr
  obtain ⟨x2, r2, hr⟩ := rel_seq_iff.mp hr
  obtain ⟨x3, r3, hr⟩ := rel_seq_iff.mp hr
  obtain ⟨x4, r4, hr⟩ := rel_seq_iff.mp hr
  obtain ⟨x5, r5, r6⟩ := rel_seq_iff.mp hr
  have e6 : s = x5 := by cases r6 with | endHalf => rfl
  subst e6
  obtain ⟨z1, g, q1, e1, rfl⟩ := rel_cap_iff.mp r1
  have hz1 : z1.caps = [] ∧ (g = [] ∨ ∃ c, g = [c]) := by
    rcases rel_alt_iff.mp q1 with q1 | q1
    · obtain ⟨_, rfl⟩ := rel_bot_iff.mp q1
      exact ⟨rfl, Or.inl (by simpa using e1)⟩
    · obtain ⟨c, r, e, _, rfl⟩ := rel_cls_iff.mp q1
      refine ⟨rfl, Or.inr ⟨c, ?_⟩⟩
      rw [e, ← List.singleton_append] at e1
      exact (List.append_cancel_right e1).symm
  have e2 := attrs_none r2 (fun h => hb (by rw [show t = _ from e1]; simp only at h; simp [h]))
  subst e2
  obtain ⟨y3, e3, rfl⟩ := rel_lit_iff.mp r3
  obtain ⟨z, v, r7, e4, rfl⟩ := rel_cap_iff.mp r4
  obtain ⟨y5, e5, rfl⟩ := rel_lit_iff.mp r5
  have hz : z.caps = (1, g) :: z1.caps := by
    exact keeps_caps r7 rfl
  simp only at hc e1 e3 e4 e5 ht
  rw [hz, hz1.1] at hc
  refine ⟨by unfold Match.get; rw [hc]; rfl, g, v, by unfold Match.get; rw [hc]; rfl, by unfold Match.get; rw [hc]; rfl, hz1.2, ?_⟩
  rw [e1, e3, e4, e5] at ht
  have : (g ++ (op ++ (v ++ cl))) ++ y5 = mt.text ++ y5 := by rw [← ht]; simp
  exact (List.append_cancel_right this).symm

theorem quoted_good (ty : QuoteType) (sc : QuoteScope) (body : Text) (hu : ty ≠ .unquoted) :
    ∃ p q, Html.renderer.quoted ty sc none none body = p ++ (body ++ q) ∧ Good p ∧ Good q := by
  have hw : ∀ tag : Text, Good ('<' :: tag ++ ['>']) → Good ("</".toList ++ tag ++ ['>']) →
      ∃ p q, Html.wrap tag none [] body = p ++ (body ++ q) ∧ Good p ∧ Good q := by
    intro tag h1 h2
    refine ⟨_, _, ?_, h1, h2⟩
    unfold Html.wrap
    simp
  cases ty with
  | unquoted => exact absurd rfl hu
  | doubleQuote => exact ⟨"&#8220;".toList, "&#8221;".toList, List.append_assoc _ _ _, by decide, by decide⟩
  | singleQuote => exact ⟨"&#8216;".toList, "&#8217;".toList, List.append_assoc _ _ _, by decide, by decide⟩
  | mark => exact hw _ (by decide) (by decide)
  | _ => exact hw _ (by decide) (by decide)

theorem unconstrained_fits {e : Env} (he : e.r = Html.renderer) {ty : QuoteType} (hu : ty ≠ .unquoted) {k : Char} {ks : Text}
    (hk : k ≠ '\\' ∧ k ≠ '/') {body : Re} (hs : Re.sets body = []) {pv : Option Char} {t : Text} {mt : Match} {s : RS} {x : Text}
    {l : Look} (ht : Free t)
    (h : matchAt (cat [opt (chr '\\'), optAttrs 1, lit (k :: ks), cap 2 body, lit (k :: ks)]) pv t = some (mt, s))
    (hr : quoteReplacer e ty .unconstrained mt s.rest = .ok (x, l)) : l = .continue_ ∧ Fits mt.text x := by
  obtain ⟨h1, v, h2, h3⟩ := unconstrained_parts hs h (ht.1 '[' (by simp))
  unfold quoteReplacer at hr
  rw [if_neg (by rintro ⟨_, h, _⟩; cases h)] at hr
  rcases h3 with h3 | h3
  · rw [if_neg (by rw [h3]; simp [startsWith, hk.1, Ne.symm hk.1])] at hr
    have h4 : mt.at! 2 = .ok v := by unfold Match.at!; rw [h2]; rfl
    simp only [h1, quoteAttrs, h4, bind, Except.bind, Except.ok.injEq, Prod.mk.injEq, he, Option.bind_none] at hr
    obtain ⟨rfl, rfl⟩ := hr
    obtain ⟨p, q, hq, gp, gq⟩ := quoted_good ty .unconstrained v hu
    rw [hq, h3]
    exact ⟨rfl, fits_wrap gp.free gq.free gp.2.1 gq.2.1 gp.2.2 gp.last gq.2.2 gq.last⟩
  · rw [if_pos (by rw [h3]; simp [startsWith])] at hr
    simp only [Except.ok.injEq, Prod.mk.injEq] at hr
    obtain ⟨rfl, rfl⟩ := hr
    rw [h3]
    exact ⟨rfl, fits_tail (by simp) (by simp [hk.2])⟩

theorem constrained_fits {e : Env} (he : e.r = Html.renderer) {ty : QuoteType} (hu : ty ≠ .unquoted) (hm : ty ≠ .monospaced)
    {ex : List Char} {k : Char} {ks cl : Text} (hk : k ≠ '\\' ∧ k ≠ '/') {pv : Option Char} {t : Text} {mt : Match} {s : RS}
    {x : Text} {l : Look} (ht : Free t) (h : matchAt (constrainedRe ex (k :: ks) cl) pv t = some (mt, s))
    (hr : quoteReplacer e ty .constrained mt s.rest = .ok (x, l)) : l = .continue_ ∧ Fits mt.text x := by
  obtain ⟨h2, g, v, h1, h3, hg, h4⟩ := constrained_parts h (ht.1 '[' (by simp))
  unfold quoteReplacer at hr
  rw [if_neg (by rintro ⟨h, _⟩; exact hm h)] at hr
  by_cases hb : startsWith mt.text ['\\'] = true
  · rw [if_pos hb, h2] at hr
    simp only [Except.ok.injEq, Prod.mk.injEq] at hr
    obtain ⟨rfl, rfl⟩ := hr
    refine ⟨rfl, ?_⟩
    rcases hg with rfl | ⟨c, rfl⟩
    · rw [h4] at hb
      simp [startsWith, hk.1, Ne.symm hk.1] at hb
    · rw [h4]
      exact fits_tail (by simp) (by simp [hk.2])
  · rw [if_neg hb] at hr
    have h5 : mt.at! 3 = .ok v := by unfold Match.at!; rw [h3]; rfl
    simp only [h2, quoteAttrs, h5, bind, Except.bind, Except.ok.injEq, Prod.mk.injEq, he, Option.bind_none, h1,
      Option.getD_some] at hr
    obtain ⟨rfl, rfl⟩ := hr
    obtain ⟨p, q, hq, gp, gq⟩ := quoted_good ty .constrained v hu
    rw [hq, h4]
    exact ⟨rfl, (fits_wrap gp.free gq.free gp.2.1 gq.2.1 gp.2.2 gp.last gq.2.2 gq.last).behind g⟩

theorem backquote_never {ex : List Char} {op cl : Text} (ho : '`' ∈ op) {pv : Option Char} {t : Text} {mt : Match} {s : RS}
    (ht : Free t) (h : matchAt (constrainedRe ex op cl) pv t = some (mt, s)) : False := by
  obtain ⟨_, g, v, _, _, _, h4⟩ := constrained_parts h (ht.1 '[' (by simp))
  have := (matchAt_sound h).2.1
  refine ht.1 '`' (by simp) ?_
  rw [this, h4]
  simp [ho]

theorem quote_fits {e : Env} (he : e.r = Html.renderer) {q : QuoteSub} (hq : q ∈ quoteSubs) {pv : Option Char} {t : Text}
    {mt : Match} {s : RS} {x : Text} {l : Look} (ht : Free t) (h : matchAt q.pattern pv t = some (mt, s))
    (hr : quoteReplacer e q.type q.scope mt s.rest = .ok (x, l)) : l = .continue_ ∧ Fits mt.text x := by
  unfold quoteSubs at hq
  simp only [List.mem_cons, List.not_mem_nil, or_false] at hq
  rcases hq with rfl | rfl | rfl | rfl | rfl | rfl | rfl | rfl | rfl | rfl | rfl | rfl
  · exact unconstrained_fits he (ty := .strong) (k := '*') (ks := ['*']) nofun (by decide) rfl ht h hr
  · exact constrained_fits he (ty := .strong) (k := '*') (ks := []) (cl := ['*']) nofun nofun (by decide) ht h hr
  · exact (backquote_never (op := ['"', '`']) (by decide) ht h).elim
  · exact (backquote_never (op := ['\'', '`']) (by decide) ht h).elim
  · exact unconstrained_fits he (ty := .monospaced) (k := '`') (ks := ['`']) nofun (by decide) rfl ht h hr
  · exact (backquote_never (op := ['`']) (by decide) ht h).elim
  · exact unconstrained_fits he (ty := .emphasis) (k := '_') (ks := ['_']) nofun (by decide) rfl ht h hr
  · exact constrained_fits he (ty := .emphasis) (k := '_') (ks := []) (cl := ['_']) nofun nofun (by decide) ht h hr
  · exact unconstrained_fits he (ty := .mark) (k := '#') (ks := ['#']) nofun (by decide) rfl ht h hr
  · exact constrained_fits he (ty := .mark) (k := '#') (ks := []) (cl := ['#']) nofun nofun (by decide) ht h hr
  · exact unconstrained_fits he (ty := .superscript) (k := '^') (ks := []) nofun (by decide) rfl ht h hr
  · exact unconstrained_fits he (ty := .subscript) (k := '~') (ks := []) nofun (by decide) rfl ht h hr

theorem quoteSubs_free (e : Env) (he : e.r = Html.renderer) : ∀ (qs : List QuoteSub), (∀ q ∈ qs, q ∈ quoteSubs) → ∀ {t : Text},
    Free t → ∃ out, applyQuoteSubs e qs t = .ok out ∧ Free out
  | [], _, t, ht => ⟨t, rfl, ht⟩
  | q :: qs, hq, t, ht => by
    obtain ⟨out, h1, h2⟩ := C32_quotes_partial e (hq q (by simp)) t fun _ _ a c b hab =>
      absurd (by rw [hab]; simp : '`' ∈ t) (ht.1 '`' (by simp))
    have hf : Free out := by
      have := looked_free (fun pv t mt s x l ht h hr => quote_fits he (hq q (by simp)) ht h hr) h2 [] (by simpa using ht)
      simpa using this
    obtain ⟨out', h3, h4⟩ := quoteSubs_free e he qs (fun q hm => hq q (by simp [hm])) hf
    refine ⟨out', ?_, h4⟩
    unfold lookResult at h1
    unfold applyQuoteSubs
    cases hx : replaceWithLookahead q.pattern t (quoteReplacer e q.type q.scope) with
    | error y => rw [hx] at h1; cases h1
    | ok r =>
      rw [hx] at h1
      simp only [Except.map, Except.ok.injEq] at h1
      simp only [bind, Except.bind, h1]
      exact h3

theorem quotes_free (e : Env) (he : e.r = Html.renderer) {t : Text} (ht : Free t) : ∃ out, applyQuotes e t = .ok out ∧ Free out := by
  unfold applyQuotes
  split
  · exact ⟨t, rfl, ht⟩
  · exact quoteSubs_free e he _ (fun _ h => h) ht

/-! ### Character replacements -/

theorem replacement_facts [LawfulUni] : ∀ q ∈ replacements, accepts q.2 '/' = false ∧ accepts q.2 ':' = false ∧ solid q.2 = true := by
  have w : ∀ c : Char, c.toNat < 128 → Uni.isWord c = (isAsciiAlnum c || c == '_') := LawfulUni.word
  have n : ∀ c : Char, c.toNat < 160 → Uni.isNd c = isAsciiDigit c := LawfulUni.nd
  have w1 : Uni.isWord '/' = false := by rw [w _ (by decide)]; decide
  have w2 : Uni.isWord ':' = false := by rw [w _ (by decide)]; decide
  have w3 : Uni.isWord '\\' = false := by rw [w _ (by decide)]; decide
  have n1 : Uni.isNd '/' = false := by rw [n _ (by decide)]; decide
  have n2 : Uni.isNd ':' = false := by rw [n _ (by decide)]; decide
  have n3 : Uni.isNd '\\' = false := by rw [n _ (by decide)]; decide
  unfold replacements
  simp only [List.forall_mem_cons, List.not_mem_nil, false_imp_iff, implies_true, and_true]
  simp [accepts, solid, cat, oneOf, opt, lit, chr, plus, upTo, digitRe, hexRe, alphaRe, w1, w2, w3, n1, n2, n3,
    isAsciiAlpha, isAsciiAlnum, isAsciiDigit]

/-- Markup that can stand for any match. -/
def Mild (p : Text) : Prop := (∀ c ∈ ['[', '`', '{', ':', '/'], c ∉ p) ∧ p ≠ []

instance (p : Text) : Decidable (Mild p) := by unfold Mild; infer_instance

theorem charRepl_mild (ty : CharRepl) (h : ∀ n, ty ≠ .characterReference n) : Mild (Html.renderer.charRepl ty) := by
  cases ty with
  | characterReference n => exact absurd rfl (h n)
  | copyright => exact (by decide : Mild (Html.charRepl .copyright))
  | registered => exact (by decide : Mild (Html.charRepl .registered))
  | trademark => exact (by decide : Mild (Html.charRepl .trademark))
  | emDashSurroundedBySpaces => exact (by decide : Mild (Html.charRepl .emDashSurroundedBySpaces))
  | emDashWithoutSpace => exact (by decide : Mild (Html.charRepl .emDashWithoutSpace))
  | ellipsis => exact (by decide : Mild (Html.charRepl .ellipsis))
  | typographicApostrophe => exact (by decide : Mild (Html.charRepl .typographicApostrophe))
  | singleRightArrow => exact (by decide : Mild (Html.charRepl .singleRightArrow))
  | doubleRightArrow => exact (by decide : Mild (Html.charRepl .doubleRightArrow))
  | singleLeftArrow => exact (by decide : Mild (Html.charRepl .singleLeftArrow))
  | doubleLeftArrow => exact (by decide : Mild (Html.charRepl .doubleLeftArrow))

omit [Uni] in
theorem fits_mild {m a p b : Text} (hp : Mild p) (ha : '/' ∉ a ∧ ':' ∉ a ∧ ∀ c ∈ a, c ∈ m) (hb : '/' ∉ b ∧ ':' ∉ b ∧ ∀ c ∈ b, c ∈ m) :
    Fits m (a ++ p ++ b) := by
  obtain ⟨h1, h2⟩ := hp
  refine fits_plain (by simp [h2]) ?_ ?_ fun c hc hm => ?_
  · simp only [List.mem_append, not_or]
    exact ⟨⟨ha.1, h1 '/' (by simp)⟩, hb.1⟩
  · simp only [List.mem_append, not_or]
    exact ⟨⟨ha.2.1, h1 ':' (by simp)⟩, hb.2.1⟩
  · rcases List.mem_append.mp hm with hm | hm
    · rcases List.mem_append.mp hm with hm | hm
      · exact ha.2.2 c hm
      · exact absurd hm (h1 c (by
          simp only [List.mem_cons, List.not_mem_nil, or_false] at hc ⊢
          rcases hc with h | h | h <;> simp [h]))
    · exact hb.2.2 c hm

omit [Uni] in
theorem replaceChar_nil_mem {c d : Char} {t : Text} : d ∈ replaceChar c [] t ↔ d ∈ t ∧ d ≠ c := by
  unfold replaceChar
  rw [List.mem_flatMap]
  constructor
  · rintro ⟨x, hx, hd⟩
    split at hd
    · cases hd
    · rename_i hne
      have := List.mem_singleton.mp hd
      subst this
      exact ⟨hx, by simpa using hne⟩
  · rintro ⟨h1, h2⟩
    exact ⟨d, h1, by simp [h2]⟩

theorem charReplacer_fits [LawfulUni] {q : CharRepl × Re} (hq : q ∈ replacements) {pv : Option Char} {t : Text} {mt : Match} {s : RS}
    (h : matchAt q.2 pv t = some (mt, s)) : ∃ x, charReplacer Html.renderer q.1 mt = .ok x ∧ Fits mt.text x := by
  obtain ⟨f1, f2, f3⟩ := replacement_facts q hq
  obtain ⟨a1, a2⟩ := match_accepts h
  have m1 : '/' ∉ mt.text := fun hm => by rw [a1 _ hm] at f1; cases f1
  have m2 : ':' ∉ mt.text := fun hm => by rw [a1 _ hm] at f2; cases f2
  have grp : ∀ n v, n ≠ 0 → mt.get n = some v → '/' ∉ v ∧ ':' ∉ v ∧ ∀ c ∈ v, c ∈ mt.text := by
    intro n v hn hv
    have := a2 n v hn hv
    exact ⟨fun hm => m1 (this _ hm).2, fun hm => m2 (this _ hm).2, fun c hc => (this c hc).2⟩
  unfold charReplacer
  split
  · refine ⟨_, rfl, ?_⟩
    refine fits_plain ?_ (fun hm => m1 (replaceChar_nil_mem.mp hm).1) (fun hm => m2 (replaceChar_nil_mem.mp hm).1)
      (fun c _ hm => (replaceChar_nil_mem.mp hm).1)
    obtain ⟨c, hc, hne⟩ := match_solid h f3
    exact List.ne_nil_of_mem (replaceChar_nil_mem.mpr ⟨hc, hne⟩)
  · have nil : '/' ∉ ([] : Text) ∧ ':' ∉ ([] : Text) ∧ ∀ c ∈ ([] : Text), c ∈ mt.text := by simp
    have opt : ∀ n, n ≠ 0 → '/' ∉ (mt.get n).getD [] ∧ ':' ∉ (mt.get n).getD [] ∧ ∀ c ∈ (mt.get n).getD [], c ∈ mt.text := by
      intro n hn
      cases hv : mt.get n with
      | none => exact nil
      | some v => exact grp n v hn hv
    have num : ∀ {n v}, n ≠ 0 → mt.at! n = .ok v → '/' ∉ v ∧ ':' ∉ v ∧ ∀ c ∈ v, c ∈ mt.text := by
      intro n v hn hv
      unfold Match.at! at hv
      cases hg : mt.get n with
      | none => rw [hg] at hv; cases hv
      | some w =>
        rw [hg] at hv
        cases hv
        exact grp n _ hn hg
    simp only [replacements, List.mem_cons, List.not_mem_nil, or_false] at hq
    rcases hq with rfl | rfl | rfl | rfl | rfl | rfl | rfl | rfl | rfl | rfl | rfl | rfl | rfl
    case inr.inr.inr.inr.inl =>
      obtain ⟨v, hv⟩ := matchAt_at h 1 rfl
      refine ⟨v ++ Html.renderer.charRepl .emDashWithoutSpace, by simp only [hv, bind, Except.bind], ?_⟩
      have := fits_mild (m := mt.text) (charRepl_mild .emDashWithoutSpace nofun) (num (by simp) hv) nil
      rwa [List.append_nil] at this
    case inr.inr.inr.inr.inr.inr.inl =>
      exact ⟨_, rfl, fits_mild (charRepl_mild .typographicApostrophe nofun) (opt 1 (by simp)) (opt 2 (by simp))⟩
    case inr.inr.inr.inr.inr.inr.inr.inl =>
      exact ⟨_, rfl, fits_mild (charRepl_mild .typographicApostrophe nofun) (opt 1 (by simp)) (opt 2 (by simp))⟩
    case inr.inr.inr.inr.inr.inr.inr.inr.inr.inr.inr.inr =>
      obtain ⟨v, hv⟩ := matchAt_at h 1 rfl
      refine ⟨Html.renderer.charRepl (.characterReference v), by simp only [hv, bind, Except.bind], ?_⟩
      obtain ⟨g1, g2, g3⟩ := num (by simp) hv
      show Fits mt.text ('&' :: v ++ [';'])
      refine fits_plain (by simp) (by simp [g1]) (by simp [g2]) fun c hc hm => ?_
      simp only [List.cons_append, List.mem_cons, List.mem_append, List.not_mem_nil, or_false] at hc hm
      rcases hm with rfl | hm | rfl
      · rcases hc with h | h | h <;> cases h
      · exact g3 c hm
      · rcases hc with h | h | h <;> cases h
    all_goals
      refine ⟨_, rfl, ?_⟩
      simp only
      rw [← List.append_nil (Html.renderer.charRepl _), ← List.nil_append (Html.renderer.charRepl _)]
      exact fits_mild (charRepl_mild _ nofun) nil nil

theorem replacementsLoop_free [LawfulUni] : ∀ (rs : List (CharRepl × Re)), (∀ q ∈ rs, q ∈ replacements) → ∀ {t : Text},
    Free t → ∃ out, applyReplacements Html.renderer rs t = .ok out ∧ Free out
  | [], _, t, ht => ⟨t, rfl, ht⟩
  | (ty, re) :: rs, hq, t, ht => by
    obtain ⟨out, h1⟩ := replaceAll_total (re := re) (rep := charReplacer Html.renderer ty) (fun pv t mt s hm => by
      obtain ⟨x, hx, _⟩ := charReplacer_fits (hq (ty, re) (by simp)) hm
      exact ⟨x, hx⟩) t
    have hf : Free out := by
      have := replaced_free (fun pv t mt s x _ hm hr => by
        obtain ⟨y, hy, hf⟩ := charReplacer_fits (hq (ty, re) (by simp)) hm
        simp only at hy
        rw [hr] at hy
        cases hy
        exact hf) (replaceAll_ok h1) [] (by simpa using ht)
      simpa using this
    obtain ⟨out', h3, h4⟩ := replacementsLoop_free rs (fun q hm => hq q (by simp [hm])) hf
    refine ⟨out', ?_, h4⟩
    unfold applyReplacements
    simp only [h1, bind, Except.bind]
    exact h3

theorem replacements_free [LawfulUni] {t : Text} (ht : Free t) :
    ∃ out, applyCharacterReplacements Html.renderer t = .ok out ∧ Free out := by
  unfold applyCharacterReplacements
  split
  · exact ⟨t, rfl, ht⟩
  · exact replacementsLoop_free _ (fun _ h => h) ht

theorem post_total (e : Env) (al : Option Attrlist) (t : Text) : ∃ out, applyPostReplacements e al t = .ok out := by
  by_cases hb : HardBreaks e al
  · rw [(post_eq e al t).1 hb]
    split
    · exact ⟨_, rfl⟩
    · exact ⟨_, rfl⟩
  · rw [(post_eq e al t).2 hb]
    split
    · exact ⟨_, rfl⟩
    · refine replaceAll_total (fun pv t mt s h => ?_) t
      obtain ⟨v, hv⟩ := matchAt_at h 1 rfl
      unfold postReplacer
      simp only [hv, bind, Except.bind]
      exact ⟨_, rfl⟩

theorem macros_free (e : Env) {t : Text} (ht : Free t) : ∃ out, applyMacros e t = .ok out := by
  have h1 : t.contains '[' = false := by simpa using ht.1 '[' (by simp)
  rw [applyMacros_eq, h1, not_scheme ht.2]
  simp only [Bool.false_and, Bool.and_false, Bool.or_self, when, Bool.false_eq_true, if_false, Except.bind]
  generalize t.contains '@' = c
  cases c with
  | false => exact ⟨_, rfl⟩
  | true =>
    obtain ⟨x, hx⟩ := emails_ok e t
    simp only [if_true, hx]
    exact ⟨_, rfl⟩

theorem attributes_free (s : AttrStore) {t : Text} (ht : '{' ∉ t) : applyAttributes s t = .ok t := by
  refine C30_unknown_kept _ fun pre name post h => ?_
  exact absurd (by rw [h]; simp) ht

/-! ### Groups -/

theorem replLoop_none {σ : Type} {re : Re} {rep : Replacer σ} : ∀ (n : Nat) (st : σ) (pv : Option Char) (t : Text) (b : Bool)
    (dest : Text), t.length < n → (∀ a u, t = a ++ u → ∀ pv, matchAt re pv u = none) →
    replLoop re rep n st pv t b dest = .ok (st, dest ++ t)
  | 0, _, _, _, _, _, h, _ => absurd h (by omega)
  | n + 1, st, pv, t, b, dest, hl, h => by
    unfold replLoop
    rw [h [] t rfl pv]
    cases t with
    | nil => simp
    | cons c cs =>
      have := replLoop_none (re := re) (rep := rep) n st (some c) cs true (dest ++ [c]) (by simpa using hl)
        (fun a u e => h (c :: a) u (by rw [e]; rfl))
      simpa using this

theorem replaceAllS_none {σ : Type} {re : Re} {rep : Replacer σ} {st : σ} {t : Text}
    (h : ∀ a u, t = a ++ u → ∀ pv, matchAt re pv u = none) : replaceAllS re rep st t = .ok (st, t) := by
  unfold replaceAllS
  rw [replLoop_none _ _ _ _ _ _ (Nat.lt_succ_self _) h]
  rfl

theorem passMacro_never {t : Text} (h1 : '[' ∉ t) (h2 : '+' ∉ t) (h3 : '$' ∉ t) (pv : Option Char) :
    matchAt inlinePassMacroRe pv t = none := by
  refine matchAt_none.mpr fun s hr => ?_
  unfold inlinePassMacroRe at hr
  rcases rel_alt_iff.mp hr with hr | hr
  · simp only [cat] at hr
    obtain ⟨x1, r1, hr⟩ := rel_seq_iff.mp hr
    obtain ⟨x2, r2, hr⟩ := rel_seq_iff.mp hr
    obtain ⟨u1, e1, _⟩ := r1.consumes
    obtain ⟨u2, e2, _⟩ := r2.consumes
    have key : ∀ d n, Rel (passSpanRe d n) x2 s → ∀ c ∈ d, c ∈ t := by
      intro d n h c hc
      unfold passSpanRe at h
      simp only [cat] at h
      obtain ⟨x3, r3, _⟩ := rel_seq_iff.mp h
      obtain ⟨z, v, r3, _, _⟩ := rel_cap_iff.mp r3
      obtain ⟨r, e3, _⟩ := rel_lit_iff.mp r3
      rw [show t = _ from e1, e2, e3]
      simp [hc]
    simp only [oneOf] at hr
    rcases rel_alt_iff.mp hr with hr | hr
    · exact h2 (key _ _ hr _ (by decide))
    rcases rel_alt_iff.mp hr with hr | hr
    · exact h2 (key _ _ hr _ (by decide))
    · exact h3 (key _ _ hr _ (by decide))
  · simp only [cat] at hr
    obtain ⟨x1, r1, hr⟩ := rel_seq_iff.mp hr
    obtain ⟨x2, r2, hr⟩ := rel_seq_iff.mp hr
    obtain ⟨x3, r3, hr⟩ := rel_seq_iff.mp hr
    obtain ⟨x4, r4, hr⟩ := rel_seq_iff.mp hr
    obtain ⟨u1, e1, _⟩ := r1.consumes
    obtain ⟨u2, e2, _⟩ := r2.consumes
    obtain ⟨u3, e3, _⟩ := r3.consumes
    obtain ⟨r, e4, _⟩ := rel_chr_iff.mp r4
    refine h1 ?_
    rw [show t = _ from e1, e2, e3, e4]
    simp

theorem inlinePass_never {t : Text} (h1 : '[' ∉ t) (h2 : '+' ∉ t) (pv : Option Char) : matchAt inlinePassRe pv t = none := by
  refine matchAt_none.mpr fun s hr => ?_
  unfold inlinePassRe at hr
  obtain ⟨x1, r1, hr⟩ := rel_seq_iff.mp hr
  obtain ⟨x2, r2, _⟩ := rel_seq_iff.mp hr
  obtain ⟨u1, e1, _⟩ := r1.consumes
  have hb : ∀ {a rest y}, Rel (cat (chr '[' :: a :: rest)) x1 y → False := by
    intro a rest y h
    obtain ⟨x3, r3, _⟩ := rel_seq_iff.mp h
    obtain ⟨r, e3, _⟩ := rel_chr_iff.mp r3
    refine h1 ?_
    rw [show t = _ from e1, e3]
    simp
  rcases rel_alt_iff.mp r2 with r2 | r2
  · exact hb r2
  rcases rel_alt_iff.mp r2 with r2 | r2
  · exact hb r2
  · obtain ⟨x3, r3, hr⟩ := rel_seq_iff.mp r2
    obtain ⟨x4, r4, _⟩ := rel_seq_iff.mp hr
    obtain ⟨u3, e3, _⟩ := r3.consumes
    obtain ⟨r, e4, _⟩ := rel_chr_iff.mp r4
    refine h2 ?_
    rw [show t = _ from e1, e3, e4]
    simp

theorem extract_harmless {t : Text} (h1 : '[' ∉ t) (h2 : '+' ∉ t) (h3 : '$' ∉ t) : extractPassthroughs t = .ok ([], t) := by
  have a : replaceAllS inlinePassMacroRe passMacroReplacer [] t = .ok ([], t) := by
    refine replaceAllS_none fun a u e pv => passMacro_never ?_ ?_ ?_ pv
    · exact fun h => h1 (by rw [e]; simp [h])
    · exact fun h => h2 (by rw [e]; simp [h])
    · exact fun h => h3 (by rw [e]; simp [h])
  have b : replaceAllS inlinePassRe (inlinePassReplacer (t.length + 1)) [] t = .ok ([], t) := by
    refine replaceAllS_none fun a u e pv => inlinePass_never ?_ ?_ pv
    · exact fun h => h1 (by rw [e]; simp [h])
    · exact fun h => h2 (by rw [e]; simp [h])
  unfold extractPassthroughs
  rw [a]
  simp only [bind, Except.bind, ite_self, b]

/-- The substitutions of a harmless text succeed. -/
theorem apply_harmless [LawfulUni] (e : Env) (he : e.r = Html.renderer) (fuel : Nat) {g : Group} (hg : ∀ steps, g ≠ .custom steps)
    {t : Text} (ht : Harmless t) : ∃ out, Group.apply (fuel + 1) e g none t = .ok out := by
  have hc := ht.chars
  simp only [List.forall_mem_cons, List.not_mem_nil, false_imp_iff, implies_true, and_true] at hc
  have hf : Free t := ⟨fun c hx => ht.chars c (by
    simp only [List.mem_cons, List.not_mem_nil, or_false] at hx ⊢
    rcases hx with h | h | h <;> simp [h]), noScheme_of ht.scheme⟩
  have hx := extract_harmless hc.2.2.1 hc.2.2.2.1 hc.2.2.2.2
  obtain ⟨t1, h1, f1⟩ := special_free hf
  have h3 := attributes_free e.store (f1.1 '{' (by simp))
  have normal : ∃ out, applySteps e none normalSteps t = .ok out := by
    obtain ⟨t2, h2, f2⟩ := quotes_free e he f1
    have h3 := attributes_free e.store (f2.1 '{' (by simp))
    obtain ⟨t4, h4, f4⟩ := replacements_free f2
    obtain ⟨t5, h5⟩ := macros_free e f4
    obtain ⟨t6, h6⟩ := post_total e none t5
    exact ⟨t6, by simp only [normalSteps, applySteps, Step.apply, bind, Except.bind, he, h1, h2, h3, h4, h5, h6]⟩
  have head : ∃ out, applySteps e none [.specialCharacters, .attributeReferences] t = .ok out :=
    ⟨t1, by simp only [applySteps, Step.apply, bind, Except.bind, he, h1, h3]⟩
  unfold Group.apply
  rw [hx]
  cases g with
  | custom steps => exact absurd rfl (hg steps)
  | normal =>
    obtain ⟨out, ho⟩ := normal
    unfold normalSteps at ho
    exact ⟨out, by simp [Group.steps, normalSteps, bind, Except.bind, ho]⟩
  | title =>
    obtain ⟨out, ho⟩ := normal
    unfold normalSteps at ho
    exact ⟨out, by simp [Group.steps, normalSteps, bind, Except.bind, ho]⟩
  | header =>
    obtain ⟨out, ho⟩ := head
    exact ⟨out, by simp [Group.steps, bind, Except.bind, ho]⟩
  | attributeEntryValue =>
    obtain ⟨out, ho⟩ := head
    exact ⟨out, by simp [Group.steps, bind, Except.bind, ho]⟩
  | verbatim => exact ⟨t1, by simp [Group.steps, applySteps, Step.apply, bind, Except.bind, he, h1]⟩
  | pass => exact ⟨t, by simp [Group.steps, applySteps]⟩
  | none => exact ⟨t, by simp [Group.steps, applySteps]⟩

end Adoc
