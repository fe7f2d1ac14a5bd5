import Verif.Lemmas.RegexRel
import Verif.Lemmas.Steps
import Verif.Lemmas.Captures
import Verif.Lemmas.Section
import Verif.Lemmas.Preprocessor
import Verif.Model.SubGroup
import Verif.Spec.Pass
import Verif.Spec.Path
/-!
# Lemmas about passthroughs
-/

namespace Adoc
open Re Spec
variable [Uni]

/-! ### Running the matcher -/

theorem m_alt_left {a b : Re} {k : RS → Option RS} {s z : RS} (h : m a k s = some z) : m (alt a b) k s = some z := by
  rw [m, h]

theorem m_alt_right {a b : Re} {k : RS → Option RS} {s : RS} (h : m a k s = none) : m (alt a b) k s = m b k s := by
  rw [m, h]

theorem m_opt_skip {a : Re} {k : RS → Option RS} {s : RS} (h : m a k s = none) : m (opt a) k s = k s := by
  unfold opt; rw [m_alt_right h]; rfl

theorem m_lit (w : Text) (k : RS → Option RS) (pv : Option Char) (r : Text) (caps : List (Nat × Text)) :
    m (lit w) k ⟨pv, w ++ r, caps⟩ = k ⟨prevAfter pv w, r, caps⟩ := by
  induction w generalizing pv with
  | nil => rfl
  | cons c cs ih =>
    cases cs with
    | nil => rw [lit, List.cons_append, m_chr, if_pos rfl]; rfl
    | cons d ds =>
      rw [lit, m, List.cons_append, m_chr, if_pos rfl, ih, prevAfter_cons pv]
      exact fun h => nomatch h

theorem m_lit_none (w : Text) (k : RS → Option RS) (s : RS) (h : ¬ w <+: s.rest) : m (lit w) k s = none := by
  cases hm : m (lit w) k s with
  | none => rfl
  | some z =>
    obtain ⟨s', h1, -⟩ := m_sound _ _ _ _ hm
    obtain ⟨y, h2, -⟩ := rel_lit_iff.mp h1
    exact absurd ⟨y, h2.symm⟩ h

/-- A lazy `.*?` stops at the first place where the rest fits. -/
theorem m_lazy_any (k : RS → Option RS) (z : RS) (b : Text) : ∀ (pv : Option Char) (rest : Text) (caps : List (Nat × Text)),
    (∀ a c b', b = a ++ c :: b' → k ⟨prevAfter pv a, c :: b' ++ rest, caps⟩ = none) →
    k ⟨prevAfter pv b, rest, caps⟩ = some z → m (star false anyChar) k ⟨pv, b ++ rest, caps⟩ = some z := by
  have main : ∀ (b : Text) (n : Nat) (pv : Option Char) (rest : Text) (caps : List (Nat × Text)), b.length ≤ n →
      (∀ a c b', b = a ++ c :: b' → k ⟨prevAfter pv a, c :: b' ++ rest, caps⟩ = none) →
      k ⟨prevAfter pv b, rest, caps⟩ = some z → starM false (m anyChar) n k ⟨pv, b ++ rest, caps⟩ = some z := by
    intro b
    induction b with
    | nil =>
      intro n pv rest caps _ _ hz
      cases n with
      | zero => exact hz
      | succ n =>
        rw [starM]
        simp only [Bool.false_eq_true, if_false, List.nil_append]
        rw [show k ⟨pv, rest, caps⟩ = some z from hz]
    | cons c cs ih =>
      intro n pv rest caps hn hno hz
      cases n with
      | zero => simp at hn
      | succ n =>
        rw [starM]
        have h0 := hno [] c cs rfl
        rw [prevAfter_nil] at h0
        simp only [Bool.false_eq_true, if_false]
        rw [h0]
        simp only
        unfold anyChar
        rw [List.cons_append, m_cls_cons]
        simp only [if_true, List.length_cons, Nat.lt_succ_self]
        refine ih n (some c) rest caps (by simpa using hn) ?_ (by rw [← prevAfter_cons pv]; exact hz)
        intro a d b' hb
        have := hno (c :: a) d b' (by rw [hb]; rfl)
        rw [prevAfter_cons] at this
        exact this
  intro pv rest caps h1 h2
  rw [m]
  exact main b _ pv rest caps (by simp) h1 h2

/-! ### Cutting a text at the matches -/

/-- The text is cut into what is in front of the matches, the matches, and what is behind the last one. -/
inductive Cut (re : Re) : Option Char → Text → List (Text × Match) → Text → Prop
  | stop {pv u} : (∀ a b, u = a ++ b → matchAt re (prevAfter pv a) b = none) → Cut re pv u [] u
  | hit {pv u t mt s l last} : (∀ a c b, u = a ++ c :: b → matchAt re (prevAfter pv a) (c :: b ++ t) = none) →
      matchAt re (prevAfter pv u) t = some (mt, s) → mt.text ≠ [] → Cut re s.prev s.rest l last →
      Cut re pv (u ++ t) ((u, mt) :: l) last

/-- Runs a replacer over the pieces. -/
def runCut {σ : Type} (rep : Replacer σ) (st : σ) (dest : Text) : List (Text × Match) → Text → Res (σ × Text)
  | [], last => .ok (st, dest ++ last)
  | (u, mt) :: l, last =>
    match rep st mt (dest ++ u) with
    | .ok (st', dest') => runCut rep st' dest' l last
    | .error e => .error e

theorem replLoop_skip {σ : Type} {re : Re} {rep : Replacer σ} (u : Text) : ∀ {fuel : Nat} {st : σ} {pv : Option Char} {t : Text}
    {em : Bool} {dest : Text}, (∀ a c b, u = a ++ c :: b → matchAt re (prevAfter pv a) (c :: b ++ t) = none) →
    replLoop re rep (fuel + u.length) st pv (u ++ t) em dest =
      replLoop re rep fuel st (prevAfter pv u) t (if u = [] then em else true) (dest ++ u) := by
  induction u with
  | nil => intro fuel st pv t em dest _; simp [prevAfter_nil]
  | cons c cs ih =>
    intro fuel st pv t em dest h
    have h0 := h [] c cs rfl
    rw [prevAfter_nil] at h0
    rw [List.length_cons, ← Nat.add_assoc, List.cons_append, replLoop]
    simp only
    rw [show c :: (cs ++ t) = c :: cs ++ t from rfl, h0]
    simp only
    rw [ih]
    · rw [prevAfter_cons]
      by_cases hc : cs = [] <;> simp [hc]
    · intro a d b hb
      have := h (c :: a) d b (by rw [hb]; rfl)
      rw [prevAfter_cons] at this
      exact this

theorem matchAt_shorter {re : Re} {pv : Option Char} {t : Text} {mt : Match} {s : RS} (h : matchAt re pv t = some (mt, s))
    (hne : mt.text ≠ []) : s.rest.length < t.length := by
  obtain ⟨-, h1, -, -⟩ := matchAt_sound h
  rw [h1, List.length_append]
  have := List.length_pos_iff.mpr hne
  omega

theorem replLoop_cut {σ : Type} {re : Re} {rep : Replacer σ} {pv : Option Char} {t : Text} {l : List (Text × Match)}
    {last : Text} (h : Cut re pv t l last) : ∀ {fuel : Nat} {st : σ} {em : Bool} {dest : Text}, t.length < fuel →
    replLoop re rep fuel st pv t em dest = runCut rep st dest l last := by
  induction h with
  | @stop pv u h =>
    intro fuel st em dest hf
    have hs := replLoop_skip (re := re) (rep := rep) u (fuel := fuel - u.length) (st := st) (pv := pv) (t := []) (em := em)
      (dest := dest) (fun a c b hb => by rw [List.append_nil]; exact h a (c :: b) hb)
    rw [List.append_nil, Nat.sub_add_cancel (by omega)] at hs
    rw [hs]
    obtain ⟨n, hn⟩ : ∃ n, fuel - u.length = n + 1 := ⟨fuel - u.length - 1, by omega⟩
    rw [hn, replLoop, h u [] (by simp)]
    rfl
  | @hit pv u t mt s l last h1 h2 h3 _ ih =>
    intro fuel st em dest hf
    rw [List.length_append] at hf
    have hs := replLoop_skip (re := re) (rep := rep) u (fuel := fuel - u.length) (st := st) (pv := pv) (t := t) (em := em)
      (dest := dest) h1
    rw [Nat.sub_add_cancel (by omega)] at hs
    rw [hs]
    obtain ⟨n, hn⟩ : ∃ n, fuel - u.length = n + 1 := ⟨fuel - u.length - 1, by omega⟩
    rw [hn, replLoop, h2]
    simp only [if_pos h3, runCut]
    cases hr : rep st mt (dest ++ u) with
    | error e => rfl
    | ok p =>
      simp only
      have := matchAt_shorter h2 h3
      exact ih (by omega)

theorem replaceAllS_cut {σ : Type} {re : Re} {rep : Replacer σ} {st : σ} {t : Text} {l : List (Text × Match)}
    {last : Text} (h : Cut re none t l last) : replaceAllS re rep st t = runCut rep st [] l last :=
  replLoop_cut h (Nat.lt_succ_self _)

/-! ### Finding a passthrough -/

/-- The groups of the match for a passthrough. -/
def passCaps (k : PassKind) (b : Text) : List (Nat × Text) :=
  match k with
  | .triple => [(6, "+++".toList), (5, b), (4, "+++".toList), (3, [])]
  | .double => [(9, "++".toList), (8, b), (7, "++".toList), (3, [])]
  | .dollars => [(12, "$$".toList), (11, b), (10, "$$".toList), (3, [])]
  | .passMacro => [(15, b), (13, [])]

theorem matchAt_of_m {re : Re} {pv : Option Char} {used rest : Text} {caps : List (Nat × Text)}
    (h : m re some ⟨pv, used ++ rest, []⟩ = some ⟨prevAfter pv used, rest, caps⟩) :
    matchAt re pv (used ++ rest) = some (⟨used, caps⟩, ⟨prevAfter pv used, rest, caps⟩) := by
  unfold matchAt
  rw [h]
  simp only [Option.map_some]
  rw [take_sub_of_append rfl]

theorem m_span (d b rest : Text) (n : Nat) (pv : Option Char) (caps : List (Nat × Text))
    (hb : ∀ a c b', b = a ++ c :: b' → ¬ d <+: c :: b' ++ d ++ rest) :
    m (passSpanRe d n) some ⟨pv, d ++ b ++ d ++ rest, caps⟩ =
      some ⟨prevAfter pv (d ++ b ++ d), rest, (n + 2, d) :: (n + 1, b) :: (n, d) :: caps⟩ := by
  unfold passSpanRe
  simp only [cat]
  rw [m, m, show d ++ b ++ d ++ rest = d ++ (b ++ (d ++ rest)) by simp, m_lit]
  simp only
  rw [take_sub_of_append rfl, m, m]
  refine m_lazy_any _ _ b _ _ _ ?_ ?_
  · intro a c b' e
    rw [m]
    refine m_lit_none _ _ _ ?_
    simp only
    rw [← List.append_assoc]
    exact hb a c b' e
  · simp only
    rw [m, m_lit]
    simp only
    rw [take_sub_of_append rfl, take_sub_of_append rfl, prevAfter_append, prevAfter_append,
      List.append_assoc]

theorem not_prefix_of_occurs {d : Text} {n : Nat} (hd : d.length = n + 1) {b rest : Text}
    (h : ¬ Occurs d (b ++ d.take n)) : ∀ a c b', b = a ++ c :: b' → ¬ d <+: c :: b' ++ d ++ rest := by
  intro a c b' e hp
  apply h
  have h1 : d <+: c :: b' ++ d.take n := by
    have h2 : c :: b' ++ d.take n <+: c :: b' ++ d ++ rest := by
      rw [List.append_assoc]
      refine List.prefix_append_right_inj _ |>.mpr ?_
      exact List.IsPrefix.trans (List.take_prefix _ _) (List.prefix_append _ _)
    refine List.prefix_of_prefix_length_le hp h2 ?_
    simp [List.length_take, hd]
  obtain ⟨y, hy⟩ := h1
  exact ⟨a, y, by rw [e]; simp only [List.append_assoc, List.cons_append] at hy ⊢; rw [← hy]⟩

theorem matchAt_pass (k : PassKind) {b : Text} (hb : k.Body b) (pv : Option Char) (rest : Text) :
    matchAt inlinePassMacroRe pv (written k b ++ rest) =
      some (⟨written k b, passCaps k b⟩, ⟨prevAfter pv (written k b), rest, passCaps k b⟩) := by
  apply matchAt_of_m
  unfold inlinePassMacroRe written
  cases k with
  | triple =>
    refine m_alt_left ?_
    simp only [cat, oneOf]
    rw [m, m_opt_skip (by rfl), m, m]
    rw [show upTo (chr '\\') 2 = opt (seq (chr '\\') (upTo (chr '\\') 1)) from rfl, m_opt_skip (by rfl)]
    refine m_alt_left ?_
    rw [show List.take _ _ = ([] : Text) by simp]
    exact m_span _ b rest 4 _ _ (not_prefix_of_occurs (n := 2) rfl hb)
  | double =>
    obtain ⟨h1, h2, h3⟩ := hb
    obtain ⟨x, xs, rfl⟩ := List.exists_cons_of_ne_nil h2
    have hx : x ≠ '+' := by simpa using h3
    refine m_alt_left ?_
    simp only [cat, oneOf]
    rw [m, m_opt_skip (by rfl), m, m]
    rw [show upTo (chr '\\') 2 = opt (seq (chr '\\') (upTo (chr '\\') 1)) from rfl, m_opt_skip (by rfl)]
    rw [m_alt_right]
    · refine m_alt_left ?_
      rw [show List.take _ _ = ([] : Text) by simp]
      exact m_span _ _ rest 7 _ _ (not_prefix_of_occurs (n := 1) rfl h1)
    · unfold passSpanRe
      simp only [cat]
      rw [m, m]
      refine m_lit_none _ _ _ ?_
      rintro ⟨y, hy⟩
      simp [PassKind.opening] at hy
      exact hx hy.1.symm
  | dollars =>
    refine m_alt_left ?_
    simp only [cat, oneOf]
    rw [m, m_opt_skip (by rfl), m, m]
    rw [show upTo (chr '\\') 2 = opt (seq (chr '\\') (upTo (chr '\\') 1)) from rfl, m_opt_skip (by rfl)]
    rw [m_alt_right (by rfl), m_alt_right (by rfl)]
    rw [show List.take _ _ = ([] : Text) by simp]
    exact m_span _ b rest 10 _ _ (not_prefix_of_occurs (n := 1) rfl hb)
  | passMacro =>
    obtain ⟨h1, h2⟩ := hb
    rw [m_alt_right]
    · simp only [cat]
      rw [m, m, m_opt_skip (by rfl)]
      simp only
      rw [show List.take _ _ = ([] : Text) by simp]
      rw [m]
      rw [show PassKind.passMacro.opening ++ b ++ PassKind.passMacro.closing ++ rest =
        "pass:".toList ++ ('[' :: (b ++ (']' :: rest))) by simp [PassKind.opening, PassKind.closing], m_lit, m,
        m_opt_skip (by rfl), m, m_chr, if_pos rfl, m]
      unfold bracketed
      rw [m]
      cases b using snocInd with
      | nil =>
        refine m_alt_left ?_
        rw [m]
        simp only [List.nil_append]
        rw [m_chr, if_pos rfl]
        simp [PassKind.opening, PassKind.closing, passCaps, prevAfter]
      | snoc b x _ =>
        have hx : x ≠ '\\' := by simpa using h2
        have nb : ∀ c cs (pv : Option Char) caps (k : RS → Option RS), c ∈ b ++ [x] → m (chr ']') k ⟨pv, c :: cs, caps⟩ = none := by
          intro c cs pv caps k hc
          rw [m_chr, if_neg]
          rintro rfl
          exact h1 hc
        rw [m_alt_right]
        · simp only [cat]
          rw [m, List.append_assoc]
          refine m_lazy_any _ _ b _ _ _ ?_ ?_
          · intro a c b' e
            simp only [List.cons_append]
            rw [m_cls_cons]
            split
            · cases b' with
              | nil => exact nb _ _ _ _ _ (by simp)
              | cons d ds => exact nb _ _ _ _ _ (by rw [e]; simp)
            · rfl
          · rw [List.singleton_append, m_cls_cons, if_pos (by simpa using hx)]
            simp only
            rw [m_chr, if_pos rfl]
            rw [show b ++ x :: ']' :: rest = (b ++ [x]) ++ (']' :: rest) by simp, take_sub_of_append rfl]
            have hl : ∀ (l : Text), prevAfter pv (l ++ [']']) = some ']' := fun l => by simp [prevAfter]
            rw [show PassKind.passMacro.closing = [']'] from rfl, hl]
            rfl
        · rw [m]
          simp only
          cases b with
          | nil => exact nb _ _ _ _ _ (by simp)
          | cons d ds => exact nb _ _ _ _ _ (by simp)
    · rfl

/-! ### Where a match can begin -/

/-- Whether the expression can match without consuming anything (an upper bound). -/
def Re.nullable : Re → Bool
  | .eps => true
  | .cls _ => false
  | .seq a b => a.nullable && b.nullable
  | .alt a b => a.nullable || b.nullable
  | .star _ _ => true
  | .cap _ r => r.nullable
  | _ => true

/-- Whether a match can begin with the character (an upper bound). -/
def Re.canStart (c : Char) : Re → Bool
  | .cls p => p c
  | .seq a b => a.canStart c || (a.nullable && b.canStart c)
  | .alt a b => a.canStart c || b.canStart c
  | .star _ r => r.canStart c
  | .cap _ r => r.canStart c
  | _ => false

theorem Re.Rel.starts {r : Re} {s s' : RS} (h : Rel r s s') :
    (s'.rest = s.rest ∧ r.nullable = true) ∨ ∃ c cs, s.rest = c :: cs ∧ r.canStart c = true := by
  induction h with
  | cls h1 => exact .inr ⟨_, _, rfl, h1⟩
  | seq _ _ iha ihb =>
    rcases iha with ⟨ha, hn⟩ | ⟨c, cs, h1, h2⟩
    · rcases ihb with ⟨hb, hn'⟩ | ⟨c, cs, h1, h2⟩
      · exact .inl ⟨hb.trans ha, by simp [Re.nullable, hn, hn']⟩
      · exact .inr ⟨c, cs, ha ▸ h1, by simp [Re.canStart, hn, h2]⟩
    · exact .inr ⟨c, cs, h1, by simp [Re.canStart, h2]⟩
  | altL _ ih =>
    rcases ih with ⟨h1, h2⟩ | ⟨c, cs, h1, h2⟩
    · exact .inl ⟨h1, by simp [Re.nullable, h2]⟩
    · exact .inr ⟨c, cs, h1, by simp [Re.canStart, h2]⟩
  | altR _ ih =>
    rcases ih with ⟨h1, h2⟩ | ⟨c, cs, h1, h2⟩
    · exact .inl ⟨h1, by simp [Re.nullable, h2]⟩
    · exact .inr ⟨c, cs, h1, by simp [Re.canStart, h2]⟩
  | starNil => exact .inl ⟨rfl, rfl⟩
  | starStep _ _ _ iha ihb =>
    rcases iha with ⟨h1, h2⟩ | ⟨c, cs, h1, h2⟩
    · rcases ihb with ⟨h3, h4⟩ | ⟨c, cs, h3, h4⟩
      · exact .inl ⟨h3.trans h1, rfl⟩
      · exact .inr ⟨c, cs, h1 ▸ h3, h4⟩
    · exact .inr ⟨c, cs, h1, h2⟩
  | cap _ ih => exact ih
  | _ => exact .inl ⟨rfl, rfl⟩

/-- Nothing is found where a match cannot begin. -/
theorem matchAt_canStart {re : Re} {pv : Option Char} {t : Text} (hn : re.nullable = false)
    (h : ∀ c cs, t = c :: cs → re.canStart c = false) : matchAt re pv t = none := by
  refine matchAt_none.mpr fun s hr => ?_
  rcases hr.starts with ⟨-, h1⟩ | ⟨c, cs, h1, h2⟩
  · rw [hn] at h1; cases h1
  · rw [h c cs h1] at h2; cases h2

/-! ### Taking passthroughs out -/

omit [Uni] in
theorem noPass_drop {a b : Text} (h : NoPass (a ++ b)) : NoPass b := by
  obtain ⟨h1, h2, h3, h4, h5⟩ := h
  refine ⟨fun h => h1 (by simp [h]), fun h => h2 (by simp [h]), fun h => h3 (by simp [h]), fun h => h4 (by simp [h]), ?_⟩
  rintro ⟨x, y, rfl⟩
  exact h5 ⟨a ++ x, y, by simp⟩

/-- A text that is empty or begins with a passthrough. -/
def NextPass (t : Text) : Prop := t = [] ∨ ∃ k b r, t = written k b ++ r

omit [Uni] in
theorem NextPass.head {t : Text} (h : NextPass t) : ∀ c cs, t = c :: cs → c = '+' ∨ c = '$' ∨ c = 'p' := by
  rintro c cs rfl
  rcases h with h | ⟨k, b, r, h⟩
  · cases h
  · cases k <;> simp [written, PassKind.opening] at h <;> simp [h.1]

theorem inlinePassMacro_start (c : Char) :
    inlinePassMacroRe.canStart c = true → c = '[' ∨ c = '\\' ∨ c = '+' ∨ c = '$' ∨ c = 'p' := by
  simp [inlinePassMacroRe, Re.canStart, cat, oneOf, opt, chr, lit, upTo, passSpanRe, Re.nullable]
  grind

/-- No passthrough begins in a text without the characters for it. -/
theorem matchAt_noPass {c : Char} {b t : Text} (h : NoPass (c :: b)) (ht : NextPass t) (pv : Option Char) :
    matchAt inlinePassMacroRe pv (c :: b ++ t) = none := by
  obtain ⟨h1, h2, h3, h4, h5⟩ := h
  simp only [List.mem_cons, not_or] at h1 h2 h3 h4
  refine matchAt_none.mpr fun s hr => ?_
  by_cases hp : c = 'p'
  · subst hp
    unfold inlinePassMacroRe at hr
    rcases rel_alt_iff.mp hr with hr | hr
    · rcases hr.starts with ⟨-, h⟩ | ⟨d, ds, e, h⟩
      · exact absurd h (by decide)
      · simp only [List.cons_append, List.cons.injEq] at e
        rw [← e.1] at h
        exact absurd h (by decide)
    · simp only [cat] at hr
      obtain ⟨x, r1, hr⟩ := rel_seq_iff.mp hr
      obtain ⟨y, r2, hr⟩ := rel_seq_iff.mp hr
      have e1 : x.rest = 'p' :: b ++ t := by
        obtain ⟨z, u, r3, -, rfl⟩ := rel_cap_iff.mp r1
        rcases rel_opt_iff.mp r3 with r3 | r3
        · obtain ⟨w, e, -⟩ := rel_chr_iff.mp r3
          simp at e
        · simp only [r3]
      obtain ⟨w, e2, -⟩ := rel_lit_iff.mp r2
      rw [e1] at e2
      have hd := ht.head
      apply h5
      rcases List.append_eq_append_iff.mp e2 with ⟨a', e3, e4⟩ | ⟨c', e3, -⟩
      · cases a' with
        | nil => exact ⟨[], [], by rw [List.append_nil] at e3; simp [← e3]⟩
        | cons c cs =>
          exfalso
          have hc := hd c (cs ++ w) e4
          have hm : c ∈ ['a', 's', 's', ':'] := by
            have e5 : ['a', 's', 's', ':'] = b ++ c :: cs := by simpa using e3
            rw [e5]; simp
          rcases hc with rfl | rfl | rfl <;> exact absurd hm (by decide)
      · exact ⟨[], c', by rw [e3]; rfl⟩
  · rcases hr.starts with ⟨-, h⟩ | ⟨d, ds, e, h⟩
    · exact absurd h (by decide)
    · simp only [List.cons_append, List.cons.injEq] at e
      rcases inlinePassMacro_start d h with h | h | h | h | h
      · exact h1.1 (by rw [e.1, h])
      · exact h2.1 (by rw [e.1, h])
      · exact h3.1 (by rw [e.1, h])
      · exact h4.1 (by rw [e.1, h])
      · exact hp (by rw [e.1, h])


/-- The text with its passthroughs. -/
def passSource (pieces : List (Text × PassKind × Text)) (last : Text) : Text :=
  interleave (pieces.map fun p => (p.1, written p.2.1 p.2.2)) last

omit [Uni] in
theorem interleave_cons (u w : Text) (l : List (Text × Text)) (last : Text) :
    interleave ((u, w) :: l) last = u ++ (w ++ interleave l last) := by
  simp [interleave]

theorem cut_pieces {pieces : List (Text × PassKind × Text)} {last : Text}
    (hp : ∀ p ∈ pieces, NoPass p.1 ∧ p.2.1.Body p.2.2) (hl : NoPass last) : ∀ pv,
    Cut inlinePassMacroRe pv (passSource pieces last)
      (pieces.map fun p => (p.1, (⟨written p.2.1 p.2.2, passCaps p.2.1 p.2.2⟩ : Match))) last := by
  induction pieces with
  | nil =>
    intro pv
    refine .stop fun a b e => ?_
    cases b with
    | nil => exact matchAt_canStart (by decide) (fun c cs h => by cases h)
    | cons c b =>
      have := matchAt_noPass (t := []) (noPass_drop (e ▸ hl : NoPass (a ++ c :: b))) (.inl rfl) (prevAfter pv a)
      rwa [List.append_nil] at this
  | cons p ps ih =>
    intro pv
    obtain ⟨u, k, b⟩ := p
    obtain ⟨h1, h2⟩ := hp _ (List.mem_cons_self ..)
    have hi := ih (fun q hq => hp q (List.mem_cons_of_mem _ hq))
    unfold passSource at hi ⊢
    simp only [List.map_cons]
    rw [interleave_cons]
    refine .hit ?_ (matchAt_pass k h2 _ _) ?_ (hi _)
    · intro a c b' e
      refine matchAt_noPass (noPass_drop (e ▸ h1 : NoPass (a ++ c :: b'))) (.inr ⟨k, b, _, rfl⟩) _
    · cases k <;> simp [written, PassKind.opening]

/-- What is kept of a passthrough. -/
def passEntry (k : PassKind) (b : Text) : Passthrough :=
  ⟨b, match k with | .triple => .none | .passMacro => .none | .double => .verbatim | .dollars => .verbatim, none, none⟩

omit [Uni] in
theorem replaceStr_none {t n w : Text} (h : ¬ Occurs n t) : replaceStr t n w = t := by
  unfold replaceStr
  induction t with
  | nil => rfl
  | cons c cs ih =>
    rw [replaceStrGo, if_neg, ih]
    · rintro ⟨a, b, rfl⟩
      exact h ⟨c :: a, b, rfl⟩
    · intro hp
      obtain ⟨y, hy⟩ := List.isPrefixOf_iff_prefix.mp hp
      exact h ⟨[], y, by rw [← hy]; rfl⟩

omit [Uni] in
theorem passMark_eq (i : Nat) : passMark i = placeholder i := by
  simp [passMark, placeholder, passStart, passEnd, markStart, markEnd, decimal]

theorem passMacroReplacer_eq (k : PassKind) {b : Text} (hb : k.Body b) (ps : List Passthrough) (dest : Text) :
    passMacroReplacer ps ⟨written k b, passCaps k b⟩ dest =
      .ok (ps ++ [passEntry k b], dest ++ placeholder ps.length) := by
  rw [← passMark_eq]
  cases k with
  | triple => rfl
  | double => rfl
  | dollars => rfl
  | passMacro =>
    have : replaceStr b ['\\', ']'] [']'] = b := by
      apply replaceStr_none
      rintro ⟨x, y, rfl⟩
      exact hb.1 (by simp)
    show Except.ok (passPush ps ⟨replaceStr b ['\\', ']'] [']'], .none, none, none⟩ dest) = _
    rw [this]
    rfl

theorem run_pieces {pieces : List (Text × PassKind × Text)} {last : Text}
    (hp : ∀ p ∈ pieces, NoPass p.1 ∧ p.2.1.Body p.2.2) : ∀ (ps : List Passthrough) (dest : Text),
    runCut passMacroReplacer ps dest
      (pieces.map fun p => (p.1, (⟨written p.2.1 p.2.2, passCaps p.2.1 p.2.2⟩ : Match))) last =
    .ok (ps ++ pieces.map (fun p => passEntry p.2.1 p.2.2),
      dest ++ interleave (withPlaceholders ps.length (pieces.map Prod.fst)) last) := by
  induction pieces with
  | nil => intro ps dest; simp [runCut, withPlaceholders, interleave]
  | cons p pieces ih =>
    intro ps dest
    obtain ⟨u, k, b⟩ := p
    rw [List.map_cons, runCut, passMacroReplacer_eq k (hp _ (List.mem_cons_self ..)).2]
    simp only
    rw [ih (fun q hq => hp q (List.mem_cons_of_mem _ hq))]
    simp only [List.map_cons, withPlaceholders, List.length_append, List.length_singleton, interleave_cons, List.append_assoc,
      List.singleton_append]

omit [Uni] in
theorem mem_marked {c : Char} {us : List Text} {last : Text} (hl : c ∉ last) (hu : ∀ u ∈ us, c ∉ u)
    (hc : ∀ i, c ∉ placeholder i) : ∀ i, c ∉ interleave (withPlaceholders i us) last := by
  induction us with
  | nil => intro i; simpa [withPlaceholders, interleave] using hl
  | cons u us ih =>
    intro i
    rw [withPlaceholders, interleave_cons]
    simp only [List.mem_append, not_or]
    exact ⟨hu u (by simp), hc i, ih (fun v hv => hu v (by simp [hv])) _⟩

omit [Uni] in
theorem placeholder_chars {i : Nat} {c : Char} (h : c ∈ placeholder i) : c = markStart ∨ c.isDigit = true ∨ c = markEnd := by
  simp only [placeholder, List.mem_cons, List.mem_append, List.not_mem_nil, or_false] at h
  rcases h with h | h | h
  · exact .inl h
  · exact .inr (.inl (Nat.isDigit_of_mem_toDigits (b := 10) (by omega) (by omega) h))
  · exact .inr (.inr h)

omit [Uni] in
theorem not_mem_placeholder {c : Char} (h1 : c ≠ markStart) (h2 : c.isDigit = false) (h3 : c ≠ markEnd) (i : Nat) :
    c ∉ placeholder i := by
  intro h
  rcases placeholder_chars h with h | h | h
  · exact h1 h
  · rw [h2] at h; cases h
  · exact h3 h

theorem inlinePass_start (c : Char) : inlinePassRe.canStart c = true → c = '[' ∨ c = '\\' ∨ c = '+' := by
  simp [inlinePassRe, Re.canStart, cat, oneOf, opt, chr, Re.nullable]

/-- Taking the passthroughs out puts a placeholder where each one was. -/
theorem extract_pieces {pieces : List (Text × PassKind × Text)} {last : Text}
    (hp : ∀ p ∈ pieces, NoPass p.1 ∧ p.2.1.Body p.2.2) (hl : NoPass last) :
    extractPassthroughs (passSource pieces last) =
      .ok (pieces.map (fun p => passEntry p.2.1 p.2.2), interleave (withPlaceholders 0 (pieces.map Prod.fst)) last) := by
  have h1 : replaceAllS inlinePassMacroRe passMacroReplacer [] (passSource pieces last) =
      .ok (pieces.map (fun p => passEntry p.2.1 p.2.2), interleave (withPlaceholders 0 (pieces.map Prod.fst)) last) := by
    rw [replaceAllS_cut (cut_pieces hp hl none), run_pieces hp]
    rfl
  have h2 : (if containsSub (passSource pieces last) "++".toList || containsSub (passSource pieces last) "$$".toList ||
      containsSub (passSource pieces last) "ss:".toList then
      replaceAllS inlinePassMacroRe passMacroReplacer [] (passSource pieces last)
      else .ok ([], passSource pieces last)) =
      .ok (pieces.map (fun p => passEntry p.2.1 p.2.2), interleave (withPlaceholders 0 (pieces.map Prod.fst)) last) := by
    split
    · exact h1
    · rename_i hc
      cases pieces with
      | nil => rfl
      | cons p ps =>
        exfalso
        apply hc
        obtain ⟨u, k, b⟩ := p
        have : ∃ x y, passSource ((u, k, b) :: ps) last = x ++ k.opening ++ y := by
          refine ⟨u, b ++ (k.closing ++ passSource ps last), ?_⟩
          unfold passSource
          rw [List.map_cons, interleave_cons]
          simp [written]
        obtain ⟨x, y, e⟩ := this
        rw [e]
        simp only [Bool.or_eq_true, containsSub_iff]
        cases k with
        | triple => exact .inl (.inl ⟨x, '+' :: y, by simp [PassKind.opening]⟩)
        | double => exact .inl (.inl ⟨x, y, by simp [PassKind.opening]⟩)
        | dollars => exact .inl (.inr ⟨x, y, by simp [PassKind.opening]⟩)
        | passMacro => exact .inr ⟨x ++ "pa".toList, '[' :: y, by simp [PassKind.opening]⟩
  have nm : ∀ c, c = '[' ∨ c = '\\' ∨ c = '+' → c ∉ interleave (withPlaceholders 0 (pieces.map Prod.fst)) last := by
    intro c hc
    apply mem_marked
    · rcases hc with rfl | rfl | rfl
      · exact hl.1
      · exact hl.2.1
      · exact hl.2.2.1
    · intro u hu
      obtain ⟨p, hp1, rfl⟩ := List.mem_map.mp hu
      obtain ⟨h, -⟩ := hp p hp1
      rcases hc with rfl | rfl | rfl
      · exact h.1
      · exact h.2.1
      · exact h.2.2.1
    · rcases hc with rfl | rfl | rfl <;> exact not_mem_placeholder (by decide) (by decide) (by decide)
  have h3 : (if (interleave (withPlaceholders 0 (pieces.map Prod.fst)) last).contains '+' ||
      containsSub (interleave (withPlaceholders 0 (pieces.map Prod.fst)) last) "-]".toList then
      replaceAllS inlinePassRe (inlinePassReplacer ((interleave (withPlaceholders 0 (pieces.map Prod.fst)) last).length + 1))
        (pieces.map fun p => passEntry p.2.1 p.2.2) (interleave (withPlaceholders 0 (pieces.map Prod.fst)) last)
      else .ok (pieces.map (fun p => passEntry p.2.1 p.2.2), interleave (withPlaceholders 0 (pieces.map Prod.fst)) last)) =
      .ok (pieces.map (fun p => passEntry p.2.1 p.2.2), interleave (withPlaceholders 0 (pieces.map Prod.fst)) last) := by
    split
    · have hc : Cut inlinePassRe none (interleave (withPlaceholders 0 (pieces.map Prod.fst)) last) []
          (interleave (withPlaceholders 0 (pieces.map Prod.fst)) last) := by
        refine .stop fun a b e => matchAt_canStart (by decide) fun c cs hb => ?_
        cases hs : inlinePassRe.canStart c with
        | false => rfl
        | true =>
          refine absurd ?_ (nm c (inlinePass_start c hs))
          rw [e, hb]; simp
      rw [replaceAllS_cut hc]
      rfl
    · rfl
  generalize interleave (withPlaceholders 0 (pieces.map Prod.fst)) last = t2 at *
  generalize pieces.map (fun p => passEntry p.2.1 p.2.2) = ps2 at *
  unfold extractPassthroughs
  simp only [bind, Except.bind]
  split
  · rw [h1]
    exact h3
  · rename_i hc
    rw [if_neg hc] at h2
    simp only [Except.ok.injEq, Prod.mk.injEq] at h2
    rw [h2.2, h2.1]
    exact h3

/-! ### Putting them back -/

omit [Uni] in
theorem isAsciiDigit_of_isDigit {c : Char} (h : c.isDigit = true) : isAsciiDigit c = true := by
  simp only [Char.isDigit, Bool.and_eq_true, decide_eq_true_eq, ge_iff_le, UInt32.le_iff_toNat_le] at h
  unfold isAsciiDigit
  simp only [Bool.and_eq_true, decide_eq_true_eq]
  exact h

omit [Uni] in
theorem parseIndex_decimal {i : Nat} (hi : i < 2 ^ 64) : parseIndex (decimal i) = i := by
  have hf : (decimal i).foldl (fun n c => n * 10 + (c.toNat - 48)) 0 = i := by
    have h := Nat.ofDigitChars_ten_toDigits (n := i)
    unfold Nat.ofDigitChars at h
    have : (fun (n : Nat) (c : Char) => n * 10 + (c.toNat - 48)) = fun n c => 10 * n + (c.toNat - '0'.toNat) := by
      funext n c
      rw [Nat.mul_comm]
      rfl
    rw [this]
    exact h
  unfold parseIndex
  rw [if_pos, hf]
  · simp only [if_pos hi]
  · rw [List.all_eq_true]
    intro c hc
    exact isAsciiDigit_of_isDigit (Nat.isDigit_of_mem_toDigits (b := 10) (by omega) (by omega) hc)

theorem matchAt_placeholder [LawfulUni] (i : Nat) (pv : Option Char) (rest : Text) :
    matchAt passWithIndexRe pv (placeholder i ++ rest) =
      some (⟨placeholder i, [(1, decimal i)]⟩, ⟨prevAfter pv (placeholder i), rest, [(1, decimal i)]⟩) := by
  have hE : Uni.isNd passEnd = false := by rw [LawfulUni.nd _ (by decide)]; decide
  have hD : ∀ c ∈ decimal i, Uni.isNd c = true := by
    intro c hc
    have hd := Nat.isDigit_of_mem_toDigits (b := 10) (by omega) (by omega) hc
    have hd' := isAsciiDigit_of_isDigit hd
    rw [LawfulUni.nd, hd']
    unfold isAsciiDigit at hd'
    simp only [Bool.and_eq_true, decide_eq_true_eq] at hd'
    have e6 : '9'.toNat = 57 := rfl
    omega
  apply matchAt_of_m
  unfold passWithIndexRe
  simp only [cat]
  rw [m]
  rw [show placeholder i ++ rest = passStart :: (decimal i ++ (passEnd :: rest)) by
    rw [← passMark_eq]; simp [passMark], m_chr, if_pos rfl, m, m]
  unfold plus
  rw [m]
  obtain ⟨d, ds, hds⟩ := List.exists_cons_of_ne_nil (decimal_ne_nil i)
  rw [hds] at hD ⊢
  rw [List.cons_append, m_cls_cons, if_pos (hD d (by simp)), m_star_cls_det]
  · simp only
    have ht : (ds ++ passEnd :: rest).takeWhile Uni.isNd = ds := by
      rw [List.takeWhile_append_of_pos (fun c hc => hD c (by simp [hc]))]
      simp [hE]
    have hw : (ds ++ passEnd :: rest).dropWhile Uni.isNd = passEnd :: rest := by
      rw [List.dropWhile_append_of_pos (fun c hc => hD c (by simp [hc]))]
      simp [hE]
    rw [ht, hw, m_chr, if_pos rfl]
    rw [show d :: (ds ++ passEnd :: rest) = (d :: ds) ++ (passEnd :: rest) from rfl, take_sub_of_append rfl]
    have hl : ∀ (l : Text), prevAfter pv (l ++ [passEnd]) = some passEnd := fun l => by simp [prevAfter]
    rw [← passMark_eq, passMark, show passStart :: decimal i ++ [passEnd] = (passStart :: decimal i) ++ [passEnd] from rfl, hl]
  · intro pv c cs caps hc
    simp only
    rw [m_chr, if_neg]
    rintro rfl
    rw [hE] at hc
    cases hc

theorem matchAt_noMark {t : Text} (h : ∀ cs, t ≠ markStart :: cs) (pv : Option Char) : matchAt passWithIndexRe pv t = none := by
  refine matchAt_canStart (by rfl) fun c cs e => ?_
  cases hs : passWithIndexRe.canStart c with
  | false => rfl
  | true =>
    exfalso
    have : c = passStart := by
      simpa [passWithIndexRe, cat, Re.canStart, chr, Re.nullable] using hs
    exact h cs (by rw [e, this]; rfl)

theorem cut_marks [LawfulUni] {parts : List (Text × Nat)} {last : Text} (hp : ∀ p ∈ parts, markStart ∉ p.1)
    (hl : markStart ∉ last) : ∀ pv,
    Cut passWithIndexRe pv (interleave (parts.map fun p => (p.1, placeholder p.2)) last)
      (parts.map fun p => (p.1, (⟨placeholder p.2, [(1, decimal p.2)]⟩ : Match))) last := by
  induction parts with
  | nil =>
    intro pv
    refine .stop fun a b e => matchAt_noMark (fun cs hb => hl ?_) _
    have e : last = a ++ b := by simpa [interleave] using e
    rw [e, hb]; simp
  | cons p ps ih =>
    intro pv
    obtain ⟨u, i⟩ := p
    simp only [List.map_cons]
    rw [interleave_cons]
    refine .hit ?_ (matchAt_placeholder i _ _) ?_ (ih (fun q hq => hp q (List.mem_cons_of_mem _ hq)) _)
    · intro a c b e
      refine matchAt_noMark (fun cs hb => hp _ (List.mem_cons_self ..) ?_) _
      simp only [List.cons_append, List.cons.injEq] at hb
      simp only [e, hb.1]
      simp
    · simp [placeholder]

/-- Running a replacer that only appends. -/
theorem runCut_pure {rep : Match → Res Text} {f : Text × Nat → Text} {mt : Text × Nat → Match} {parts : List (Text × Nat)}
    {last : Text} (h : ∀ p ∈ parts, rep (mt p) = .ok (f p)) : ∀ dest,
    runCut (fun (_ : Unit) mt dest => (rep mt).map fun x => ((), dest ++ x)) () dest (parts.map fun p => (p.1, mt p)) last =
      .ok ((), dest ++ interleave (parts.map fun p => (p.1, f p)) last) := by
  induction parts with
  | nil => intro dest; simp [runCut, interleave]
  | cons p ps ih =>
    intro dest
    rw [List.map_cons, runCut, h p (by simp)]
    show runCut (fun (_ : Unit) mt dest => (rep mt).map fun x => ((), dest ++ x)) () (dest ++ p.1 ++ f p) _ last = _
    rw [ih (fun q hq => h q (by simp [hq])), List.map_cons, interleave_cons]
    simp

theorem replaceAll_marks [LawfulUni] {rep : Match → Res Text} {f : Text × Nat → Text} {parts : List (Text × Nat)} {last : Text}
    (hp : ∀ p ∈ parts, markStart ∉ p.1) (hl : markStart ∉ last)
    (h : ∀ p ∈ parts, rep ⟨placeholder p.2, [(1, decimal p.2)]⟩ = .ok (f p)) :
    replaceAll passWithIndexRe rep (interleave (parts.map fun p => (p.1, placeholder p.2)) last) =
      .ok (interleave (parts.map fun p => (p.1, f p)) last) := by
  unfold replaceAll
  rw [replaceAllS_cut (cut_marks hp hl none), runCut_pure h]
  rfl

theorem passEntry_apply (fuel : Nat) (e : Env) (k : PassKind) (b : Text) :
    Group.apply (fuel + 1) e (passEntry k b).subs none (passEntry k b).text = .ok (k.shown e.r b) := by
  cases k with
  | triple => rfl
  | passMacro => rfl
  | double =>
    show (applySpecialCharacters e.r b).bind (fun t' => .ok t') = _
    rw [applySpecialCharacters_eq]; rfl
  | dollars =>
    show (applySpecialCharacters e.r b).bind (fun t' => .ok t') = _
    rw [applySpecialCharacters_eq]; rfl

/-- Every placeholder is replaced by what is to be seen of its passthrough. -/
theorem restore_pieces [LawfulUni] {e : Env} {pieces : List (Text × PassKind × Text)} {parts : List (Text × Nat)} {last : Text}
    (fuel : Nat) (hn : pieces.length < 2 ^ 64) (hi : ∀ p ∈ parts, p.2 < pieces.length) (hp : ∀ p ∈ parts, markStart ∉ p.1)
    (hl : markStart ∉ last) (hs : ∀ p ∈ pieces, markStart ∉ p.2.1.shown e.r p.2.2) :
    restorePassthroughs (fuel + 2) e (pieces.map fun p => passEntry p.2.1 p.2.2)
      (interleave (parts.map fun p => (p.1, placeholder p.2)) last) =
    .ok (interleave (parts.map fun p => (p.1, ((pieces[p.2]?).map fun q => q.2.1.shown e.r q.2.2).getD [])) last) := by
  rw [restorePassthroughs]
  refine replaceAll_marks hp hl fun p hpp => ?_
  obtain ⟨u, i⟩ := p
  have hi := hi _ hpp
  simp only at hi ⊢
  have hg : (pieces.map fun p => passEntry p.2.1 p.2.2)[i]? = some (passEntry pieces[i].2.1 pieces[i].2.2) := by
    rw [List.getElem?_map, List.getElem?_eq_getElem hi]; rfl
  have hat : (⟨placeholder i, [(1, decimal i)]⟩ : Match).at! 1 = .ok (decimal i) := rfl
  simp only [bind, Except.bind, hat]
  rw [parseIndex_decimal (by omega)]
  rw [hg, List.getElem?_eq_getElem hi]
  simp only
  rw [passEntry_apply]
  simp only [passEntry, Option.map_some, Option.getD_some]
  rw [if_neg]
  rw [List.contains_iff_mem]
  exact hs _ (List.getElem_mem hi)

end Adoc
