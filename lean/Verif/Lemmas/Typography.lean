import Verif.Spec.Typography
import Verif.Spec.Path
import Verif.Lemmas.Captures
import Verif.Lemmas.RegexRel
import Verif.Model.Steps
/-!
# The typographic replacements against their specification
-/

namespace Adoc
open Adoc.Spec Re

/-! ### Rewriting -/

/-- What can be replaced at a place, and by what, is determined. -/
def Determined (P : Option Char → Text → Text → Text → Prop) : Prop :=
  ∀ pv m b x m' b' x', P pv m b x → P pv m' b' x' → m ++ b = m' ++ b' → m ≠ [] ∧ m = m' ∧ x = x'

theorem Rewrites.det {P : Option Char → Text → Text → Text → Prop} (hP : Determined P) {pv : Option Char} {t u v : Text}
    (h : Rewrites P pv t u) (h' : Rewrites P pv t v) : u = v := by
  induction h generalizing v with
  | done =>
    generalize e : ([] : Text) = t at h'
    cases h' with
    | done => rfl
    | @hit _ m b x out hp _ =>
      obtain ⟨rfl, rfl⟩ := List.append_eq_nil_iff.mp e.symm
      exact absurd rfl (hP _ _ _ _ _ _ _ hp hp rfl).1
    | miss _ _ => cases e
  | @hit pv m b x out hp _ ih =>
    generalize e : m ++ b = t at h'
    cases h' with
    | done =>
      obtain ⟨rfl, rfl⟩ := List.append_eq_nil_iff.mp e
      exact absurd rfl (hP _ _ _ _ _ _ _ hp hp rfl).1
    | hit hp' hr =>
      obtain ⟨_, rfl, rfl⟩ := hP _ _ _ _ _ _ _ hp hp' e
      have := List.append_cancel_left e
      subst this
      rw [ih hr]
    | miss hn _ => exact absurd hp (hn _ _ _ e.symm)
  | @miss pv c t out hn _ ih =>
    generalize e : c :: t = t' at h'
    cases h' with
    | done => cases e
    | hit hp' hr => exact absurd hp' (hn _ _ _ e)
    | miss _ hr => cases e; rw [ih hr]

theorem Rewrites.same {P : Option Char → Text → Text → Text → Prop} : ∀ {t : Text} {pv : Option Char},
    (∀ a m b x pv, t = a ++ m ++ b → ¬ P pv m b x) → Rewrites P pv t t
  | [], _, _ => .done
  | c :: t, pv, h => .miss (fun m b x e => h [] m b x pv (by simpa using e))
      (Rewrites.same fun a m b x pv e => h (c :: a) m b x pv (by rw [e]; rfl))

variable [Uni]

/-- The expression and the replacer do what `P` says. -/
structure Renders (re : Re) (rep : Match → Res Text) (P : Option Char → Text → Text → Text → Prop) : Prop where
  sound : ∀ pv t mt s, matchAt re pv t = some (mt, s) → ∃ x, rep mt = .ok x ∧ mt.text ≠ [] ∧ P pv mt.text s.rest x
  complete : ∀ pv m b x, P pv m b x → ∃ s, Rel re ⟨pv, m ++ b, []⟩ s

omit [Uni] in
theorem prevAfter_ne {pv : Option Char} {m : Text} (h : m ≠ []) : prevAfter pv m = m.getLast? := by
  unfold prevAfter
  cases hg : m.getLast? with
  | none => exact absurd (List.getLast?_eq_none_iff.mp hg) h
  | some c => rfl

theorem Renders.rewrites {re : Re} {rep : Match → Res Text} {P : Option Char → Text → Text → Text → Prop}
    (h : Renders re rep P) {pv : Option Char} {e : Bool} {t out : Text} (hr : Replaced re rep pv e t out) :
    Rewrites P pv t out := by
  induction hr with
  | done _ => exact .done
  | doneEmpty hm _ =>
    obtain ⟨_, _, hne, _⟩ := h.sound _ _ _ _ hm
    obtain ⟨_, e, _⟩ := matchAt_sound hm
    exact absurd (List.append_eq_nil_iff.mp e.symm).1 hne
  | @skip pv e c cs out hn _ ih =>
    refine .miss (fun m b x he hp => ?_) ih
    obtain ⟨s, hs⟩ := h.complete _ _ _ _ hp
    rw [← he] at hs
    cases hm : matchAt re pv (c :: cs) with
    | none => exact matchAt_none.mp hm s hs
    | some y =>
      obtain ⟨_, _, hne, _⟩ := h.sound _ _ _ _ hm
      exact hne (hn _ _ hm).1
  | @hit pv e t mt s x out hm hne hx _ ih =>
    obtain ⟨y, hy, _, hp⟩ := h.sound _ _ _ _ hm
    rw [hx] at hy
    cases hy
    obtain ⟨_, e, ep, _⟩ := matchAt_sound hm
    rw [ep, prevAfter_ne hne] at ih
    rw [e]
    exact .hit hp ih
  | hitEmpty hm he _ _ =>
    obtain ⟨_, _, hne, _⟩ := h.sound _ _ _ _ hm
    exact absurd he hne

theorem Renders.replaceAll {re : Re} {rep : Match → Res Text} {P : Option Char → Text → Text → Text → Prop}
    (h : Renders re rep P) (t : Text) : ∃ out, replaceAll re rep t = .ok out ∧ Rewrites P none t out := by
  obtain ⟨out, ho⟩ := replaceAll_total (fun pv t mt s hm => let ⟨x, hx, _⟩ := h.sound pv t mt s hm; ⟨x, hx⟩) t
  exact ⟨out, ho, h.rewrites (replaceAll_ok ho)⟩

/-! ### The single replacements -/

omit [Uni] in
theorem unescape (t : Text) : replaceChar '\\' [] t = t.filter (· != '\\') := by
  unfold replaceChar
  induction t with
  | nil => rfl
  | cons c t ih =>
    rw [List.flatMap_cons, ih, List.filter_cons]
    by_cases h : c = '\\' <;> simp [h]

omit [Uni] in
theorem unescape_none {t : Text} (h : '\\' ∉ t) : replaceChar '\\' [] t = t := by
  rw [unescape, List.filter_eq_self]
  intro c hc
  simp only [bne_iff_ne, ne_eq]
  rintro rfl
  exact h hc

omit [Uni] in
theorem unescape_cons (t : Text) : replaceChar '\\' [] ('\\' :: t) = replaceChar '\\' [] t := by
  rw [unescape, unescape]; rfl

omit [Uni] in
theorem unescape_append (a t : Text) : replaceChar '\\' [] (a ++ t) = replaceChar '\\' [] a ++ replaceChar '\\' [] t := by
  rw [unescape, unescape, unescape, List.filter_append]

omit [Uni] in
theorem charReplacer_escaped {r : Renderer} {ty : CharRepl} {mt : Match} (h : '\\' ∈ mt.text) :
    charReplacer r ty mt = .ok (replaceChar '\\' [] mt.text) := by
  unfold charReplacer
  rw [if_pos (by simpa using h)]

/-- The text of a match and the groups, from a run of the expression. -/
theorem match_of {re : Re} {pv : Option Char} {t : Text} {mt : Match} {s : RS} (h : matchAt re pv t = some (mt, s)) :
    Rel re ⟨pv, t, []⟩ s ∧ mt.caps = s.caps ∧ ∀ u, t = u ++ s.rest → mt.text = u := by
  obtain ⟨h1, h2, _, h3⟩ := matchAt_sound h
  exact ⟨h1, h3, fun u hu => List.append_cancel_right (h2.symm.trans hu)⟩

theorem renders_sign {w new : Text} (hb : '\\' ∉ w) (hw : w ≠ []) {rep : Match → Res Text}
    (h1 : ∀ mt, '\\' ∈ mt.text → rep mt = .ok (replaceChar '\\' [] mt.text))
    (h2 : ∀ mt, '\\' ∉ mt.text → mt.caps = [] → rep mt = .ok new) :
    Renders (cat [opt (chr '\\'), lit w]) rep (Sign w new) := by
  constructor
  · intro pv t mt s h
    obtain ⟨hr, hc, ht⟩ := match_of h
    obtain ⟨x, r1, r2⟩ := rel_seq_iff.mp hr
    obtain ⟨r, e2, rfl⟩ := rel_lit_iff.mp r2
    rcases rel_opt_iff.mp r1 with r1 | rfl
    · obtain ⟨r', e1, rfl⟩ := rel_chr_iff.mp r1
      have e := ht ('\\' :: w) (by rw [show t = _ from e1]; rw [show r' = _ from e2]; rfl)
      refine ⟨w, ?_, by rw [e]; simp, Or.inr ⟨e, rfl⟩⟩
      rw [h1 _ (by rw [e]; simp), e, unescape_cons, unescape_none hb]
    · have e := ht w e2
      exact ⟨new, h2 _ (by rw [e]; exact hb) hc, by rw [e]; exact hw, Or.inl ⟨e, rfl⟩⟩
  · rintro pv m b x (⟨rfl, _⟩ | ⟨rfl, _⟩)
    · exact ⟨_, rel_seq_iff.mpr ⟨_, rel_opt_iff.mpr (Or.inr rfl), rel_lit_iff.mpr ⟨b, rfl, rfl⟩⟩⟩
    · exact ⟨_, rel_seq_iff.mpr ⟨_, rel_opt_iff.mpr (Or.inl (rel_chr_iff.mpr ⟨w ++ b, rfl, rfl⟩)), rel_lit_iff.mpr ⟨b, rfl, rfl⟩⟩⟩

omit [Uni] in
theorem determined_sign {w new : Text} (hb : '\\' ∉ w) (hw : w ≠ []) : Determined (Sign w new) := by
  have hh : ∀ b b' : Text, w ++ b ≠ '\\' :: w ++ b' := by
    intro b b' e
    cases w with
    | nil => exact hw rfl
    | cons c w =>
      injection e with e1
      exact hb (by rw [e1]; simp)
  rintro pv m b x m' b' x' (⟨rfl, rfl⟩ | ⟨rfl, rfl⟩) (⟨rfl, rfl⟩ | ⟨rfl, rfl⟩) e
  · exact ⟨hw, rfl, rfl⟩
  · exact absurd e (hh _ _)
  · exact absurd e.symm (hh _ _)
  · exact ⟨by simp, rfl, rfl⟩

theorem renders_spaced (r : Renderer) :
    Renders (cat [oneOf [chr ' ', chr '\n', bot, chr '\\'], lit "--".toList, oneOf [chr ' ', chr '\n', eot]])
      (charReplacer r .emDashSurroundedBySpaces) (SpacedDash (r.charRepl .emDashSurroundedBySpaces)) := by
  constructor
  · intro pv t mt s h
    obtain ⟨hr, _, ht⟩ := match_of h
    obtain ⟨x, r1, hr⟩ := rel_seq_iff.mp hr
    obtain ⟨y, r2, r3⟩ := rel_seq_iff.mp hr
    have ha : ∃ a, t = a ++ x.rest ∧ (a = [' '] ∨ a = ['\n'] ∨ a = ['\\'] ∨ (a = [] ∧ pv = none)) := by
      rcases rel_alt_iff.mp r1 with r1 | r1
      · obtain ⟨r', e1, rfl⟩ := rel_chr_iff.mp r1
        exact ⟨_, e1, Or.inl rfl⟩
      rcases rel_alt_iff.mp r1 with r1 | r1
      · obtain ⟨r', e1, rfl⟩ := rel_chr_iff.mp r1
        exact ⟨[_], e1, Or.inr (Or.inl rfl)⟩
      rcases rel_alt_iff.mp r1 with r1 | r1
      · obtain ⟨e1, rfl⟩ := rel_bot_iff.mp r1
        exact ⟨[], rfl, Or.inr (Or.inr (Or.inr ⟨rfl, e1⟩))⟩
      · obtain ⟨r', e1, rfl⟩ := rel_chr_iff.mp r1
        exact ⟨[_], e1, Or.inr (Or.inr (Or.inl rfl))⟩
    obtain ⟨r', e2, rfl⟩ := rel_lit_iff.mp r2
    have hb : ∃ b, r' = b ++ s.rest ∧ (b = [' '] ∨ b = ['\n'] ∨ (b = [] ∧ s.rest = [])) := by
      rcases rel_alt_iff.mp r3 with r1 | r1
      · obtain ⟨r', e1, rfl⟩ := rel_chr_iff.mp r1
        exact ⟨[_], e1, Or.inl rfl⟩
      rcases rel_alt_iff.mp r1 with r1 | r1
      · obtain ⟨r', e1, rfl⟩ := rel_chr_iff.mp r1
        exact ⟨[_], e1, Or.inr (Or.inl rfl)⟩
      · obtain ⟨e1, rfl⟩ := rel_eot_iff.mp r1
        exact ⟨[], rfl, Or.inr (Or.inr ⟨rfl, e1⟩)⟩
    obtain ⟨a, ea, ha⟩ := ha
    obtain ⟨b, eb, hb⟩ := hb
    have e := ht (a ++ ['-', '-'] ++ b) (by
      rw [ea, e2, eb]
      show a ++ (['-', '-'] ++ _) = _
      simp only [List.append_assoc])
    have hbb : '\\' ∉ b := by rcases hb with rfl | rfl | ⟨rfl, _⟩ <;> decide
    refine ⟨if a = ['\\'] then ['-', '-'] ++ b else r.charRepl .emDashSurroundedBySpaces, ?_, ?_, a, b, e, ha, hb, rfl⟩
    · split
      · rename_i hx
        subst hx
        rw [charReplacer_escaped (by rw [e]; simp), e]
        show Except.ok (replaceChar '\\' [] ('\\' :: (['-', '-'] ++ b))) = _
        rw [unescape_cons, unescape_none (by simpa using hbb)]
      · rename_i hx
        unfold charReplacer
        rw [if_neg]
        rw [e]
        have : '\\' ∉ a := by rcases ha with rfl | rfl | rfl | ⟨rfl, _⟩ <;> first | exact absurd rfl hx | decide
        simp [this, hbb]
    · rw [e]; simp
  · rintro pv m b x ⟨a, c, rfl, ha, hc, _⟩
    have h1 : ∃ pv', ∀ rest, Rel (oneOf [chr ' ', chr '\n', bot, chr '\\']) ⟨pv, a ++ rest, []⟩ ⟨pv', rest, []⟩ := by
      rcases ha with rfl | rfl | rfl | ⟨rfl, rfl⟩
      · exact ⟨_, fun rest => rel_alt_iff.mpr (Or.inl (rel_chr_iff.mpr ⟨rest, rfl, rfl⟩))⟩
      · exact ⟨_, fun rest => rel_alt_iff.mpr (Or.inr (rel_alt_iff.mpr (Or.inl (rel_chr_iff.mpr ⟨rest, rfl, rfl⟩))))⟩
      · exact ⟨_, fun rest => rel_alt_iff.mpr (Or.inr (rel_alt_iff.mpr (Or.inr (rel_alt_iff.mpr (Or.inr
          (rel_chr_iff.mpr ⟨rest, rfl, rfl⟩))))))⟩
      · exact ⟨_, fun rest => rel_alt_iff.mpr (Or.inr (rel_alt_iff.mpr (Or.inr (rel_alt_iff.mpr (Or.inl
          (rel_bot_iff.mpr ⟨rfl, rfl⟩))))))⟩
    obtain ⟨pv', h1⟩ := h1
    have h2 : ∀ pv', ∃ s, Rel (oneOf [chr ' ', chr '\n', eot]) ⟨pv', c ++ b, []⟩ s := by
      intro pv'
      rcases hc with rfl | rfl | ⟨rfl, rfl⟩
      · exact ⟨_, rel_alt_iff.mpr (Or.inl (rel_chr_iff.mpr ⟨b, rfl, rfl⟩))⟩
      · exact ⟨_, rel_alt_iff.mpr (Or.inr (rel_alt_iff.mpr (Or.inl (rel_chr_iff.mpr ⟨b, rfl, rfl⟩))))⟩
      · exact ⟨_, rel_alt_iff.mpr (Or.inr (rel_alt_iff.mpr (Or.inr (rel_eot_iff.mpr ⟨rfl, rfl⟩))))⟩
    obtain ⟨s, h2⟩ := h2 (prevAfter pv' "--".toList)
    refine ⟨s, rel_seq_iff.mpr ⟨⟨pv', "--".toList ++ (c ++ b), []⟩, ?_, rel_seq_iff.mpr ⟨_, rel_lit_iff.mpr ⟨c ++ b, rfl, rfl⟩, h2⟩⟩⟩
    rw [List.append_assoc, List.append_assoc]
    exact h1 _

omit [Uni] in
theorem determined_spaced (new : Text) : Determined (SpacedDash new) := by
  rintro pv m b x m' b' x' ⟨a, c, rfl, ha, hc, rfl⟩ ⟨a', c', rfl, ha', hc', rfl⟩ e
  have haa : a = a' := by
    rcases ha with rfl | rfl | rfl | ⟨rfl, _⟩ <;> rcases ha' with rfl | rfl | rfl | ⟨rfl, _⟩ <;> first | rfl | (simp at e)
  subst haa
  have e' : c ++ b = c' ++ b' := by
    simp only [List.append_assoc] at e
    exact List.append_cancel_left (List.append_cancel_left e)
  have hcc : c = c' := by
    rcases hc with rfl | rfl | ⟨rfl, rfl⟩ <;> rcases hc' with rfl | rfl | ⟨rfl, rfl⟩ <;> first | rfl | (simp at e')
  subst hcc
  exact ⟨by simp, rfl, rfl⟩

theorem word_backslash [LawfulUni] : Uni.isWord '\\' = false := LawfulUni.word _ (by decide)

theorem nd_ascii [LawfulUni] {c : Char} (hc : c.toNat < 128) (h : Uni.isNd c = true) : isAsciiDigit c = true := by
  rw [← LawfulUni.nd c (by omega)]; exact h

theorem renders_wordDash [LawfulUni] (r : Renderer) :
    Renders (cat [cap 1 (cls Uni.isWord), opt (chr '\\'), lit "--".toList, startHalf])
      (charReplacer r .emDashWithoutSpace) (WordDash (r.charRepl .emDashWithoutSpace)) := by
  constructor
  · intro pv t mt s h
    obtain ⟨hr, hc, ht⟩ := match_of h
    obtain ⟨x1, r1, hr⟩ := rel_seq_iff.mp hr
    obtain ⟨x2, r2, hr⟩ := rel_seq_iff.mp hr
    obtain ⟨x3, r3, r4⟩ := rel_seq_iff.mp hr
    obtain ⟨y, u, q1, eu, rfl⟩ := rel_cap_iff.mp r1
    obtain ⟨c, rest, e1, hw, rfl⟩ := rel_cls_iff.mp q1
    have hu : u = [c] := List.append_cancel_right (eu.symm.trans e1)
    subst hu
    have hcb : c ≠ '\\' := by rintro rfl; rw [word_backslash] at hw; cases hw
    obtain ⟨rest', e3, rfl⟩ := rel_lit_iff.mp r3
    have e4 : s = ⟨prevAfter x2.prev "--".toList, rest', x2.caps⟩ := by cases r4; rfl
    subst e4
    have e1 : t = c :: rest := e1
    rcases rel_opt_iff.mp r2 with r2 | rfl
    · obtain ⟨rest2, e2, rfl⟩ := rel_chr_iff.mp r2
      have e := ht [c, '\\', '-', '-'] (by rw [e1, show rest = _ from e2, show rest2 = _ from e3]; rfl)
      refine ⟨[c, '-', '-'], ?_, by rw [e]; simp, c, hw, Or.inr ⟨e, rfl⟩⟩
      rw [charReplacer_escaped (by rw [e]; simp), e, unescape]
      simp [hcb]
    · have e := ht [c, '-', '-'] (by rw [e1, show rest = _ from e3]; rfl)
      refine ⟨c :: r.charRepl .emDashWithoutSpace, ?_, by rw [e]; simp, c, hw, Or.inl ⟨e, rfl⟩⟩
      unfold charReplacer
      rw [if_neg (by rw [e]; simp [Ne.symm hcb])]
      have hg : mt.at! 1 = .ok [c] := by
        unfold Match.at! Match.get
        rw [hc]
        rfl
      simp only [hg, bind, Except.bind]
      rfl
  · rintro pv m b x ⟨c, hw, ⟨rfl, _⟩ | ⟨rfl, _⟩⟩
    · refine ⟨_, rel_seq_iff.mpr ⟨⟨some c, ['-', '-'] ++ b, [(1, [c])]⟩, ?_, rel_seq_iff.mpr ⟨_, rel_opt_iff.mpr (Or.inr rfl),
        rel_seq_iff.mpr ⟨_, rel_lit_iff.mpr ⟨b, rfl, rfl⟩, .startHalf ?_⟩⟩⟩⟩
      · exact rel_cap_iff.mpr ⟨⟨some c, _, []⟩, [c], rel_cls_iff.mpr ⟨_, _, rfl, hw, rfl⟩, rfl, rfl⟩
      · show (!Uni.isWord '-') = true
        rw [LawfulUni.word _ (by decide)]; rfl
    · refine ⟨_, rel_seq_iff.mpr ⟨⟨some c, ['\\', '-', '-'] ++ b, [(1, [c])]⟩, ?_, rel_seq_iff.mpr ⟨_,
        rel_opt_iff.mpr (Or.inl (rel_chr_iff.mpr ⟨_, rfl, rfl⟩)),
        rel_seq_iff.mpr ⟨_, rel_lit_iff.mpr ⟨b, rfl, rfl⟩, .startHalf ?_⟩⟩⟩⟩
      · exact rel_cap_iff.mpr ⟨⟨some c, _, []⟩, [c], rel_cls_iff.mpr ⟨_, _, rfl, hw, rfl⟩, rfl, rfl⟩
      · show (!Uni.isWord '-') = true
        rw [LawfulUni.word _ (by decide)]; rfl

theorem determined_wordDash (new : Text) : Determined (WordDash new) := by
  rintro pv m b x m' b' x' ⟨c, _, h⟩ ⟨c', _, h'⟩ e
  rcases h with ⟨rfl, rfl⟩ | ⟨rfl, rfl⟩ <;> rcases h' with ⟨rfl, rfl⟩ | ⟨rfl, rfl⟩ <;> simp at e <;> simp [e]

omit [Uni] in
theorem alnum_backslash {c : Char} (h : isAsciiAlnum c = true) : c ≠ '\\' := by rintro rfl; revert h; decide

omit [Uni] in
theorem alpha_backslash {c : Char} (h : isAsciiAlpha c = true) : c ≠ '\\' := by rintro rfl; revert h; decide

theorem renders_inner (r : Renderer) :
    Renders (cat [cap 1 (cls isAsciiAlnum), opt (chr '\\'), chr '\'', cap 2 alphaRe])
      (charReplacer r .typographicApostrophe) (InnerApostrophe (r.charRepl .typographicApostrophe)) := by
  constructor
  · intro pv t mt s h
    obtain ⟨hr, hc, ht⟩ := match_of h
    obtain ⟨x1, r1, hr⟩ := rel_seq_iff.mp hr
    obtain ⟨x2, r2, hr⟩ := rel_seq_iff.mp hr
    obtain ⟨x3, r3, r4⟩ := rel_seq_iff.mp hr
    obtain ⟨y, u, q1, eu, rfl⟩ := rel_cap_iff.mp r1
    obtain ⟨c, rest, e1, hw, rfl⟩ := rel_cls_iff.mp q1
    have hu : u = [c] := List.append_cancel_right (eu.symm.trans e1)
    subst hu
    have hcb := alnum_backslash hw
    obtain ⟨rest', e3, rfl⟩ := rel_chr_iff.mp r3
    obtain ⟨y', u', q4, eu', rfl⟩ := rel_cap_iff.mp r4
    obtain ⟨d, rest4, e4, hd, rfl⟩ := rel_cls_iff.mp q4
    have hu : u' = [d] := List.append_cancel_right (eu'.symm.trans e4)
    subst hu
    have hdb := alpha_backslash hd
    have e1 : t = c :: rest := e1
    have e4 : rest' = d :: rest4 := e4
    rcases rel_opt_iff.mp r2 with r2 | rfl
    · obtain ⟨rest2, e2, rfl⟩ := rel_chr_iff.mp r2
      have e := ht [c, '\\', '\'', d] (by rw [e1, show rest = _ from e2, show rest2 = _ from e3, show rest' = d :: rest4 from e4]; rfl)
      refine ⟨[c, '\'', d], ?_, by rw [e]; simp, c, d, hw, hd, Or.inr ⟨e, rfl⟩⟩
      rw [charReplacer_escaped (by rw [e]; simp), e, unescape]
      simp [hcb, hdb]
    · have e := ht [c, '\'', d] (by rw [e1, show rest = _ from e3, show rest' = d :: rest4 from e4]; rfl)
      refine ⟨c :: r.charRepl .typographicApostrophe ++ [d], ?_, by rw [e]; simp, c, d, hw, hd, Or.inl ⟨e, rfl⟩⟩
      unfold charReplacer
      rw [if_neg (by rw [e]; simp [Ne.symm hcb, Ne.symm hdb])]
      have hg : mt.get 1 = some [c] ∧ mt.get 2 = some [d] := by
        unfold Match.get
        rw [hc]
        exact ⟨rfl, rfl⟩
      simp only [hg.1, hg.2]
      rfl
  · rintro pv m b x ⟨c, d, hw, hd, ⟨rfl, _⟩ | ⟨rfl, _⟩⟩
    · refine ⟨_, rel_seq_iff.mpr ⟨⟨some c, ['\'', d] ++ b, [(1, [c])]⟩, ?_, rel_seq_iff.mpr ⟨_, rel_opt_iff.mpr (Or.inr rfl),
        rel_seq_iff.mpr ⟨_, rel_chr_iff.mpr ⟨d :: b, rfl, rfl⟩, rel_cap_iff.mpr ⟨_, [d], rel_cls_iff.mpr ⟨_, _, rfl, hd, rfl⟩, rfl, rfl⟩⟩⟩⟩⟩
      exact rel_cap_iff.mpr ⟨⟨some c, _, []⟩, [c], rel_cls_iff.mpr ⟨_, _, rfl, hw, rfl⟩, rfl, rfl⟩
    · refine ⟨_, rel_seq_iff.mpr ⟨⟨some c, ['\\', '\'', d] ++ b, [(1, [c])]⟩, ?_, rel_seq_iff.mpr ⟨_,
        rel_opt_iff.mpr (Or.inl (rel_chr_iff.mpr ⟨_, rfl, rfl⟩)),
        rel_seq_iff.mpr ⟨_, rel_chr_iff.mpr ⟨d :: b, rfl, rfl⟩, rel_cap_iff.mpr ⟨_, [d], rel_cls_iff.mpr ⟨_, _, rfl, hd, rfl⟩, rfl, rfl⟩⟩⟩⟩⟩
      exact rel_cap_iff.mpr ⟨⟨some c, _, []⟩, [c], rel_cls_iff.mpr ⟨_, _, rfl, hw, rfl⟩, rfl, rfl⟩

omit [Uni] in
theorem determined_inner (new : Text) : Determined (InnerApostrophe new) := by
  rintro pv m b x m' b' x' ⟨c, d, _, _, h⟩ ⟨c', d', _, hd', h'⟩ e
  rcases h with ⟨rfl, rfl⟩ | ⟨rfl, rfl⟩ <;> rcases h' with ⟨rfl, rfl⟩ | ⟨rfl, rfl⟩ <;> simp at e <;> simp [e]

theorem rel_upTo_cls_iff {p : Char → Bool} : ∀ {n : Nat} {s s' : RS}, Rel (upTo (cls p) n) s s' ↔
    ∃ u r, s.rest = u ++ r ∧ u.length ≤ n ∧ (∀ c ∈ u, p c = true) ∧ s' = ⟨prevAfter s.prev u, r, s.caps⟩
  | 0, s, s' => by
    unfold upTo
    rw [rel_eps_iff]
    constructor
    · rintro rfl
      exact ⟨[], s'.rest, rfl, Nat.le_refl _, nofun, rfl⟩
    · rintro ⟨u, r, e, hl, _, rfl⟩
      cases u with
      | nil => rw [show r = s.rest from e.symm]; rfl
      | cons _ _ => simp at hl
  | n + 1, s, s' => by
    unfold upTo
    rw [rel_opt_iff, rel_seq_iff]
    constructor
    · rintro (⟨x, h1, h2⟩ | rfl)
      · obtain ⟨c, r, e, hc, rfl⟩ := rel_cls_iff.mp h1
        obtain ⟨u, r', e', hl, hu, rfl⟩ := rel_upTo_cls_iff.mp h2
        refine ⟨c :: u, r', by rw [e, show r = _ from e']; rfl, by simpa using hl, ?_, by rw [prevAfter_cons]⟩
        intro d hd
        rcases List.mem_cons.mp hd with rfl | hd
        · exact hc
        · exact hu d hd
      · exact ⟨[], s'.rest, rfl, Nat.zero_le _, nofun, rfl⟩
    · rintro ⟨u, r, e, hl, hu, rfl⟩
      cases u with
      | nil => exact Or.inr (by rw [show r = s.rest from e.symm]; rfl)
      | cons c u =>
        refine Or.inl ⟨_, rel_cls_iff.mpr ⟨c, u ++ r, e, hu c (by simp), rfl⟩, rel_upTo_cls_iff.mpr ⟨u, r, rfl, by simpa using hl,
          fun d hd => hu d (by simp [hd]), by rw [prevAfter_cons]⟩⟩

/-- The expression for the name of a character reference. -/
def referenceRe : Re :=
  oneOf [
    cat [alphaRe, plus alphaRe, upTo digitRe 2],
    cat [chr '#', digitRe, digitRe, upTo digitRe 4],
    cat [chr '#', chr 'x', hexRe, hexRe, upTo hexRe 3]]

theorem two_upTo {p : Char → Bool} {n : Nat} {s s' : RS} :
    Rel (cat [cls p, cls p, upTo (cls p) n]) s s' ↔ ∃ d r, s.rest = d ++ r ∧ 2 ≤ d.length ∧ d.length ≤ n + 2 ∧
      (∀ c ∈ d, p c = true) ∧ s' = ⟨prevAfter s.prev d, r, s.caps⟩ := by
  constructor
  · intro h
    obtain ⟨x1, r1, h⟩ := rel_seq_iff.mp h
    obtain ⟨x2, r2, r3⟩ := rel_seq_iff.mp h
    obtain ⟨c, u, e1, h1, rfl⟩ := rel_cls_iff.mp r1
    obtain ⟨d, v, e2, h2, rfl⟩ := rel_cls_iff.mp r2
    obtain ⟨w, r, e3, hl, h3, rfl⟩ := rel_upTo_cls_iff.mp r3
    refine ⟨c :: d :: w, r, by rw [e1, show u = _ from e2, show v = _ from e3]; rfl, by simp, by simpa using hl, ?_, ?_⟩
    · intro x hx
      simp only [List.mem_cons] at hx
      rcases hx with rfl | rfl | hx
      · exact h1
      · exact h2
      · exact h3 x hx
    · rw [prevAfter_cons, prevAfter_cons]
  · rintro ⟨d, r, e, h1, h2, h3, rfl⟩
    match d, h1 with
    | a :: b :: w, _ =>
      refine rel_seq_iff.mpr ⟨_, rel_cls_iff.mpr ⟨a, _, e, h3 a (by simp), rfl⟩, rel_seq_iff.mpr ⟨_, rel_cls_iff.mpr ⟨b, w ++ r, rfl,
        h3 b (by simp), rfl⟩, rel_upTo_cls_iff.mpr ⟨w, r, rfl, by simpa using h2, fun c hc => h3 c (by simp [hc]), ?_⟩⟩⟩
      rw [prevAfter_cons, prevAfter_cons]

omit [Uni] in
theorem hex_iff [Uni] {c : Char} :
    (Uni.isNd c || ('a'.toNat ≤ c.toNat && c.toNat ≤ 'f'.toNat) || ('A'.toNat ≤ c.toNat && c.toNat ≤ 'F'.toNat)) = true ↔
      (Uni.isNd c = true ∨ ('a'.toNat ≤ c.toNat ∧ c.toNat ≤ 'f'.toNat) ∨ ('A'.toNat ≤ c.toNat ∧ c.toNat ≤ 'F'.toNat)) := by
  simp only [Bool.or_eq_true, Bool.and_eq_true, decide_eq_true_eq, or_assoc]

theorem rel_reference {s s' : RS} : Rel referenceRe s s' ↔
    ∃ n r, s.rest = n ++ r ∧ ReferenceName n ∧ s' = ⟨prevAfter s.prev n, r, s.caps⟩ := by
  constructor
  · intro h
    rcases rel_alt_iff.mp h with h | h
    · obtain ⟨x1, r1, h⟩ := rel_seq_iff.mp h
      obtain ⟨x2, r2, r3⟩ := rel_seq_iff.mp h
      obtain ⟨c, u, e1, h1, rfl⟩ := rel_cls_iff.mp r1
      obtain ⟨v, w, hv, e2, h2, rfl⟩ := rel_plus_cls_iff.mp r2
      obtain ⟨d, r, e3, hl, h3, rfl⟩ := rel_upTo_cls_iff.mp r3
      refine ⟨c :: v ++ d, r, by rw [e1, show u = _ from e2, show w = _ from e3]; simp, Or.inl ⟨c :: v, d, rfl, ?_, ?_, hl, h3⟩, ?_⟩
      · cases v with
        | nil => exact absurd rfl hv
        | cons _ _ => simp
      · intro x hx
        rcases List.mem_cons.mp hx with rfl | hx
        · exact h1
        · exact h2 x hx
      · rw [← prevAfter_append, prevAfter_cons]
    rcases rel_alt_iff.mp h with h | h
    · obtain ⟨x1, r1, h⟩ := rel_seq_iff.mp h
      obtain ⟨u, e1, rfl⟩ := rel_chr_iff.mp r1
      obtain ⟨d, r, e2, h1, h2, h3, rfl⟩ := two_upTo.mp h
      exact ⟨'#' :: d, r, by rw [e1, show u = _ from e2]; rfl, Or.inr (Or.inl ⟨d, rfl, h1, h2, h3⟩), by rw [prevAfter_cons]⟩
    · obtain ⟨x1, r1, h⟩ := rel_seq_iff.mp h
      obtain ⟨x2, r2, h⟩ := rel_seq_iff.mp h
      obtain ⟨u, e1, rfl⟩ := rel_chr_iff.mp r1
      obtain ⟨v, e2, rfl⟩ := rel_chr_iff.mp r2
      obtain ⟨d, r, e3, h1, h2, h3, rfl⟩ := two_upTo.mp h
      exact ⟨'#' :: 'x' :: d, r, by rw [e1, show u = _ from e2, show v = _ from e3]; rfl,
        Or.inr (Or.inr ⟨d, rfl, h1, h2, fun c hc => hex_iff.mp (h3 c hc)⟩), by rw [prevAfter_cons, prevAfter_cons]⟩
  · rintro ⟨n, r, e, hn, rfl⟩
    rcases hn with ⟨a, b, rfl, h1, h2, h3, h4⟩ | ⟨d, rfl, h1, h2, h3⟩ | ⟨d, rfl, h1, h2, h3⟩
    · refine rel_alt_iff.mpr (Or.inl ?_)
      match a, h1 with
      | c :: v, h1 =>
        refine rel_seq_iff.mpr ⟨_, rel_cls_iff.mpr ⟨c, v ++ (b ++ r), by rw [e]; simp, h2 c (by simp), rfl⟩,
          rel_seq_iff.mpr ⟨_, rel_plus_cls_iff.mpr ⟨v, b ++ r, ?_, rfl, fun x hx => h2 x (by simp [hx]), rfl⟩,
            rel_upTo_cls_iff.mpr ⟨b, r, rfl, h3, h4, ?_⟩⟩⟩
        · rintro rfl; simp at h1
        · rw [← prevAfter_append, prevAfter_cons]
    · refine rel_alt_iff.mpr (Or.inr (rel_alt_iff.mpr (Or.inl ?_)))
      exact rel_seq_iff.mpr ⟨_, rel_chr_iff.mpr ⟨d ++ r, e, rfl⟩, two_upTo.mpr ⟨d, r, rfl, h1, h2, h3, by rw [prevAfter_cons]⟩⟩
    · refine rel_alt_iff.mpr (Or.inr (rel_alt_iff.mpr (Or.inr ?_)))
      exact rel_seq_iff.mpr ⟨_, rel_chr_iff.mpr ⟨'x' :: d ++ r, e, rfl⟩, rel_seq_iff.mpr ⟨_, rel_chr_iff.mpr ⟨d ++ r, rfl, rfl⟩,
        two_upTo.mpr ⟨d, r, rfl, h1, h2, fun c hc => hex_iff.mpr (h3 c hc), by rw [prevAfter_cons, prevAfter_cons]⟩⟩⟩

theorem referenceName_char [LawfulUni] {n : Text} (h : ReferenceName n) {c : Char} (hc : c ∈ n) : c ≠ '\\' ∧ c ≠ ';' := by
  have hd : ∀ c : Char, Uni.isNd c = true → c ≠ '\\' ∧ c ≠ ';' := by
    intro c h
    constructor <;> (rintro rfl; have := nd_ascii (by decide) h; revert this; decide)
  have ha : ∀ c : Char, isAsciiAlpha c = true → c ≠ '\\' ∧ c ≠ ';' := by
    intro c h
    constructor <;> (rintro rfl; revert h; decide)
  rcases h with ⟨a, b, rfl, h1, h2, h3, h4⟩ | ⟨d, rfl, h1, h2, h3⟩ | ⟨d, rfl, h1, h2, h3⟩
  · rcases List.mem_append.mp hc with hc | hc
    · exact ha c (h2 c hc)
    · exact hd c (h4 c hc)
  · rcases List.mem_cons.mp hc with rfl | hc
    · decide
    · exact hd c (h3 c hc)
  · simp only [List.mem_cons] at hc
    rcases hc with rfl | rfl | hc
    · decide
    · decide
    · rcases h3 c hc with h | h | h
      · exact hd c h
      · constructor <;> (rintro rfl; revert h; decide)
      · constructor <;> (rintro rfl; revert h; decide)

theorem renders_reference [LawfulUni] (r : Renderer) :
    Renders (cat [opt (chr '\\'), lit "&amp;".toList, cap 1 referenceRe, chr ';'])
      (charReplacer r (.characterReference [])) (Reference fun n => r.charRepl (.characterReference n)) := by
  constructor
  · intro pv t mt s h
    obtain ⟨hr, hc, ht⟩ := match_of h
    obtain ⟨x1, r1, hr⟩ := rel_seq_iff.mp hr
    obtain ⟨x2, r2, hr⟩ := rel_seq_iff.mp hr
    obtain ⟨x3, r3, r4⟩ := rel_seq_iff.mp hr
    obtain ⟨y, u, q3, eu, rfl⟩ := rel_cap_iff.mp r3
    obtain ⟨n, rest, e3, hn, rfl⟩ := rel_reference.mp q3
    have hu : u = n := List.append_cancel_right (eu.symm.trans e3)
    subst hu
    obtain ⟨rest4, e4, rfl⟩ := rel_chr_iff.mp r4
    obtain ⟨rest2, e2, rfl⟩ := rel_lit_iff.mp r2
    have hb : '\\' ∉ u := fun h => (referenceName_char hn h).1 rfl
    rcases rel_opt_iff.mp r1 with r1 | rfl
    · obtain ⟨rest1, e1, rfl⟩ := rel_chr_iff.mp r1
      have e := ht ('\\' :: "&amp;".toList ++ u ++ [';']) (by
        rw [show t = _ from e1, show rest1 = _ from e2, show rest2 = _ from e3, show rest = _ from e4]; simp)
      refine ⟨_, ?_, by rw [e]; simp, u, hn, Or.inr ⟨e, rfl⟩⟩
      rw [charReplacer_escaped (by rw [e]; simp), e, List.cons_append, List.cons_append, unescape_cons, unescape_none]
      simp [hb]
    · have e := ht ("&amp;".toList ++ u ++ [';']) (by
        rw [show t = _ from e2, show rest2 = _ from e3, show rest = _ from e4]; simp)
      refine ⟨r.charRepl (.characterReference u), ?_, by rw [e]; simp, u, hn, Or.inl ⟨e, rfl⟩⟩
      unfold charReplacer
      rw [if_neg (by rw [e]; simp [hb])]
      have hg : mt.at! 1 = .ok u := by
        unfold Match.at! Match.get
        rw [hc]
        rfl
      simp only [hg, bind, Except.bind]
  · rintro pv m b x ⟨n, hn, ⟨rfl, _⟩ | ⟨rfl, _⟩⟩
    · refine ⟨_, rel_seq_iff.mpr ⟨_, rel_opt_iff.mpr (Or.inr rfl), rel_seq_iff.mpr ⟨_, rel_lit_iff.mpr ⟨n ++ (';' :: b), by simp, rfl⟩,
        rel_seq_iff.mpr ⟨_, rel_cap_iff.mpr ⟨_, n, rel_reference.mpr ⟨n, ';' :: b, rfl, hn, rfl⟩, rfl, rfl⟩,
          rel_chr_iff.mpr ⟨b, rfl, rfl⟩⟩⟩⟩⟩
    · refine ⟨_, rel_seq_iff.mpr ⟨_, rel_opt_iff.mpr (Or.inl (rel_chr_iff.mpr ⟨"&amp;".toList ++ (n ++ (';' :: b)), by simp, rfl⟩)),
        rel_seq_iff.mpr ⟨_, rel_lit_iff.mpr ⟨n ++ (';' :: b), by simp, rfl⟩,
        rel_seq_iff.mpr ⟨_, rel_cap_iff.mpr ⟨_, n, rel_reference.mpr ⟨n, ';' :: b, rfl, hn, rfl⟩, rfl, rfl⟩,
          rel_chr_iff.mpr ⟨b, rfl, rfl⟩⟩⟩⟩⟩

omit [Uni] in
theorem until_inj {c : Char} : ∀ {a b x y : Text}, c ∉ a → c ∉ b → a ++ c :: x = b ++ c :: y → a = b
  | [], [], _, _, _, _, _ => rfl
  | [], d :: b, x, y, _, hb, e => by simp at e; exact absurd (by simp [e.1]) hb
  | d :: a, [], x, y, ha, _, e => by simp at e; exact absurd (by simp [e.1]) ha
  | d :: a, d' :: b, x, y, ha, hb, e => by
    simp only [List.cons_append, List.cons.injEq] at e
    simp only [List.mem_cons, not_or] at ha hb
    rw [e.1, until_inj ha.2 hb.2 e.2]

theorem determined_reference [LawfulUni] (new : Text → Text) : Determined (Reference new) := by
  rintro pv m b x m' b' x' ⟨n, hn, h⟩ ⟨n', hn', h'⟩ e
  have h1 : ';' ∉ n := fun h => (referenceName_char hn h).2 rfl
  have h2 : ';' ∉ n' := fun h => (referenceName_char hn' h).2 rfl
  rcases h with ⟨rfl, rfl⟩ | ⟨rfl, rfl⟩ <;> rcases h' with ⟨rfl, rfl⟩ | ⟨rfl, rfl⟩ <;> simp at e <;>
    (have := until_inj h1 h2 e; subst this; exact ⟨by simp, rfl, rfl⟩)

end Adoc
