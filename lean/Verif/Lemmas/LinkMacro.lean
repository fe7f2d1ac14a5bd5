import Verif.Lemmas.ImageMacro
/-!
# Link and mail macros against their specification
-/

namespace Adoc
open Adoc.Spec Re
variable [Uni]

/-! ### Addresses without their scheme -/

/-- The scheme at the beginning of a text. -/
def SchemeAt (before : Option Char) (piece behind new : Text) : Prop :=
  before = none ∧ new = [] ∧ ∃ s slashes, UriScheme s ∧ piece = s ++ ':' :: slashes ∧
    (slashes = ['/', '/'] ∨ (slashes = ['/'] ∧ behind.head? ≠ some '/') ∨ (slashes = [] ∧ behind.head? ≠ some '/'))

theorem m_slashes {s z : RS} (h : m (upTo (chr '/') 2) some s = some z) :
    ∃ slashes, s.rest = slashes ++ z.rest ∧
    (slashes = ['/', '/'] ∨ (slashes = ['/'] ∧ z.rest.head? ≠ some '/') ∨ (slashes = [] ∧ z.rest.head? ≠ some '/')) := by
  have hno : ∀ {K : RS → Option RS} {s : RS}, (∀ s, (K s).isSome = true) → m (chr '/') K s = none → s.rest.head? ≠ some '/' := by
    intro K s hK h hs
    obtain ⟨pv, t, caps⟩ := s
    cases t with
    | nil => cases hs
    | cons c t =>
      cases hs
      rw [m_chr, if_pos rfl] at h
      have := hK ⟨some '/', t, caps⟩
      rw [h] at this; cases this
  simp only [upTo] at h
  have k1 : ∀ s, (m (opt (.seq (chr '/') .eps)) some s).isSome = true := fun s =>
    m_complete _ _ _ s (rel_opt_iff.mpr (.inr rfl)) rfl
  rcases m_opt_some h with h1 | ⟨h1, h2⟩
  · rw [m_seq] at h1
    obtain ⟨r, e, h3⟩ := m_chr_some h1
    rcases m_opt_some h3 with h4 | ⟨h4, h5⟩
    · rw [m_seq] at h4
      obtain ⟨r2, e2, h5⟩ := m_chr_some h4
      rw [m_eps] at h5
      cases h5
      simp only at e2
      exact ⟨_, by rw [e, e2]; rfl, .inl rfl⟩
    · cases h5
      rw [m_seq] at h4
      exact ⟨['/'], by rw [e]; rfl, .inr (.inl ⟨rfl, hno (fun s => by rw [m_eps]; rfl) h4⟩)⟩
  · cases h2
    rw [m_seq] at h1
    exact ⟨[], rfl, .inr (.inr ⟨rfl, hno k1 h1⟩)⟩

theorem renders_scheme : RendersIf Html.uriSniffRe (fun _ => .ok []) SchemeAt := by
  refine RendersIf.of ?_ ?_
  · intro pv t z h
    simp only [Html.uriSniffRe, cat] at h
    rw [m_seq, m] at h
    split at h
    · rename_i hpv
      simp only at hpv
      subst hpv
      rw [m_seq] at h
      obtain ⟨c, r1, e1, hc, h1⟩ := m_cls_some h
      rw [m_seq, plus, m_seq] at h1
      obtain ⟨d, r2, e2, hd, h2⟩ := m_cls_some h1
      obtain ⟨b, r3, e3, hb, h3, _⟩ := m_star_greedy h2
      rw [m_seq] at h3
      obtain ⟨r4, e4, h4⟩ := m_chr_some h3
      obtain ⟨sl, e5, h5⟩ := m_slashes h4
      simp only at e1 e2 e3 e4 e5
      subst e1 e2 e3 e4 e5
      refine ⟨c :: d :: b ++ ':' :: sl, by simp, by simp, ?_⟩
      intro x hx
      cases hx
      refine ⟨rfl, rfl, c :: d :: b, sl, ⟨c, d :: b, rfl, hc, by simp, ?_⟩, rfl, h5⟩
      intro x hx
      have : (Uni.isAlphabetic x || Uni.isNd x || x == '.' || x == '+' || x == '-') = true := by
        rcases List.mem_cons.mp hx with rfl | hx
        · exact hd
        · exact hb x hx
      simpa [or_assoc] using this
    · cases h
  · rintro pv mt b x ⟨rfl, -, s, sl, ⟨c, r, rfl, hc, hr, hall⟩, rfl, hsl⟩
    simp only [Html.uriSniffRe, cat]
    have hup : ∀ caps, ∃ z, Rel (upTo (chr '/') 2) ⟨some ':', sl ++ b, caps⟩ z := by
      intro caps
      refine ⟨⟨prevAfter (some ':') sl, b, caps⟩, ?_⟩
      show Rel (upTo (cls (· == '/')) 2) _ _
      refine rel_upTo_cls_iff.mpr ⟨sl, b, ?_, ?_, ?_, ?_⟩
      all_goals first
        | rfl
        | (rcases hsl with rfl | ⟨rfl, _⟩ | ⟨rfl, _⟩ <;> simp)
    obtain ⟨z, hz⟩ := hup []
    refine ⟨z, rel_seq_iff.mpr ⟨_, rel_bot_iff.mpr ⟨rfl, rfl⟩, rel_seq_iff.mpr ⟨⟨some c, r ++ ':' :: (sl ++ b), []⟩,
      rel_cls_iff.mpr ⟨c, _, by simp, hc, rfl⟩, rel_seq_iff.mpr ⟨⟨prevAfter (some c) r, ':' :: (sl ++ b), []⟩,
        rel_plus_cls_iff.mpr ⟨r, _, hr, rfl, ?_, rfl⟩, rel_seq_iff.mpr ⟨_, rel_chr_iff.mpr ⟨_, rfl, rfl⟩, hz⟩⟩⟩⟩⟩
    intro x hx
    simpa [or_assoc] using hall x hx

omit [Uni] in
/-- The slashes behind a colon. -/
theorem slashes_of (r : Text) : ∃ sl u, r = sl ++ u ∧
    (sl = ['/', '/'] ∨ (sl = ['/'] ∧ u.head? ≠ some '/') ∨ (sl = [] ∧ u.head? ≠ some '/')) := by
  cases r with
  | nil => exact ⟨[], [], rfl, .inr (.inr ⟨rfl, by simp⟩)⟩
  | cons c r =>
    by_cases hc : c = '/'
    · subst hc
      cases r with
      | nil => exact ⟨['/'], [], rfl, .inr (.inl ⟨rfl, by simp⟩)⟩
      | cons d r =>
        by_cases hd : d = '/'
        · subst hd; exact ⟨['/', '/'], r, rfl, .inl rfl⟩
        · exact ⟨['/'], d :: r, rfl, .inr (.inl ⟨rfl, by simpa using hd⟩)⟩
    · exact ⟨[], c :: r, rfl, .inr (.inr ⟨rfl, by simpa using hc⟩)⟩

theorem scheme_behind {c : Char} {t u : Text} (h : Rewrites SchemeAt (some c) t u) : u = t := by
  generalize hp : some c = pv at h
  induction h generalizing c with
  | done => rfl
  | hit h _ _ => rw [h.1] at hp; cases hp
  | miss _ _ ih => rw [ih rfl]

theorem withoutScheme_of {t u : Text} (h : stripScheme t = .ok u) : WithoutScheme t u := by
  have hr := renders_scheme.rewrites (replaceAll_ok h)
  generalize hp : (none : Option Char) = pv at hr
  cases hr with
  | done =>
    refine .inr ⟨rfl, ?_⟩
    rintro s r ⟨c, x, rfl, _⟩ e
    cases e
  | @hit _ piece behind new out h1 h2 =>
    obtain ⟨_, rfl, s, sl, hs, rfl, hsl⟩ := h1
    have : (s ++ ':' :: sl).getLast? = some ((s ++ ':' :: sl).getLast (by simp)) := List.getLast?_eq_some_getLast _
    rw [this] at h2
    have := scheme_behind h2
    subst this
    refine .inl ⟨s, sl, hs, by simp, hsl⟩
  | @miss _ c r out h1 h2 =>
    have := scheme_behind h2
    subst this
    refine .inr ⟨rfl, ?_⟩
    intro s x hs e
    obtain ⟨sl, u, rfl, hsl⟩ := slashes_of x
    exact h1 (s ++ ':' :: sl) u [] (by rw [e]; simp) ⟨hp.symm, rfl, s, sl, hs, rfl, hsl⟩

omit [Uni] in
theorem colon_scheme [Uni] [LawfulUni] {s : Text} (h : UriScheme s) : ':' ∉ s := by
  obtain ⟨c, r, rfl, hc, _, hr⟩ := h
  have ha : Uni.isAlphabetic ':' = false := LawfulUni.alpha _ (by decide)
  have hn : Uni.isNd ':' = false := LawfulUni.nd _ (by decide)
  intro hm
  rcases List.mem_cons.mp hm with e | hm
  · rw [← e, ha] at hc; cases hc
  · have := hr _ hm
    rw [ha, hn] at this
    revert this; decide

theorem withoutScheme_det [LawfulUni] {t u v : Text} (h : WithoutScheme t u) (h' : WithoutScheme t v) : u = v := by
  rcases h with ⟨s, sl, hs, rfl, hsl⟩ | ⟨rfl, h⟩
  · rcases h' with ⟨s', sl', hs', e, hsl'⟩ | ⟨rfl, h'⟩
    · simp only [List.append_assoc, List.cons_append] at e
      have := until_inj (colon_scheme hs) (colon_scheme hs') e
      subst this
      have e2 := (List.cons.inj (List.append_cancel_left e)).2
      rcases hsl with rfl | ⟨rfl, h1⟩ | ⟨rfl, h1⟩ <;> rcases hsl' with rfl | ⟨rfl, h2⟩ | ⟨rfl, h2⟩ <;>
        simp_all
      all_goals (subst e2; exact absurd rfl h2)
    · exact absurd (by simp) (h' s (sl ++ u) hs)
  · rcases h' with ⟨s', sl', hs', e, hsl'⟩ | ⟨rfl, h'⟩
    · exact absurd (by rw [e]; simp) (h s' (sl' ++ v) hs')
    · rfl

theorem shownAddress_of {e : Env} {target shown : Text} (h : bareText e target = .ok shown) : ShownAddress e target shown := by
  unfold bareText at h
  unfold ShownAddress
  by_cases hs : e.store.isAttributeSet "hide-uri-scheme".toList = true
  · rw [if_pos hs] at h ⊢
    exact withoutScheme_of h
  · rw [if_neg hs] at h ⊢
    cases h; rfl

theorem shownAddress_det [LawfulUni] {e : Env} {target u v : Text} (h : ShownAddress e target u) (h' : ShownAddress e target v) :
    u = v := by
  unfold ShownAddress at h h'
  by_cases hs : e.store.isAttributeSet "hide-uri-scheme".toList = true
  · rw [if_pos hs] at h h'
    exact withoutScheme_det h h'
  · rw [if_neg hs] at h h'
    rw [h, h']

/-! ### Words -/

omit [Uni] in
theorem caret_of (t : Text) : Caret t (caretWindow t).1 (caretWindow t).2 := by
  unfold caretWindow
  by_cases h : endsWith t ['^'] = true
  · rw [if_pos h]
    unfold endsWith at h
    rw [List.isSuffixOf_iff_suffix] at h
    obtain ⟨u, rfl⟩ := h
    exact .inl ⟨by simp, rfl⟩
  · rw [if_neg h]
    refine .inr ⟨?_, rfl, rfl⟩
    intro hl
    apply h
    unfold endsWith
    rw [List.isSuffixOf_iff_suffix]
    obtain ⟨u, rfl⟩ := List.getLast?_eq_some_iff.mp hl
    exact ⟨u, rfl⟩

omit [Uni] in
theorem caret_det {t u v : Text} {w w' : Option Text} (h : Caret t u w) (h' : Caret t v w') : u = v ∧ w = w' := by
  rcases h with ⟨rfl, rfl⟩ | ⟨h, rfl, rfl⟩
  · rcases h' with ⟨e, rfl⟩ | ⟨h', _⟩
    · exact ⟨List.append_cancel_right e, rfl⟩
    · simp at h'
  · rcases h' with ⟨rfl, _⟩ | ⟨_, rfl, rfl⟩
    · simp at h
    · exact ⟨rfl, rfl⟩

theorem extract_of {e : Env} {t lt : Text} {a : Attrlist} (h : extractAttributesFromText e t = .ok (lt, a)) :
    inlineAttrlist e.store t = .ok a ∧ lt = firstValue a := by
  unfold extractAttributesFromText at h
  cases ha : inlineAttrlist e.store t with
  | error f => rw [ha] at h; cases h
  | ok b =>
    rw [ha] at h
    simp only [bind, Except.bind] at h
    unfold firstValue
    cases hn : b.nthAttribute 1 with
    | none => rw [hn] at h; cases h; exact ⟨rfl, by rw [hn]; rfl⟩
    | some x => rw [hn] at h; cases h; exact ⟨rfl, by rw [hn]; rfl⟩

/-! ### The macros -/

/-- What stands between the brackets. -/
def macroTail : Re := cat [chr '[', alt (cap 4 eps) (cap 5 (cat [star false anyChar, cls (· != '\\')])), chr ']']

/-- The target. -/
def macroTarget : Re :=
  alt (cat [cap 2 eps, anyChar])
    (cap 3 (cat [cls (fun c => c != ':' && !isWhite c && c != '['), star true (cls fun c => !isWhite c && c != '[')]))

omit [Uni] in
theorem inlineLinkMacroRe_eq : inlineLinkMacroRe = .seq (opt (chr '\\'))
    (.seq (alt (lit "link".toList) (cap 1 (lit "mailto".toList))) (.seq (chr ':') (.seq macroTarget macroTail))) := rfl

/-- The group of the text. -/
def textGroup (t : Text) : Nat × Text := if t = [] then (4, []) else (5, t)

theorem macroTail_sound {s z : RS} (h : m macroTail some s = some z) :
    ∃ t r, s.rest = '[' :: t ++ ']' :: r ∧ Enclosed t ∧ z = ⟨some ']', r, textGroup t :: s.caps⟩ := by
  simp only [macroTail, cat] at h
  rw [m_seq] at h
  obtain ⟨r, e, h1⟩ := m_chr_some h
  rw [m_seq] at h1
  rcases m_alt_some h1 with h2 | ⟨h0, h2⟩
  · rw [m_cap, m_eps] at h2
    obtain ⟨r2, e2, hz⟩ := m_chr_some h2
    simp only at e2
    subst e2
    refine ⟨[], r2, by rw [e]; rfl, ⟨?_, by simp⟩, ?_⟩
    · intro a b he; simp at he
    · cases hz; simp [textGroup]
  · have h3 : r.head? ≠ some ']' := by
      intro hr
      rw [m_cap, m_eps] at h0
      cases r with
      | nil => cases hr
      | cons c r => cases hr; rw [m_chr, if_pos rfl] at h0; cases h0
    obtain ⟨t, r2, e2, hne, h4, _, hz⟩ := m_enclosed (n := 5) (p := fun _ => true) (s := ⟨some '[', r, s.caps⟩) h3 h2
    simp only at e2
    refine ⟨t, r2, by rw [e, e2]; rfl, h4, ?_⟩
    rw [hz, textGroup, if_neg hne]

theorem macroTail_rel {t : Text} (h : Enclosed t) (pv : Option Char) (r : Text) (caps : List (Nat × Text)) :
    Rel macroTail ⟨pv, '[' :: t ++ ']' :: r, caps⟩ ⟨some ']', r, textGroup t :: caps⟩ := by
  simp only [macroTail, cat]
  refine rel_seq_iff.mpr ⟨⟨some '[', t ++ ']' :: r, caps⟩, rel_chr_iff.mpr ⟨_, rfl, rfl⟩,
    rel_seq_iff.mpr ⟨⟨prevAfter (some '[') t, ']' :: r, textGroup t :: caps⟩, ?_, rel_chr_iff.mpr ⟨_, rfl, rfl⟩⟩⟩
  by_cases ht : t = []
  · subst ht
    exact rel_alt_iff.mpr (.inl (rel_cap_iff.mpr ⟨⟨some '[', ']' :: r, caps⟩, [], rel_eps_iff.mpr rfl, rfl, rfl⟩))
  · rw [textGroup, if_neg ht]
    exact rel_alt_iff.mpr (.inr (enclosed_rel (p := fun _ => true) h ht (by simp) _ _ _))

theorem macroTarget_sound {s z : RS} (h : m macroTarget (m macroTail some) s = some z) :
    ∃ target text, s.rest = target ++ '[' :: text ++ [']'] ++ z.rest ∧ Enclosed text ∧
      ((MacroTarget target ∧ z.caps = textGroup text :: (3, target) :: s.caps) ∨
       (target.length = 1 ∧ z.caps = textGroup text :: (2, []) :: s.caps)) := by
  rw [macroTarget] at h
  rcases m_alt_some h with h1 | ⟨h0, h1⟩
  · simp only [cat] at h1
    rw [m_seq, m_cap, m_eps, anyChar] at h1
    obtain ⟨c, r, e, _, h2⟩ := m_cls_some h1
    obtain ⟨t, r2, e2, ht, hz⟩ := macroTail_sound h2
    simp only at e e2
    refine ⟨[c], t, by rw [e, e2, hz]; simp, ht, .inr ⟨rfl, ?_⟩⟩
    rw [hz]; simp
  · rw [m_cap] at h1
    simp only [cat] at h1
    rw [m_seq] at h1
    obtain ⟨c, r, e, hc, h2⟩ := m_cls_some h1
    obtain ⟨b, r1, e1, hb, h3, _⟩ := m_star_greedy h2
    simp only at e1
    subst e1
    have htk := take_used (c :: b) r1
    rw [List.cons_append] at htk
    simp only [e, htk] at h3
    obtain ⟨t, r2, e2, ht, hz⟩ := macroTail_sound h3
    simp only at e2
    subst e2
    refine ⟨c :: b, t, by rw [e, hz]; simp, ht, .inl ⟨⟨?_, ?_, ?_⟩, by rw [hz]⟩⟩
    · cases b with
      | cons d b => simp
      | nil =>
        exfalso
        simp only [cat] at h0
        rw [m_seq, m_cap, m_eps, anyChar] at h0
        obtain ⟨pv, t0, caps⟩ := s
        simp only [List.nil_append] at e
        subst e
        rw [m_cls_cons, if_pos rfl] at h0
        have := m_complete _ some _ _ (macroTail_rel ht (some c) r2
          ((2, (c :: ('[' :: t ++ ']' :: r2)).take ((c :: ('[' :: t ++ ']' :: r2)).length - (c :: ('[' :: t ++ ']' :: r2)).length)) :: caps)) rfl
        simp only at h0
        rw [h0] at this
        cases this
    · intro hh
      cases hh
      revert hc; decide
    · intro x hx
      rcases List.mem_cons.mp hx with rfl | hx
      · simp only [bne_iff_ne, ne_eq, Bool.and_eq_true, Bool.not_eq_true'] at hc
        exact ⟨hc.1.2, hc.2⟩
      · have := hb x hx
        simpa using this

theorem macroTarget_rel {target text : Text} (ht : MacroTarget target ∨ target.length = 1) (hx : Enclosed text)
    (pv : Option Char) (r : Text) (caps : List (Nat × Text)) :
    ∃ z, Rel (.seq macroTarget macroTail) ⟨pv, target ++ '[' :: text ++ [']'] ++ r, caps⟩ z := by
  have e : target ++ '[' :: text ++ [']'] ++ r = target ++ ('[' :: text ++ ']' :: r) := by simp
  rw [e]
  rcases ht with ⟨h1, h2, h3⟩ | h1
  · refine ⟨_, rel_seq_iff.mpr ⟨⟨prevAfter pv target, '[' :: text ++ ']' :: r, (3, target) :: caps⟩, ?_, macroTail_rel hx _ _ _⟩⟩
    refine rel_alt_iff.mpr (.inr (rel_cap_iff.mpr ⟨⟨prevAfter pv target, '[' :: text ++ ']' :: r, caps⟩, target, ?_, rfl, rfl⟩))
    cases target with
    | nil => simp at h1
    | cons c b =>
      simp only [cat]
      refine rel_seq_iff.mpr ⟨⟨some c, b ++ ('[' :: text ++ ']' :: r), caps⟩, rel_cls_iff.mpr ⟨c, _, rfl, ?_, rfl⟩,
        rel_star_cls_iff.mpr ⟨b, _, rfl, ?_, ?_⟩⟩
      · have := h3 c (by simp)
        have hc : c ≠ ':' := fun e => h2 (by rw [e]; rfl)
        simp [this.1, this.2, hc]
      · intro x hx
        have := h3 x (by simp [hx])
        simp [this.1, this.2]
      · rw [prevAfter_cons]
  · obtain ⟨c, rfl⟩ := List.length_eq_one_iff.mp h1
    refine ⟨_, rel_seq_iff.mpr ⟨⟨some c, '[' :: text ++ ']' :: r, (2, []) :: caps⟩, ?_, macroTail_rel hx _ _ _⟩⟩
    refine rel_alt_iff.mpr (.inl ?_)
    simp only [cat]
    exact rel_seq_iff.mpr ⟨⟨pv, [c] ++ ('[' :: text ++ ']' :: r), (2, []) :: caps⟩,
      rel_cap_iff.mpr ⟨⟨pv, [c] ++ ('[' :: text ++ ']' :: r), caps⟩, [], rel_eps_iff.mpr rfl, rfl, rfl⟩,
      rel_cls_iff.mpr ⟨c, _, rfl, rfl, rfl⟩⟩

omit [Uni] in
theorem mem_unescape {c : Char} (hc : c ≠ '\\') (hq : c ≠ ']') (t : Text) : c ∈ Spec.unescape ']' t ↔ c ∈ t := by
  induction t using Spec.unescape.induct (q := ']') with
  | case1 => simp [Spec.unescape]
  | case2 d => simp [Spec.unescape]
  | case3 d f r h ih =>
    rw [Spec.unescape, if_pos h]
    simp [ih, h.1, h.2, hc, hq]
  | case4 d f r h ih =>
    rw [Spec.unescape, if_neg h]
    simp [ih]

omit [Uni] in
theorem unescape_empty {t : Text} (h : Spec.unescape ']' t = []) : t = [] := by
  induction t using Spec.unescape.induct (q := ']') with
  | case1 => rfl
  | case2 d => simp [Spec.unescape] at h
  | case3 d f r h1 ih => rw [Spec.unescape, if_pos h1] at h; cases h
  | case4 d f r h1 ih => rw [Spec.unescape, if_neg h1] at h; cases h

theorem linkMacro_becomes {e : Env} {mt : Match} {target text x : Text} (hb : startsWith mt.text ['\\'] = false)
    (h1 : mt.get 1 = none) (h3 : mt.get 3 = some target) (h5 : (mt.get 5).getD [] = text)
    (h : linkMacroReplacer e mt = .ok x) : LinkMacroBecomes e target text x := by
  obtain ⟨a0, ha0⟩ := inlineAttrlist_ok e.store []
  obtain ⟨v, hst⟩ := stripScheme_ok target
  unfold linkMacroReplacer at h
  rw [if_neg (by rw [hb]; simp)] at h
  simp only [Match.at!, h3, Res.ofOption, h1, h5, Option.isSome_none, bind, Except.bind, ha0, hst, Bool.false_eq_true,
    if_false, replaceChar_map] at h
  have addr : ∀ {words : Text} {window : Option Text} {a : Attrlist}, MacroWords e '=' text words a → Caret words [] window →
      (if e.store.isAttributeSet "hide-uri-scheme".toList = true then
          Except.ok (e.r.link e.toPEnv
            { target := target, linkText := if v = [] then target else v, extraRoles := ["bare".toList], window := window,
              attrlist := a })
        else Except.ok (e.r.link e.toPEnv
            { target := target, linkText := target, extraRoles := ["bare".toList], window := window, attrlist := a })
          : Res Text) = Except.ok x →
      LinkMacroBecomes e target text x := by
    intro words window a hw hc hx
    by_cases hs : e.store.isAttributeSet "hide-uri-scheme".toList = true
    · rw [if_pos hs] at hx
      cases hx
      refine .address hw hc ?_
      by_cases hv : v = []
      · subst hv
        rw [if_pos rfl]
        exact .inr ⟨by unfold ShownAddress; rw [if_pos hs]; exact withoutScheme_of hst, rfl⟩
      · rw [if_neg hv]
        exact .inl ⟨hv, by unfold ShownAddress; rw [if_pos hs]; exact withoutScheme_of hst⟩
    · rw [if_neg hs] at hx
      cases hx
      refine .address hw hc ?_
      by_cases ht : target = []
      · exact .inr ⟨by unfold ShownAddress; rw [if_neg hs, ht], rfl⟩
      · exact .inl ⟨ht, by unfold ShownAddress; rw [if_neg hs]⟩
  by_cases ht : text = []
  · subst ht
    rw [if_pos rfl] at h
    simp only [if_true] at h
    refine addr (words := []) ?_ (.inr ⟨by simp, rfl, rfl⟩) h
    unfold MacroWords
    rw [if_neg (by simp)]
    exact ⟨ha0, rfl⟩
  · rw [if_neg ht] at h
    rw [unescape_eq _ (by decide)] at h
    have fin : ∀ {words : Text} {a : Attrlist}, MacroWords e '=' text words a →
        (if (caretWindow words).1 = [] then
          (if e.store.isAttributeSet "hide-uri-scheme".toList = true then
              Except.ok (e.r.link e.toPEnv
              { target := target, linkText := if v = [] then target else v, extraRoles := ["bare".toList],
                window := (caretWindow words).2, attrlist := a })
            else Except.ok (e.r.link e.toPEnv
              { target := target, linkText := target, extraRoles := ["bare".toList], window := (caretWindow words).2,
                attrlist := a }) : Res Text)
          else Except.ok (e.r.link e.toPEnv
              { target := target, linkText := (caretWindow words).1, extraRoles := [], window := (caretWindow words).2,
                attrlist := a }))
          = Except.ok x → LinkMacroBecomes e target text x := by
      intro words a hw hx
      by_cases hc : (caretWindow words).1 = []
      · rw [if_pos hc] at hx
        exact addr hw (by have := caret_of words; rwa [hc] at this) hx
      · rw [if_neg hc] at hx
        cases hx
        exact .words hw (caret_of words) hc
    by_cases heq : '=' ∈ text
    · rw [if_pos (by rw [List.contains_iff_mem, mem_unescape (by decide) (by decide)]; exact heq)] at h
      cases hex : extractAttributesFromText e (text.map fun x => if x = '\n' then ' ' else x) with
      | error f => rw [hex] at h; cases h
      | ok y =>
        obtain ⟨lt, a⟩ := y
        obtain ⟨g1, rfl⟩ := extract_of hex
        rw [hex] at h
        simp only at h
        refine fin (words := firstValue a) ?_ h
        unfold MacroWords
        rw [if_pos heq]
        exact ⟨g1, rfl⟩
    · rw [if_neg (by rw [List.contains_iff_mem, mem_unescape (by decide) (by decide)]; exact heq)] at h
      refine fin (words := Spec.unescape ']' text) ?_ h
      unfold MacroWords
      rw [if_neg heq]
      exact ⟨ha0, rfl⟩

theorem mailMacro_becomes {e : Env} {mt : Match} {target text x y : Text} (hb : startsWith mt.text ['\\'] = false)
    (h1 : mt.get 1 = some y) (h3 : mt.get 3 = some target) (h5 : (mt.get 5).getD [] = text)
    (h : linkMacroReplacer e mt = .ok x) : MailMacroBecomes e target text x := by
  obtain ⟨a0, ha0⟩ := inlineAttrlist_ok e.store []
  obtain ⟨v, hst⟩ := stripScheme_ok target
  unfold linkMacroReplacer at h
  rw [if_neg (by rw [hb]; simp)] at h
  simp only [Match.at!, h3, Res.ofOption, h1, h5, Option.isSome_some, bind, Except.bind, ha0,
    if_true, replaceChar_map] at h
  have fin : ∀ {words shown : Text} {window : Option Text} {a : Attrlist} {t : Text}, MacroWords e ',' text words a →
      Caret words shown window → t = "mailto:".toList ++ target ++ (if ',' ∈ text then mailQuery a else []) →
        (if shown = [] then Except.ok (e.r.link e.toPEnv
            { target := t, linkText := target, extraRoles := [], window := window, attrlist := a })
          else Except.ok (e.r.link e.toPEnv
              { target := t, linkText := shown, extraRoles := [], window := window, attrlist := a }) : Res Text)
          = Except.ok x → MailMacroBecomes e target text x := by
      intro words shown window a t hw hc ht hx
      have : x = wordLink e ("mailto:".toList ++ target ++ (if ',' ∈ text then mailQuery a else []))
          (if shown = [] then target else shown) window a := by
        rw [← ht]
        by_cases hs : shown = []
        · rw [if_pos hs] at hx ⊢; cases hx; rfl
        · rw [if_neg hs] at hx ⊢; cases hx; rfl
      rw [this]
      exact .mail hw hc
  by_cases ht : text = []
  · subst ht
    rw [if_pos rfl] at h
    refine fin (words := []) (shown := []) ?_ (.inr ⟨by simp, rfl, rfl⟩) ?_ h
    · unfold MacroWords
      rw [if_neg (by simp)]
      exact ⟨ha0, rfl⟩
    · simp
  · rw [if_neg ht] at h
    rw [unescape_eq _ (by decide)] at h
    by_cases heq : ',' ∈ text
    · rw [if_pos (by rw [List.contains_iff_mem, mem_unescape (by decide) (by decide)]; exact heq)] at h
      cases hex : extractAttributesFromText e (text.map fun x => if x = '\n' then ' ' else x) with
      | error f => rw [hex] at h; cases h
      | ok y =>
        obtain ⟨lt, a⟩ := y
        obtain ⟨g1, rfl⟩ := extract_of hex
        rw [hex] at h
        simp only at h
        refine fin (words := firstValue a) ?_ (caret_of _) ?_ h
        · unfold MacroWords
          rw [if_pos heq]
          exact ⟨g1, rfl⟩
        · rw [if_pos heq, mailQuery]
          cases a.nthAttribute 2 with
          | none => simp
          | some s =>
            cases a.nthAttribute 3 with
            | none => simp
            | some b => simp
    · rw [if_neg (by rw [List.contains_iff_mem, mem_unescape (by decide) (by decide)]; exact heq)] at h
      refine fin (words := Spec.unescape ']' text) ?_ (caret_of _) ?_ h
      · unfold MacroWords
        rw [if_neg heq]
        exact ⟨ha0, rfl⟩
      · rw [if_neg heq]; simp

theorem renders_linkMacro (e : Env) : RendersIf inlineLinkMacroRe (linkMacroReplacer e) (LinkMacroAt e) := by
  refine RendersIf.of ?_ ?_
  · intro pv t s h
    rw [inlineLinkMacroRe_eq, m_seq] at h
    have core : ∀ {s0 z : RS}, m (.seq (alt (lit "link".toList) (cap 1 (lit "mailto".toList)))
        (.seq (chr ':') (.seq macroTarget macroTail))) some s0 = some z →
        ∃ name caps target text, ((name = "link:".toList ∧ caps = s0.caps) ∨
          (name = "mailto:".toList ∧ caps = (1, "mailto".toList) :: s0.caps)) ∧
          s0.rest = name ++ target ++ '[' :: text ++ [']'] ++ z.rest ∧ Enclosed text ∧
          ((MacroTarget target ∧ z.caps = textGroup text :: (3, target) :: caps) ∨
          (target.length = 1 ∧ z.caps = textGroup text :: (2, []) :: caps)) := by
      intro s0 z h
      rw [m_seq] at h
      have fin : ∀ {pv : Option Char} {w r : Text} {caps : List (Nat × Text)},
          m (.seq (chr ':') (.seq macroTarget macroTail)) some ⟨pv, r, caps⟩ = some z → s0.rest = w ++ r →
          ((w ++ [':'] = "link:".toList ∧ caps = s0.caps) ∨
            (w ++ [':'] = "mailto:".toList ∧ caps = (1, "mailto".toList) :: s0.caps)) →
          ∃ name caps target text, ((name = "link:".toList ∧ caps = s0.caps) ∨
          (name = "mailto:".toList ∧ caps = (1, "mailto".toList) :: s0.caps)) ∧
          s0.rest = name ++ target ++ '[' :: text ++ [']'] ++ z.rest ∧ Enclosed text ∧
          ((MacroTarget target ∧ z.caps = textGroup text :: (3, target) :: caps) ∨
          (target.length = 1 ∧ z.caps = textGroup text :: (2, []) :: caps)) := by
        intro pv w r caps h1 e1 hn
        rw [m_seq] at h1
        obtain ⟨r2, e2, h2⟩ := m_chr_some h1
        rw [m_seq] at h2
        obtain ⟨target, text, h3, h4, h5⟩ := macroTarget_sound h2
        simp only at e2 h3
        subst e2 h3
        exact ⟨w ++ [':'], caps, target, text, hn, by rw [e1]; simp, h4, h5⟩
      rcases m_alt_some h with h1 | ⟨_, h1⟩
      · obtain ⟨r, er, hr⟩ := m_lit_some h1
        exact fin hr er (.inl ⟨rfl, rfl⟩)
      · rw [m_cap] at h1
        obtain ⟨r, er, hr⟩ := m_lit_some h1
        rw [er, take_used] at hr
        exact fin hr er (.inr ⟨rfl, rfl⟩)
    rcases m_opt_some h with h | ⟨_, h⟩
    · obtain ⟨r, e1, h⟩ := m_chr_some h
      obtain ⟨name, caps, target, text, h1, h2, h3, h4⟩ := core h
      simp only at e1 h2
      subst h2
      refine ⟨'\\' :: (name ++ target ++ '[' :: text ++ [']']), by rw [e1]; simp, by simp, ?_⟩
      intro x hx
      unfold linkMacroReplacer at hx
      rw [if_pos (by simp [startsWith])] at hx
      cases hx
      refine .escaped ?_ ?_ h3
      · rcases h1 with ⟨h1, _⟩ | ⟨h1, _⟩
        · exact .inl h1
        · exact .inr h1
      · rcases h4 with ⟨h4, _⟩ | ⟨h4, _⟩
        · exact .inl h4
        · exact .inr h4
    · obtain ⟨name, caps, target, text, h1, h2, h3, h4⟩ := core h
      simp only at h2 h1
      refine ⟨name ++ target ++ '[' :: text ++ [']'], by rw [h2], by simp, ?_⟩
      intro x hx
      have hb : startsWith (name ++ target ++ '[' :: text ++ [']']) ['\\'] = false := by
        rcases h1 with ⟨rfl, _⟩ | ⟨rfl, _⟩ <;> rfl
      rcases h4 with ⟨h4, hcaps⟩ | ⟨h4, hcaps⟩
      · have g3 : (Match.mk (name ++ target ++ '[' :: text ++ [']']) s.caps).get 3 = some target := by
          rw [hcaps, textGroup]
          by_cases ht : text = []
          · simp [Match.get, ht]
          · simp [Match.get, ht]
        have g5 : ((Match.mk (name ++ target ++ '[' :: text ++ [']']) s.caps).get 5).getD [] = text := by
          rw [hcaps, textGroup]
          rcases h1 with ⟨_, rfl⟩ | ⟨_, rfl⟩ <;> by_cases ht : text = [] <;> simp [Match.get, ht]
        rcases h1 with ⟨rfl, rfl⟩ | ⟨rfl, rfl⟩
        · refine .link h4 h3 (linkMacro_becomes hb ?_ g3 g5 hx)
          rw [hcaps, textGroup]
          by_cases ht : text = [] <;> simp [Match.get, ht]
        · refine .mail h4 h3 (mailMacro_becomes (y := "mailto".toList) hb ?_ g3 g5 hx)
          rw [hcaps, textGroup]
          by_cases ht : text = [] <;> simp [Match.get, ht]
      · exfalso
        have g3 : (Match.mk (name ++ target ++ '[' :: text ++ [']']) s.caps).get 3 = none := by
          rw [hcaps, textGroup]
          rcases h1 with ⟨_, rfl⟩ | ⟨_, rfl⟩ <;> by_cases ht : text = [] <;> simp [Match.get, ht]
        have := ((linkMacroReplacer_iff e ⟨name ++ target ++ '[' :: text ++ [']'], s.caps⟩).2).mpr ⟨hb, g3⟩
        rw [hx] at this
        cases this
  · intro pv mt b x h
    rw [inlineLinkMacroRe_eq]
    have core : ∀ {name target text : Text}, (name = "link:".toList ∨ name = "mailto:".toList) →
        (MacroTarget target ∨ target.length = 1) → Enclosed text → ∀ pv, ∃ z,
        Rel (.seq (alt (lit "link".toList) (cap 1 (lit "mailto".toList))) (.seq (chr ':') (.seq macroTarget macroTail)))
          ⟨pv, name ++ target ++ '[' :: text ++ [']'] ++ b, []⟩ z := by
      intro name target text hn ht hx pv
      rcases hn with rfl | rfl
      · obtain ⟨z, hz⟩ := macroTarget_rel ht hx (some ':') b []
        refine ⟨z, rel_seq_iff.mpr ⟨⟨some 'k', ':' :: (target ++ '[' :: text ++ [']'] ++ b), []⟩,
          rel_alt_iff.mpr (.inl (rel_lit_iff.mpr ⟨_, rfl, rfl⟩)), rel_seq_iff.mpr ⟨_, rel_chr_iff.mpr ⟨_, rfl, rfl⟩, hz⟩⟩⟩
      · obtain ⟨z, hz⟩ := macroTarget_rel ht hx (some ':') b [(1, "mailto".toList)]
        refine ⟨z, rel_seq_iff.mpr ⟨⟨some 'o', ':' :: (target ++ '[' :: text ++ [']'] ++ b), [(1, "mailto".toList)]⟩,
          rel_alt_iff.mpr (.inr (rel_cap_iff.mpr ⟨⟨some 'o', ':' :: (target ++ '[' :: text ++ [']'] ++ b), []⟩,
            "mailto".toList, rel_lit_iff.mpr ⟨_, rfl, rfl⟩, rfl, rfl⟩)),
          rel_seq_iff.mpr ⟨_, rel_chr_iff.mpr ⟨_, rfl, rfl⟩, hz⟩⟩⟩
    cases h with
    | link h1 h2 h3 =>
      obtain ⟨z, hz⟩ := core (.inl rfl) (.inl h1) h2 pv
      exact ⟨z, rel_seq_iff.mpr ⟨_, rel_opt_iff.mpr (.inr rfl), hz⟩⟩
    | mail h1 h2 h3 =>
      obtain ⟨z, hz⟩ := core (.inr rfl) (.inl h1) h2 pv
      exact ⟨z, rel_seq_iff.mpr ⟨_, rel_opt_iff.mpr (.inr rfl), hz⟩⟩
    | escaped h1 h2 h3 =>
      obtain ⟨z, hz⟩ := core h1 h2 h3 (some '\\')
      exact ⟨z, rel_seq_iff.mpr ⟨_, rel_opt_iff.mpr (.inl (rel_chr_iff.mpr ⟨_, rfl, rfl⟩)), by simpa using hz⟩⟩

omit [Uni] in
/-- The parts of a link macro can be told from its text. -/
theorem linkMacro_parts {t t' a a' b b' : Text} (ht : MacroTarget t ∨ t.length = 1) (ht' : MacroTarget t' ∨ t'.length = 1)
    (ha : Enclosed a) (ha' : Enclosed a')
    (e : t ++ '[' :: a ++ [']'] ++ b = t' ++ '[' :: a' ++ [']'] ++ b') : t = t' ∧ a = a' := by
  have open_ : ∀ {t : Text}, MacroTarget t → '[' ∉ t := fun h hm => (h.2.2 _ hm).2 rfl
  have mixed : ∀ {t t' x y : Text}, MacroTarget t → t'.length = 1 → t ++ '[' :: x = t' ++ '[' :: y → False := by
    intro t t' x y h h' e
    obtain ⟨c, rfl⟩ := List.length_eq_one_iff.mp h'
    have h2 := h.1
    cases t with
    | nil => simp at h2
    | cons d t =>
      cases t with
      | nil => simp at h2
      | cons f t =>
        simp only [List.cons_append, List.nil_append, List.cons.injEq] at e
        exact open_ h (by rw [e.2.1]; simp)
  simp only [List.append_assoc, List.cons_append, List.nil_append] at e
  have h1 : t = t' := by
    rcases ht with ht | ht <;> rcases ht' with ht' | ht'
    · exact until_inj (open_ ht) (open_ ht') e
    · exact absurd (mixed ht ht' e) id
    · exact absurd (mixed ht' ht e.symm) id
    · exact (List.append_inj e (by rw [ht, ht'])).1
  subst h1
  have e2 := (List.cons.inj (List.append_cancel_left e)).2
  exact ⟨rfl, (ha.inj ha' e2).1⟩

theorem macroWords_det {e : Env} {c : Char} {text w w' : Text} {a a' : Attrlist} (h : MacroWords e c text w a)
    (h' : MacroWords e c text w' a') : w = w' ∧ a = a' := by
  unfold MacroWords at h h'
  by_cases hc : c ∈ text
  · rw [if_pos hc] at h h'
    have := h.1.symm.trans h'.1
    cases this
    exact ⟨h.2.trans h'.2.symm, rfl⟩
  · rw [if_neg hc] at h h'
    have := h.1.symm.trans h'.1
    cases this
    exact ⟨h.2.trans h'.2.symm, rfl⟩

theorem linkMacroBecomes_det [LawfulUni] {e : Env} {target text x y : Text} (h : LinkMacroBecomes e target text x)
    (h' : LinkMacroBecomes e target text y) : x = y := by
  cases h with
  | words h1 h2 h3 =>
    cases h' with
    | words g1 g2 g3 =>
      obtain ⟨rfl, rfl⟩ := macroWords_det h1 g1
      obtain ⟨rfl, rfl⟩ := caret_det h2 g2
      rfl
    | address g1 g2 g3 =>
      obtain ⟨rfl, rfl⟩ := macroWords_det h1 g1
      exact absurd (caret_det h2 g2).1 h3
  | address h1 h2 h3 =>
    cases h' with
    | words g1 g2 g3 =>
      obtain ⟨rfl, rfl⟩ := macroWords_det h1 g1
      exact absurd (caret_det h2 g2).1.symm g3
    | address g1 g2 g3 =>
      obtain ⟨rfl, rfl⟩ := macroWords_det h1 g1
      obtain ⟨_, rfl⟩ := caret_det h2 g2
      rcases h3 with ⟨h3, h4⟩ | ⟨h3, rfl⟩ <;> rcases g3 with ⟨g3, g4⟩ | ⟨g3, rfl⟩
      · rw [shownAddress_det h4 g4]
      · exact absurd (shownAddress_det h4 g3) h3
      · exact absurd (shownAddress_det g4 h3) g3
      · rfl

theorem determined_linkMacro [LawfulUni] (e : Env) : Determined (LinkMacroAt e) := by
  intro pv m b x m' b' x' h h' eq
  refine ⟨?_, ?_⟩
  · cases h <;> simp
  · have strip : ∀ {n : Text} {t a b t' a' b' : Text}, n ++ t ++ '[' :: a ++ [']'] ++ b = n ++ t' ++ '[' :: a' ++ [']'] ++ b' →
        t ++ '[' :: a ++ [']'] ++ b = t' ++ '[' :: a' ++ [']'] ++ b' := by
      intro n t a b t' a' b' e
      simp only [List.append_assoc] at e ⊢
      exact List.append_cancel_left e
    cases h with
    | link h1 h2 h3 =>
      cases h' with
      | link g1 g2 g3 =>
        obtain ⟨rfl, rfl⟩ := linkMacro_parts (.inl h1) (.inl g1) h2 g2 (strip eq)
        exact ⟨rfl, linkMacroBecomes_det h3 g3⟩
      | mail g1 g2 g3 => exact absurd (congrArg List.head? eq) (by simp)
      | escaped g1 g2 g3 => exact absurd (congrArg List.head? eq) (by simp)
    | mail h1 h2 h3 =>
      cases h' with
      | link g1 g2 g3 => exact absurd (congrArg List.head? eq) (by simp)
      | mail g1 g2 g3 =>
        obtain ⟨rfl, rfl⟩ := linkMacro_parts (.inl h1) (.inl g1) h2 g2 (strip eq)
        refine ⟨rfl, ?_⟩
        cases h3 with
        | mail h3 h4 =>
          cases g3 with
          | mail g3 g4 =>
            obtain ⟨rfl, rfl⟩ := macroWords_det h3 g3
            obtain ⟨rfl, rfl⟩ := caret_det h4 g4
            rfl
      | escaped g1 g2 g3 => exact absurd (congrArg List.head? eq) (by simp)
    | @escaped n _ _ _ h1 h2 h3 =>
      cases h' with
      | link g1 g2 g3 => exact absurd (congrArg List.head? eq) (by simp)
      | mail g1 g2 g3 => exact absurd (congrArg List.head? eq) (by simp)
      | @escaped n' _ _ _ g1 g2 g3 =>
        have eq2 := (List.cons.inj eq).2
        have hn : n = n' := by
          rcases h1 with rfl | rfl <;> rcases g1 with rfl | rfl
          · rfl
          · exact absurd (congrArg List.head? eq2) (by simp)
          · exact absurd (congrArg List.head? eq2) (by simp)
          · rfl
        subst hn
        obtain ⟨rfl, rfl⟩ := linkMacro_parts h2 g2 h3 g3 (strip eq2)
        exact ⟨rfl, rfl⟩

end Adoc
