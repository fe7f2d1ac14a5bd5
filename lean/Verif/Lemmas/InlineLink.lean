import Verif.Lemmas.MailMacro
/-!
# Links against their specification
-/

namespace Adoc
open Adoc.Spec Re
variable [Uni]

/-- In front of a link. -/
def linkLeadRe : Re :=
  oneOf [bol, lit "link:".toList, cls (fun c => c == ' ' || c == '\t'),
      cat [opt (chr '\\'), lit "&lt;".toList, cap 2 eps],
      cls (fun c => ['>', '(', ')', '[', ']', ';', '"', '\''].contains c)]

/-- The scheme of a link. -/
def linkSchemeRe : Re :=
  cat [opt (chr '\\'),
      oneOf [cat [lit "http".toList, opt (chr 's')], lit "file".toList, lit "ftp".toList, lit "irc".toList],
      lit "://".toList]

/-- What follows the scheme. -/
def linkEndRe : Re :=
  oneOf [
      cat [cap 4 (plus (cls fun c => !isWhite c && c != '[' && c != ']')), chr '[', bracketed 5, chr ']'],
      cat [cap 6 (plusLazy nonSpace), lit "&gt;".toList],
      cap 7 (cat [star true (cls fun c => !isWhite c && c != '[' && c != ']' && c != '<'),
        cap 8 (cls fun c => !isWhite c && ![',', '.', '?', '!', '[', ']', '<', ')'].contains c)])]

omit [Uni] in
theorem inlineLinkRe_eq : inlineLinkRe = .seq (cap 1 linkLeadRe) (.seq (cap 3 linkSchemeRe) linkEndRe) := rfl

/-- The group of the angle bracket. -/
def leadGroup (l : Text) : List (Nat × Text) :=
  if l = "&lt;".toList ∨ l = "\\&lt;".toList then [(2, [])] else []

theorem linkLead_iff {s s' : RS} : Rel (cap 1 linkLeadRe) s s' ↔ ∃ l r, s.rest = l ++ r ∧ LinkLead s.prev l ∧
    s' = ⟨prevAfter s.prev l, r, (1, l) :: leadGroup l ++ s.caps⟩ := by
  rw [rel_cap_iff]
  simp only [linkLeadRe, oneOf, cat, rel_alt_iff]
  constructor
  · rintro ⟨x, u, h, e, rfl⟩
    rcases h with h | h | h | h | h
    · cases h with
      | bol h =>
        have : u = [] := by
          have := congrArg List.length e
          simp at this
          exact this
        subst this
        exact ⟨[], _, rfl, .inl ⟨rfl, h⟩, rfl⟩
    · obtain ⟨r, e1, rfl⟩ := rel_lit_iff.mp h
      rw [e1] at e
      have := List.append_cancel_right e
      subst this
      exact ⟨_, r, e1, .inr (.inl rfl), rfl⟩
    · obtain ⟨c, r, e1, hc, rfl⟩ := rel_cls_iff.mp h
      rw [e1] at e
      have : u = [c] := (List.append_cancel_right (by simpa using e)).symm
      subst this
      refine ⟨[c], r, e1, ?_, ?_⟩
      · simp at hc
        rcases hc with rfl | rfl
        · exact .inr (.inr (.inl rfl))
        · exact .inr (.inr (.inr (.inl rfl)))
      · simp [leadGroup, prevAfter]
    · obtain ⟨y, h1, h2⟩ := rel_seq_iff.mp h
      obtain ⟨w, h3, h4⟩ := rel_seq_iff.mp h2
      obtain ⟨r, e3, rfl⟩ := rel_lit_iff.mp h3
      obtain ⟨v, u', h5, e5, rfl⟩ := rel_cap_iff.mp h4
      have := rel_eps_iff.mp h5
      subst this
      have : u' = [] := by
        have := congrArg List.length e5
        simp at this
        exact this
      subst this
      simp only at e
      rcases rel_opt_iff.mp h1 with h1 | rfl
      · obtain ⟨r', e1, rfl⟩ := rel_chr_iff.mp h1
        simp only at e3
        subst e3
        rw [e1] at e
        have : u = "\\&lt;".toList := (List.append_cancel_right (as := "\\&lt;".toList) e).symm
        subst this
        exact ⟨_, r, e1, .inr (.inr (.inr (.inr (.inr (.inl rfl))))), rfl⟩
      · rw [e3] at e
        have := List.append_cancel_right e
        subst this
        exact ⟨_, r, e3, .inr (.inr (.inr (.inr (.inl rfl)))), rfl⟩
    · obtain ⟨c, r, e1, hc, rfl⟩ := rel_cls_iff.mp h
      rw [e1] at e
      have : u = [c] := (List.append_cancel_right (by simpa using e)).symm
      subst this
      refine ⟨[c], r, e1, .inr (.inr (.inr (.inr (.inr (.inr ⟨c, by simpa using hc, rfl⟩))))), ?_⟩
      simp [leadGroup, prevAfter]
  · rintro ⟨l, r, e, hl, rfl⟩
    rcases hl with ⟨rfl, h⟩ | rfl | rfl | rfl | rfl | rfl | ⟨c, hc, rfl⟩
    · exact ⟨s, [], .inl (.bol h), rfl, by rw [List.nil_append] at e; subst e; rfl⟩
    · exact ⟨_, _, .inr (.inl (rel_lit_iff.mpr ⟨r, e, rfl⟩)), e, rfl⟩
    · exact ⟨_, [' '], .inr (.inr (.inl (rel_cls_iff.mpr ⟨' ', r, e, by decide, rfl⟩))), e, rfl⟩
    · exact ⟨_, ['\t'], .inr (.inr (.inl (rel_cls_iff.mpr ⟨'\t', r, e, by decide, rfl⟩))), e, rfl⟩
    · exact ⟨⟨prevAfter s.prev "&lt;".toList, r, (2, []) :: s.caps⟩, "&lt;".toList, .inr (.inr (.inr (.inl (rel_seq_iff.mpr ⟨s, rel_opt_iff.mpr (.inr rfl),
        rel_seq_iff.mpr ⟨_, rel_lit_iff.mpr ⟨r, e, rfl⟩, rel_cap_iff.mpr ⟨_, [], rel_eps_iff.mpr rfl, rfl, rfl⟩⟩⟩)))), e, rfl⟩
    · exact ⟨⟨prevAfter (some '\\') "&lt;".toList, r, (2, []) :: s.caps⟩, "\\&lt;".toList, .inr (.inr (.inr (.inl (rel_seq_iff.mpr
        ⟨⟨some '\\', "&lt;".toList ++ r, s.caps⟩, rel_opt_iff.mpr (.inl (rel_chr_iff.mpr ⟨_, e, rfl⟩)),
        rel_seq_iff.mpr ⟨_, rel_lit_iff.mpr ⟨r, rfl, rfl⟩, rel_cap_iff.mpr ⟨_, [], rel_eps_iff.mpr rfl, rfl, rfl⟩⟩⟩)))), e, rfl⟩
    · exact ⟨⟨some c, r, s.caps⟩, [c], .inr (.inr (.inr (.inr (rel_cls_iff.mpr ⟨c, r, e, by simpa using hc, rfl⟩)))), e,
        by simp [leadGroup, prevAfter]⟩

theorem linkScheme_iff {s s' : RS} : Rel (cap 3 linkSchemeRe) s s' ↔ ∃ esc sch r, s.rest = esc ++ sch ++ r ∧
    (esc = [] ∨ esc = ['\\']) ∧ sch ∈ linkSchemes ∧ s' = ⟨prevAfter s.prev (esc ++ sch), r, (3, esc ++ sch) :: s.caps⟩ := by
  have esc_iff : ∀ {s s' : RS}, Rel (opt (chr '\\')) s s' ↔ ∃ esc r, (esc = [] ∨ esc = ['\\']) ∧ s.rest = esc ++ r ∧
      s' = ⟨prevAfter s.prev esc, r, s.caps⟩ := by
    intro s s'
    rw [rel_opt_iff, rel_chr_iff]
    constructor
    · rintro (⟨r, e, rfl⟩ | rfl)
      · exact ⟨['\\'], r, .inr rfl, e, rfl⟩
      · exact ⟨[], _, .inl rfl, rfl, rfl⟩
    · rintro ⟨esc, r, rfl | rfl, e, rfl⟩
      · exact .inr (by rw [List.nil_append] at e; rw [← e]; rfl)
      · exact .inl ⟨r, e, rfl⟩
  have sch_iff : ∀ {s s' : RS}, Rel (.seq (oneOf [cat [lit "http".toList, opt (chr 's')], lit "file".toList, lit "ftp".toList, lit "irc".toList])
      (lit "://".toList)) s s' ↔ ∃ sch r, sch ∈ linkSchemes ∧ s.rest = sch ++ r ∧ s' = ⟨prevAfter s.prev sch, r, s.caps⟩ := by
    intro s s'
    rw [rel_seq_iff]
    simp only [oneOf, cat, rel_alt_iff]
    constructor
    · rintro ⟨x, h1, h2⟩
      obtain ⟨r, e, rfl⟩ := rel_lit_iff.mp h2
      rcases h1 with h | h | h | h
      · obtain ⟨y, h3, h4⟩ := rel_seq_iff.mp h
        obtain ⟨r', e', rfl⟩ := rel_lit_iff.mp h3
        rcases rel_opt_iff.mp h4 with h5 | rfl
        · obtain ⟨r'', e'', rfl⟩ := rel_chr_iff.mp h5
          simp only at e'' e
          subst e'' e
          exact ⟨"https://".toList, r, by simp [linkSchemes], e', rfl⟩
        · simp only at e
          subst e
          exact ⟨"http://".toList, r, by simp [linkSchemes], e', rfl⟩
      · obtain ⟨r', e', rfl⟩ := rel_lit_iff.mp h
        simp only at e
        subst e
        exact ⟨"file://".toList, r, by simp [linkSchemes], e', rfl⟩
      · obtain ⟨r', e', rfl⟩ := rel_lit_iff.mp h
        simp only at e
        subst e
        exact ⟨"ftp://".toList, r, by simp [linkSchemes], e', rfl⟩
      · obtain ⟨r', e', rfl⟩ := rel_lit_iff.mp h
        simp only at e
        subst e
        exact ⟨"irc://".toList, r, by simp [linkSchemes], e', rfl⟩
    · rintro ⟨sch, r, h, e, rfl⟩
      simp only [linkSchemes, List.mem_cons, List.not_mem_nil, or_false] at h
      rcases h with rfl | rfl | rfl | rfl | rfl
      · exact ⟨⟨prevAfter s.prev "http".toList, "://".toList ++ r, s.caps⟩, .inl (rel_seq_iff.mpr ⟨_, rel_lit_iff.mpr ⟨_, e, rfl⟩,
          rel_opt_iff.mpr (.inr rfl)⟩), rel_lit_iff.mpr ⟨r, rfl, rfl⟩⟩
      · exact ⟨⟨some 's', "://".toList ++ r, s.caps⟩, .inl (rel_seq_iff.mpr ⟨_, rel_lit_iff.mpr ⟨'s' :: ("://".toList ++ r), e, rfl⟩,
          rel_opt_iff.mpr (.inl (rel_chr_iff.mpr ⟨_, rfl, rfl⟩))⟩), rel_lit_iff.mpr ⟨r, rfl, rfl⟩⟩
      · exact ⟨⟨prevAfter s.prev "file".toList, "://".toList ++ r, s.caps⟩, .inr (.inl (rel_lit_iff.mpr ⟨_, e, rfl⟩)), rel_lit_iff.mpr ⟨r, rfl, rfl⟩⟩
      · exact ⟨⟨prevAfter s.prev "ftp".toList, "://".toList ++ r, s.caps⟩, .inr (.inr (.inl (rel_lit_iff.mpr ⟨_, e, rfl⟩))), rel_lit_iff.mpr ⟨r, rfl, rfl⟩⟩
      · exact ⟨⟨prevAfter s.prev "irc".toList, "://".toList ++ r, s.caps⟩, .inr (.inr (.inr (rel_lit_iff.mpr ⟨_, e, rfl⟩))), rel_lit_iff.mpr ⟨r, rfl, rfl⟩⟩
  rw [rel_cap_iff]
  have hre : linkSchemeRe = .seq (opt (chr '\\')) (.seq (oneOf [cat [lit "http".toList, opt (chr 's')], lit "file".toList, lit "ftp".toList, lit "irc".toList])
      (lit "://".toList)) := rfl
  rw [hre]
  constructor
  · rintro ⟨x, u, h, e, rfl⟩
    obtain ⟨y, h1, h2⟩ := rel_seq_iff.mp h
    obtain ⟨esc, r, h3, e3, rfl⟩ := esc_iff.mp h1
    obtain ⟨sch, r', h4, e4, rfl⟩ := sch_iff.mp h2
    simp only at e4 e
    subst e4
    rw [e3, ← List.append_assoc] at e
    have := List.append_cancel_right e
    subst this
    exact ⟨esc, sch, r', by rw [e3, List.append_assoc], h3, h4, by simp only [prevAfter_append]⟩
  · rintro ⟨esc, sch, r, e, h1, h2, rfl⟩
    refine ⟨⟨prevAfter s.prev (esc ++ sch), r, s.caps⟩, esc ++ sch, rel_seq_iff.mpr ⟨_, esc_iff.mpr ⟨esc, sch ++ r, h1, by rw [e, List.append_assoc], rfl⟩,
      sch_iff.mpr ⟨sch, r, h2, rfl, ?_⟩⟩, e, rfl⟩
    simp only [prevAfter_append]

/-- The groups of what follows the scheme. -/
def Spec.LinkEnd.groups : LinkEnd → List (Nat × Text)
  | .brackets t w => [(5, w), (4, t)]
  | .angle t => [(6, t)]
  | .bare t => [(7, t), (8, t.drop (t.length - 1))]

theorem bareEnd_iff {s s' : RS} : Rel (cap 7 (cat [star true (cls fun c => !isWhite c && c != '[' && c != ']' && c != '<'),
        cap 8 (cls fun c => !isWhite c && ![',', '.', '?', '!', '[', ']', '<', ')'].contains c)])) s s' →
    ∃ t r, s.rest = t ++ r ∧ BareTarget t := by
  intro h
  obtain ⟨x, u, h1, e, rfl⟩ := rel_cap_iff.mp h
  simp only [cat] at h1
  obtain ⟨y, h2, h3⟩ := rel_seq_iff.mp h1
  obtain ⟨b, r, e2, h4, rfl⟩ := rel_star_cls_iff.mp h2
  obtain ⟨z, v, h5, e5, rfl⟩ := rel_cap_iff.mp h3
  obtain ⟨c, r', e6, hc, rfl⟩ := rel_cls_iff.mp h5
  simp only at e6
  subst e6
  refine ⟨b ++ [c], r', by rw [e2]; simp, ?_, c, by simp, ?_⟩
  · intro d hd
    rcases List.mem_append.mp hd with hd | hd
    · simpa [and_assoc] using h4 d hd
    · simp at hd
      subst hd
      simp at hc
      simp [hc]
  · simp at hc
    simp [hc]

theorem bareEnd_rel {t : Text} (h : BareTarget t) (pv : Option Char) (r : Text) (caps : List (Nat × Text)) :
    ∃ z, Rel (cap 7 (cat [star true (cls fun c => !isWhite c && c != '[' && c != ']' && c != '<'),
        cap 8 (cls fun c => !isWhite c && ![',', '.', '?', '!', '[', ']', '<', ')'].contains c)])) ⟨pv, t ++ r, caps⟩ z := by
  obtain ⟨h1, c, hl, hc⟩ := h
  rcases List.eq_nil_or_concat t with rfl | ⟨b, d, rfl⟩
  · cases hl
  · rw [List.concat_eq_append] at *
    have : d = c := by simpa using hl
    subst this
    simp only [cat]
    refine ⟨_, rel_cap_iff.mpr ⟨_, b ++ [d], rel_seq_iff.mpr ⟨_, rel_star_cls_iff.mpr ⟨b, d :: r, by simp, ?_, rfl⟩,
      rel_cap_iff.mpr ⟨_, [d], rel_cls_iff.mpr ⟨d, r, rfl, ?_, rfl⟩, rfl, rfl⟩⟩, rfl, rfl⟩⟩
    · intro x hx
      simpa [and_assoc] using h1 x (by simp [hx])
    · have := h1 d (by simp)
      simp at hc
      simp [hc, this]

theorem brackets_rel {target words : Text} (h1 : BracketTarget target) (h2 : Enclosed words) (pv : Option Char) (r : Text)
    (caps : List (Nat × Text)) : Rel (cat [cap 4 (plus (cls fun c => !isWhite c && c != '[' && c != ']')), chr '[', bracketed 5, chr ']'])
      ⟨pv, target ++ '[' :: words ++ ']' :: r, caps⟩ ⟨some ']', r, (5, words) :: (4, target) :: caps⟩ := by
  have e : target ++ '[' :: words ++ ']' :: r = target ++ ('[' :: words ++ ']' :: r) := by simp
  rw [e]
  have h0 : Rel (cap 4 (plus (cls fun c => !isWhite c && c != '[' && c != ']'))) ⟨pv, target ++ ('[' :: words ++ ']' :: r), caps⟩
      ⟨prevAfter pv target, '[' :: words ++ ']' :: r, (4, target) :: caps⟩ :=
    rel_cap_iff.mpr ⟨_, target, rel_plus_cls_iff.mpr ⟨target, _, h1.1, rfl, fun c hc => by
      simpa [and_assoc] using h1.2 c hc, rfl⟩, rfl, rfl⟩
  exact rel_seq_iff.mpr ⟨_, h0, bracketed_rel h2 _ _ _⟩

theorem angle_rel {target : Text} (h1 : AngleTarget target) (pv : Option Char) (r : Text) (caps : List (Nat × Text)) :
    ∃ z, Rel (cat [cap 6 (plusLazy nonSpace), lit "&gt;".toList]) ⟨pv, target ++ "&gt;".toList ++ r, caps⟩ z := by
  rw [List.append_assoc]
  obtain ⟨hne, h2⟩ := h1
  cases target with
  | nil => exact absurd rfl hne
  | cons c t =>
    simp only [cat]
    refine ⟨_, rel_seq_iff.mpr ⟨_, rel_cap_iff.mpr ⟨_, c :: t, rel_seq_iff.mpr ⟨_, rel_cls_iff.mpr ⟨c, t ++ ("&gt;".toList ++ r), rfl, ?_, rfl⟩,
      rel_star_cls_iff.mpr ⟨t, _, rfl, ?_, rfl⟩⟩, rfl, rfl⟩, rel_lit_iff.mpr ⟨r, rfl, rfl⟩⟩⟩
    · simpa using h2 c (by simp)
    · intro d hd
      simpa using h2 d (by simp [hd])

theorem linkEnd_sound {s z : RS} (h : m linkEndRe some s = some z) :
    ∃ f, s.rest = f.text ++ z.rest ∧ LinkFollows f z.rest ∧ z.caps = f.groups ++ s.caps := by
  simp only [linkEndRe, oneOf] at h
  rcases m_alt_some h with h1 | ⟨h0, h1⟩
  · have hre : cat [cap 4 (plus (cls fun c => !isWhite c && c != '[' && c != ']')), chr '[', bracketed 5, chr ']'] =
        .seq (cap 4 (plus (cls fun c => !isWhite c && c != '[' && c != ']'))) (cat [chr '[', bracketed 5, chr ']']) := rfl
    rw [hre, m_seq] at h1
    obtain ⟨s1, h2, h3⟩ := m_sound _ _ _ _ h1
    obtain ⟨x, u, h4, e4, rfl⟩ := rel_cap_iff.mp h2
    obtain ⟨t, r, hne, e5, h5, rfl⟩ := rel_plus_cls_iff.mp h4
    simp only at e4
    rw [e5] at e4
    have := List.append_cancel_right e4
    subst this
    obtain ⟨w, r', e6, h6, rfl⟩ := m_bracketed h3
    simp only at e6
    subst e6
    exact ⟨.brackets t w, by rw [e5]; simp [LinkEnd.text], .brackets ⟨hne, fun c hc => by simpa [and_assoc] using h5 c hc⟩ h6, rfl⟩
  · have nob : ¬ BracketsAhead s.rest := by
      rintro ⟨t, w, r, g1, g2, g3⟩
      have := m_complete _ some _ _ (brackets_rel g1 g2 s.prev r s.caps) rfl
      rw [← g3, h0] at this
      cases this
    rcases m_alt_some h1 with h2 | ⟨h02, h2⟩
    · have hre : cat [cap 6 (plusLazy nonSpace), lit "&gt;".toList] = .seq (cap 6 (plusLazy nonSpace)) (lit "&gt;".toList) := rfl
      rw [hre, m_seq, nonSpace] at h2
      obtain ⟨b, r, e1, h3, h4, h5⟩ := m_plusLazy h2
      obtain ⟨s1, h6, h7⟩ := m_sound _ _ _ _ h4
      obtain ⟨r', e2, rfl⟩ := rel_lit_iff.mp h6
      simp only at e2
      subst e2
      cases h7
      refine ⟨.angle b, by rw [e1]; simp [LinkEnd.text], .angle ?_ ⟨⟨h3.1, fun c hc => by simpa using h3.2 c hc⟩, ⟨_, rfl⟩, ?_⟩, rfl⟩
      · rw [e1, ← List.append_assoc] at nob
        exact nob
      · rintro b' r1 e3 hl hb' ⟨y, rfl⟩
        have := h5 b' _ (e3.trans e1.symm) hl ⟨hb'.1, fun c hc => by simpa using hb'.2 c hc⟩
        have h8 := m_complete (lit "&gt;".toList) some ⟨prevAfter s.prev b', "&gt;".toList ++ y, (6, b') :: s.caps⟩ _
          (rel_lit_iff.mpr ⟨y, rfl, rfl⟩) rfl
        rw [this] at h8
        cases h8
    · have noa : ¬ AngleAhead s.rest := by
        rintro ⟨t, r, g1, g2⟩
        obtain ⟨y, hy⟩ := angle_rel g1 s.prev r s.caps
        have := m_complete _ some _ _ hy rfl
        rw [← g2, h02] at this
        cases this
      rw [m_cap] at h2
      simp only [cat] at h2
      rw [m_seq] at h2
      obtain ⟨b, r, e1, hb, h3, hmax⟩ := m_star_greedy h2
      rw [m_cap] at h3
      obtain ⟨c, r', e2, hc, h4⟩ := m_cls_some h3
      simp only at e2
      subst e2
      simp only [Option.some.injEq] at h4
      have es : s.rest = (b ++ [c]) ++ r' := by rw [e1]; simp
      have ht8 := take_used [c] r'
      rw [List.singleton_append] at ht8
      rw [es, take_used] at h4
      rw [ht8] at h4
      subst h4
      simp only
      have hbt : BareTarget (b ++ [c]) := by
        refine ⟨?_, c, by simp, ?_⟩
        · intro d hd
          rcases List.mem_append.mp hd with hd | hd
          · simpa [and_assoc] using hb d hd
          · simp at hd
            subst hd
            simp at hc
            simp [hc]
        · simp at hc
          simp [hc]
      refine ⟨.bare (b ++ [c]), es, .bare ?_ ?_ hbt ?_, by simp [LinkEnd.groups]⟩
      · rw [← es]; exact nob
      · rw [← es]; exact noa
      · rintro t r e3 hl ⟨g1, d, g2, g3⟩
        rcases List.eq_nil_or_concat t with rfl | ⟨b', d', rfl⟩
        · cases g2
        · rw [List.concat_eq_append] at *
          have : d' = d := by simpa using g2
          subst this
          have := hmax b' (d' :: r) (by rw [es, ← e3]; simp) (by simp at hl; omega) (fun x hx => by
            simpa [and_assoc] using g1 x (by simp [hx]))
          rw [m_cap, m_cls_cons, if_pos] at this
          · cases this
          · have := g1 d' (by simp)
            simp at g3
            simp [g3, this]

theorem linkEnd_rel {f : LinkEnd} {b : Text} (h : LinkFollows f b) (pv : Option Char) (caps : List (Nat × Text)) :
    ∃ z, Rel linkEndRe ⟨pv, f.text ++ b, caps⟩ z := by
  simp only [linkEndRe, oneOf, rel_alt_iff]
  cases h with
  | brackets h1 h2 =>
    rename_i target words
    have e : (LinkEnd.brackets target words).text ++ b = _ := List.append_assoc _ [']'] b
    rw [e]
    exact ⟨_, .inl (brackets_rel h1 h2 pv b caps)⟩
  | angle h1 h2 =>
    obtain ⟨z, hz⟩ := angle_rel h2.1 pv b caps
    exact ⟨z, .inr (.inl hz)⟩
  | bare h1 h2 h3 _ =>
    obtain ⟨z, hz⟩ := bareEnd_rel h3 pv b caps
    exact ⟨z, .inr (.inr hz)⟩

theorem linkWords_of {e : Env} {text lt : Text} {a a0 : Attrlist} (ha0 : inlineAttrlist e.store [] = .ok a0)
    (h : (if (replaceStr text ['\\', ']'] [']']).contains '=' then do
              let (lt, attrs) ← extractAttributesFromText e text
              .ok (replaceStr lt ['\\', '"'] ['"'], attrs)
            else .ok (replaceStr text ['\\', ']'] [']'], a0) : Res (Text × Attrlist)) = .ok (lt, a)) : LinkWords e text lt a := by
  rw [unescape_eq _ (by decide)] at h
  unfold LinkWords
  by_cases he : '=' ∈ text
  · rw [if_pos he]
    rw [if_pos (by rw [List.contains_iff_mem]; exact (mem_unescape (by decide) (by decide) _).mpr he)] at h
    cases hx : extractAttributesFromText e text with
    | error f => rw [hx] at h; cases h
    | ok p =>
      obtain ⟨w, b⟩ := p
      rw [hx] at h
      simp only [bind, Except.bind] at h
      rw [unescape_eq _ (by decide)] at h
      cases h
      obtain ⟨g1, rfl⟩ := extract_of hx
      exact ⟨g1, rfl⟩
  · rw [if_neg he]
    rw [if_neg (by rw [List.contains_iff_mem]; exact fun hm => he ((mem_unescape (by decide) (by decide) _).mp hm))] at h
    cases h
    exact ⟨ha0, rfl⟩

theorem getLast_drop {t : Text} {c : Char} (h : t.getLast? = some c) : t.drop (t.length - 1) = [c] := by
  rcases List.eq_nil_or_concat t with rfl | ⟨b, d, rfl⟩
  · cases h
  · rw [List.concat_eq_append] at *
    have : d = c := by simpa using h
    subst this
    simp

theorem trimmed_of {t : Text} {c : Char} (h : t.getLast? = some c) :
    TrimmedAddress t (if [c] = [';'] ∨ [c] = [':'] then
        if endsWith t.dropLast [')'] then (t.dropLast.dropLast, ')' :: [c]) else (t.dropLast, [c])
      else (t, [])).1 (if [c] = [';'] ∨ [c] = [':'] then
        if endsWith t.dropLast [')'] then (t.dropLast.dropLast, ')' :: [c]) else (t.dropLast, [c])
      else (t, [])).2 := by
  rcases List.eq_nil_or_concat t with rfl | ⟨b, d, rfl⟩
  · cases h
  · rw [List.concat_eq_append] at *
    have : d = c := by simpa using h
    subst this
    by_cases hc : [d] = [';'] ∨ [d] = [':']
    · rw [if_pos hc]
      have hc' : d = ';' ∨ d = ':' := by simpa using hc
      rw [List.dropLast_concat]
      by_cases hp : endsWith b [')'] = true
      · rw [if_pos hp]
        unfold endsWith at hp
        rw [List.isSuffixOf_iff_suffix] at hp
        obtain ⟨u, rfl⟩ := hp
        simp only [List.dropLast_concat, List.append_assoc]
        exact .paren hc'
      · rw [if_neg hp]
        refine .colon hc' ?_
        intro hl
        apply hp
        rcases List.eq_nil_or_concat b with rfl | ⟨b', x, rfl⟩
        · cases hl
        · rw [List.concat_eq_append] at *
          have : x = ')' := by simpa using hl
          subst this
          unfold endsWith
          rw [List.isSuffixOf_iff_suffix]
          exact ⟨b', rfl⟩
    · rw [if_neg hc]
      refine .plain ?_ ?_
      · intro hl
        apply hc
        left
        simpa using hl
      · intro hl
        apply hc
        right
        simpa using hl

theorem scheme_head {sch : Text} (h : sch ∈ linkSchemes) (r : Text) : startsWith (sch ++ r) ['\\'] = false := by
  simp only [linkSchemes, List.mem_cons, List.not_mem_nil, or_false] at h
  rcases h with rfl | rfl | rfl | rfl | rfl <;> rfl

theorem lead_cases {pv : Option Char} {l : Text} (h : LinkLead pv l) :
    (l = "\\&lt;".toList ∧ startsWith l ['\\'] = true ∧ leadGroup l = [(2, [])]) ∨
    (l = "&lt;".toList ∧ startsWith l ['\\'] = false ∧ leadGroup l = [(2, [])]) ∨
    (l ≠ "\\&lt;".toList ∧ l ≠ "&lt;".toList ∧ l ≠ "link".toList ∧ leadGroup l = []) := by
  rcases h with ⟨rfl, _⟩ | rfl | rfl | rfl | rfl | rfl | ⟨c, _, rfl⟩
  · exact .inr (.inr (by decide))
  · exact .inr (.inr (by decide))
  · exact .inr (.inr (by decide))
  · exact .inr (.inr (by decide))
  · exact .inr (.inl (by decide))
  · exact .inl (by decide)
  · exact .inr (.inr (by simp [leadGroup]))

theorem link_becomes {e : Env} {pv : Option Char} {lead esc sch x : Text} {f : LinkEnd} (hl : LinkLead pv lead)
    (hesc : esc = [] ∨ esc = ['\\']) (hs : sch ∈ linkSchemes) {b : Text} (hf : LinkFollows f b)
    (h : linkReplacer e ⟨lead ++ esc ++ sch ++ f.text, f.groups ++ (3, esc ++ sch) :: (1, lead) :: leadGroup lead⟩ = .ok x) :
    LinkBecomes e lead esc sch f x := by
  obtain ⟨a0, ha0⟩ := inlineAttrlist_ok e.store []
  have g1 : (Match.mk (lead ++ esc ++ sch ++ f.text) (f.groups ++ (3, esc ++ sch) :: (1, lead) :: leadGroup lead)).get 1 = some lead := by
    cases f <;> rfl
  have g2 : (Match.mk (lead ++ esc ++ sch ++ f.text) (f.groups ++ (3, esc ++ sch) :: (1, lead) :: leadGroup lead)).get 2 =
      (leadGroup lead).head?.map Prod.snd := by
    have : ∀ l, (leadGroup l).find? (fun p => p.1 == 2) = (leadGroup l).head? := by
      intro l; unfold leadGroup; split <;> rfl
    cases f <;> simp [Match.get, LinkEnd.groups, this]
  have g3 : (Match.mk (lead ++ esc ++ sch ++ f.text) (f.groups ++ (3, esc ++ sch) :: (1, lead) :: leadGroup lead)).get 3 = some (esc ++ sch) := by
    cases f <;> rfl
  have hno : ∀ n, 4 ≤ n → (leadGroup lead).find? (fun p => p.1 == n) = none := by
    intro n hn
    unfold leadGroup
    split
    · simp; omega
    · rfl
  have gn : ∀ n, 4 ≤ n → (Match.mk (lead ++ esc ++ sch ++ f.text) (f.groups ++ (3, esc ++ sch) :: (1, lead) :: leadGroup lead)).get n =
      (f.groups.find? (fun p => p.1 == n)).map Prod.snd := by
    intro n hn
    unfold Match.get
    rw [if_neg (by omega), List.find?_append]
    have : ((3, esc ++ sch) :: (1, lead) :: leadGroup lead).find? (fun p => p.1 == n) = none := by
      rw [List.find?_cons_of_neg (by simp; omega), List.find?_cons_of_neg (by simp; omega), hno n hn]
    rw [this, Option.or_none]
  generalize hmt : (Match.mk (lead ++ esc ++ sch ++ f.text) (f.groups ++ (3, esc ++ sch) :: (1, lead) :: leadGroup lead)) = mt at *
  have gt : mt.text = lead ++ esc ++ sch ++ f.text := by rw [← hmt]
  unfold linkReplacer at h
  simp only [ha0, bind, Except.bind, Match.at!, g1, g2, g3, gn 4 (by omega), gn 5 (by omega), gn 6 (by omega), gn 7 (by omega), gn 8 (by omega),
    gt, Res.ofOption] at h
  have bare_ok : ∀ t, ∃ v, bareText e t = .ok v := by
    intro t
    unfold bareText
    obtain ⟨v, hv⟩ := stripScheme_ok t
    split
    · exact ⟨v, hv⟩
    · exact ⟨t, rfl⟩
  have hdrop : ∀ (c : Char) (r : Text), (lead ++ [c] ++ sch ++ r).drop (lead.length + 1) = sch ++ r := by
    intro c r
    have : lead ++ [c] ++ sch ++ r = (lead ++ [c]) ++ (sch ++ r) := by simp
    rw [this, List.drop_left' (by simp)]
  cases f with
  | brackets t w =>
    have q5 : ((LinkEnd.brackets t w).groups.find? (fun p => p.1 == 5)).map Prod.snd = some w := rfl
    have q4 : ((LinkEnd.brackets t w).groups.find? (fun p => p.1 == 4)).map Prod.snd = some t := rfl
    simp only [q5, q4, Option.isNone_some, Bool.false_eq_true, and_false, if_false] at h
    rcases hesc with rfl | rfl
    · simp only [List.nil_append] at h
      have := scheme_head hs []
      rw [List.append_nil] at this
      rw [this] at h
      simp only [Bool.false_eq_true, if_false] at h
      by_cases hw : w = []
      · subst hw
        rw [if_pos rfl] at h
        obtain ⟨v, hv⟩ := bare_ok (sch ++ t)
        rw [hv] at h
        cases h
        exact .noWords rfl (shownAddress_of hv) ha0
      · rw [if_neg hw] at h
        have key := @linkWords_of _ e w
        simp only [bind, Except.bind] at key
        obtain ⟨v, hv⟩ := bare_ok (sch ++ t)
        simp only [hv] at h
        have fin : ∀ {lt : Text} {a : Attrlist}, LinkWords e w lt a →
            (if (caretWindow lt).1 = [] then
              .ok ((if lead = "link:".toList then [] else lead) ++
                  e.r.link e.toPEnv ⟨sch ++ t, v, ["bare".toList], (caretWindow lt).2, a⟩)
            else .ok ((if lead = "link:".toList then [] else lead) ++
              e.r.link e.toPEnv ⟨sch ++ t, (caretWindow lt).1, [], (caretWindow lt).2, a⟩) : Res Text) = .ok x →
            LinkBecomes e lead [] sch (.brackets t w) x := by
          intro lt a hwords h
          have hcar := caret_of lt
          by_cases hlt : (caretWindow lt).1 = []
          · rw [if_pos hlt] at h
            cases h
            rw [hlt] at hcar
            exact .onlyAttributes rfl hw hwords hcar (shownAddress_of hv)
          · rw [if_neg hlt] at h
            cases h
            exact .words rfl hw hwords hcar hlt
        by_cases hc : List.contains (replaceStr w ['\\', ']'] [']']) '=' = true
        · rw [if_pos hc] at h
          cases hx : extractAttributesFromText e w with
          | error f => rw [hx] at h; cases h
          | ok p =>
            rw [hx] at h
            exact fin (key ha0 (by rw [if_pos hc, hx])) h
        · rw [if_neg hc] at h
          exact fin (key ha0 (by rw [if_neg hc])) h
    · have : startsWith (['\\'] ++ sch) ['\\'] = true := rfl
      rw [this] at h
      simp only [if_true] at h
      cases h
      rw [hdrop, ← List.append_assoc]
      exact .escapedWords rfl
  | angle t =>
    have q4 : ((LinkEnd.angle t).groups.find? (fun p => p.1 == 4)).map Prod.snd = none := rfl
    have q5 : ((LinkEnd.angle t).groups.find? (fun p => p.1 == 5)).map Prod.snd = none := rfl
    have q6 : ((LinkEnd.angle t).groups.find? (fun p => p.1 == 6)).map Prod.snd = some t := rfl
    have q7 : ((LinkEnd.angle t).groups.find? (fun p => p.1 == 7)).map Prod.snd = none := rfl
    simp only [q4, q5, q6, q7, Option.isNone_none, and_true] at h
    rcases lead_cases hl with ⟨rfl, k1, k2⟩ | ⟨rfl, k1, k2⟩ | ⟨k0, k1, k2, k3⟩
    · rw [k2, k1] at h
      simp only [List.head?_cons, Option.map_some, Option.isSome_some, if_true] at h
      cases h
      exact .escapedAngle (by intro t w; simp) rfl
    · rw [k2, k1] at h
      simp only [List.head?_cons, Option.map_some, Option.isSome_some, if_true, Bool.false_eq_true, if_false] at h
      rcases hesc with rfl | rfl
      · simp only [List.nil_append] at h
        have := scheme_head hs []
        rw [List.append_nil] at this
        simp only [this, Bool.false_eq_true, if_false] at h
        obtain ⟨v, hv⟩ := bare_ok (sch ++ t)
        rw [hv] at h
        cases h
        exact .angle rfl rfl (shownAddress_of hv) ha0
      · have : startsWith (['\\'] ++ sch) ['\\'] = true := rfl
        rw [this] at h
        simp only [if_true] at h
        cases h
        rw [hdrop, ← List.append_assoc]
        exact .escaped (by intro t w; simp) (by decide) rfl
    · rw [k3] at h
      simp only [List.head?_nil, Option.map_none, Option.isSome_none, Bool.false_eq_true, if_false] at h
      rcases hesc with rfl | rfl
      · simp only [List.nil_append] at h
        have := scheme_head hs []
        rw [List.append_nil] at this
        simp only [this, Bool.false_eq_true, if_false] at h
        cases h
      · have : startsWith (['\\'] ++ sch) ['\\'] = true := rfl
        rw [this] at h
        simp only [if_true] at h
        cases h
        rw [hdrop, ← List.append_assoc]
        exact .escaped (by intro t w; simp) k0 rfl
  | bare t =>
    have q4 : ((LinkEnd.bare t).groups.find? (fun p => p.1 == 4)).map Prod.snd = none := rfl
    have q5 : ((LinkEnd.bare t).groups.find? (fun p => p.1 == 5)).map Prod.snd = none := rfl
    have q6 : ((LinkEnd.bare t).groups.find? (fun p => p.1 == 6)).map Prod.snd = none := rfl
    have q7 : ((LinkEnd.bare t).groups.find? (fun p => p.1 == 7)).map Prod.snd = some t := rfl
    have q8 : ((LinkEnd.bare t).groups.find? (fun p => p.1 == 8)).map Prod.snd = some (t.drop (t.length - 1)) := rfl
    simp only [q4, q5, q6, q7, q8, Option.isNone_none, and_true] at h
    rcases lead_cases hl with ⟨rfl, k1, k2⟩ | ⟨rfl, k1, k2⟩ | ⟨k0, k1, k2, k3⟩
    · rw [k2, k1] at h
      simp only [List.head?_cons, Option.map_some, Option.isSome_some, if_true] at h
      cases h
      exact .escapedAngle (by intro t w; simp) rfl
    · rw [k2, k1] at h
      simp only [List.head?_cons, Option.map_some, Option.isSome_some, if_true, Bool.false_eq_true, if_false] at h
      rcases hesc with rfl | rfl
      · simp only [List.nil_append] at h
        have := scheme_head hs []
        rw [List.append_nil] at this
        simp only [this, Bool.false_eq_true, if_false] at h
        cases h
        simp only [List.append_nil]
        exact .kept (.inl rfl) rfl
      · have : startsWith (['\\'] ++ sch) ['\\'] = true := rfl
        rw [this] at h
        simp only [if_true] at h
        cases h
        rw [hdrop, ← List.append_assoc]
        exact .escaped (by intro t w; simp) (by decide) rfl
    · rw [k3] at h
      simp only [List.head?_nil, Option.map_none, Option.isSome_none, Bool.false_eq_true, if_false] at h
      rcases hesc with rfl | rfl
      · simp only [List.nil_append] at h
        have := scheme_head hs []
        rw [List.append_nil] at this
        simp only [this, Bool.false_eq_true, if_false] at h
        by_cases hq : lead = "link".toList ∨ lead = ['"'] ∨ lead = ['\'']
        · rw [if_pos hq] at h
          cases h
          simp only [List.append_nil]
          exact .kept (.inr (hq.resolve_left k2)) rfl
        · rw [if_neg hq] at h
          have hbt : ∃ c, t.getLast? = some c := by
            cases hf with
            | bare _ _ h3 _ => exact ⟨_, h3.2.choose_spec.1⟩
          obtain ⟨c, hc⟩ := hbt
          rw [getLast_drop hc] at h
          have hlast : (sch ++ t).getLast? = some c := by rw [List.getLast?_append, hc]; rfl
          have htr := trimmed_of hlast
          obtain ⟨v, hv⟩ := bare_ok (if [c] = [';'] ∨ [c] = [':'] then
            if endsWith (sch ++ t).dropLast [')'] then ((sch ++ t).dropLast.dropLast, ')' :: [c]) else ((sch ++ t).dropLast, [c])
            else (sch ++ t, [])).1
          rw [hv] at h
          cases h
          exact .bare k1 k0 (fun hh => hq (.inr (.inl hh))) (fun hh => hq (.inr (.inr hh))) rfl htr (shownAddress_of hv) ha0
      · have : startsWith (['\\'] ++ sch) ['\\'] = true := rfl
        rw [this] at h
        simp only [if_true] at h
        cases h
        rw [hdrop, ← List.append_assoc]
        exact .escaped (by intro t w; simp) k0 rfl

theorem renders_link (e : Env) : RendersIf inlineLinkRe (linkReplacer e) (LinkAt e) := by
  refine RendersIf.of ?_ ?_
  · intro pv t s h
    rw [inlineLinkRe_eq, m_seq] at h
    obtain ⟨s1, r1, h1⟩ := m_sound _ _ _ _ h
    obtain ⟨lead, r, e1, hl, rfl⟩ := linkLead_iff.mp r1
    simp only at e1 hl
    subst e1
    rw [m_seq] at h1
    obtain ⟨s2, r2, h2⟩ := m_sound _ _ _ _ h1
    obtain ⟨esc, sch, r', e2, hesc, hs, rfl⟩ := linkScheme_iff.mp r2
    simp only at e2
    subst e2
    obtain ⟨f, e3, hf, hcaps⟩ := linkEnd_sound h2
    simp only at e3 hcaps
    subst e3
    refine ⟨lead ++ esc ++ sch ++ f.text, by simp, ?_, ?_⟩
    · simp only [linkSchemes, List.mem_cons, List.not_mem_nil, or_false] at hs
      rcases hs with rfl | rfl | rfl | rfl | rfl <;> simp
    · intro x hx
      rw [hcaps, List.append_nil] at hx
      exact ⟨lead, esc, sch, f, rfl, hl, hesc, hs, hf, link_becomes hl hesc hs hf hx⟩
  · rintro pv mt b x ⟨lead, esc, sch, f, rfl, hl, hesc, hs, hf, _⟩
    rw [inlineLinkRe_eq]
    obtain ⟨z, hz⟩ := linkEnd_rel hf (prevAfter (prevAfter pv lead) (esc ++ sch)) ((3, esc ++ sch) :: ((1, lead) :: leadGroup lead ++ []))
    exact ⟨z, rel_seq_iff.mpr ⟨_, linkLead_iff.mpr ⟨lead, esc ++ sch ++ (f.text ++ b), by simp, hl, rfl⟩,
      rel_seq_iff.mpr ⟨_, linkScheme_iff.mpr ⟨esc, sch, f.text ++ b, rfl, hesc, hs, rfl⟩, hz⟩⟩⟩

/-! ### Only one reading -/

theorem scheme_det {esc esc' sch sch' r r' : Text} (h1 : esc = [] ∨ esc = ['\\']) (h1' : esc' = [] ∨ esc' = ['\\'])
    (h2 : sch ∈ linkSchemes) (h2' : sch' ∈ linkSchemes) (e : esc ++ sch ++ r = esc' ++ sch' ++ r') :
    esc = esc' ∧ sch = sch' ∧ r = r' := by
  have parts : ∀ {sch : Text}, sch ∈ linkSchemes → ∃ n, ':' ∉ n ∧ sch = n ++ "://".toList := by
    intro sch h
    simp only [linkSchemes, List.mem_cons, List.not_mem_nil, or_false] at h
    rcases h with rfl | rfl | rfl | rfl | rfl
    · exact ⟨"http".toList, by decide, by decide⟩
    · exact ⟨"https".toList, by decide, by decide⟩
    · exact ⟨"file".toList, by decide, by decide⟩
    · exact ⟨"ftp".toList, by decide, by decide⟩
    · exact ⟨"irc".toList, by decide, by decide⟩
  have same : ∀ {r r' : Text}, sch ++ r = sch' ++ r' → sch = sch' ∧ r = r' := by
    intro r r' e
    obtain ⟨n, h3, rfl⟩ := parts h2
    obtain ⟨n', h3', rfl⟩ := parts h2'
    rw [List.append_assoc, List.append_assoc] at e
    have := until_inj (x := "//".toList ++ r) (y := "//".toList ++ r') h3 h3' e
    subst this
    rw [← List.append_assoc, ← List.append_assoc] at e
    exact ⟨rfl, List.append_cancel_left e⟩
  have bad : ∀ {sch r u : Text}, sch ∈ linkSchemes → sch ++ r ≠ '\\' :: u := by
    intro sch r u h e
    have := scheme_head h r
    rw [e] at this
    cases this
  rcases h1 with rfl | rfl <;> rcases h1' with rfl | rfl
  · exact ⟨rfl, same e⟩
  · exact absurd e (bad h2)
  · exact absurd e.symm (bad h2')
  · exact ⟨rfl, same (List.cons.inj e).2⟩

theorem lead_det {pv : Option Char} {l l' esc esc' sch sch' r r' : Text} (hl : LinkLead pv l) (hl' : LinkLead pv l')
    (h1 : esc = [] ∨ esc = ['\\']) (h1' : esc' = [] ∨ esc' = ['\\'])
    (h2 : sch ∈ linkSchemes) (h2' : sch' ∈ linkSchemes) (e : l ++ esc ++ sch ++ r = l' ++ esc' ++ sch' ++ r') : l = l' := by
  have two : ∀ {esc sch r : Text}, (esc = [] ∨ esc = ['\\']) → sch ∈ linkSchemes →
      ∃ c d x, esc ++ sch ++ r = c :: d :: x ∧ (c ∈ ['h', 'f', 'i'] ∨ (c = '\\' ∧ d ≠ '&')) := by
    intro esc sch r h1 h2
    simp only [linkSchemes, List.mem_cons, List.not_mem_nil, or_false] at h2
    rcases h1 with rfl | rfl <;> rcases h2 with rfl | rfl | rfl | rfl | rfl <;> exact ⟨_, _, _, rfl, by decide⟩
  obtain ⟨c, d, x, q1, q2⟩ := two (r := r) h1 h2
  obtain ⟨c', d', x', q1', q2'⟩ := two (r := r') h1' h2'
  simp only [List.append_assoc] at e q1 q1'
  rw [q1, q1'] at e
  clear q1 q1' h1 h1' h2 h2'
  have nohead : ∀ {l : Text} {c d c' d' : Char} {x x' : Text}, (c ∈ ['h', 'f', 'i'] ∨ (c = '\\' ∧ d ≠ '&')) → LinkLead pv l →
      c :: d :: x = l ++ c' :: d' :: x' → l = [] := by
    rintro l c d c' d' x x' q (⟨rfl, _⟩ | rfl | rfl | rfl | rfl | rfl | ⟨y, hy, rfl⟩) e
    · rfl
    all_goals
      exfalso
      obtain ⟨rfl, e2⟩ := List.cons.inj e
    · rcases q with q | ⟨q, _⟩ <;> exact absurd q (by decide)
    · rcases q with q | ⟨q, _⟩ <;> exact absurd q (by decide)
    · rcases q with q | ⟨q, _⟩ <;> exact absurd q (by decide)
    · rcases q with q | ⟨q, _⟩ <;> exact absurd q (by decide)
    · obtain ⟨rfl, _⟩ := List.cons.inj e2
      revert q; decide
    · simp only [List.mem_cons, List.not_mem_nil, or_false] at hy
      rcases hy with rfl | rfl | rfl | rfl | rfl | rfl | rfl | rfl <;> rcases q with q | ⟨q, _⟩ <;> exact absurd q (by decide)
  have single : ∀ {y : Char}, y ∈ ['>', '(', ')', '[', ']', ';', '"', '\''] → y ≠ 'l' ∧ y ≠ ' ' ∧ y ≠ '\t' ∧ y ≠ '&' ∧ y ≠ '\\' := by
    intro y hy
    simp only [List.mem_cons, List.not_mem_nil, or_false] at hy
    rcases hy with rfl | rfl | rfl | rfl | rfl | rfl | rfl | rfl <;> decide
  by_cases hn : l = []
  · subst hn
    exact (nohead q2 hl' e).symm
  by_cases hn' : l' = []
  · subst hn'
    exact nohead q2' hl e.symm
  rcases hl with ⟨rfl, _⟩ | rfl | rfl | rfl | rfl | rfl | ⟨y, hy, rfl⟩
  · exact absurd rfl hn
  all_goals
    rcases hl' with ⟨rfl, _⟩ | rfl | rfl | rfl | rfl | rfl | ⟨y', hy', rfl⟩
    · exact absurd rfl hn'
  all_goals
    first
      | rfl
      | (have hh := (List.cons.inj e).1
         first
           | exact absurd hh (by decide)
           | (subst hh; rfl)
           | (subst hh; exact absurd rfl (single ‹_ ∈ _›).1)
           | (subst hh; exact absurd rfl (single ‹_ ∈ _›).2.1)
           | (subst hh; exact absurd rfl (single ‹_ ∈ _›).2.2.1)
           | (subst hh; exact absurd rfl (single ‹_ ∈ _›).2.2.2.1)
           | (subst hh; exact absurd rfl (single ‹_ ∈ _›).2.2.2.2))

theorem follows_det {f f' : LinkEnd} {b b' : Text} (h : LinkFollows f b) (h' : LinkFollows f' b')
    (e : f.text ++ b = f'.text ++ b') : f = f' := by
  have opens : ∀ {t : Text}, BracketTarget t → '[' ∉ t := fun h hm => (h.2 _ hm).2.1 rfl
  have ahead : ∀ {t w b : Text}, BracketTarget t → Enclosed w → BracketsAhead ((LinkEnd.brackets t w).text ++ b) :=
    fun {t w b} h1 h2 => ⟨t, w, b, h1, h2, by simp [LinkEnd.text]⟩
  have angled : ∀ {t b : Text}, AngleTarget t → AngleAhead ((LinkEnd.angle t).text ++ b) := fun {t b} h => ⟨t, b, h, rfl⟩
  cases h with
  | brackets h1 h2 =>
    cases h' with
    | brackets g1 g2 =>
      simp only [LinkEnd.text, List.append_assoc, List.cons_append] at e
      have := until_inj (opens h1) (opens g1) e
      subst this
      have e2 := (List.cons.inj (List.append_cancel_left e)).2
      have := (Spec.Enclosed.inj h2 g2 e2).1
      subst this
      rfl
    | angle g1 g2 => exact absurd (e ▸ ahead h1 h2) g1
    | bare g1 g2 g3 g4 => exact absurd (e ▸ ahead h1 h2) g1
  | angle h1 h2 =>
    cases h' with
    | brackets g1 g2 => exact absurd (e ▸ ahead g1 g2) h1
    | angle g1 g2 =>
      have := shortest_unique h2 g2 (by simpa [LinkEnd.text] using e)
      subst this
      rfl
    | bare g1 g2 g3 g4 => exact absurd (e ▸ angled h2.1) g2
  | bare h1 h2 h3 h4 =>
    cases h' with
    | brackets g1 g2 => exact absurd (e ▸ ahead g1 g2) h1
    | angle g1 g2 => exact absurd (e ▸ angled g2.1) h2
    | bare g1 g2 g3 g4 =>
      rename_i t t'
      have e' : t ++ b = t' ++ b' := e
      rcases Nat.lt_trichotomy t.length t'.length with hl | hl | hl
      · exact absurd g3 (h4 t' b' e'.symm hl)
      · have := (List.append_inj e' hl).1
        subst this
        rfl
      · exact absurd h3 (g4 t b e' hl)

theorem trimmed_det {t u u' v v' : Text} (h : TrimmedAddress t u v) (h' : TrimmedAddress t u' v') : u = u' ∧ v = v' := by
  have last : ∀ {a b : Text} {c d : Char}, a ++ [c] = b ++ [d] → a = b ∧ c = d := by
    intro a b c d e
    have := List.append_inj' e rfl
    exact ⟨this.1, (List.cons.inj this.2).1⟩
  have two : ∀ (a : Text) (c d : Char), a ++ [c, d] = (a ++ [c]) ++ [d] := by intros; simp
  generalize ht : t = t' at h'
  cases h with
  | plain h1 h2 =>
    cases h' with
    | plain g1 g2 => exact ⟨ht, rfl⟩
    | colon g1 g2 =>
      rw [ht] at h1 h2
      rcases g1 with rfl | rfl <;> simp at h1 h2
    | paren g1 =>
      rw [ht, two] at h1 h2
      rcases g1 with rfl | rfl <;> simp at h1 h2
  | colon h1 h2 =>
    cases h' with
    | plain g1 g2 =>
      rw [← ht] at g1 g2
      rcases h1 with rfl | rfl <;> simp at g1 g2
    | colon g1 g2 =>
      obtain ⟨rfl, rfl⟩ := last ht
      exact ⟨rfl, rfl⟩
    | paren g1 =>
      rw [two] at ht
      obtain ⟨rfl, rfl⟩ := last ht
      simp at h2
  | paren h1 =>
    cases h' with
    | plain g1 g2 =>
      rw [← ht, two] at g1 g2
      rcases h1 with rfl | rfl <;> simp at g1 g2
    | colon g1 g2 =>
      rw [two] at ht
      obtain ⟨rfl, rfl⟩ := last ht
      simp at g2
    | paren g1 =>
      rw [two, two] at ht
      obtain ⟨e1, rfl⟩ := last ht
      obtain ⟨rfl, _⟩ := last e1
      exact ⟨rfl, rfl⟩

theorem linkWords_det {e : Env} {text w w' : Text} {a a' : Attrlist} (h : LinkWords e text w a)
    (h' : LinkWords e text w' a') : w = w' ∧ a = a' := by
  unfold LinkWords at h h'
  by_cases hc : '=' ∈ text
  · rw [if_pos hc] at h h'
    have := h.1.symm.trans h'.1
    cases this
    exact ⟨h.2.trans h'.2.symm, rfl⟩
  · rw [if_neg hc] at h h'
    have := h.1.symm.trans h'.1
    cases this
    exact ⟨h.2.trans h'.2.symm, rfl⟩

theorem linkBecomes_det [LawfulUni] {e : Env} {lead esc sch : Text} {f : LinkEnd} {x y : Text}
    (h : LinkBecomes e lead esc sch f x) (h' : LinkBecomes e lead esc sch f y) : x = y := by
  have eqa : ∀ {a a' : Attrlist}, inlineAttrlist e.store [] = .ok a → inlineAttrlist e.store [] = .ok a' → a = a' := by
    intro a a' h1 h2
    exact Except.ok.inj (h1.symm.trans h2)
  cases h with
  | escapedAngle h1 h2 =>
    subst h2
    cases h' with
    | escapedAngle => rfl
    | escaped _ g => exact absurd rfl g
    | escapedWords => exact absurd rfl (h1 _ _)
    | angle g => exact absurd g (by decide)
    | kept g => exact absurd g (by decide)
    | bare _ g => exact absurd rfl g
    | noWords => exact absurd rfl (h1 _ _)
    | onlyAttributes => exact absurd rfl (h1 _ _)
    | words => exact absurd rfl (h1 _ _)
  | escaped h1 h2 h3 =>
    subst h3
    cases h' with
    | escapedAngle _ g => exact absurd g h2
    | escaped => rfl
    | escapedWords => exact absurd rfl (h1 _ _)
    | angle _ g => exact absurd g (by decide)
    | kept _ g => exact absurd g (by decide)
    | bare _ _ _ _ g => exact absurd g (by decide)
    | noWords => exact absurd rfl (h1 _ _)
    | onlyAttributes => exact absurd rfl (h1 _ _)
    | words => exact absurd rfl (h1 _ _)
  | escapedWords h1 =>
    subst h1
    cases h' with
    | escapedAngle g => exact absurd rfl (g _ _)
    | escaped g => exact absurd rfl (g _ _)
    | escapedWords => rfl
    | noWords g => exact absurd g (by decide)
    | onlyAttributes g => exact absurd g (by decide)
    | words g => exact absurd g (by decide)
  | angle h1 h2 h3 h4 =>
    subst h2
    cases h' with
    | escapedAngle _ g => rw [h1] at g; exact absurd g (by decide)
    | escaped _ _ g => exact absurd g (by decide)
    | angle g1 g2 g3 g4 =>
      have := shownAddress_det h3 g3
      subst this
      rw [eqa h4 g4]
  | kept h1 h2 =>
    subst h2
    cases h' with
    | escapedAngle _ g => rw [g] at h1; exact absurd h1 (by decide)
    | escaped _ _ g => exact absurd g (by decide)
    | kept => rfl
    | bare g1 g2 g3 g4 =>
      rcases h1 with h | h | h
      · exact absurd h g1
      · exact absurd h g3
      · exact absurd h g4
  | bare h1 h2 h3 h4 h5 h6 h7 h8 =>
    subst h5
    cases h' with
    | escapedAngle _ g => exact absurd g h2
    | escaped _ _ g => exact absurd g (by decide)
    | kept g =>
      rcases g with h | h | h
      · exact absurd h h1
      · exact absurd h h3
      · exact absurd h h4
    | bare g1 g2 g3 g4 g5 g6 g7 g8 =>
      obtain ⟨rfl, rfl⟩ := trimmed_det h6 g6
      have := shownAddress_det h7 g7
      subst this
      rw [eqa h8 g8]
  | noWords h1 h2 h3 =>
    subst h1
    cases h' with
    | escapedAngle g => exact absurd rfl (g _ _)
    | escaped g => exact absurd rfl (g _ _)
    | escapedWords g => exact absurd g (by decide)
    | noWords g1 g2 g3 =>
      have := shownAddress_det h2 g2
      subst this
      rw [eqa h3 g3]
    | onlyAttributes _ g => exact absurd rfl g
    | words _ g => exact absurd rfl g
  | onlyAttributes h1 h2 h3 h4 h5 =>
    subst h1
    cases h' with
    | escapedAngle g => exact absurd rfl (g _ _)
    | escaped g => exact absurd rfl (g _ _)
    | escapedWords g => exact absurd g (by decide)
    | noWords => exact absurd rfl h2
    | onlyAttributes g1 g2 g3 g4 g5 =>
      obtain ⟨rfl, rfl⟩ := linkWords_det h3 g3
      obtain ⟨_, rfl⟩ := caret_det h4 g4
      have := shownAddress_det h5 g5
      subst this
      rfl
    | words g1 g2 g3 g4 g5 =>
      obtain ⟨rfl, rfl⟩ := linkWords_det h3 g3
      exact absurd (caret_det h4 g4).1.symm g5
  | words h1 h2 h3 h4 h5 =>
    subst h1
    cases h' with
    | escapedAngle g => exact absurd rfl (g _ _)
    | escaped g => exact absurd rfl (g _ _)
    | escapedWords g => exact absurd g (by decide)
    | noWords => exact absurd rfl h2
    | onlyAttributes g1 g2 g3 g4 g5 =>
      obtain ⟨rfl, rfl⟩ := linkWords_det h3 g3
      exact absurd (caret_det h4 g4).1 h5
    | words g1 g2 g3 g4 g5 =>
      obtain ⟨rfl, rfl⟩ := linkWords_det h3 g3
      obtain ⟨rfl, rfl⟩ := caret_det h4 g4
      rfl

theorem determined_link [LawfulUni] (e : Env) : Determined (LinkAt e) := by
  rintro pv m b x m' b' x' ⟨l, esc, sch, f, rfl, h1, h2, h3, h4, h5⟩ ⟨l', esc', sch', f', rfl, g1, g2, g3, g4, g5⟩ eq
  have hne : l ++ esc ++ sch ++ f.text ≠ [] := by
    simp only [linkSchemes, List.mem_cons, List.not_mem_nil, or_false] at h3
    rcases h3 with rfl | rfl | rfl | rfl | rfl <;> simp
  refine ⟨hne, ?_⟩
  have eq' : l ++ esc ++ sch ++ (f.text ++ b) = l' ++ esc' ++ sch' ++ (f'.text ++ b') := by
    rw [← List.append_assoc, ← List.append_assoc]; exact eq
  have := lead_det h1 g1 h2 g2 h3 g3 eq'
  subst this
  have eq2 : esc ++ sch ++ (f.text ++ b) = esc' ++ sch' ++ (f'.text ++ b') := by
    apply List.append_cancel_left (as := l)
    simpa using eq'
  obtain ⟨rfl, rfl, eq3⟩ := scheme_det h2 g2 h3 g3 eq2
  have := follows_det h4 g4 eq3
  subst this
  exact ⟨rfl, linkBecomes_det h5 g5⟩

end Adoc
