import Verif.Lemmas.AnchorMacro
/-!
# E-mail addresses against their specification
-/

namespace Adoc
open Adoc.Spec Re
variable [Uni]

/-- The characters in front of the `@`. -/
def mailNameRe : Re :=
  star true (alt (lit "&amp;".toList) (cls fun c => Uni.isWord c || c == '-' || c == '.' || c == '%' || c == '+'))

theorem mailName_iff {s s' : RS} : Rel mailNameRe s s' ↔ ∃ u r, s.rest = u ++ r ∧ MailName u ∧
    s' = ⟨prevAfter s.prev u, r, s.caps⟩ := by
  unfold mailNameRe
  constructor
  · intro h
    generalize hre : star true (alt (lit "&amp;".toList)
      (cls fun c => Uni.isWord c || c == '-' || c == '.' || c == '%' || c == '+')) = re at h
    induction h with
    | starNil => exact ⟨[], _, rfl, .nil, rfl⟩
    | starStep h1 _ _ _ ih =>
      cases hre
      obtain ⟨u, r', e3, e4, rfl⟩ := ih rfl
      rcases rel_alt_iff.mp h1 with h1 | h1
      · obtain ⟨r, e1, rfl⟩ := rel_lit_iff.mp h1
        simp only at e3
        refine ⟨"&amp;".toList ++ u, r', by rw [e1, e3]; simp, .ampersand e4, ?_⟩
        simp only [prevAfter_append]
      · obtain ⟨c, r, e1, e2, rfl⟩ := rel_cls_iff.mp h1
        simp only at e3
        refine ⟨c :: u, r', by rw [e1, e3]; rfl, .char ?_ e4, by rw [prevAfter_cons]⟩
        simpa [or_assoc] using e2
    | _ => cases hre
  · rintro ⟨u, r, e1, e2, rfl⟩
    obtain ⟨pv, t, cs⟩ := s
    simp only at e1 ⊢
    subst e1
    induction e2 generalizing pv with
    | nil => exact .starNil
    | @char c u hc _ ih =>
      rw [prevAfter_cons]
      refine .starStep (s' := ⟨some c, u ++ r, cs⟩) (.altR (.cls (by simpa [or_assoc] using hc))) (by simp) (ih (some c))
    | @ampersand u _ ih =>
      rw [← prevAfter_append]
      refine .starStep (s' := ⟨prevAfter pv "&amp;".toList, u ++ r, cs⟩)
        (.altL (rel_lit_iff.mpr ⟨_, by simp, rfl⟩)) (by simp; omega) (ih _)

/-- The end of an address. -/
def mailTld : Re := .seq (chr '.') (cat [alphaRe, alphaRe, upTo alphaRe 3])

theorem mailTld_iff {s s' : RS} : Rel mailTld s s' ↔ ∃ tld r, s.rest = '.' :: tld ++ r ∧ 2 ≤ tld.length ∧ tld.length ≤ 5 ∧
    (∀ x ∈ tld, isAsciiAlpha x = true) ∧ s' = ⟨prevAfter s.prev ('.' :: tld), r, s.caps⟩ := by
  unfold mailTld alphaRe
  rw [rel_seq_iff]
  constructor
  · rintro ⟨x, h1, h2⟩
    obtain ⟨r, e, rfl⟩ := rel_chr_iff.mp h1
    obtain ⟨d, r2, e2, h3, h4, h5, rfl⟩ := two_upTo.mp h2
    simp only at e2
    exact ⟨d, r2, by rw [e, e2]; rfl, h3, h4, h5, by rw [prevAfter_cons]⟩
  · rintro ⟨d, r, e, h3, h4, h5, rfl⟩
    exact ⟨_, rel_chr_iff.mpr ⟨d ++ r, e, rfl⟩, two_upTo.mpr ⟨d, r, rfl, h3, h4, h5, by rw [prevAfter_cons]⟩⟩

/-- An address. -/
def mailAddressRe : Re :=
  .seq (cls (fun c => Uni.isWord c || c == '_')) (.seq mailNameRe (.seq (chr '@') (.seq (cls (fun c => Uni.isLetter c || Uni.isNd c))
    (.seq (star true (cls fun c => Uni.isLetter c || Uni.isNd c || c == '_' || c == '-' || c == '.')) mailTld))))

theorem inlineEmailRe_eq : inlineEmailRe =
    .seq (cap 1 (opt (cls fun c => c == '\\' || c == '>' || c == ':' || c == '/'))) (.seq (cap 2 mailAddressRe) .wb) := rfl

theorem mailAddress_rel {a : Text} (h : MailAddress a) (pv : Option Char) (r : Text) (caps : List (Nat × Text)) :
    Rel mailAddressRe ⟨pv, a ++ r, caps⟩ ⟨prevAfter pv a, r, caps⟩ := by
  obtain ⟨c, name, d, domain, tld, rfl, h1, h2, h3, h4, h5, h6, h7⟩ := h
  refine rel_seq_iff.mpr ⟨⟨some c, name ++ '@' :: d :: (domain ++ '.' :: (tld ++ r)), caps⟩,
    rel_cls_iff.mpr ⟨c, _, by simp, by simpa using h1, rfl⟩,
    rel_seq_iff.mpr ⟨_, mailName_iff.mpr ⟨name, _, rfl, h2, rfl⟩, rel_seq_iff.mpr ⟨_, rel_chr_iff.mpr ⟨_, rfl, rfl⟩,
      rel_seq_iff.mpr ⟨_, rel_cls_iff.mpr ⟨d, _, rfl, by simpa using h3, rfl⟩,
        rel_seq_iff.mpr ⟨_, rel_star_cls_iff.mpr ⟨domain, _, rfl, ?_, rfl⟩,
          mailTld_iff.mpr ⟨tld, r, rfl, h5, h6, h7, ?_⟩⟩⟩⟩⟩⟩
  · intro x hx
    simpa [or_assoc] using h4 x hx
  · have e : c :: name ++ '@' :: d :: domain ++ '.' :: tld = [c] ++ name ++ ['@'] ++ [d] ++ domain ++ ('.' :: tld) := by simp
    rw [e]
    simp only [← prevAfter_append]
    rfl

theorem word_alpha [LawfulUni] {c : Char} (h : isAsciiAlpha c = true) : Uni.isWord c = true := by
  have hc : c.toNat < 128 := by
    unfold isAsciiAlpha at h
    simp at h
    omega
  rw [LawfulUni.word _ hc]
  simp [isAsciiAlnum, h]

theorem mailName_at [LawfulUni] {t : Text} (h : MailName t) : '@' ∉ t := by
  induction h with
  | nil => simp
  | @char c t hc _ ih =>
    intro hm
    rcases List.mem_cons.mp hm with e | hm
    · rw [← e] at hc
      have : Uni.isWord '@' = false := LawfulUni.word _ (by decide)
      rw [this] at hc
      revert hc; decide
    · exact ih hm
  | ampersand _ ih =>
    intro hm
    rcases List.mem_append.mp hm with hm | hm
    · revert hm; decide
    · exact ih hm

theorem mailAddress_last [LawfulUni] {a : Text} (h : MailAddress a) : ∃ x, a.getLast? = some x ∧ Uni.isWord x = true := by
  obtain ⟨c, name, d, domain, tld, rfl, h1, h2, h3, h4, h5, h6, h7⟩ := h
  rcases List.eq_nil_or_concat tld with rfl | ⟨u, x, rfl⟩
  · simp at h5
  · refine ⟨x, ?_, word_alpha (h7 x (by simp))⟩
    rw [List.concat_eq_append, ← List.cons_append, ← List.append_assoc, List.getLast?_append]
    rfl

theorem wb_iff [LawfulUni] {a : Text} (h : MailAddress a) (pv : Option Char) (r : Text) (caps : List (Nat × Text)) :
    (wordAt (prevAfter pv a) != wordAt r.head?) = true ↔ WordEnds r := by
  obtain ⟨x, h1, h2⟩ := mailAddress_last h
  have : prevAfter pv a = some x := by unfold prevAfter; rw [h1]
  rw [this]
  simp only [wordAt, h2]
  cases r with
  | nil => simp [WordEnds]
  | cons c r => simp [WordEnds]

/-- Of two addresses at the same place, the longer one has the longer domain. -/
theorem domain_longer [LawfulUni] {c c' d d' : Char} {name name' domain domain' tld tld' r r' : Text} (hn : MailName name)
    (hn' : MailName name') (ht : 2 ≤ tld.length) (hc1 : c ≠ '@') (hc2 : c' ≠ '@')
    (ht' : ∀ x ∈ tld', isAsciiAlpha x = true) (hr : WordEnds r)
    (e : c :: name ++ '@' :: d :: domain ++ '.' :: tld ++ r = c' :: name' ++ '@' :: d' :: domain' ++ '.' :: tld' ++ r')
    (hl : (c :: name ++ '@' :: d :: domain ++ '.' :: tld).length < (c' :: name' ++ '@' :: d' :: domain' ++ '.' :: tld').length) :
    c = c' ∧ name = name' ∧ d = d' ∧ domain ++ '.' :: tld ++ r = domain' ++ '.' :: tld' ++ r' ∧ domain.length < domain'.length := by
  have n1 : '@' ∉ c :: name := by
    intro hm
    rcases List.mem_cons.mp hm with h | h
    · exact hc1 h.symm
    · exact mailName_at hn h
  have n2 : '@' ∉ c' :: name' := by
    intro hm
    rcases List.mem_cons.mp hm with h | h
    · exact hc2 h.symm
    · exact mailName_at hn' h
  have e0 : (c :: name) ++ '@' :: (d :: domain ++ '.' :: tld ++ r) = (c' :: name') ++ '@' :: (d' :: domain' ++ '.' :: tld' ++ r') := by
    simpa using e
  have h1 := until_inj n1 n2 e0
  obtain ⟨rfl, rfl⟩ := List.cons.inj h1
  have e1 := (List.cons.inj (List.append_cancel_left e0)).2
  simp only [List.cons_append] at e1
  obtain ⟨rfl, e2⟩ := List.cons.inj e1
  refine ⟨rfl, rfl, rfl, e2, ?_⟩
  have hl2 : domain.length + tld.length < domain'.length + tld'.length := by simp at hl; omega
  have dot : ∀ x ∈ tld', x ≠ '.' := by
    rintro x hx rfl
    have := ht' _ hx
    revert this; decide
  rcases Nat.lt_trichotomy domain.length domain'.length with h | h | h
  · exact h
  · exfalso
    obtain ⟨rfl, e3⟩ := List.append_inj (by simpa using e2 : domain ++ ('.' :: tld ++ r) = domain' ++ ('.' :: tld' ++ r')) h
    simp only [List.cons_append] at e3
    have e4 := (List.cons.inj e3).2
    have hp : tld <+: tld' := List.prefix_of_prefix_length_le ⟨r, rfl⟩ ⟨r', e4.symm⟩ (by omega)
    obtain ⟨w, rfl⟩ := hp
    cases w with
    | nil => simp at hl2
    | cons x w =>
      rw [List.append_assoc] at e4
      have e5 := List.append_cancel_left e4
      have hx := hr x (by rw [e5]; rfl)
      rw [word_alpha (ht' x (by simp))] at hx
      cases hx
  · exfalso
    have hp : domain' ++ ['.'] <+: domain := by
      refine List.prefix_of_prefix_length_le (l₃ := domain ++ '.' :: tld ++ r) ⟨tld' ++ r', by rw [e2]; simp⟩
        ⟨'.' :: tld ++ r, by simp⟩ (by simp; omega)
    obtain ⟨w, hw⟩ := hp
    rw [← hw] at e2
    have e3 : w ++ '.' :: (tld ++ r) = tld' ++ r' := by
      simp only [List.append_assoc, List.cons_append, List.nil_append] at e2
      exact (List.cons.inj (List.append_cancel_left e2)).2
    have hwl : w.length < tld'.length := by
      have : domain.length = domain'.length + 1 + w.length := by rw [← hw]; simp; omega
      omega
    have hp2 : w ++ ['.'] <+: tld' := List.prefix_of_prefix_length_le (l₃ := tld' ++ r') ⟨tld ++ r, by rw [← e3]; simp⟩ ⟨r', rfl⟩
      (by simp; omega)
    obtain ⟨v, hv⟩ := hp2
    exact dot '.' (by rw [← hv]; simp) rfl

theorem mailAddress_sound [LawfulUni] {s z : RS} (h : m (cap 2 mailAddressRe) (m .wb some) s = some z) :
    ∃ a, s.rest = a ++ z.rest ∧ LongestMail a z.rest ∧ z.caps = (2, a) :: s.caps := by
  have wat : Uni.isWord '@' = false := LawfulUni.word _ (by decide)
  rw [m_cap, mailAddressRe, m_seq] at h
  obtain ⟨c, r1, e1, hc, h1⟩ := m_cls_some h
  rw [m_seq] at h1
  obtain ⟨s2, g2, h2⟩ := m_sound _ _ _ _ h1
  obtain ⟨name, r2, e2, hname, rfl⟩ := mailName_iff.mp g2
  simp only at e2
  subst e2
  rw [m_seq] at h2
  obtain ⟨r3, e3, h3⟩ := m_chr_some h2
  simp only at e3
  subst e3
  rw [m_seq] at h3
  obtain ⟨d, r4, e4, hd, h4⟩ := m_cls_some h3
  simp only at e4
  subst e4
  rw [m_seq] at h4
  obtain ⟨domain, r5, e5, hdom, h5, hmax⟩ := m_star_greedy h4
  simp only at e5
  subst e5
  obtain ⟨s6, g6, h6⟩ := m_sound _ _ _ _ h5
  obtain ⟨tld, r6, e6, t1, t2, t3, rfl⟩ := mailTld_iff.mp g6
  simp only at e6
  subst e6
  rw [m] at h6
  split at h6
  · rename_i hwb
    cases h6
    have addr : MailAddress (c :: name ++ '@' :: d :: domain ++ '.' :: tld) :=
      ⟨c, name, d, domain, tld, rfl, by simpa using hc, hname, by simpa using hd,
        fun x hx => by simpa [or_assoc] using hdom x hx, t1, t2, t3⟩
    have es : s.rest = (c :: name ++ '@' :: d :: domain ++ '.' :: tld) ++ r6 := by rw [e1]; simp
    have hpv : prevAfter (prevAfter (some d) domain) ('.' :: tld) =
        prevAfter s.prev (c :: name ++ '@' :: d :: domain ++ '.' :: tld) := by
      have e : c :: name ++ '@' :: d :: domain ++ '.' :: tld = [c] ++ name ++ ['@'] ++ [d] ++ domain ++ ('.' :: tld) := by simp
      rw [e]
      simp only [← prevAfter_append]
      rfl
    simp only [hpv] at hwb
    have hends : WordEnds r6 := (wb_iff addr s.prev r6 []).mp hwb
    refine ⟨c :: name ++ '@' :: d :: domain ++ '.' :: tld, es, ⟨addr, hends, ?_⟩, ?_⟩
    · rintro b r he hl hb hr
      obtain ⟨c', name', d', domain', tld', rfl, b1, b2, b3, b4, b5, b6, b7⟩ := id hb
      have hat : ∀ {c : Char}, (Uni.isWord c = true ∨ c = '_') → c ≠ '@' := by
        intro c h e
        subst e
        rcases h with h | h
        · rw [wat] at h; cases h
        · exact absurd h (by decide)
      obtain ⟨rfl, rfl, rfl, q1, q2⟩ := domain_longer hname b2 t1 (hat (by simpa using hc)) (hat b1) b7 hends he.symm hl
      have := hmax domain' ('.' :: tld' ++ r) (by simpa using q1.symm) q2
        (fun x hx => by simpa [or_assoc] using b4 x hx)
      have hrel : Rel mailTld ⟨prevAfter (some d) domain', '.' :: tld' ++ r, s.caps⟩
          ⟨prevAfter (prevAfter (some d) domain') ('.' :: tld'), r, s.caps⟩ := mailTld_iff.mpr ⟨tld', r, rfl, b5, b6, b7, rfl⟩
      have h8 := m_complete mailTld (fun s' => m .wb some
        { s' with caps := (2, s.rest.take (s.rest.length - s'.rest.length)) :: s'.caps }) _ _ hrel (by
          simp only
          rw [m]
          have hpv : prevAfter (prevAfter (some d) domain') ('.' :: tld') =
              prevAfter s.prev (c :: name ++ '@' :: d :: domain' ++ '.' :: tld') := by
            have e : c :: name ++ '@' :: d :: domain' ++ '.' :: tld' = [c] ++ name ++ ['@'] ++ [d] ++ domain' ++ ('.' :: tld') := by simp
            rw [e]
            simp only [← prevAfter_append]
            rfl
          simp only [hpv]
          rw [if_pos ((wb_iff hb s.prev r []).mpr hr)]
          rfl)
      simp only at this
      rw [this] at h8
      cases h8
    · simp only [es, take_used]
  · cases h6

theorem renders_mail [LawfulUni] (e : Env) : RendersIf inlineEmailRe (emailReplacer e) (MailAt e) := by
  refine RendersIf.of ?_ ?_
  · intro pv t s h
    rw [inlineEmailRe_eq, m_seq, m_cap] at h
    have ne : ∀ {a b : Text}, LongestMail a b → a ≠ [] := by
      rintro a b ⟨⟨c, name, d, domain, tld, rfl, _⟩, _⟩; simp
    rcases m_opt_some h with h | ⟨_, h⟩
    · obtain ⟨c, r, e1, hc, h1⟩ := m_cls_some h
      simp only at e1
      subst e1
      have htk := take_used [c] r
      rw [List.singleton_append] at htk
      simp only [htk] at h1
      rw [m_seq] at h1
      obtain ⟨a, e2, h2, h3⟩ := mailAddress_sound h1
      simp only at e2
      subst e2
      refine ⟨c :: a, rfl, by simp, ?_⟩
      intro x hx
      have g1 : (Match.mk (c :: a) s.caps).get 1 = some [c] := by rw [h3]; rfl
      unfold emailReplacer at hx
      rw [g1] at hx
      simp only at hx
      by_cases hb : c = '\\'
      · subst hb
        rw [if_pos rfl] at hx
        cases hx
        exact .escaped h2
      · rw [if_neg (by simpa using hb)] at hx
        cases hx
        refine .kept ?_ h2
        simp [hb] at hc
        simpa [or_assoc] using hc
    · simp only at h
      rw [m_seq] at h
      obtain ⟨a, e2, h2, h3⟩ := mailAddress_sound h
      simp only at e2
      refine ⟨a, e2, ne h2, ?_⟩
      intro x hx
      have g1 : (Match.mk a s.caps).get 1 = some [] := by
        rw [h3]
        simp [Match.get]
      have g2 : (Match.mk a s.caps).at! 2 = .ok a := by rw [h3]; rfl
      unfold emailReplacer at hx
      rw [g1] at hx
      simp only [g2, bind, Except.bind] at hx
      cases ha : inlineAttrlist e.store [] with
      | error f => rw [ha] at hx; cases hx
      | ok l =>
        rw [ha] at hx
        cases hx
        exact .mail h2 ha
  · intro pv mt b x h
    rw [inlineEmailRe_eq]
    have core : ∀ {a : Text}, LongestMail a b → ∀ pv caps, ∃ z, Rel (.seq (cap 2 mailAddressRe) .wb) ⟨pv, a ++ b, caps⟩ z := by
      intro a h pv caps
      refine ⟨_, rel_seq_iff.mpr ⟨⟨prevAfter pv a, b, (2, a) :: caps⟩,
        rel_cap_iff.mpr ⟨_, a, mailAddress_rel h.1 pv b caps, rfl, rfl⟩, .wb ((wb_iff h.1 pv b []).mpr h.2.1)⟩⟩
    have lead : ∀ {c : Char} {a : Text}, (c == '\\' || c == '>' || c == ':' || c == '/') = true → LongestMail a b → ∀ pv, ∃ z,
        Rel (.seq (cap 1 (opt (cls fun c => c == '\\' || c == '>' || c == ':' || c == '/'))) (.seq (cap 2 mailAddressRe) .wb))
          ⟨pv, c :: a ++ b, []⟩ z := by
      intro c a hc h pv
      obtain ⟨z, hz⟩ := core h (some c) [(1, [c])]
      exact ⟨z, rel_seq_iff.mpr ⟨_, rel_cap_iff.mpr ⟨⟨some c, a ++ b, []⟩, [c], rel_opt_iff.mpr (.inl (rel_cls_iff.mpr
        ⟨c, _, rfl, hc, rfl⟩)), rfl, rfl⟩, hz⟩⟩
    cases h with
    | mail h1 h2 =>
      obtain ⟨z, hz⟩ := core h1 pv [(1, [])]
      exact ⟨z, rel_seq_iff.mpr ⟨_, rel_cap_iff.mpr ⟨⟨pv, mt ++ b, []⟩, [], rel_opt_iff.mpr (.inr rfl), rfl, rfl⟩, hz⟩⟩
    | escaped h1 => exact lead (by decide) h1 pv
    | kept h1 h2 =>
      refine lead ?_ h2 pv
      simp only [List.mem_cons, List.not_mem_nil, or_false] at h1
      rcases h1 with rfl | rfl | rfl <;> decide

theorem longestMail_det {a a' b b' : Text} (h : LongestMail a b) (h' : LongestMail a' b') (e : a ++ b = a' ++ b') : a = a' := by
  rcases Nat.lt_trichotomy a.length a'.length with hl | hl | hl
  · exact absurd h'.2.1 (h.2.2 a' b' e.symm hl h'.1)
  · exact (List.append_inj e hl).1
  · exact absurd h.2.1 (h'.2.2 a b e hl h.1)

theorem determined_mail [LawfulUni] (e : Env) : Determined (MailAt e) := by
  have first : ∀ {a b : Text}, LongestMail a b → ∃ c r, a = c :: r ∧ c ∉ ['\\', '>', ':', '/'] := by
    rintro a b ⟨⟨c, name, d, domain, tld, rfl, hc, _⟩, _⟩
    refine ⟨c, _, rfl, ?_⟩
    intro hm
    have : ∀ x ∈ ['\\', '>', ':', '/'], Uni.isWord x = false := by
      intro x hx
      simp only [List.mem_cons, List.not_mem_nil, or_false] at hx
      rcases hx with rfl | rfl | rfl | rfl <;> exact LawfulUni.word _ (by decide)
    rw [this c hm] at hc
    rcases hc with hc | rfl
    · cases hc
    · revert hm; decide
  intro pv m b x m' b' x' h h' eq
  cases h with
  | mail h1 h2 =>
    obtain ⟨c, r, rfl, hc⟩ := first h1
    refine ⟨by simp, ?_⟩
    cases h' with
    | mail g1 g2 =>
      have := longestMail_det h1 g1 eq
      subst this
      rw [h2] at g2
      cases g2
      exact ⟨rfl, rfl⟩
    | escaped g1 => exact absurd (by rw [(List.cons.inj eq).1]; simp) hc
    | kept g1 g2 =>
      refine absurd ?_ hc
      rw [(List.cons.inj eq).1]
      exact List.mem_cons_of_mem _ g1
  | escaped h1 =>
    refine ⟨by simp, ?_⟩
    cases h' with
    | mail g1 g2 =>
      obtain ⟨c, r, rfl, hc⟩ := first g1
      exact absurd (by rw [← (List.cons.inj eq).1]; simp) hc
    | escaped g1 =>
      have := longestMail_det h1 g1 (List.cons.inj eq).2
      subst this
      exact ⟨rfl, rfl⟩
    | kept g1 g2 =>
      rw [← (List.cons.inj eq).1] at g1
      exact absurd g1 (by decide)
  | kept h0 h1 =>
    refine ⟨by simp, ?_⟩
    cases h' with
    | mail g1 g2 =>
      obtain ⟨c, r, rfl, hc⟩ := first g1
      refine absurd ?_ hc
      rw [← (List.cons.inj eq).1]
      exact List.mem_cons_of_mem _ h0
    | escaped g1 =>
      rw [(List.cons.inj eq).1] at h0
      exact absurd h0 (by decide)
    | kept g0 g1 =>
      obtain ⟨rfl, e2⟩ := List.cons.inj eq
      have := longestMail_det h1 g1 e2
      subst this
      exact ⟨rfl, rfl⟩

end Adoc
