import Verif.Spec.Header
import Verif.Lemmas.RegexRel
import Verif.Lemmas.Steps
import Verif.Lemmas.Section
/-! # Lemmas about authors -/

set_option linter.unusedSectionVars false
namespace Adoc
open Spec Re

variable [Uni]

theorem cat_cons (r r' : Re) (rs : List Re) : cat (r :: r' :: rs) = .seq r (cat (r' :: rs)) := rfl
theorem cat_one (r : Re) : cat [r] = r := rfl

theorem nameStart_iff {c : Char} : nameStart c = true ↔ NameStart c := by
  simp only [nameStart, NameStart, Bool.or_eq_true, beq_iff_eq, List.mem_cons, List.not_mem_nil, or_false]
  constructor
  · rintro ((((((h | h) | h) | h) | h) | h) | h) <;> simp [h]
  · rintro (h | h | h | h | h | h | h) <;> simp [h]

theorem nameRest_iff {c : Char} : nameRest c = true ↔ NameStart c ∨ c ∈ ['-', '\'', '.'] := by
  simp only [nameRest, Bool.or_eq_true, beq_iff_eq, nameStart_iff, List.mem_cons, List.not_mem_nil, or_false, or_assoc]

theorem rel_name {n : Nat} {s s' : RS} : Rel (nameRe n) s s' ↔
    ∃ w r, NameWord w ∧ s.rest = w ++ r ∧ s' = ⟨prevAfter s.prev w, r, (n, w) :: s.caps⟩ := by
  unfold nameRe
  simp only [cat]
  rw [rel_cap_iff]
  constructor
  · rintro ⟨x, u, h, e, rfl⟩
    rw [rel_seq_iff] at h
    obtain ⟨y, h1, h2⟩ := h
    obtain ⟨c, r, e1, e2, rfl⟩ := rel_cls_iff.mp h1
    obtain ⟨v, r', e3, e4, rfl⟩ := rel_star_cls_iff.mp h2
    simp only at e3 e ⊢
    have eu : u = c :: v := by
      rw [e1, e3] at e
      exact (List.append_cancel_right (as := u) (bs := r') (cs := c :: v) (by rw [← e]; rfl))
    refine ⟨u, r', ⟨c, v, eu, nameStart_iff.mp e2, fun x hx => nameRest_iff.mp (e4 x hx)⟩, e, ?_⟩
    rw [eu, prevAfter_cons]
  · rintro ⟨w, r, ⟨c, cs, rfl, h1, h2⟩, e, rfl⟩
    refine ⟨⟨prevAfter s.prev (c :: cs), r, s.caps⟩, c :: cs, ?_, e, rfl⟩
    rw [rel_seq_iff]
    refine ⟨⟨some c, cs ++ r, s.caps⟩, rel_cls_iff.mpr ⟨c, cs ++ r, e, nameStart_iff.mpr h1, rfl⟩, ?_⟩
    refine rel_star_cls_iff.mpr ⟨cs, r, rfl, fun x hx => nameRest_iff.mpr (h2 x hx), ?_⟩
    rw [prevAfter_cons]

theorem rel_gap {s s' : RS} : Rel (plus (chr ' ')) s s' ↔
    ∃ u r, Gap u ∧ s.rest = u ++ r ∧ s' = ⟨prevAfter s.prev u, r, s.caps⟩ := by
  unfold chr
  rw [rel_plus_cls_iff]
  constructor
  · rintro ⟨u, r, h1, h2, h3, h4⟩
    exact ⟨u, r, ⟨h1, fun c hc => by simpa using h3 c hc⟩, h2, h4⟩
  · rintro ⟨u, r, ⟨h1, h3⟩, h2, h4⟩
    exact ⟨u, r, h1, h2, fun c hc => by simpa using h3 c hc, h4⟩

theorem rel_gapName {n : Nat} {s s' : RS} : Rel (cat [plus (chr ' '), nameRe n]) s s' ↔
    ∃ u w r, Gap u ∧ NameWord w ∧ s.rest = u ++ w ++ r ∧ s' = ⟨prevAfter s.prev (u ++ w), r, (n, w) :: s.caps⟩ := by
  simp only [cat]
  rw [rel_seq_iff]
  constructor
  · rintro ⟨x, h1, h2⟩
    obtain ⟨u, r, hu, e1, rfl⟩ := rel_gap.mp h1
    obtain ⟨w, r', hw, e2, rfl⟩ := rel_name.mp h2
    simp only at e2
    exact ⟨u, w, r', hu, hw, by rw [e1, e2, List.append_assoc], by simp only [prevAfter_append]⟩
  · rintro ⟨u, w, r, hu, hw, e, rfl⟩
    refine ⟨⟨prevAfter s.prev u, w ++ r, s.caps⟩, rel_gap.mpr ⟨u, w ++ r, hu, by rw [e, List.append_assoc], rfl⟩, ?_⟩
    exact rel_name.mpr ⟨w, r, hw, rfl, by simp only [prevAfter_append]⟩

theorem rel_mail {s s' : RS} : Rel (cat [plus (chr ' '), chr '<', cap 4 (plus (cls (· != '>'))), chr '>']) s s' ↔
    ∃ u e r, Gap u ∧ e ≠ [] ∧ '>' ∉ e ∧ s.rest = u ++ '<' :: e ++ '>' :: r ∧
      s' = ⟨some '>', r, (4, e) :: s.caps⟩ := by
  simp only [cat]
  rw [rel_seq_iff]
  constructor
  · rintro ⟨x, h1, h⟩
    obtain ⟨u, r, hu, e1, rfl⟩ := rel_gap.mp h1
    rw [rel_seq_iff] at h
    obtain ⟨y, h2, h⟩ := h
    obtain ⟨r2, e2, rfl⟩ := rel_chr_iff.mp h2
    rw [rel_seq_iff] at h
    obtain ⟨z, h3, h4⟩ := h
    obtain ⟨x3, e, h3', e3, rfl⟩ := rel_cap_iff.mp h3
    obtain ⟨r4, e4, rfl⟩ := rel_chr_iff.mp h4
    obtain ⟨v, r5, hv, e5, hv2, rfl⟩ := rel_plus_cls_iff.mp h3'
    simp only at e2 e3 e4 e5
    have ev : e = v := List.append_cancel_right (by rw [← e3, ← e5])
    subst ev
    refine ⟨u, e, r4, hu, hv, fun hc => by have := hv2 _ hc; simp at this, ?_, rfl⟩
    rw [e1, e2, e3, e4]; simp
  · rintro ⟨u, e, r, hu, he, hg, e1, rfl⟩
    refine ⟨⟨prevAfter s.prev u, '<' :: e ++ '>' :: r, s.caps⟩, rel_gap.mpr ⟨u, _, hu, by rw [e1]; simp, rfl⟩, ?_⟩
    rw [rel_seq_iff]
    refine ⟨⟨some '<', e ++ '>' :: r, s.caps⟩, rel_chr_iff.mpr ⟨_, by simp, rfl⟩, ?_⟩
    rw [rel_seq_iff]
    refine ⟨⟨prevAfter (some '<') e, '>' :: r, (4, e) :: s.caps⟩, ?_, rel_chr_iff.mpr ⟨r, rfl, rfl⟩⟩
    refine rel_cap_iff.mpr ⟨⟨prevAfter (some '<') e, '>' :: r, s.caps⟩, e, ?_, rfl, rfl⟩
    refine rel_plus_cls_iff.mpr ⟨e, _, he, rfl, ?_, rfl⟩
    intro c hc
    simp only [bne_iff_ne, ne_eq]
    rintro rfl; exact hg hc

/-- An optional part of the captures. -/
def capOf (n : Nat) : Option Text → List (Nat × Text)
  | some w => [(n, w)]
  | none => []

/-- The groups of a match of `AUTHOR`. -/
theorem rel_author {t : Text} {s : RS} (h : Rel authorRe ⟨none, t, []⟩ s) :
    ∃ n f g2 g3 e m l, AuthorForm t n f m l e ∧ s.caps = capOf 4 e ++ capOf 3 g3 ++ capOf 2 g2 ++ [(1, f)] ∧
      ((g2.isSome = true ∧ g3.isNone = true ∧ m = none ∧ l = g2) ∨ ((g2.isSome = true → g3.isSome = true) ∧ m = g2 ∧ l = g3)) := by
  unfold authorRe at h
  rw [cat_cons, rel_seq_iff] at h
  obtain ⟨x0, h0, h⟩ := h
  obtain ⟨_, rfl⟩ := rel_bot_iff.mp h0
  rw [cat_cons, rel_seq_iff] at h
  obtain ⟨x1, h1, h⟩ := h
  obtain ⟨f, r1, hf, e1, rfl⟩ := rel_name.mp h1
  simp only at e1
  rw [cat_cons, rel_seq_iff] at h
  obtain ⟨x2, h2, h⟩ := h
  rw [cat_cons, rel_seq_iff] at h
  obtain ⟨x3, h3, h⟩ := h
  rw [cat_cons, rel_seq_iff] at h
  obtain ⟨x4, h4, h⟩ := h
  rw [cat_one] at h
  obtain ⟨e5, rfl⟩ := rel_eot_iff.mp h
  -- the address
  have mail : ∀ {n : Text} {m l : Option Text}, AuthorNames n f m l → t = n ++ x3.rest →
      ∃ e, AuthorForm t n f m l e ∧ s.caps = capOf 4 e ++ x3.caps := by
    intro n m l hn ht
    rcases rel_opt_iff.mp h4 with h4 | rfl
    · obtain ⟨u, e, r, hu, he, hg, e6, rfl⟩ := rel_mail.mp h4
      simp only at e5
      subst e5
      refine ⟨some e, ?_, rfl⟩
      rw [ht, e6]
      have := AuthorForm.mail hn hu he hg
      simpa using this
    · rw [e5, List.append_nil] at ht
      subst ht
      exact ⟨none, .plain hn, rfl⟩
  rcases rel_opt_iff.mp h2 with h2 | rfl
  · obtain ⟨u, w, r, hu, hw, e6, rfl⟩ := rel_gapName.mp h2
    simp only at e6
    rcases rel_opt_iff.mp h3 with h3 | rfl
    · obtain ⟨u', w', r', hu', hw', e7, rfl⟩ := rel_gapName.mp h3
      simp only at e7
      obtain ⟨e, h5, h6⟩ := mail (.three hf hu hw hu' hw') (by rw [e1, e6, e7]; simp)
      exact ⟨_, f, some w, some w', e, _, _, h5, by simp [h6, capOf], .inr ⟨fun _ => rfl, rfl, rfl⟩⟩
    · obtain ⟨e, h5, h6⟩ := mail (.two hf hu hw) (by rw [e1, e6]; simp)
      exact ⟨_, f, some w, none, e, _, _, h5, by simp [h6, capOf], .inl ⟨rfl, rfl, rfl, rfl⟩⟩
  · rcases rel_opt_iff.mp h3 with h3 | rfl
    · obtain ⟨u', w', r', hu', hw', e7, rfl⟩ := rel_gapName.mp h3
      simp only at e7
      obtain ⟨e, h5, h6⟩ := mail (.two hf hu' hw') (by rw [e1, e7]; simp)
      exact ⟨_, f, none, some w', e, _, _, h5, by simp [h6, capOf], .inr ⟨fun h => by simp at h, rfl, rfl⟩⟩
    · obtain ⟨e, h5, h6⟩ := mail (.one hf) (by rw [e1])
      exact ⟨_, f, none, none, e, _, _, h5, by simp [h6, capOf], .inr ⟨fun h => by simp at h, rfl, rfl⟩⟩

/-- Everything of the form of an author matches `AUTHOR`. -/
theorem author_rel {t n f : Text} {m l e : Option Text} (h : AuthorForm t n f m l e) :
    ∃ s, Rel authorRe ⟨none, t, []⟩ s := by
  -- the tail
  have tail : ∀ (pv : Option Char) (cs : List (Nat × Text)), ∀ {q : Text}, t = n ++ q → ∃ s,
      Rel (cat [opt (cat [plus (chr ' '), chr '<', cap 4 (plus (cls (· != '>'))), chr '>']), eot]) ⟨pv, q, cs⟩ s := by
    intro pv cs q hq
    simp only [cat]
    cases h with
    | plain _ =>
      have : q = [] := by simpa using hq
      subst this
      exact ⟨_, rel_seq_iff.mpr ⟨_, rel_opt_iff.mpr (.inr rfl), rel_eot_iff.mpr ⟨rfl, rfl⟩⟩⟩
    | @mail _ u e' _ _ _ hn hu he hg =>
      have : q = u ++ '<' :: e' ++ ['>'] := by
        rw [List.append_assoc, List.append_assoc] at hq
        rw [List.append_assoc]
        exact (List.append_cancel_left hq).symm
      subst this
      refine ⟨_, rel_seq_iff.mpr ⟨_, rel_opt_iff.mpr (.inl (rel_mail.mpr ⟨u, e', [], hu, he, hg, rfl, rfl⟩)),
        rel_eot_iff.mpr ⟨rfl, rfl⟩⟩⟩
  have hn : AuthorNames n f m l := by cases h <;> assumption
  have ht : ∃ q, t = n ++ q := by
    cases h
    · exact ⟨[], by simp⟩
    · exact ⟨_, by rw [List.append_assoc, List.append_assoc]⟩
  obtain ⟨q, ht⟩ := ht
  show ∃ s, Rel (.seq .bot (.seq (nameRe 1) (.seq (opt (cat [plus (chr ' '), nameRe 2])) (.seq (opt (cat [plus (chr ' '), nameRe 3]))
    (cat [opt (cat [plus (chr ' '), chr '<', cap 4 (plus (cls (· != '>'))), chr '>']), eot]))))) ⟨none, t, []⟩ s
  simp only [rel_seq_iff]
  cases hn with
  | one ha =>
    obtain ⟨s, hs⟩ := tail (prevAfter none n) [(1, n)] ht
    exact ⟨s, _, rel_bot_iff.mpr ⟨rfl, rfl⟩, _, rel_name.mpr ⟨n, q, ha, ht, rfl⟩, _, rel_opt_iff.mpr (.inr rfl), _,
      rel_opt_iff.mpr (.inr rfl), hs⟩
  | @two a u b ha hu hb =>
    obtain ⟨s, hs⟩ := tail (prevAfter (prevAfter none f) (u ++ b)) [(2, b), (1, f)] ht
    exact ⟨s, _, rel_bot_iff.mpr ⟨rfl, rfl⟩, _, rel_name.mpr ⟨f, u ++ b ++ q, ha, by rw [ht]; simp, rfl⟩, _,
      rel_opt_iff.mpr (.inl (rel_gapName.mpr ⟨u, b, q, hu, hb, rfl, rfl⟩)), _, rel_opt_iff.mpr (.inr rfl), hs⟩
  | @three a u b v c ha hu hb hv hc =>
    obtain ⟨s, hs⟩ := tail (prevAfter (prevAfter (prevAfter none f) (u ++ b)) (v ++ c)) [(3, c), (2, b), (1, f)] ht
    exact ⟨s, _, rel_bot_iff.mpr ⟨rfl, rfl⟩, _, rel_name.mpr ⟨f, u ++ b ++ (v ++ c ++ q), ha, by rw [ht]; simp, rfl⟩, _,
      rel_opt_iff.mpr (.inl (rel_gapName.mpr ⟨u, b, v ++ c ++ q, hu, hb, rfl, rfl⟩)), _,
      rel_opt_iff.mpr (.inl (rel_gapName.mpr ⟨v, c, q, hv, hc, rfl, rfl⟩)), hs⟩

/-! ### A text has the form of an author in one way only -/

theorem nameChar_ne [LawfulUni] {x d : Char} (h : NameStart x ∨ x ∈ ['-', '\'', '.'])
    (hd : d = ' ' ∨ d = '<' ∨ d = '{' ∨ d = '\n') : x ≠ d := by
  have hlt : d.toNat < 128 := by rcases hd with rfl | rfl | rfl | rfl <;> decide
  have h1 : ¬ NameStart d := by
    rintro (h | h | h | h)
    · rcases hd with rfl | rfl | rfl | rfl <;> exact absurd h (by decide)
    · rw [LawfulUni.letter d hlt] at h; rcases hd with rfl | rfl | rfl | rfl <;> exact absurd h (by decide)
    · rw [LawfulUni.num d hlt] at h; rcases hd with rfl | rfl | rfl | rfl <;> exact absurd h (by decide)
    · rcases hd with rfl | rfl | rfl | rfl <;> exact absurd h (by decide)
  rintro rfl
  rcases h with h | h
  · exact h1 h
  · rcases hd with rfl | rfl | rfl | rfl <;> exact absurd h (by decide)

theorem Spec.NameWord.mem_ne [LawfulUni] {w : Text} (h : NameWord w) {d : Char} (hd : d = ' ' ∨ d = '<' ∨ d = '{' ∨ d = '\n') : d ∉ w := by
  obtain ⟨c, cs, rfl, h1, h2⟩ := h
  intro hm
  rcases List.mem_cons.mp hm with rfl | hm
  · exact nameChar_ne (.inl h1) hd rfl
  · exact nameChar_ne (h2 _ hm) hd rfl

theorem Spec.NameWord.ne_nil {w : Text} (h : NameWord w) : w ≠ [] := by
  obtain ⟨c, cs, rfl, _⟩ := h; simp

/-- Splitting at the first space. -/
theorem word_split {a b r q : Text} (ha : ' ' ∉ a) (hb : ' ' ∉ b) (hr : ∀ c, r.head? = some c → c = ' ')
    (hq : ∀ c, q.head? = some c → c = ' ') (h : a ++ r = b ++ q) : a = b ∧ r = q := by
  induction a generalizing b with
  | nil =>
    cases b with
    | nil => exact ⟨rfl, h⟩
    | cons c b =>
      have := hr c (by rw [List.nil_append] at h; rw [h]; rfl)
      exact absurd (by rw [this]; simp) hb
  | cons c a ih =>
    cases b with
    | nil =>
      have := hq c (by rw [List.nil_append] at h; rw [← h]; rfl)
      exact absurd (by rw [this]; simp) ha
    | cons d b =>
      simp only [List.cons_append, List.cons.injEq] at h
      obtain ⟨rfl, h⟩ := h
      obtain ⟨rfl, h'⟩ := ih (fun hc => ha (List.mem_cons_of_mem _ hc)) (fun hc => hb (List.mem_cons_of_mem _ hc)) h
      exact ⟨rfl, h'⟩

/-- Splitting behind a run of spaces. -/
theorem gap_split {s u r q : Text} (hs : Gap s) (hu : Gap u) (hr : ∀ c, r.head? = some c → c ≠ ' ')
    (hq : ∀ c, q.head? = some c → c ≠ ' ') (h : s ++ r = u ++ q) : s = u ∧ r = q := by
  have key : ∀ s u : Text, (∀ c ∈ s, c = ' ') → (∀ c ∈ u, c = ' ') → s ++ r = u ++ q → s = u ∧ r = q := by
    intro s
    induction s with
    | nil =>
      intro u _ hu h
      cases u with
      | nil => exact ⟨rfl, h⟩
      | cons c u => exact absurd (hu c (by simp)) (hr c (by rw [List.nil_append] at h; rw [h]; rfl))
    | cons c s ih =>
      intro u hs hu h
      cases u with
      | nil => exact absurd (hs c (by simp)) (hq c (by rw [List.nil_append] at h; rw [← h]; rfl))
      | cons d u =>
        simp only [List.cons_append, List.cons.injEq] at h
        obtain ⟨rfl, h⟩ := h
        obtain ⟨rfl, h'⟩ := ih u (fun x hx => hs x (List.mem_cons_of_mem _ hx)) (fun x hx => hu x (List.mem_cons_of_mem _ hx)) h
        exact ⟨rfl, h'⟩
  exact key s u hs.2 hu.2 h

theorem Spec.Gap.head {s r : Text} (h : Gap s) : ∀ c, (s ++ r).head? = some c → c = ' ' := by
  obtain ⟨h1, h2⟩ := h
  cases s with
  | nil => exact absurd rfl h1
  | cons c s => intro d hd; simp at hd; subst hd; exact h2 c (by simp)

theorem Spec.NameWord.head [LawfulUni] {w r : Text} (h : NameWord w) : ∀ c, (w ++ r).head? = some c → c ≠ ' ' ∧ c ≠ '<' := by
  have h1 := h.mem_ne (d := ' ') (.inl rfl)
  have h2 := h.mem_ne (d := '<') (.inr (.inl rfl))
  cases w with
  | nil => exact absurd rfl h.ne_nil
  | cons c s =>
    intro d hd; simp at hd; subst hd
    exact ⟨fun e => h1 (by simp [e]), fun e => h2 (by simp [e])⟩

/-- What may follow the names: nothing, or the address. -/
inductive MailPart : Text → Option Text → Prop
  | absent : MailPart [] none
  | present {s e} : Gap s → '>' ∉ e → MailPart (s ++ '<' :: e ++ ['>']) (some e)

theorem MailPart.head {q : Text} {e : Option Text} (h : MailPart q e) : ∀ c, q.head? = some c → c = ' ' := by
  cases h with
  | absent => intro c hc; simp at hc
  | present hs _ => rw [List.append_assoc]; exact hs.head

theorem MailPart.det {q : Text} {e e' : Option Text} (h : MailPart q e) (h' : MailPart q e') : e = e' := by
  generalize hq : q = q' at h'
  cases h with
  | absent => cases h' with
    | absent => rfl
    | present hs _ => simp at hq
  | @present s e hs he => cases h' with
    | absent => simp at hq
    | @present s' e' hs' he' =>
      rw [List.append_assoc, List.append_assoc] at hq
      obtain ⟨_, h⟩ := gap_split hs hs' (by simp) (by simp) hq
      simp only [List.cons_append, List.cons.injEq, true_and] at h
      rw [List.append_cancel_right h]

/-- A gap and a name cannot be the address part. -/
theorem MailPart.not_name [LawfulUni] {s w r q : Text} {e : Option Text} (hs : Gap s) (hw : NameWord w)
    (h : MailPart q e) (hq : s ++ (w ++ r) = q) : False := by
  cases h with
  | absent =>
    have := hs.1
    simp at hq; exact this hq.1
  | @present s' e' hs' he' =>
    rw [List.append_assoc] at hq
    obtain ⟨_, h⟩ := gap_split hs hs' (fun c hc => (hw.head c hc).1) (by simp) hq
    exact (hw.head '<' (by rw [h]; rfl)).2 rfl

theorem authorNames_det [LawfulUni] {n n' f f' q q' : Text} {m m' l l' e e' : Option Text} (h : AuthorNames n f m l)
    (h' : AuthorNames n' f' m' l') (hq : MailPart q e) (hq' : MailPart q' e') (ht : n ++ q = n' ++ q') :
    n = n' ∧ f = f' ∧ m = m' ∧ l = l' ∧ e = e' := by
  have sp := fun {w : Text} (h : NameWord w) => h.mem_ne (d := ' ') (.inl rfl)
  have hd := fun {w r : Text} (h : NameWord w) c hc => (h.head (r := r) c hc).1
  cases h with
  | one ha => cases h' with
    | one ha' =>
      obtain ⟨rfl, rfl⟩ := word_split (sp ha) (sp ha') hq.head hq'.head ht
      exact ⟨rfl, rfl, rfl, rfl, hq.det hq'⟩
    | two ha' hs' hb' =>
      rw [List.append_assoc, List.append_assoc] at ht
      obtain ⟨rfl, h1⟩ := word_split (sp ha) (sp ha') hq.head hs'.head ht
      exact (MailPart.not_name hs' hb' hq h1.symm).elim
    | three ha' hs' hb' hu' hc' =>
      simp only [List.append_assoc] at ht
      obtain ⟨rfl, h1⟩ := word_split (sp ha) (sp ha') hq.head hs'.head ht
      exact (MailPart.not_name hs' hb' hq h1.symm).elim
  | two ha hs hb => cases h' with
    | one ha' =>
      rw [List.append_assoc, List.append_assoc] at ht
      obtain ⟨rfl, h1⟩ := word_split (sp ha) (sp ha') hs.head hq'.head ht
      exact (MailPart.not_name hs hb hq' h1).elim
    | two ha' hs' hb' =>
      simp only [List.append_assoc] at ht
      obtain ⟨rfl, h1⟩ := word_split (sp ha) (sp ha') hs.head hs'.head ht
      obtain ⟨rfl, h2⟩ := gap_split hs hs' (hd hb) (hd hb') h1
      obtain ⟨rfl, rfl⟩ := word_split (sp hb) (sp hb') hq.head hq'.head h2
      exact ⟨rfl, rfl, rfl, rfl, hq.det hq'⟩
    | three ha' hs' hb' hu' hc' =>
      simp only [List.append_assoc] at ht
      obtain ⟨rfl, h1⟩ := word_split (sp ha) (sp ha') hs.head hs'.head ht
      obtain ⟨rfl, h2⟩ := gap_split hs hs' (hd hb) (hd hb') h1
      obtain ⟨rfl, h3⟩ := word_split (sp hb) (sp hb') hq.head hu'.head h2
      exact (MailPart.not_name hu' hc' hq h3.symm).elim
  | three ha hs hb hu hc => cases h' with
    | one ha' =>
      simp only [List.append_assoc] at ht
      obtain ⟨rfl, h1⟩ := word_split (sp ha) (sp ha') hs.head hq'.head ht
      exact (MailPart.not_name hs hb hq' h1).elim
    | two ha' hs' hb' =>
      simp only [List.append_assoc] at ht
      obtain ⟨rfl, h1⟩ := word_split (sp ha) (sp ha') hs.head hs'.head ht
      obtain ⟨rfl, h2⟩ := gap_split hs hs' (hd hb) (hd hb') h1
      obtain ⟨rfl, h3⟩ := word_split (sp hb) (sp hb') hu.head hq'.head h2
      exact (MailPart.not_name hu hc hq' h3).elim
    | three ha' hs' hb' hu' hc' =>
      simp only [List.append_assoc] at ht
      obtain ⟨rfl, h1⟩ := word_split (sp ha) (sp ha') hs.head hs'.head ht
      obtain ⟨rfl, h2⟩ := gap_split hs hs' (hd hb) (hd hb') h1
      obtain ⟨rfl, h3⟩ := word_split (sp hb) (sp hb') hu.head hu'.head h2
      obtain ⟨rfl, h4⟩ := gap_split hu hu' (hd hc) (hd hc') h3
      obtain ⟨rfl, rfl⟩ := word_split (sp hc) (sp hc') hq.head hq'.head h4
      exact ⟨rfl, rfl, rfl, rfl, hq.det hq'⟩

theorem Spec.AuthorForm.parts {t n f : Text} {m l e : Option Text} (h : AuthorForm t n f m l e) :
    ∃ q, t = n ++ q ∧ AuthorNames n f m l ∧ MailPart q e := by
  cases h with
  | plain h => exact ⟨[], by simp, h, .absent⟩
  | mail h hs _ hg => exact ⟨_, by rw [List.append_assoc, List.append_assoc], h, by rw [← List.append_assoc]; exact .present hs hg⟩

theorem Spec.AuthorForm.det [LawfulUni] {t n n' f f' : Text} {m m' l l' e e' : Option Text} (h : AuthorForm t n f m l e)
    (h' : AuthorForm t n' f' m' l' e') : n = n' ∧ f = f' ∧ m = m' ∧ l = l' ∧ e = e' := by
  obtain ⟨q, rfl, h1, h2⟩ := h.parts
  obtain ⟨q', e, h1', h2'⟩ := h'.parts
  exact authorNames_det h1 h1' h2 h2' e

/-- `AUTHOR.captures`. -/
theorem captures_author {t : Text} :
    (∃ mt n f g2 g3 e m l, captures authorRe t = some mt ∧ AuthorForm t n f m l e ∧ mt.get 1 = some f ∧ mt.get 2 = g2 ∧
      mt.get 3 = g3 ∧ mt.get 4 = e ∧
      ((g2.isSome = true ∧ g3.isNone = true ∧ m = none ∧ l = g2) ∨ ((g2.isSome = true → g3.isSome = true) ∧ m = g2 ∧ l = g3))) ∨
    (captures authorRe t = none ∧ ∀ n f m l e, ¬ AuthorForm t n f m l e) := by
  have hc : captures authorRe t = (matchAt authorRe none t).map fun r => r.1 := by
    unfold captures
    have : authorRe = .seq .bot (cat [nameRe 1, opt (cat [plus (chr ' '), nameRe 2]), opt (cat [plus (chr ' '), nameRe 3]),
        opt (cat [plus (chr ' '), chr '<', cap 4 (plus (cls (· != '>'))), chr '>']), eot]) := rfl
    rw [this, search_bot, Option.map_map]
    rfl
  cases hm : matchAt authorRe none t with
  | none =>
    right
    refine ⟨by rw [hc, hm]; rfl, ?_⟩
    intro n f m l e h
    obtain ⟨s, hs⟩ := author_rel h
    exact matchAt_none.mp hm s hs
  | some r =>
    obtain ⟨mt, s⟩ := r
    left
    obtain ⟨h1, h2, h3, h4⟩ := matchAt_sound hm
    obtain ⟨n, f, g2, g3, e, m, l, h5, h6, h7⟩ := rel_author h1
    rw [← h4] at h6
    refine ⟨mt, n, f, g2, g3, e, m, l, by rw [hc, hm]; rfl, h5, ?_, ?_, ?_, ?_, h7⟩
    all_goals
      unfold Match.get
      rw [h6]
      cases e <;> cases g3 <;> cases g2 <;> rfl

end Adoc
