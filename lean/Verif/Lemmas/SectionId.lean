import Verif.Spec.SectionId
import Verif.Lemmas.Section
import Verif.Lemmas.Search
import Verif.Lemmas.Typography
/-!
# Lemmas about the ids that are generated for sections
-/

namespace Adoc
open Span Spec Re

variable [Uni]

theorem forId_iff {c : Char} : ForId c ↔ idChar c = true := by
  unfold ForId idChar
  simp only [Bool.or_eq_true, beq_iff_eq]
  constructor
  · rintro (h | h | h | h) <;> simp [h]
  · rintro (((h | h) | h) | h) <;> simp [h]

private def tagRe : Re := cat [chr '<', plus (cls (· != '>')), chr '>']

private def escRe : Re := cat [lit ['&', 'l', 't', ';'], star true (cls (· != '&')), lit ['&', 'g', 't', ';']]

private def refRe : Re := cat [chr '&',
      oneOf [
        cat [cls (fun c => 'a' ≤ c && c ≤ 'z'), plus (cls (fun c => 'a' ≤ c && c ≤ 'z')), upTo (cls Uni.isNd) 2],
        cat [chr '#', cls Uni.isNd, cls Uni.isNd, upTo (cls Uni.isNd) 3],
        cat [lit ['#', 'x'], cls (fun c => Uni.isNd c || ('a' ≤ c && c ≤ 'f')),
          cls (fun c => Uni.isNd c || ('a' ≤ c && c ≤ 'f')),
          upTo (cls (fun c => Uni.isNd c || ('a' ≤ c && c ≤ 'f'))) 2]],
      chr ';']

private theorem tag_rel {s s' : RS} : Rel tagRe s s' → ∃ x, IsTag x ∧ s.rest = x ++ s'.rest := by
  intro h
  simp only [tagRe, cat] at h
  obtain ⟨a, h1, h⟩ := rel_seq_iff.mp h
  obtain ⟨b, h2, h3⟩ := rel_seq_iff.mp h
  obtain ⟨r, e1, rfl⟩ := rel_chr_iff.mp h1
  obtain ⟨u, r', hu, e2, hn, rfl⟩ := rel_plus_cls_iff.mp h2
  obtain ⟨r'', e3, rfl⟩ := rel_chr_iff.mp h3
  simp only at e2 e3
  refine ⟨'<' :: u ++ ['>'], ⟨u, hu, fun hc => ?_, rfl⟩, by rw [e1, e2, e3]; simp⟩
  exact absurd (hn _ hc) (by simp)

private theorem tag_rel_of {pv : Option Char} {x r : Text} (h : IsTag x) : ∃ s', Rel tagRe ⟨pv, x ++ r, []⟩ s' := by
  obtain ⟨y, h1, h2, rfl⟩ := h
  refine ⟨⟨some '>', r, []⟩, ?_⟩
  simp only [tagRe, cat]
  refine rel_seq_iff.mpr ⟨⟨some '<', y ++ '>' :: r, []⟩, rel_chr_iff.mpr ⟨_, by simp, rfl⟩, rel_seq_iff.mpr
    ⟨⟨prevAfter (some '<') y, '>' :: r, []⟩, rel_plus_cls_iff.mpr ⟨y, _, h1, rfl, fun c hc => ?_, rfl⟩, rel_chr_iff.mpr ⟨r, rfl, rfl⟩⟩⟩
  simp only [bne_iff_ne, ne_eq]
  rintro rfl
  exact h2 hc

private theorem esc_rel {s s' : RS} : Rel escRe s s' → ∃ x, IsEscapedTag x ∧ s.rest = x ++ s'.rest := by
  intro h
  simp only [escRe, cat] at h
  obtain ⟨a, h1, h⟩ := rel_seq_iff.mp h
  obtain ⟨b, h2, h3⟩ := rel_seq_iff.mp h
  obtain ⟨r, e1, rfl⟩ := rel_lit_iff.mp h1
  obtain ⟨u, r', e2, hn, rfl⟩ := rel_star_cls_iff.mp h2
  obtain ⟨r'', e3, rfl⟩ := rel_lit_iff.mp h3
  simp only at e2 e3
  refine ⟨"&lt;".toList ++ u ++ "&gt;".toList, ⟨u, fun hc => ?_, rfl⟩, by rw [e1, e2, e3]; simp⟩
  exact absurd (hn _ hc) (by simp)

private theorem esc_rel_of {pv : Option Char} {x r : Text} (h : IsEscapedTag x) : ∃ s', Rel escRe ⟨pv, x ++ r, []⟩ s' := by
  obtain ⟨y, h2, rfl⟩ := h
  simp only [escRe, cat]
  refine ⟨_, rel_seq_iff.mpr ⟨⟨_, y ++ "&gt;".toList ++ r, []⟩, rel_lit_iff.mpr ⟨_, by simp, rfl⟩, rel_seq_iff.mpr
    ⟨⟨_, "&gt;".toList ++ r, []⟩, rel_star_cls_iff.mpr ⟨y, _, by simp, fun c hc => ?_, rfl⟩, rel_lit_iff.mpr ⟨r, rfl, rfl⟩⟩⟩⟩
  simp only [bne_iff_ne, ne_eq]
  rintro rfl
  exact h2 hc

private theorem ref_rel {s s' : RS} : Rel refRe s s' → ∃ x, IsCharRef x ∧ s.rest = x ++ s'.rest := by
  intro h
  simp only [refRe, cat, oneOf] at h
  obtain ⟨a, h1, h⟩ := rel_seq_iff.mp h
  obtain ⟨b, h2, h3⟩ := rel_seq_iff.mp h
  obtain ⟨r, e1, rfl⟩ := rel_chr_iff.mp h1
  obtain ⟨r'', e3, rfl⟩ := rel_chr_iff.mp h3
  rw [e1]
  rcases rel_alt_iff.mp h2 with h2 | h2
  · obtain ⟨x1, g1, g⟩ := rel_seq_iff.mp h2
    obtain ⟨x2, g2, g3⟩ := rel_seq_iff.mp g
    obtain ⟨c, r1, f1, k1, rfl⟩ := rel_cls_iff.mp g1
    obtain ⟨u, r2, hu, f2, k2, rfl⟩ := rel_plus_cls_iff.mp g2
    obtain ⟨v, r3, f3, hl, k3, rfl⟩ := rel_upTo_cls_iff.mp g3
    simp only at f1 f2 f3 e3
    refine ⟨'&' :: (c :: u) ++ v ++ [';'], .name ?_ (fun d hd => ?_) hl k3, by rw [f1, f2, f3, e3]; simp⟩
    · have := List.length_pos_iff.mpr hu; simp; omega
    · rcases List.mem_cons.mp hd with rfl | hd
      · simpa using k1
      · simpa using k2 d hd
  rcases rel_alt_iff.mp h2 with h2 | h2
  · obtain ⟨x1, g1, g⟩ := rel_seq_iff.mp h2
    obtain ⟨x2, g2, g⟩ := rel_seq_iff.mp g
    obtain ⟨x3, g3, g4⟩ := rel_seq_iff.mp g
    obtain ⟨r1, f1, rfl⟩ := rel_chr_iff.mp g1
    obtain ⟨c, r2, f2, k2, rfl⟩ := rel_cls_iff.mp g2
    obtain ⟨d, r3, f3, k3, rfl⟩ := rel_cls_iff.mp g3
    obtain ⟨v, r4, f4, hl, k4, rfl⟩ := rel_upTo_cls_iff.mp g4
    simp only at f1 f2 f3 f4 e3
    refine ⟨'&' :: '#' :: (c :: d :: v) ++ [';'], .decimal (by simp) (by simp; omega) (fun z hz => ?_), by rw [f1, f2, f3, f4, e3]; simp⟩
    simp only [List.mem_cons] at hz
    rcases hz with rfl | rfl | hz
    · exact k2
    · exact k3
    · exact k4 z hz
  · obtain ⟨x1, g1, g⟩ := rel_seq_iff.mp h2
    obtain ⟨x2, g2, g⟩ := rel_seq_iff.mp g
    obtain ⟨x3, g3, g4⟩ := rel_seq_iff.mp g
    obtain ⟨r1, f1, rfl⟩ := rel_lit_iff.mp g1
    obtain ⟨c, r2, f2, k2, rfl⟩ := rel_cls_iff.mp g2
    obtain ⟨d, r3, f3, k3, rfl⟩ := rel_cls_iff.mp g3
    obtain ⟨v, r4, f4, hl, k4, rfl⟩ := rel_upTo_cls_iff.mp g4
    simp only at f1 f2 f3 f4 e3
    refine ⟨'&' :: '#' :: 'x' :: (c :: d :: v) ++ [';'], .hex (by simp) (by simp; omega) (fun z hz => ?_), by rw [f1, f2, f3, f4, e3]; simp⟩
    simp only [List.mem_cons] at hz
    rcases hz with rfl | rfl | hz
    · simpa using k2
    · simpa using k3
    · simpa using k4 z hz

private theorem ref_rel_of {pv : Option Char} {x r : Text} (h : IsCharRef x) : ∃ s', Rel refRe ⟨pv, x ++ r, []⟩ s' := by
  refine ⟨⟨some ';', r, []⟩, ?_⟩
  simp only [refRe, cat, oneOf]
  cases h with
  | @name a d h1 h2 h3 h4 =>
    match a, h1, h2 with
    | c :: e :: a, _, h2 =>
      refine rel_seq_iff.mpr ⟨⟨some '&', (c :: e :: a) ++ (d ++ ';' :: r), []⟩, rel_chr_iff.mpr ⟨_, by simp, rfl⟩, rel_seq_iff.mpr
        ⟨_, rel_alt_iff.mpr (.inl (rel_seq_iff.mpr ⟨_, rel_cls_iff.mpr ⟨c, _, rfl, by simpa using h2 c (by simp), rfl⟩, rel_seq_iff.mpr
        ⟨_, rel_plus_cls_iff.mpr ⟨e :: a, d ++ ';' :: r, by simp, rfl, fun z hz => by simpa using h2 z (List.mem_cons_of_mem _ hz), rfl⟩,
          rel_upTo_cls_iff.mpr ⟨d, ';' :: r, rfl, h3, h4, rfl⟩⟩⟩)), rel_chr_iff.mpr ⟨r, rfl, rfl⟩⟩⟩
  | @decimal d h1 h2 h3 =>
    match d, h1, h2, h3 with
    | c :: e :: a, _, h2, h3 =>
      refine rel_seq_iff.mpr ⟨⟨some '&', '#' :: ((c :: e :: a) ++ ';' :: r), []⟩, rel_chr_iff.mpr ⟨_, by simp, rfl⟩, rel_seq_iff.mpr
        ⟨_, rel_alt_iff.mpr (.inr (rel_alt_iff.mpr (.inl (rel_seq_iff.mpr ⟨_, rel_chr_iff.mpr ⟨_, rfl, rfl⟩, rel_seq_iff.mpr
        ⟨_, rel_cls_iff.mpr ⟨c, _, rfl, h3 c (by simp), rfl⟩, rel_seq_iff.mpr ⟨_, rel_cls_iff.mpr ⟨e, _, rfl, h3 e (by simp), rfl⟩,
          rel_upTo_cls_iff.mpr ⟨a, ';' :: r, rfl, by simp at h2; omega, fun z hz => h3 z (by simp [hz]), rfl⟩⟩⟩⟩)))),
          rel_chr_iff.mpr ⟨r, rfl, rfl⟩⟩⟩
  | @hex d h1 h2 h3 =>
    match d, h1, h2, h3 with
    | c :: e :: a, _, h2, h3 =>
      refine rel_seq_iff.mpr ⟨⟨some '&', '#' :: 'x' :: ((c :: e :: a) ++ ';' :: r), []⟩, rel_chr_iff.mpr ⟨_, by simp, rfl⟩, rel_seq_iff.mpr
        ⟨_, rel_alt_iff.mpr (.inr (rel_alt_iff.mpr (.inr (rel_seq_iff.mpr ⟨_, rel_lit_iff.mpr ⟨_, rfl, rfl⟩, rel_seq_iff.mpr
        ⟨_, rel_cls_iff.mpr ⟨c, _, rfl, by simpa using h3 c (by simp), rfl⟩, rel_seq_iff.mpr
        ⟨_, rel_cls_iff.mpr ⟨e, _, rfl, by simpa using h3 e (by simp), rfl⟩,
          rel_upTo_cls_iff.mpr ⟨a, ';' :: r, rfl, by simp at h2; omega, fun z hz => by simpa using h3 z (by simp [hz]), rfl⟩⟩⟩⟩)))),
          rel_chr_iff.mpr ⟨r, rfl, rfl⟩⟩⟩

private theorem no_rel {re : Re} {s : RS} (h : m re some s = none) (s' : RS) : ¬ Rel re s s' := by
  intro hr
  have := m_complete re some s s' hr rfl
  rw [h] at this
  cases this

private theorem rel_some {re : Re} {s z : RS} (h : m re some s = some z) : Rel re s z := by
  obtain ⟨s', h1, h2⟩ := m_sound re _ _ _ h
  cases h2
  exact h1

/-- What is removed at the beginning of a text. -/
theorem matchAt_invalid {pv : Option Char} {t : Text} {mt : Match} {s : RS} (h : matchAt invalidSectionIdRe pv t = some (mt, s)) :
    IsTag mt.text ∨ IsEscapedTag mt.text ∨ (IsCharRef mt.text ∧ ¬ EscapedTagAhead t) ∨
      (mt.text ≠ [] ∧ ¬ MarkupAhead t ∧ (∀ c ∈ mt.text, ¬ ForId c) ∧ ∀ c, s.rest.head? = some c → ForId c) := by
  obtain ⟨_, ht, _⟩ := matchAt_sound h
  have same : ∀ x, t = x ++ s.rest → x = mt.text := by
    intro x hx
    rw [ht] at hx
    exact (List.append_cancel_right hx).symm
  have hm : m invalidSectionIdRe some ⟨pv, t, []⟩ = some s := by
    unfold matchAt at h
    cases hm : m invalidSectionIdRe some ⟨pv, t, []⟩ with
    | none => rw [hm] at h; cases h
    | some z => rw [hm] at h; simp only [Option.map_some, Option.some.injEq, Prod.mk.injEq] at h; rw [h.2]
  rw [show invalidSectionIdRe = alt tagRe (alt escRe (alt refRe (plus (cls (fun c => !(c == ' ' || Uni.isWord c || c == '-' || c == '.')))))) from rfl] at hm
  rcases m_alt_some hm with hm | ⟨n1, hm⟩
  · obtain ⟨x, hx, e⟩ := tag_rel (rel_some hm)
    exact .inl (same x e ▸ hx)
  rcases m_alt_some hm with hm | ⟨n2, hm⟩
  · obtain ⟨x, hx, e⟩ := esc_rel (rel_some hm)
    exact .inr (.inl (same x e ▸ hx))
  have hesc : ¬ EscapedTagAhead t := by
    rintro ⟨x, r, hx, rfl⟩
    obtain ⟨s', hs'⟩ := esc_rel_of (pv := pv) (r := r) hx
    exact no_rel n2 s' hs'
  rcases m_alt_some hm with hm | ⟨n3, hm⟩
  · obtain ⟨x, hx, e⟩ := ref_rel (rel_some hm)
    exact .inr (.inr (.inl ⟨same x e ▸ hx, hesc⟩))
  refine .inr (.inr (.inr ?_))
  have hno : ¬ MarkupAhead t := by
    rintro ⟨x, r, hx, rfl⟩
    rcases hx with hx | hx | hx
    · obtain ⟨s', hs'⟩ := tag_rel_of (pv := pv) (r := r) hx
      exact no_rel n1 s' hs'
    · exact hesc ⟨x, r, hx, rfl⟩
    · obtain ⟨s', hs'⟩ := ref_rel_of (pv := pv) (r := r) hx
      exact no_rel n3 s' hs'
  unfold plus at hm
  rw [m_seq] at hm
  obtain ⟨c, r, e, hc, hm⟩ := m_cls_some hm
  obtain ⟨b, r', e', hb, hk, hmax⟩ := m_star_greedy hm
  simp only at e e' hk hmax
  cases hk
  have hx : c :: b = mt.text := same _ (by rw [e, e']; rfl)
  rw [← hx]
  refine ⟨by simp, hno, fun d hd => ?_, fun d hd => ?_⟩
  · rw [forId_iff]
    have : (!(d == ' ' || Uni.isWord d || d == '-' || d == '.')) = true := by
      rcases List.mem_cons.mp hd with rfl | hd
      · exact hc
      · exact hb d hd
    simpa [idChar] using this
  · rw [forId_iff]
    cases hd' : idChar d with
    | true => rfl
    | false =>
      exfalso
      simp only at hd
      cases r' with
      | nil => cases hd
      | cons y ys =>
        cases hd
        have := hmax (b ++ [d]) ys (by rw [e']; simp) (by simp) (fun z hz => by
          rcases List.mem_append.mp hz with hz | hz
          · exact hb z hz
          · rw [List.mem_singleton.mp hz]; simpa [idChar] using hd')
        cases this

theorem replaced_bared {pv : Option Char} {e : Bool} {t o : Text} (h : Replaced invalidSectionIdRe (fun _ => .ok []) pv e t o) :
    Bared t o := by
  induction h with
  | done _ => exact .nil
  | doneEmpty h1 h2 => exact absurd (matchAt_text_ne h1).2.2 (by have := (matchAt_text_ne h1).1; simp [this])
  | skip h1 _ ih => exact .keep (forId_iff.mpr (skip_idChar (fun mt s hm => ⟨(h1 mt s hm).1, rfl⟩))) ih
  | @hit pv e t mt s x out h1 h2 h3 _ ih =>
    cases h3
    have ht := (matchAt_text_ne h1).2.2
    rcases matchAt_invalid h1 with h | h | ⟨h, h'⟩ | ⟨h, h', h4, h5⟩
    · rw [ht]; exact .tag h ih
    · rw [ht]; exact .escapedTag h ih
    · rw [ht] at h' ⊢; exact .charRef h h' ih
    · rw [ht] at h' ⊢; exact .run h h' h4 h5 ih
  | hitEmpty h1 h2 _ _ => exact absurd h2 (matchAt_text_ne h1).1

/-! ### There is one result -/

omit [Uni] in
private theorem cut_unique {d : Char} {y y' r r' : Text} (h : y ++ d :: r = y' ++ d :: r') (h1 : d ∉ y) (h2 : d ∉ y') :
    y = y' ∧ r = r' := by
  induction y generalizing y' with
  | nil =>
    cases y' with
    | nil => exact ⟨rfl, (List.cons.inj h).2⟩
    | cons c y' => exact absurd (by simp [(List.cons.inj h).1]) h2
  | cons c y ih =>
    cases y' with
    | nil => exact absurd (by simp [← (List.cons.inj h).1]) h1
    | cons c' y' =>
      obtain ⟨rfl, h3⟩ := List.cons.inj h
      obtain ⟨rfl, rfl⟩ := ih h3 (fun hc => h1 (by simp [hc])) (fun hc => h2 (by simp [hc]))
      exact ⟨rfl, rfl⟩

omit [Uni] in
private theorem tag_unique {x x' t t' : Text} (h : IsTag x) (h' : IsTag x') (e : x ++ t = x' ++ t') : x = x' ∧ t = t' := by
  obtain ⟨y, _, hy, rfl⟩ := h
  obtain ⟨y', _, hy', rfl⟩ := h'
  simp only [List.cons_append, List.append_assoc, List.nil_append, List.cons.injEq, true_and] at e
  obtain ⟨rfl, rfl⟩ := cut_unique e hy hy'
  exact ⟨rfl, rfl⟩

omit [Uni] in
private theorem esc_unique {x x' t t' : Text} (h : IsEscapedTag x) (h' : IsEscapedTag x') (e : x ++ t = x' ++ t') :
    x = x' ∧ t = t' := by
  obtain ⟨y, hy, rfl⟩ := h
  obtain ⟨y', hy', rfl⟩ := h'
  rw [List.append_assoc, List.append_assoc, List.append_assoc, List.append_assoc] at e
  obtain ⟨rfl, e1⟩ := cut_unique (List.append_cancel_left e) hy hy'
  have e2 : ['g', 't', ';'] ++ t = ['g', 't', ';'] ++ t' := e1
  exact ⟨rfl, List.append_cancel_left e2⟩

variable [LawfulUni]

private theorem ref_shape {x : Text} (h : IsCharRef x) : ∃ y, x = '&' :: y ++ [';'] ∧ ';' ∉ y := by
  have nd : Uni.isNd ';' = false := by rw [LawfulUni.nd _ (by decide)]; decide
  cases h with
  | @name a d h1 h2 h3 h4 =>
    refine ⟨a ++ d, by simp, fun hc => ?_⟩
    rcases List.mem_append.mp hc with hc | hc
    · exact absurd (h2 _ hc) (by decide)
    · exact absurd (h4 _ hc) (by simp [nd])
  | @decimal d h1 h2 h3 =>
    refine ⟨'#' :: d, rfl, fun hc => ?_⟩
    rcases List.mem_cons.mp hc with hc | hc
    · cases hc
    · exact absurd (h3 _ hc) (by simp [nd])
  | @hex d h1 h2 h3 =>
    refine ⟨'#' :: 'x' :: d, rfl, fun hc => ?_⟩
    rcases List.mem_cons.mp hc with hc | hc
    · cases hc
    rcases List.mem_cons.mp hc with hc | hc
    · cases hc
    rcases h3 _ hc with h | h
    · rw [nd] at h; cases h
    · exact absurd h (by decide)

private theorem ref_unique {x x' t t' : Text} (h : IsCharRef x) (h' : IsCharRef x') (e : x ++ t = x' ++ t') :
    x = x' ∧ t = t' := by
  obtain ⟨y, rfl, hy⟩ := ref_shape h
  obtain ⟨y', rfl, hy'⟩ := ref_shape h'
  simp only [List.cons_append, List.append_assoc, List.nil_append, List.cons.injEq, true_and] at e
  obtain ⟨rfl, rfl⟩ := cut_unique e hy hy'
  exact ⟨rfl, rfl⟩

omit [LawfulUni] in
private theorem run_unique {x x' t t' : Text} (e : x ++ t = x' ++ t') (h1 : ∀ c ∈ x, ¬ ForId c) (h2 : ∀ c, t.head? = some c → ForId c)
    (h1' : ∀ c ∈ x', ¬ ForId c) (h2' : ∀ c, t'.head? = some c → ForId c) : x = x' ∧ t = t' := by
  induction x generalizing x' with
  | nil =>
    cases x' with
    | nil => exact ⟨rfl, e⟩
    | cons c x' => exact absurd (h2 c (by rw [show t = _ from e]; rfl)) (h1' c (by simp))
  | cons c x ih =>
    cases x' with
    | nil => exact absurd (h2' c (by rw [← (show _ = t' from e)]; rfl)) (h1 c (by simp))
    | cons c' x' =>
      obtain ⟨rfl, e1⟩ := List.cons.inj e
      obtain ⟨rfl, rfl⟩ := ih e1 (fun d hd => h1 d (by simp [hd])) (fun d hd => h1' d (by simp [hd]))
      exact ⟨rfl, rfl⟩

private theorem not_forId_lt : ¬ ForId '<' := by
  rw [forId_iff, idChar, LawfulUni.word _ (by decide)]; decide

private theorem not_forId_amp : ¬ ForId '&' := by
  rw [forId_iff, idChar, LawfulUni.word _ (by decide)]; decide

/-- What a text loses or keeps at its beginning: the piece, the rest, and what is kept. -/
private inductive Piece : Text → Text → Text → Prop
  | tag {x t} : IsTag x → Piece x t []
  | escapedTag {x t} : IsEscapedTag x → Piece x t []
  | charRef {x t} : IsCharRef x → ¬ EscapedTagAhead (x ++ t) → Piece x t []
  | run {x t} : x ≠ [] → ¬ MarkupAhead (x ++ t) → (∀ c ∈ x, ¬ ForId c) → (∀ c, t.head? = some c → ForId c) → Piece x t []
  | keep {c t} : ForId c → Piece [c] t [c]

omit [LawfulUni] in
private theorem Piece.ne {x t k : Text} (h : Piece x t k) : x ≠ [] := by
  cases h with
  | tag h => obtain ⟨y, _, _, rfl⟩ := h; simp
  | escapedTag h => obtain ⟨y, _, rfl⟩ := h; simp
  | charRef h => cases h <;> simp
  | run h => exact h
  | keep _ => simp

omit [LawfulUni] in
private theorem bared_piece {t u : Text} (h : Bared t u) (hne : t ≠ []) : ∃ x r k v, t = x ++ r ∧ u = k ++ v ∧ Piece x r k ∧ Bared r v := by
  cases h with
  | nil => exact absurd rfl hne
  | tag h1 h2 => exact ⟨_, _, _, _, rfl, rfl, .tag h1, h2⟩
  | escapedTag h1 h2 => exact ⟨_, _, _, _, rfl, rfl, .escapedTag h1, h2⟩
  | charRef h1 h2 h3 => exact ⟨_, _, _, _, rfl, rfl, .charRef h1 h2, h3⟩
  | run h1 h2 h3 h4 h5 => exact ⟨_, _, _, _, rfl, rfl, .run h1 h2 h3 h4, h5⟩
  | @keep c t u h1 h2 => exact ⟨[c], _, [c], _, rfl, rfl, .keep h1, h2⟩

omit [Uni] [LawfulUni] in
private theorem head_esc {x t : Text} (h : IsEscapedTag x) : (x ++ t).head? = some '&' := by
  obtain ⟨y, _, rfl⟩ := h; rfl

omit [LawfulUni] in
omit [Uni] in
private theorem head_tag {x t : Text} (h : IsTag x) : (x ++ t).head? = some '<' := by
  obtain ⟨y, _, _, rfl⟩ := h; rfl

private theorem head_ref {x t : Text} (h : IsCharRef x) : (x ++ t).head? = some '&' := by
  obtain ⟨y, rfl, _⟩ := ref_shape h; rfl

private theorem piece_unique {x t k x' t' k' : Text} (h : Piece x t k) (h' : Piece x' t' k') (e : x ++ t = x' ++ t') :
    x = x' ∧ t = t' ∧ k = k' := by
  have heads : ∀ {a b c d : Char}, (x ++ t).head? = some a → (x' ++ t').head? = some b → a = b := by
    intro a b _ _ h1 h2
    rw [e, h2] at h1
    exact (Option.some.inj h1).symm
  have pack : x = x' ∧ t = t' → k = k' → x = x' ∧ t = t' ∧ k = k' := fun ⟨a, b⟩ c => ⟨a, b, c⟩
  cases h with
  | tag h =>
    cases h' with
    | tag h' => exact pack (tag_unique h h' e) rfl
    | escapedTag h' => exact absurd (heads (c := 'x') (d := 'x') (head_tag h) (head_esc h')) (by decide)
    | charRef h' _ => exact absurd (heads (c := 'x') (d := 'x') (head_tag h) (head_ref h')) (by decide)
    | run _ h' _ _ => exact absurd ⟨x, t, .inl h, e.symm⟩ h'
    | @keep c _ h' =>
      obtain rfl := heads (b := c) (c := 'x') (d := 'x') (head_tag h) rfl
      exact absurd h' not_forId_lt
  | escapedTag h =>
    cases h' with
    | tag h' => exact absurd (heads (c := 'x') (d := 'x') (head_esc h) (head_tag h')) (by decide)
    | escapedTag h' => exact pack (esc_unique h h' e) rfl
    | charRef _ h' => exact absurd ⟨x, t, h, e.symm⟩ h'
    | run _ h' _ _ => exact absurd ⟨x, t, .inr (.inl h), e.symm⟩ h'
    | @keep c _ h' =>
      obtain rfl := heads (b := c) (c := 'x') (d := 'x') (head_esc h) rfl
      exact absurd h' not_forId_amp
  | charRef h hn =>
    cases h' with
    | tag h' => exact absurd (heads (c := 'x') (d := 'x') (head_ref h) (head_tag h')) (by decide)
    | escapedTag h' => exact absurd ⟨x', t', h', e⟩ hn
    | charRef h' _ => exact pack (ref_unique h h' e) rfl
    | run _ h' _ _ => exact absurd ⟨x, t, .inr (.inr h), e.symm⟩ h'
    | @keep c _ h' =>
      obtain rfl := heads (b := c) (c := 'x') (d := 'x') (head_ref h) rfl
      exact absurd h' not_forId_amp
  | run hne hn h1 h2 =>
    cases h' with
    | tag h' => exact absurd ⟨x', t', .inl h', e⟩ hn
    | escapedTag h' => exact absurd ⟨x', t', .inr (.inl h'), e⟩ hn
    | charRef h' _ => exact absurd ⟨x', t', .inr (.inr h'), e⟩ hn
    | run _ _ h1' h2' => exact pack (run_unique e h1 h2 h1' h2') rfl
    | @keep c _ h' =>
      cases x with
      | nil => exact absurd rfl hne
      | cons a x =>
        obtain ⟨rfl, _⟩ := List.cons.inj e
        exact absurd h' (h1 _ (by simp))
  | @keep c _ h =>
    cases h' with
    | tag h' =>
      obtain rfl := heads (a := c) (c := 'x') (d := 'x') rfl (head_tag h')
      exact absurd h not_forId_lt
    | escapedTag h' =>
      obtain rfl := heads (a := c) (c := 'x') (d := 'x') rfl (head_esc h')
      exact absurd h not_forId_amp
    | charRef h' _ =>
      obtain rfl := heads (a := c) (c := 'x') (d := 'x') rfl (head_ref h')
      exact absurd h not_forId_amp
    | run hne _ h1 _ =>
      cases x' with
      | nil => exact absurd rfl hne
      | cons a x =>
        obtain ⟨rfl, _⟩ := List.cons.inj e
        exact absurd h (h1 _ (by simp))
    | keep _ =>
      obtain ⟨rfl, rfl⟩ := List.cons.inj e
      exact ⟨rfl, rfl, rfl⟩

theorem bared_unique {t u u' : Text} (h : Bared t u) (h' : Bared t u') : u = u' := by
  induction hn : t.length using Nat.strongRecOn generalizing t u u' with
  | ind n ih =>
    by_cases hne : t = []
    · subst hne
      have nil : ∀ {u}, Bared [] u → u = [] := by
        intro u h
        have key : ∀ t, Bared t u → t = [] → u = [] := by
          intro t h ht
          cases h with
          | nil => rfl
          | tag h1 _ => exact absurd (List.append_eq_nil_iff.mp ht).1 (Piece.tag (t := []) h1).ne
          | escapedTag h1 _ => exact absurd (List.append_eq_nil_iff.mp ht).1 (Piece.escapedTag (t := []) h1).ne
          | charRef h1 h2 _ => exact absurd (List.append_eq_nil_iff.mp ht).1 (Piece.charRef h1 h2).ne
          | run h1 _ _ _ _ => exact absurd (List.append_eq_nil_iff.mp ht).1 h1
          | keep _ _ => cases ht
        exact key [] h rfl
      rw [nil h, nil h']
    · obtain ⟨x, r, k, v, e1, rfl, p, b⟩ := bared_piece h hne
      obtain ⟨x', r', k', v', e1', rfl, p', b'⟩ := bared_piece h' hne
      obtain ⟨rfl, rfl, rfl⟩ := piece_unique p p' (e1.symm.trans e1')
      have hl : r.length < n := by
        rw [← hn, e1, List.length_append]
        have := List.length_pos_iff.mpr p.ne
        omega
      rw [ih _ hl b b' rfl]

/-! ### Ids -/

omit [Uni] [LawfulUni] in
theorem sepChars_nil (t : Text) : sepChars [] t = t.filter fun c => !(c == ' ' || c == '.' || c == '-') := by
  induction t with
  | nil => rfl
  | cons c t ih =>
    rw [sepChars, List.flatMap_cons, ← sepChars, ih, List.filter_cons]
    cases (c == ' ' || c == '.' || c == '-') <;> rfl

omit [Uni] [LawfulUni] in
theorem sepChars_one (s : Char) (t : Text) : sepChars [s] t = separated s t := by
  unfold separated
  induction t with
  | nil => rfl
  | cons c t ih =>
    rw [sepChars, List.flatMap_cons, ← sepChars, ih, List.map_cons]
    by_cases h : c = ' ' ∨ c = '.' ∨ c = '-'
    · rw [if_pos h, if_pos (by simpa [or_assoc] using h)]; rfl
    · rw [if_neg h, if_neg (by simpa [or_assoc] using h)]; rfl

omit [Uni] [LawfulUni] in
theorem withoutLast_iff {s : Char} {t u : Text} : WithoutLast s t u ↔ u = if endsWith t [s] then t.dropLast else t := by
  by_cases he : endsWith t [s] = true
  · rw [if_pos he]
    obtain ⟨w, rfl⟩ := endsWith_iff.mp he
    rw [List.dropLast_concat]
    constructor
    · rintro (h | ⟨_, h⟩)
      · exact (List.append_cancel_right h).symm
      · exact absurd (by simp) h
    · rintro rfl; exact .inl rfl
  · rw [if_neg he]
    constructor
    · rintro (rfl | ⟨rfl, h⟩)
      · exact absurd (endsWith_iff.mpr ⟨u, rfl⟩) he
      · rfl
    · rintro rfl
      refine .inr ⟨rfl, fun hl => ?_⟩
      obtain ⟨l, rfl⟩ := List.getLast?_eq_some_iff.mp hl
      exact he (endsWith_iff.mpr ⟨l, rfl⟩)

omit [Uni] [LawfulUni] in
theorem withoutFirst_iff {s : Char} {t u : Text} : WithoutFirst s t u ↔ u = if startsWith t [s] then t.tail else t := by
  by_cases he : startsWith t [s] = true
  · rw [if_pos he]
    obtain ⟨w, rfl⟩ := startsWith_iff.mp he
    constructor
    · rintro (h | ⟨_, h⟩)
      · exact ((List.cons.inj h).2).symm
      · exact absurd rfl h
    · rintro rfl; exact .inl rfl
  · rw [if_neg he]
    constructor
    · rintro (rfl | ⟨rfl, h⟩)
      · exact absurd (startsWith_iff.mpr ⟨u, rfl⟩) he
      · rfl
    · rintro rfl
      refine .inr ⟨rfl, fun hl => ?_⟩
      cases u with
      | nil => cases hl
      | cons c u => cases hl; exact he (startsWith_iff.mpr ⟨u, rfl⟩)

theorem sectionId_iff {pre sep title out : Text} : sectionId pre sep title = .ok out ↔ IdFor pre sep title out := by
  obtain ⟨g, hg⟩ := replaceAll_total (re := invalidSectionIdRe) (rep := fun _ => .ok [])
    (fun _ _ _ _ _ => ⟨[], rfl⟩) (Uni.toLowercase title)
  have hb := replaced_bared (replaceAll_ok hg)
  unfold sectionId
  rw [hg]
  simp only [bind, Except.bind]
  cases sep with
  | nil =>
    simp only [List.take_nil, sepChars_nil, Except.ok.injEq]
    constructor
    · rintro rfl; exact .joined hb
    · intro h; cases h with | joined h => rw [bared_unique hb h]
  | cons s rest =>
    simp only [List.take_succ_cons, List.take_zero, sepChars_one]
    rw [undouble_eq s _ _ (Nat.lt_succ_self _)]
    simp only [Except.ok.injEq]
    constructor
    · rintro rfl
      by_cases hp : pre = []
      · subst hp
        simp only [true_and, List.nil_append]
        exact .bare hb (withoutLast_iff.mpr rfl) rfl (withoutFirst_iff.mpr rfl)
      · simp only [hp, false_and, if_false]
        exact .separate hb (withoutLast_iff.mpr rfl) hp
    · intro h
      cases h with
      | separate h1 h2 h3 =>
        rw [bared_unique hb h1]
        simp only [h3, false_and, if_false]
        rw [withoutLast_iff.mp h2]
      | bare h1 h2 h3 h4 =>
        subst h3
        rw [bared_unique hb h1]
        simp only [true_and, List.nil_append]
        rw [withoutFirst_iff.mp h4, withoutLast_iff.mp h2]

theorem generateSectionId_iff {s : AttrStore} {title out : Text} : generateSectionId s title = .ok out ↔ IdOf s title out := by
  have key : ∀ n, (s.attributeValue n).str = (valueOf s n).getD [] := by
    intro n
    unfold valueOf IVal.str
    cases s.attributeValue n <;> rfl
  unfold generateSectionId IdOf
  rw [key, key]
  exact sectionId_iff

end Adoc
