import Verif.Model.SubGroup
import Verif.Lemmas.Regex
import Verif.Spec.Steps
/-!
# Lemmas about the substitution steps
-/

namespace Adoc
open Re
variable [Uni]

theorem take_sub_of_append {t a b : Text} (h : t = a ++ b) : t.take (t.length - b.length) = a := by
  subst h; simp

/-! ### Special characters -/

theorem matchAt_cls (p : Char → Bool) (pv : Option Char) (t : Text) :
    matchAt (cls p) pv t = match t with
      | c :: cs => if p c = true then some (⟨[c], []⟩, ⟨some c, cs, []⟩) else none
      | [] => none := by
  unfold matchAt
  cases t with
  | nil => simp [m]
  | cons c cs =>
    rw [m_cls_cons]
    by_cases h : p c = true
    · simp [h]
    · simp [h]

/-- Replacing single characters of a class. -/
theorem replaced_cls {p : Char → Bool} {rep : Match → Res Text} {f : Char → Text}
    (hf : ∀ c, p c = true → rep ⟨[c], []⟩ = .ok (f c)) (hn : ∀ c, p c = false → f c = [c])
    {pv : Option Char} {e : Bool} {t out : Text} (h : Replaced (cls p) rep pv e t out) : out = t.flatMap f := by
  induction h with
  | done _ => rfl
  | doneEmpty h _ => rw [matchAt_cls] at h; cases h
  | @skip pv e c cs out h _ ih =>
    rw [List.flatMap_cons, ← ih]
    have : p c = false := by
      cases hp : p c with
      | false => rfl
      | true =>
        have := h ⟨[c], []⟩ ⟨some c, cs, []⟩ (by rw [matchAt_cls]; simp [hp])
        exact absurd this.1 (by simp)
    rw [hn c this]; rfl
  | @hit pv e t mt s x out h _ hr _ ih =>
    rw [matchAt_cls] at h
    cases t with
    | nil => cases h
    | cons c cs =>
      simp only at h
      split at h
      · rename_i hp
        cases h
        rw [hf c hp] at hr
        cases hr
        rw [ih, List.flatMap_cons]
      · cases h
  | @hitEmpty pv c cs mt s x out h he _ _ _ =>
    rw [matchAt_cls] at h
    simp only at h
    split at h
    · cases h; cases he
    · cases h

theorem replaceAll_cls {p : Char → Bool} {rep : Match → Res Text} {f : Char → Text}
    (hf : ∀ c, p c = true → rep ⟨[c], []⟩ = .ok (f c)) (hn : ∀ c, p c = false → f c = [c]) (t : Text) :
    replaceAll (cls p) rep t = .ok (t.flatMap f) := by
  obtain ⟨out, h⟩ := replaceAll_total (re := cls p) (rep := rep) (by
    intro pv t mt s h
    rw [matchAt_cls] at h
    cases t with
    | nil => cases h
    | cons c cs =>
      simp only at h
      split at h
      · rename_i hp; cases h; exact ⟨_, hf c hp⟩
      · cases h) t
  rw [h, replaced_cls hf hn (replaceAll_ok h)]

theorem flatMap_single {f : Char → Text} {t : Text} (h : ∀ c ∈ t, f c = [c]) : t.flatMap f = t := by
  induction t with
  | nil => rfl
  | cons c cs ih =>
    rw [List.flatMap_cons, h c (List.mem_cons_self ..), ih (fun d hd => h d (List.mem_cons_of_mem _ hd))]; rfl

/-- The special characters step with any renderer. -/
theorem applySpecialCharacters_eq (r : Renderer) (t : Text) :
    applySpecialCharacters r t = .ok (t.flatMap fun c =>
      if c = '<' then r.special .lt else if c = '>' then r.special .gt
      else if c = '&' then r.special .ampersand else [c]) := by
  unfold applySpecialCharacters
  split
  · rename_i h
    rw [flatMap_single]
    intro c hc
    simp only [Bool.not_eq_true', List.any_eq_false, Bool.or_eq_true, beq_iff_eq] at h
    have := h c hc
    simp only [not_or] at this
    simp [this]
  · refine replaceAll_cls ?_ ?_ t
    · intro c hc
      simp only [Bool.or_eq_true, beq_iff_eq] at hc
      rcases hc with (rfl | rfl) | rfl <;> rfl
    · intro c hc
      simp only [Bool.or_eq_false_iff, beq_eq_false_iff_ne] at hc
      simp [hc]

/-! ### Attribute references -/

/-- The reference at the start of a text, if any: name and rest. -/
def refAt : Text → Option (Text × Text)
  | '{' :: c :: cs =>
    if isAttrNameStart c then
      match cs.dropWhile isAttrNameChar with
      | '}' :: rest => some (c :: cs.takeWhile isAttrNameChar, rest)
      | _ => none
    else none
  | _ => none

theorem isAttrNameChar_ne {c : Char} (h : isAttrNameChar c = true) : c ≠ '}' := by
  rintro rfl; revert h; decide

theorem refAt_eq_some {t name rest : Text} : refAt t = some (name, rest) ↔ Spec.BeginsRef t name rest := by
  constructor
  · intro h
    unfold refAt at h
    split at h
    · rename_i c cs
      split at h
      · rename_i hc
        split at h
        · rename_i r hd
          cases h
          refine ⟨⟨c, cs.takeWhile isAttrNameChar, rfl, ?_, ?_⟩, ?_⟩
          · simpa [isAttrNameStart] using hc
          · intro d hd
            have := mem_takeWhile hd
            simpa [isAttrNameChar, or_assoc] using this
          · have := List.takeWhile_append_dropWhile (p := isAttrNameChar) (l := cs)
            rw [hd] at this
            simp only [List.cons_append, List.cons.injEq, true_and]
            exact this.symm
        · cases h
      · cases h
    · cases h
  · rintro ⟨⟨c, cs, rfl, hc, hcs⟩, rfl⟩
    have hc' : isAttrNameStart c = true := by simpa [isAttrNameStart] using hc
    have hcs' : ∀ d ∈ cs, isAttrNameChar d = true := by
      intro d hd
      simpa [isAttrNameChar, or_assoc] using hcs d hd
    have h1 : (cs ++ '}' :: rest).takeWhile isAttrNameChar = cs := by
      rw [List.takeWhile_append_of_pos hcs']
      simp [List.takeWhile_cons, show isAttrNameChar '}' = false by decide]
    have h2 : (cs ++ '}' :: rest).dropWhile isAttrNameChar = '}' :: rest := by
      rw [List.dropWhile_append_of_pos hcs']
      simp [List.dropWhile_cons, show isAttrNameChar '}' = false by decide]
    show (if isAttrNameStart c then
      match (cs ++ '}' :: rest).dropWhile isAttrNameChar with
      | '}' :: rest' => some (c :: (cs ++ '}' :: rest).takeWhile isAttrNameChar, rest')
      | _ => none else none) = _
    rw [if_pos hc', h1, h2]
    rfl

/-- The part of the pattern after the optional backslash. -/
theorem m_ref_body (t : Text) (pv : Option Char) (caps : List (Nat × Text)) :
    m (cat [chr '{', cap 1 (seq (cls isAttrNameStart) (star true (cls isAttrNameChar))), chr '}']) some ⟨pv, t, caps⟩ =
      (refAt t).map fun p => ⟨some '}', p.2, (1, p.1) :: caps⟩ := by
  simp only [cat]
  cases t with
  | nil => rw [m, m_chr_nil]; rfl
  | cons d ds =>
    rw [m, m_chr]
    by_cases hd : d = '{'
    · subst hd
      rw [if_pos rfl, m, m, m]
      cases ds with
      | nil => rw [m_cls_nil]; rfl
      | cons c cs =>
        rw [m_cls_cons]
        show _ = Option.map _ (if isAttrNameStart c then _ else _)
        by_cases hc : isAttrNameStart c = true
        · rw [if_pos hc, if_pos hc, m_star_cls_det]
          · simp only
            have happ := List.takeWhile_append_dropWhile (p := isAttrNameChar) (l := cs)
            have htake : (c :: cs).take ((c :: cs).length - (cs.dropWhile isAttrNameChar).length) =
                c :: cs.takeWhile isAttrNameChar := by
              have : (c :: cs) = (c :: cs.takeWhile isAttrNameChar) ++ cs.dropWhile isAttrNameChar := by
                rw [List.cons_append, happ]
              exact take_sub_of_append this
            rw [htake]
            cases hdw : cs.dropWhile isAttrNameChar with
            | nil => rw [m_chr_nil]; rfl
            | cons x xs =>
              rw [m_chr]
              by_cases hx : x = '}'
              · subst hx; simp
              · rw [if_neg hx]
                split
                · rename_i heq; cases heq; exact absurd rfl hx
                · rfl
          · intro pv' d ds' caps' hp
            rw [m_chr, if_neg (isAttrNameChar_ne hp)]
        · rw [if_neg hc, if_neg hc]; rfl
    · rw [if_neg hd]
      unfold refAt
      split
      · rename_i heq; cases heq; exact absurd rfl hd
      · rfl

theorem matchAt_attributeReference (pv : Option Char) (t : Text) :
    matchAt attributeReferenceRe pv t =
      match (match t with | '\\' :: r => (refAt r).map (fun p => (true, p)) | _ => none) with
      | some (_, name, rest) => some (⟨'\\' :: '{' :: name ++ ['}'], [(1, name)]⟩, ⟨some '}', rest, [(1, name)]⟩)
      | none => (refAt t).map fun p => (⟨'{' :: p.1 ++ ['}'], [(1, p.1)]⟩, ⟨some '}', p.2, [(1, p.1)]⟩) := by
  unfold matchAt attributeReferenceRe
  have hcat : cat [opt (chr '\\'), chr '{', cap 1 (seq (cls isAttrNameStart) (star true (cls isAttrNameChar))), chr '}'] =
    seq (opt (chr '\\'))
      (cat [chr '{', cap 1 (seq (cls isAttrNameStart) (star true (cls isAttrNameChar))), chr '}']) := rfl
  rw [hcat, m, opt, m, m]
  have take1 : ∀ (name rest : Text), refAt t = some (name, rest) →
      t.take (t.length - rest.length) = '{' :: name ++ ['}'] := by
    intro name rest h
    obtain ⟨_, rfl⟩ := refAt_eq_some.mp h
    exact take_sub_of_append (by simp)
  cases t with
  | nil => rw [m_chr_nil]; simp only [m_ref_body, Option.map_map]; rfl
  | cons d ds =>
    rw [m_chr]
    by_cases hd : d = '\\'
    · subst hd
      simp only [if_true, m_ref_body]
      cases hr : refAt ds with
      | none => simp [refAt]
      | some p =>
        obtain ⟨name, rest⟩ := p
        obtain ⟨_, rfl⟩ := refAt_eq_some.mp hr
        simp only [Option.map_some]
        rw [take_sub_of_append (t := '\\' :: ('{' :: name ++ '}' :: rest)) (a := '\\' :: '{' :: name ++ ['}']) (b := rest)
          (by simp)]
    · rw [if_neg hd]
      simp only [m_ref_body, Option.map_map]
      split
      · rename_i heq; 
        split at heq
        · rename_i h2; cases h2; exact absurd rfl hd
        · cases heq
      · cases hr : refAt (d :: ds) with
        | none => rfl
        | some p =>
          simp only [Option.map_some, Function.comp]
          rw [take1 p.1 p.2 hr]

/-- The text an attribute stands for. -/
def attrText (s : AttrStore) (name : Text) : Text :=
  match s.attributeValue name with
  | .value v => v
  | _ => []

theorem refAt_length {t name rest : Text} (h : refAt t = some (name, rest)) : rest.length < t.length := by
  obtain ⟨_, rfl⟩ := refAt_eq_some.mp h
  simp; omega

theorem attributeReplacer_ok (s : AttrStore) (x name : Text) :
    attributeReplacer s ⟨x, [(1, name)]⟩ = .ok (
      if s.hasAttribute name then (if startsWith x ['\\'] then x.tail else attrText s name) else x) := by
  unfold attributeReplacer attrText
  show (if _ then _ else _ : Res Text) = _
  cases s.hasAttribute name with
  | false => rfl
  | true =>
    simp only [Bool.not_true, Bool.false_eq_true, if_false, if_true]
    split
    · rfl
    · cases s.attributeValue name <;> rfl

theorem refAt_bs (t : Text) : refAt ('\\' :: t) = none := by
  unfold refAt; rfl

theorem replaced_expands (s : AttrStore) : ∀ {pv : Option Char} {e : Bool} {t out : Text},
    Replaced attributeReferenceRe (attributeReplacer s) pv e t out →
    Spec.Expands (fun n => s.hasAttribute n = true) (attrText s) t out := by
  intro pv e t out h
  induction h with
  | done _ => exact .nil
  | doneEmpty h _ => rw [matchAt_attributeReference] at h; simp [refAt] at h
  | @skip pv e c cs out h _ ih =>
    have hno : ∀ mt s', matchAt attributeReferenceRe pv (c :: cs) = some (mt, s') → mt.text ≠ [] := by
      intro mt s' hm
      rw [matchAt_attributeReference] at hm
      split at hm
      · cases hm; simp
      · cases hr : refAt (c :: cs) with
        | none => rw [hr] at hm; cases hm
        | some p => rw [hr] at hm; cases hm; simp
    have hnone : matchAt attributeReferenceRe pv (c :: cs) = none := by
      cases hm : matchAt attributeReferenceRe pv (c :: cs) with
      | none => rfl
      | some p => exact absurd (h p.1 p.2 hm).1 (hno p.1 p.2 hm)
    rw [matchAt_attributeReference] at hnone
    refine .other ?_ ?_ ih
    · rintro ⟨name, rest, hb⟩
      have := refAt_eq_some.mpr hb
      split at hnone
      · cases hnone
      · rw [this] at hnone; cases hnone
    · rintro ⟨rfl, name, rest, hb⟩
      have := refAt_eq_some.mpr hb
      simp [this] at hnone
  | @hit pv e t mt s' x out h _ hr _ ih =>
    rw [matchAt_attributeReference] at h
    split at h
    · rename_i b name rest heq
      cases h
      split at heq
      · rename_i r
        cases hrr : refAt r with
        | none => rw [hrr] at heq; cases heq
        | some p =>
          rw [hrr] at heq
          cases heq
          have hb := refAt_eq_some.mp hrr
          rw [attributeReplacer_ok] at hr
          by_cases hk : s.hasAttribute name = true
          · rw [if_pos hk] at hr
            cases hr
            have := Spec.Expands.escaped (known := fun n => s.hasAttribute n = true) (value := attrText s) hb hk ih
            simpa [startsWith, List.isPrefixOf] using this
          · rw [if_neg hk] at hr
            cases hr
            have := Spec.Expands.unknownEscaped (known := fun n => s.hasAttribute n = true) (value := attrText s) hb hk ih
            simpa using this
      · cases heq
    · cases hrr : refAt t with
      | none => rw [hrr] at h; cases h
      | some p =>
        rw [hrr] at h
        cases h
        have hb := refAt_eq_some.mp hrr
        rw [attributeReplacer_ok] at hr
        by_cases hk : s.hasAttribute p.1 = true
        · rw [if_pos hk] at hr
          cases hr
          exact Spec.Expands.known hb hk ih
        · rw [if_neg hk] at hr
          cases hr
          have := Spec.Expands.unknown (known := fun n => s.hasAttribute n = true) (value := attrText s) hb hk ih
          simpa using this
  | @hitEmpty pv c cs mt s' x out h he _ _ _ =>
    exfalso
    rw [matchAt_attributeReference] at h
    split at h
    · cases h; cases he
    · cases hrr : refAt (c :: cs) with
      | none => rw [hrr] at h; cases h
      | some p => rw [hrr] at h; cases h; cases he

theorem expands_no_brace {known : Text → Prop} {value : Text → Text} {t : Text} (h : '{' ∉ t) :
    Spec.Expands known value t t := by
  induction t with
  | nil => exact .nil
  | cons c cs ih =>
    have h1 : '{' ∉ cs := fun hc => h (List.mem_cons_of_mem _ hc)
    refine .other ?_ ?_ (ih h1)
    · rintro ⟨_, _, _, hb⟩; exact h (by rw [hb]; simp)
    · rintro ⟨_, _, _, _, hb⟩; exact h1 (by rw [hb]; simp)

theorem BeginsRef.det {t n1 r1 n2 r2 : Text} (h1 : Spec.BeginsRef t n1 r1) (h2 : Spec.BeginsRef t n2 r2) :
    n1 = n2 ∧ r1 = r2 := by
  have := refAt_eq_some.mpr h1
  rw [refAt_eq_some.mpr h2] at this
  cases this; exact ⟨rfl, rfl⟩

theorem BeginsRef.not_bs {t n r : Text} : ¬ Spec.BeginsRef ('\\' :: t) n r := by
  intro h
  have := refAt_eq_some.mpr h
  rw [refAt_bs] at this; cases this

theorem Expands.det {known : Text → Prop} {value : Text → Text} {t a b : Text}
    (ha : Spec.Expands known value t a) (hb : Spec.Expands known value t b) : a = b := by
  have nb : ∀ {n r}, ¬ Spec.BeginsRef [] n r := by rintro n r ⟨_, h⟩; cases h
  induction ha generalizing b with
  | nil =>
    cases hb with
    | nil => rfl
    | known h _ _ => exact absurd h nb
    | unknown h _ _ => exact absurd h nb
  | known h hk _ ih =>
    cases hb with
    | nil => exact absurd h nb
    | known h2 _ h3 => obtain ⟨rfl, rfl⟩ := BeginsRef.det h h2; rw [ih h3]
    | escaped => exact absurd h BeginsRef.not_bs
    | unknown h2 hk2 h3 => obtain ⟨rfl, rfl⟩ := BeginsRef.det h h2; exact absurd hk hk2
    | unknownEscaped => exact absurd h BeginsRef.not_bs
    | other h2 _ _ => exact absurd ⟨_, _, h⟩ h2
  | escaped h hk _ ih =>
    cases hb with
    | known h2 => exact absurd h2 BeginsRef.not_bs
    | escaped h2 _ h3 => obtain ⟨rfl, rfl⟩ := BeginsRef.det h h2; rw [ih h3]
    | unknown h2 => exact absurd h2 BeginsRef.not_bs
    | unknownEscaped h2 hk2 => obtain ⟨rfl, rfl⟩ := BeginsRef.det h h2; exact absurd hk hk2
    | other _ h2 _ => exact absurd ⟨rfl, _, _, h⟩ h2
  | unknown h hk _ ih =>
    cases hb with
    | nil => exact absurd h nb
    | known h2 hk2 => obtain ⟨rfl, rfl⟩ := BeginsRef.det h h2; exact absurd hk2 hk
    | escaped => exact absurd h BeginsRef.not_bs
    | unknown h2 _ h3 => obtain ⟨rfl, rfl⟩ := BeginsRef.det h h2; rw [ih h3]
    | unknownEscaped => exact absurd h BeginsRef.not_bs
    | other h2 _ _ => exact absurd ⟨_, _, h⟩ h2
  | unknownEscaped h hk _ ih =>
    cases hb with
    | known h2 => exact absurd h2 BeginsRef.not_bs
    | escaped h2 hk2 => obtain ⟨rfl, rfl⟩ := BeginsRef.det h h2; exact absurd hk2 hk
    | unknown h2 => exact absurd h2 BeginsRef.not_bs
    | unknownEscaped h2 _ h3 => obtain ⟨rfl, rfl⟩ := BeginsRef.det h h2; rw [ih h3]
    | other _ h2 _ => exact absurd ⟨rfl, _, _, h⟩ h2
  | other h1 h2 _ ih =>
    cases hb with
    | known h => exact absurd ⟨_, _, h⟩ h1
    | escaped h => exact absurd ⟨rfl, _, _, h⟩ h2
    | unknown h => exact absurd ⟨_, _, h⟩ h1
    | unknownEscaped h => exact absurd ⟨rfl, _, _, h⟩ h2
    | other _ _ h3 => rw [ih h3]

theorem applyAttributes_total (s : AttrStore) (t : Text) : ∃ out, applyAttributes s t = .ok out := by
  unfold applyAttributes
  split
  · exact ⟨t, rfl⟩
  · refine replaceAll_total ?_ t
    intro pv t mt s' h
    rw [matchAt_attributeReference] at h
    split at h
    · cases h; exact ⟨_, attributeReplacer_ok s _ _⟩
    · cases hr : refAt t with
      | none => rw [hr] at h; cases h
      | some p => rw [hr] at h; cases h; exact ⟨_, attributeReplacer_ok s _ _⟩

theorem applyAttributes_expands {s : AttrStore} {t out : Text} (h : applyAttributes s t = .ok out) :
    Spec.Expands (fun n => s.hasAttribute n = true) (attrText s) t out := by
  unfold applyAttributes at h
  split at h
  · rename_i hn
    cases h
    exact expands_no_brace (by simpa using hn)
  · exact replaced_expands s (replaceAll_ok h)

end Adoc
