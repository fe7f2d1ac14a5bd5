import Verif.Lemmas.Steps
import Verif.Lemmas.Path
/-!
# Lemmas about hard line breaks
-/

namespace Adoc
open Re
variable [Uni]

theorem Rel.seq_inv {a b : Re} {s s' : RS} (h : Rel (.seq a b) s s') : ∃ z, Rel a s z ∧ Rel b z s' := by
  cases h with | seq h1 h2 => exact ⟨_, h1, h2⟩

theorem Rel.cls_inv {p : Char → Bool} {s s' : RS} (h : Rel (.cls p) s s') :
    ∃ c, p c = true ∧ s.rest = c :: s'.rest ∧ s' = ⟨some c, s'.rest, s.caps⟩ := by
  cases h with | cls h1 => exact ⟨_, h1, rfl, rfl⟩

theorem Rel.star_cls_inv {p : Char → Bool} {g : Bool} {s s' : RS} (h : Rel (.star g (.cls p)) s s') :
    ∃ x, (∀ c ∈ x, p c = true) ∧ s.rest = x ++ s'.rest ∧ s' = ⟨prevAfter s.prev x, s'.rest, s.caps⟩ := by
  generalize hr : Re.star g (.cls p) = r at h
  induction h with
  | starNil => exact ⟨[], by simp, rfl, rfl⟩
  | @starStep g r s s1 s2 h1 _ _ _ ih =>
    cases hr
    obtain ⟨c, hc, h3, h4⟩ := Rel.cls_inv h1
    obtain ⟨x, hx, h5, h6⟩ := ih rfl
    refine ⟨c :: x, ?_, by rw [h3, h5]; rfl, ?_⟩
    · intro d hd
      rcases List.mem_cons.mp hd with rfl | hd
      · exact hc
      · exact hx d hd
    · rw [h6, h4]
      have := prevAfter_append s.prev [c] x
      simp only [List.singleton_append] at this
      rw [← this]; rfl
  | _ => cases hr

/-- A run of members of a class is matched by the repeated class. -/
theorem Rel.star_cls_intro {p : Char → Bool} {g : Bool} : ∀ (x : Text) (pv : Option Char) (r : Text)
    (caps : List (Nat × Text)), (∀ c ∈ x, p c = true) →
    Rel (.star g (.cls p)) ⟨pv, x ++ r, caps⟩ ⟨prevAfter pv x, r, caps⟩ := by
  intro x
  induction x with
  | nil => intro pv r caps _; exact .starNil
  | cons c cs ih =>
    intro pv r caps h
    have h1 : Rel (.cls p) ⟨pv, (c :: cs) ++ r, caps⟩ ⟨some c, cs ++ r, caps⟩ := .cls (h c (by simp))
    have h2 := ih (some c) r caps (fun d hd => h d (by simp [hd]))
    have : prevAfter (some c) cs = prevAfter pv (c :: cs) := by
      have := prevAfter_append pv [c] cs
      simpa [prevAfter] using this
    rw [this] at h2
    exact .starStep h1 (by simp) h2

theorem Rel.lit_inv : ∀ (w : Text) {s s' : RS}, Rel (lit w) s s' →
    s.rest = w ++ s'.rest ∧ s' = ⟨prevAfter s.prev w, s'.rest, s.caps⟩ := by
  intro w
  induction w with
  | nil => intro s s' h; cases h; exact ⟨rfl, rfl⟩
  | cons c cs ih =>
    intro s s' h
    cases cs with
    | nil =>
      obtain ⟨d, hd, h1, h2⟩ := Rel.cls_inv h
      simp only [beq_iff_eq] at hd
      subst hd
      exact ⟨h1, h2⟩
    | cons e es =>
      obtain ⟨z, h1, h2⟩ := Rel.seq_inv h
      obtain ⟨d, hd, h3, h4⟩ := Rel.cls_inv h1
      simp only [beq_iff_eq] at hd
      subst hd
      obtain ⟨h5, h6⟩ := ih h2
      refine ⟨by rw [h3, h5]; rfl, ?_⟩
      rw [h6, h4]
      have := prevAfter_append s.prev [d] (e :: es)
      simp only [List.singleton_append] at this
      rw [← this]; rfl

theorem Rel.lit_intro : ∀ (w : Text) (pv : Option Char) (r : Text) (caps : List (Nat × Text)),
    Rel (lit w) ⟨pv, w ++ r, caps⟩ ⟨prevAfter pv w, r, caps⟩ := by
  intro w
  induction w with
  | nil => intro pv r caps; exact .eps
  | cons c cs ih =>
    intro pv r caps
    have h1 : Rel (chr c) ⟨pv, c :: (cs ++ r), caps⟩ ⟨some c, cs ++ r, caps⟩ := .cls (by simp)
    cases cs with
    | nil => exact h1
    | cons e es =>
      have h2 := ih (some c) r caps
      have : prevAfter (some c) (e :: es) = prevAfter pv (c :: e :: es) := by
        have := prevAfter_append pv [c] (e :: es)
        simpa [prevAfter] using this
      rw [this] at h2
      exact .seq h1 h2

/-- At the start of a line. -/
def AtBol (pv : Option Char) : Prop := pv = none ∨ pv = some '\n'

instance (pv : Option Char) : Decidable (AtBol pv) := inferInstanceAs (Decidable (_ ∨ _))

theorem hardLineBreak_sound {pv : Option Char} {t : Text} {mt : Match} {s : RS}
    (h : matchAt hardLineBreakRe pv t = some (mt, s)) :
    AtBol pv ∧ ∃ x, '\n' ∉ x ∧ t = x ++ [' ', '+'] ++ s.rest ∧ (s.rest = [] ∨ s.rest.head? = some '\n') ∧
      mt.get 1 = some x ∧ mt.text ≠ [] ∧ s.prev = some '+' := by
  obtain ⟨hr, ht, hp, hc⟩ := matchAt_sound h
  obtain ⟨z1, h1, h2⟩ := Rel.seq_inv hr
  obtain ⟨z2, h3, h4⟩ := Rel.seq_inv h2
  obtain ⟨z3, h5, h6⟩ := Rel.seq_inv h4
  cases h1 with
  | bol hb =>
    refine ⟨hb, ?_⟩
    cases h3 with
    | @cap n r s1 s2 h7 =>
      obtain ⟨x, hx, h8, h9⟩ := Rel.star_cls_inv h7
      obtain ⟨h10, h11⟩ := Rel.lit_inv _ h5
      cases h6 with
      | eol he =>
        simp only at h8 h10
        have htx : t.take (t.length - s2.rest.length) = x := take_sub_of_append h8
        refine ⟨x, ?_, ?_, he, ?_, ?_, ?_⟩
        · intro hn
          have := hx _ hn
          simp at this
        · rw [h8, h10]; simp
        · unfold Match.get
          rw [hc, h11]
          simp [htx]
        · intro he0
          have hlen : t.length = s.rest.length := by rw [ht, he0]; rfl
          rw [h8, h10] at hlen
          simp at hlen
          omega
        · rw [h11]; rfl

theorem hardLineBreak_complete {pv : Option Char} {x r : Text} (hb : AtBol pv) (hx : '\n' ∉ x)
    (hr : r = [] ∨ r.head? = some '\n') : matchAt hardLineBreakRe pv (x ++ [' ', '+'] ++ r) ≠ none := by
  rw [Ne, matchAt_none]
  intro hno
  have h1 : Rel (.star true dot) ⟨pv, x ++ ([' ', '+'] ++ r), []⟩ ⟨prevAfter pv x, [' ', '+'] ++ r, []⟩ :=
    Rel.star_cls_intro x pv _ [] (by
      intro c hc
      have : c ≠ '\n' := fun e => hx (e ▸ hc)
      simp [this])
  have h2 := Rel.cap (n := 1) h1
  have h3 := Rel.lit_intro [' ', '+'] (prevAfter pv x) r
    [(1, (x ++ ([' ', '+'] ++ r)).take ((x ++ ([' ', '+'] ++ r)).length - ([' ', '+'] ++ r).length))]
  rw [List.append_assoc] at hno
  exact hno _ (.seq (.bol hb) (.seq h2 (.seq h3 (.eol hr))))

/-- A line with its marker turned into a break. -/
def breakLine (br l : Text) : Text := if endsWith l [' ', '+'] then l.take (l.length - 2) ++ br else l

def breakFrom (br : Text) (bol : Bool) (t : Text) : Text :=
  match splitChar '\n' t with
  | [] => []
  | l :: ls => joinChar '\n' ((if bol then breakLine br l else l) :: ls.map (breakLine br))

theorem breakLine_append (br x : Text) : breakLine br (x ++ [' ', '+']) = x ++ br := by
  unfold breakLine
  rw [if_pos (endsWith_iff.mpr ⟨x, rfl⟩)]
  simp

theorem breakLine_nil (br : Text) : breakLine br [] = [] := rfl

theorem breakFrom_nil (br : Text) (b : Bool) : breakFrom br b [] = [] := by
  cases b <;> rfl

theorem breakFrom_newline (br : Text) (b : Bool) (t : Text) : breakFrom br b ('\n' :: t) = '\n' :: breakFrom br true t := by
  unfold breakFrom
  rw [splitChar, if_pos rfl]
  cases h : splitChar '\n' t with
  | nil => exact absurd h (splitChar_ne_nil _ _)
  | cons l ls => cases b <;> rfl

theorem breakFrom_cons (br : Text) (c : Char) (t : Text) (hc : c ≠ '\n') :
    breakFrom br false (c :: t) = c :: breakFrom br false t := by
  unfold breakFrom
  rw [splitChar, if_neg hc]
  cases h : splitChar '\n' t with
  | nil => exact absurd h (splitChar_ne_nil _ _)
  | cons l ls =>
    cases ls with
    | nil => rfl
    | cons m ms => rfl

theorem first_line (t : Text) : ∀ l ls, splitChar '\n' t = l :: ls →
    ∃ r, t = l ++ r ∧ (r = [] ∨ r.head? = some '\n') := by
  induction t with
  | nil => intro l ls h; cases h; exact ⟨[], rfl, Or.inl rfl⟩
  | cons c cs ih =>
    intro l ls h
    rw [splitChar] at h
    split at h
    · rename_i hc
      subst hc; cases h; exact ⟨'\n' :: cs, rfl, Or.inr rfl⟩
    · split at h
      · rename_i p ps hp
        cases h
        obtain ⟨r, h1, h2⟩ := ih _ _ hp
        exact ⟨r, by rw [h1]; rfl, h2⟩
      · rename_i hp; exact absurd hp (splitChar_ne_nil _ _)

theorem replaced_breaks (r : Renderer) {pv : Option Char} {e : Bool} {t out : Text}
    (h : Replaced hardLineBreakRe (postReplacer r) pv e t out) :
    out = breakFrom r.lineBreak (decide (AtBol pv)) t := by
  induction h with
  | done _ => rw [breakFrom_nil]
  | doneEmpty h _ =>
    obtain ⟨_, x, _, h2, _⟩ := hardLineBreak_sound h
    simp at h2
  | @skip pv e c cs out h _ ih =>
    have hnone : matchAt hardLineBreakRe pv (c :: cs) = none := by
      cases hm : matchAt hardLineBreakRe pv (c :: cs) with
      | none => rfl
      | some p =>
        obtain ⟨_, x, _, _, _, _, h3, _⟩ := hardLineBreak_sound hm
        exact absurd (h _ _ hm).1 h3
    by_cases hc : c = '\n'
    · subst hc
      rw [breakFrom_newline, ih]
      rfl
    · have hbol : decide (AtBol (some c)) = false := by simp [AtBol, hc]
      rw [hbol] at ih
      have key : breakFrom r.lineBreak (decide (AtBol pv)) (c :: cs) = breakFrom r.lineBreak false (c :: cs) := by
        by_cases hb : AtBol pv
        · simp only [hb, decide_true]
          have hno := splitChar_no '\n' (c :: cs)
          unfold breakFrom
          cases hs : splitChar '\n' (c :: cs) with
          | nil => rfl
          | cons l ls =>
            obtain ⟨rr, h1, h2⟩ := first_line (c :: cs) l ls hs
            have hl : breakLine r.lineBreak l = l := by
              unfold breakLine
              split
              · rename_i he
                obtain ⟨x, rfl⟩ := endsWith_iff.mp he
                exfalso
                have hx : '\n' ∉ x := by
                  have := hno (x ++ [' ', '+']) (by rw [hs]; simp)
                  intro hx; exact this (by simp [hx])
                have := hardLineBreak_complete (pv := pv) hb hx h2
                rw [← h1] at this
                exact this hnone
              · rfl
            simp [hl]
        · simp [hb]
      rw [key, breakFrom_cons _ _ _ hc, ← ih]
  | @hit pv e t mt s x out h hne hr _ ih =>
    obtain ⟨hb, y, hy, h1, h2, h3, _, h4⟩ := hardLineBreak_sound h
    have hx : x = y ++ r.lineBreak := by
      unfold postReplacer Match.at! at hr
      rw [h3] at hr
      cases hr
      rfl
    have hbol : decide (AtBol s.prev) = false := by rw [h4]; simp [AtBol]
    rw [hbol] at ih
    simp only [hb, decide_true]
    have hline : '\n' ∉ y ++ [' ', '+'] := by simp [hy]
    rw [hx, ih, h1]
    rcases h2 with h2 | h2
    · rw [h2, breakFrom_nil, List.append_nil, List.append_nil]
      unfold breakFrom
      rw [splitChar_single hline]
      simp [joinChar, breakLine_append]
    · cases hsr : s.rest with
      | nil => rw [hsr] at h2; cases h2
      | cons c cs =>
        rw [hsr] at h2
        simp only [List.head?_cons, Option.some.injEq] at h2
        subst h2
        rw [breakFrom_newline]
        unfold breakFrom
        rw [splitChar_append hline]
        cases hs : splitChar '\n' cs with
        | nil => exact absurd hs (splitChar_ne_nil _ _)
        | cons l ls => simp [joinChar, breakLine_append]
  | @hitEmpty pv c cs mt s x out h he _ _ _ =>
    obtain ⟨_, _, _, _, _, _, h3, _⟩ := hardLineBreak_sound h
    exact absurd he h3

theorem joinChar_intercalate (c : Char) (ls : List Text) : joinChar c ls = List.intercalate [c] ls := by
  rw [joinChar_eq]; rfl

theorem intercalate_split {ls : List Text} (hne : ls ≠ []) (h : ∀ l ∈ ls, '\n' ∉ l) :
    splitChar '\n' (List.intercalate ['\n'] ls) = ls := by
  rw [← joinChar_intercalate, splitChar_joinChar hne h]

theorem breakFrom_lines (br : Text) {ls : List Text} (hne : ls ≠ []) (h : ∀ l ∈ ls, '\n' ∉ l) :
    breakFrom br true (List.intercalate ['\n'] ls) = List.intercalate ['\n'] (ls.map (breakLine br)) := by
  unfold breakFrom
  rw [intercalate_split hne h]
  cases ls with
  | nil => exact absurd rfl hne
  | cons l ls => simp [joinChar_intercalate]

theorem postReplace_ok (r : Renderer) (t : Text) :
    replaceAll hardLineBreakRe (postReplacer r) t = .ok (breakFrom r.lineBreak true t) := by
  obtain ⟨out, h⟩ := replaceAll_total (re := hardLineBreakRe) (rep := postReplacer r) (by
    intro pv t mt s h
    obtain ⟨_, x, _, _, _, h3, _⟩ := hardLineBreak_sound h
    exact ⟨x ++ r.lineBreak, by unfold postReplacer Match.at!; rw [h3]; rfl⟩) t
  rw [h, replaced_breaks r (replaceAll_ok h)]
  simp [AtBol]

theorem intercalate_mem {ls : List Text} {c : Char} : c ∈ List.intercalate ['\n'] ls ↔
    (∃ l ∈ ls, c ∈ l) ∨ (c = '\n' ∧ 2 ≤ ls.length) := by
  rw [← joinChar_intercalate]
  induction ls with
  | nil => simp [joinChar]
  | cons l ls ih =>
    cases ls with
    | nil => simp [joinChar]
    | cons m ms =>
      rw [joinChar, List.mem_append, List.mem_cons, ih]
      simp only [List.mem_cons, List.length_cons]
      constructor
      · rintro (h | h | ⟨x, hx, h⟩ | ⟨h, _⟩)
        · exact Or.inl ⟨l, Or.inl rfl, h⟩
        · exact Or.inr ⟨h, by omega⟩
        · exact Or.inl ⟨x, Or.inr hx, h⟩
        · exact Or.inr ⟨h, by omega⟩
      · rintro (⟨x, rfl | hx, h⟩ | ⟨h, _⟩)
        · exact Or.inl h
        · exact Or.inr (Or.inr (Or.inl ⟨x, hx, h⟩))
        · exact Or.inr (Or.inl h)

end Adoc
