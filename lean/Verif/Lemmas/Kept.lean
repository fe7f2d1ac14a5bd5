import Verif.Spec.Kept
import Verif.Lemmas.Includes
import Verif.Lemmas.Pasting

/-! Which texts without directives are left as they are. -/

namespace Adoc
open Spec Span

set_option linter.unusedSectionVars false

variable [Uni]

/-- The lines of an entry, in a text without carriage returns. -/
theorem extent_whole {t c sep rest : Text} (h : Extent t c sep rest) : ∀ {ls : List Text}, LinesOf t ls → (∀ l ∈ ls, '\r' ∉ l) →
    t ≠ [] → ∃ pre post, ls = pre ++ post ∧ c ++ ['\n'] = unlines pre ∧ LinesOf rest post := by
  induction h with
  | @last t l sep rest hl _ =>
    intro ls h1 h2 ht
    cases ls with
    | nil => cases h1; exact absurd rfl ht
    | cons m ls =>
      obtain ⟨sep', rest', h3, h4, h5⟩ := linesOf_cons h1 (h2 m (by simp))
      obtain ⟨rfl, rfl, rfl⟩ := hl.det h3
      exact ⟨[l], ls, rfl, by simp [unlines], h4⟩
  | @more t l sep rest c sep' rest' hl hc hr hx ih =>
    intro ls h1 h2 ht
    cases ls with
    | nil => cases h1; exact absurd rfl ht
    | cons m ls =>
      obtain ⟨sep2, rest2, h3, h4, h5⟩ := linesOf_cons h1 (h2 m (by simp))
      obtain ⟨rfl, rfl, rfl⟩ := hl.det h3
      obtain ⟨pre, post, e1, e3, e4⟩ := ih h4 (fun l hl => h2 l (List.mem_cons_of_mem _ hl)) hr
      have hsep : sep = ['\n'] := by
        cases h1 with
        | last g1 g2 =>
          cases h4
          exact absurd rfl hr
        | @cons _ rest3 _ g1 g2 =>
          have g : FirstLine (l ++ '\n' :: rest3) l ['\n'] rest3 :=
            ⟨by simp, g1, Or.inl rfl, fun hh => by obtain ⟨q, rfl⟩ := hh; exact absurd (by simp) (h2 (q ++ ['\r']) (by simp))⟩
          exact (hl.det g).2.1
      subst hsep
      exact ⟨l :: pre, post, by rw [e1]; rfl, by rw [unlines_cons, ← e3]; simp, e4⟩

theorem entryMet_next {env : PreEnv} {p q : Point} (h : Next env p q) {c : Text} (h1 : EntryMet env q c) : EntryMet env p c := by
  obtain ⟨file, t, σ, l, lsep, lrest, sep, rest, name, kind, h2, h3⟩ := h1
  exact ⟨file, t, σ, l, lsep, lrest, sep, rest, name, kind, .step h h2, h3⟩

theorem entryMet_cases {env : PreEnv} {file : Option Text} {t : Text} {σ : Reading} {q : Point} (h : Next env ⟨file, t, σ⟩ q)
    {c : Text} (h1 : EntryMet env ⟨file, t, σ⟩ c) :
    EntryMet env q c ∨ ∃ l lsep lrest sep rest name kind, t ≠ [] ∧ FirstLine t l lsep lrest ∧ EntryAt σ t l c sep rest name kind := by
  obtain ⟨file', t', σ', l, lsep, lrest, sep, rest, name, kind, h2, h3⟩ := h1
  cases h2 with
  | refl => exact Or.inr ⟨l, lsep, lrest, sep, rest, name, kind, h3⟩
  | step h4 h5 =>
    rw [h4.det h] at h5
    exact Or.inl ⟨file', t', σ', l, lsep, lrest, sep, rest, name, kind, h5, h3⟩

omit [Uni] in
theorem stripEnd_shorter {c b : Text} (h : StripEnd c b) : b.length ≤ c.length ∧ (b = c ↔ ¬ EndsWhite c) := by
  obtain ⟨w, e, h1, h2⟩ := h
  refine ⟨by rw [e]; simp, ?_, ?_⟩
  · rintro rfl ⟨r, x, e', hx⟩
    rw [h2 x r e'] at hx
    cases hx
  · intro h3
    rcases List.eq_nil_or_concat w with rfl | ⟨w', x, rfl⟩
    · rw [e]; simp
    · exact absurd ⟨b ++ w', x, by rw [e]; simp, h1 x (by simp)⟩ h3

/-- The result is never longer, and it has the same lines exactly if no entry ends in white space. -/
theorem expansion_kept {env : PreEnv} {strict : Bool} {file : Option Text} {started : Bool} {n : Nat} {t : Text}
    {σ σ' : Reading} {outs : List OutLine} (h : Expansion env strict file started n t σ outs σ') :
    ∀ {ls : List Text}, LinesOf t ls → (∀ l ∈ ls, '\r' ∉ l) → (∀ l ∈ ls, ∀ target attrs, ¬ IncludeLine l target attrs) →
    (OutLine.join outs).length ≤ (unlines ls).length ∧
      (OutLine.join outs = unlines ls ↔ ∀ c, EntryMet env ⟨file, t, σ⟩ c → ¬ EndsWhite c) := by
  induction h with
  | @done file started n σ =>
    intro ls h1 h2 h3
    cases ls with
    | nil =>
      refine ⟨by simp [OutLine.join], fun _ c hc => ?_, fun _ => rfl⟩
      obtain ⟨file', t', σ', l, lsep, lrest, sep, rest, name, kind, h4, h5, _⟩ := hc
      cases h4 with
      | refl => exact absurd rfl h5
      | step h6 _ => cases h6 <;> exact absurd rfl ‹[] ≠ []›
    | cons m ls => obtain ⟨_, _, _, _, h5⟩ := linesOf_cons h1 (h2 m (by simp)); exact absurd rfl h5
  | @text file started n t l sep rest σ outs σ' ht hl hno hni _ ih =>
    intro ls h1 h2 h3
    cases ls with
    | nil => cases h1; exact absurd rfl ht
    | cons m ls =>
      obtain ⟨sep', rest', h4, h5, h6⟩ := linesOf_cons h1 (h2 m (by simp))
      obtain ⟨rfl, rfl, rfl⟩ := hl.det h4
      obtain ⟨i1, i2⟩ := ih h5 (fun l hl => h2 l (List.mem_cons_of_mem _ hl)) (fun l hl => h3 l (List.mem_cons_of_mem _ hl))
      have hnext : Next env ⟨file, t, σ⟩ ⟨file, rest, σ.line l⟩ := .text ht hl hno hni
      rw [join_cons, unlines_cons]
      refine ⟨by simp; omega, ?_⟩
      rw [show OutLine.text ⟨l, ⟨file, n⟩⟩ ++ ['\n'] ++ OutLine.join outs = l ++ '\n' :: OutLine.join outs by simp]
      constructor
      · intro e c hc
        rcases entryMet_cases hnext hc with h7 | ⟨l', ls', lr', sep2, rest2, name, kind, _, h8, h9⟩
        · exact i2.mp (by simpa using e) c h7
        · obtain ⟨rfl, -, -⟩ := hl.det h8
          exact absurd h9 (hno _ _ _ _ _)
      · intro h7
        rw [i2.mpr (fun c hc => h7 c (entryMet_next hnext hc))]
  | @entry file started n t l lsep lrest c sep rest name kind v b σ outs σ' ht hl hea hv hb _ _ ih =>
    intro ls h1 h2 h3
    obtain ⟨pre, post, rfl, e3, e4⟩ := extent_whole hea.2.2.2.1 h1 h2 ht
    obtain ⟨i1, i2⟩ := ih e4 (fun l hl => h2 l (by simp [hl])) (fun l hl => h3 l (by simp [hl]))
    obtain ⟨b1, b2⟩ := stripEnd_shorter hb
    have hnext : Next env ⟨file, t, σ⟩ ⟨file, rest, σ.entry name v⟩ := .entry ht hl hea hv
    rw [join_append, join_numberedLines, unlines_append, ← e3]
    refine ⟨by simp; omega, ?_, ?_⟩
    · intro e
      have hlen := congrArg List.length e
      simp only [List.length_append, List.length_cons, List.length_nil] at hlen
      obtain ⟨e5, e6⟩ := List.append_inj e (by simp; omega)
      have hbc : b = c := by simpa using e5
      intro c' hc'
      rcases entryMet_cases hnext hc' with h7 | ⟨l', ls', lr', sep2, rest2, name2, kind2, _, h8, h9⟩
      · exact i2.mp e6 c' h7
      · obtain ⟨rfl, -, -⟩ := hl.det h8
        rw [← (hea.det h9).1]
        exact b2.mp hbc
    · intro h7
      rw [b2.mpr (h7 c ⟨file, t, σ, l, lsep, lrest, sep, rest, name, kind, .refl, ht, hl, hea⟩),
        i2.mpr (fun c' hc => h7 c' (entryMet_next hnext hc))]
  | @resolved file started n t l sep rest target attrs target' al text σ outs₁ σ₁ outs₂ σ₂ ht hl hno hil =>
    intro ls h1 h2 h3
    exfalso
    cases ls with
    | nil => cases h1; exact absurd rfl ht
    | cons m ls =>
      obtain ⟨sep', rest', h4, _, _⟩ := linesOf_cons h1 (h2 m (by simp))
      obtain ⟨rfl, rfl, rfl⟩ := hl.det h4
      exact h3 _ (by simp) _ _ hil
  | @unresolved file started n t l sep rest target attrs target' al σ outs σ' ht hl hno hil =>
    intro ls h1 h2 h3
    exfalso
    cases ls with
    | nil => cases h1; exact absurd rfl ht
    | cons m ls =>
      obtain ⟨sep', rest', h4, _, _⟩ := linesOf_cons h1 (h2 m (by simp))
      obtain ⟨rfl, rfl, rfl⟩ := hl.det h4
      exact h3 _ (by simp) _ _ hil

/-- A text is that of its lines, or it does not end in a line end. -/
theorem linesOf_ends {t : Text} {ls : List Text} (h : LinesOf t ls) : t = unlines ls ∨ (t ≠ [] ∧ ¬ EndsIn t '\n') := by
  induction h with
  | nil => exact Or.inl rfl
  | @last l h1 h2 => exact Or.inr ⟨h1, by rintro ⟨r, rfl⟩; simp at h2⟩
  | @cons l rest ls h1 _ ih =>
    rcases ih with e | ⟨h2, h3⟩
    · left; rw [unlines_cons, ← e]
    · refine Or.inr ⟨by simp, ?_⟩
      rintro ⟨r, e⟩
      rcases List.eq_nil_or_concat rest with rfl | ⟨q, y, rfl⟩
      · exact h2 rfl
      · refine h3 ⟨q, ?_⟩
        have e' : (l ++ '\n' :: q) ++ [y] = r ++ ['\n'] := by rw [← e]; simp
        have := List.append_inj_right' e' rfl
        rw [List.concat_eq_append, this]

theorem join_ends (outs : List OutLine) : OutLine.join outs = [] ∨ ∃ r, OutLine.join outs = r ++ ['\n'] := by
  rcases List.eq_nil_or_concat outs with rfl | ⟨q, y, rfl⟩
  · exact Or.inl rfl
  · right
    rw [List.concat_eq_append, join_append, join_cons]
    exact ⟨OutLine.join q ++ y.text, by simp [OutLine.join]⟩

theorem linesOf_length {t : Text} {ls : List Text} (h : LinesOf t ls) : (unlines ls).length ≤ t.length + 1 := by
  induction h with
  | nil => simp [unlines]
  | last _ _ => simp [unlines]
  | cons _ _ ih => rw [unlines_cons]; simp only [List.length_append, List.length_cons]; omega

/-- When preprocessing looks at the text at all. -/
theorem looks_iff {t : Text} {ls : List Text} (h : LinesOf t ls) {primary : Option Text} :
    noDirectives t primary = false ↔ primary ≠ none ∨ ∃ l ∈ ls, LikeDirective l := by
  constructor
  · intro hn
    cases primary with
    | some _ => exact Or.inl (by simp)
    | none =>
      refine Or.inr (Classical.byContradiction fun hno => ?_)
      have hno' : ∀ l ∈ ls, ¬ LikeDirective l := fun l hl h => hno ⟨l, hl, h⟩
      have hsp : ∀ l ∈ splitChar '\n' t, l ∈ ls ∨ l = [] := by
        clear hn hno hno'
        induction h with
        | nil => intro l hl; right; rw [splitChar_single (by simp)] at hl; simpa using hl
        | last _ h2 => intro l hl; rw [splitChar_single h2] at hl; left; exact hl
        | cons h1 _ ih =>
          intro l hl
          rw [splitChar_append h1] at hl
          rcases List.mem_cons.mp hl with rfl | hl
          · left; simp
          · rcases ih l hl with h | h
            · left; simp [h]
            · right; exact h
      have hlike : ∀ l ∈ splitChar '\n' t, ¬ LikeDirective l := by
        intro l hl
        rcases hsp l hl with h | rfl
        · exact hno' l h
        · rintro (⟨r, e⟩ | ⟨r, e⟩)
          · have := congrArg List.length e; simp at this
          · have := congrArg List.length e; simp at this
      obtain ⟨h1, h2⟩ := no_line_starts (t := t) (p := "include::".toList) (by decide) (fun l hl e => hlike l hl (Or.inl e))
      obtain ⟨h3, h4⟩ := no_line_starts (t := t) (p := "if".toList) (by decide) (fun l hl e => hlike l hl (Or.inr e))
      have e1 : "\ninclude::".toList = '\n' :: "include::".toList := by decide
      have e2 : "\nif".toList = '\n' :: "if".toList := by decide
      unfold noDirectives at hn
      rw [e1, e2, h1, h2, h3, h4] at hn
      cases hn
  · rintro (hp | ⟨l, hl, hd⟩)
    · unfold noDirectives
      cases primary with
      | none => exact absurd rfl hp
      | some _ => simp
    · obtain ⟨a, b, rfl⟩ := List.append_of_mem hl
      obtain ⟨r, rfl⟩ := linesOf_split a h
      rcases List.eq_nil_or_concat a with rfl | ⟨q, y, rfl⟩
      · rcases hd with ⟨s, rfl⟩ | ⟨s, rfl⟩
        · have h1 : startsWith (unlines [] ++ ("include::".toList ++ s) ++ r) "include::".toList = true :=
            startsWith_iff.mpr ⟨s ++ r, by simp [unlines]⟩
          unfold noDirectives
          rw [h1]; rfl
        · have h1 : startsWith (unlines [] ++ ("if".toList ++ s) ++ r) "if".toList = true :=
            startsWith_iff.mpr ⟨s ++ r, by simp [unlines]⟩
          unfold noDirectives
          rw [h1]; simp
      · rcases hd with ⟨s, rfl⟩ | ⟨s, rfl⟩
        · have h1 : containsSub (unlines (q.concat y) ++ ("include::".toList ++ s) ++ r) "\ninclude::".toList = true :=
            containsSub_iff.mpr ⟨unlines q ++ y, s ++ r, by
              rw [List.concat_eq_append, unlines_append]; simp [unlines]⟩
          unfold noDirectives
          rw [h1]; simp
        · have h1 : containsSub (unlines (q.concat y) ++ ("if".toList ++ s) ++ r) "\nif".toList = true :=
            containsSub_iff.mpr ⟨unlines q ++ y, s ++ r, by
              rw [List.concat_eq_append, unlines_append]; simp [unlines]⟩
          unfold noDirectives
          rw [h1]; simp

end Adoc
