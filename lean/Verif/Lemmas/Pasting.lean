import Verif.Spec.Pasting
import Verif.Lemmas.Expansion

namespace Adoc
open Spec

theorem expands_plain {known : Text → Prop} {value : Text → Text} {t t' : Text} (h : Expands known value t t') (hb : '{' ∉ t) :
    t' = t := by
  induction h with
  | nil => rfl
  | known h => exact absurd (by rw [h.2]; simp) hb
  | escaped h => exact absurd (by rw [h.2]; simp) hb
  | unknown h => exact absurd (by rw [h.2]; simp) hb
  | unknownEscaped h => exact absurd (by rw [h.2]; simp) hb
  | other _ _ _ ih => rw [ih (by intro h; exact hb (List.mem_cons_of_mem _ h))]

theorem extent_simple {t c sep rest l lsep lrest : Text} (h : Extent t c sep rest) (hl : FirstLine t l lsep lrest)
    (hs : SimpleLine l) : c = l ∧ sep = lsep ∧ rest = lrest := by
  cases h with
  | last h1 _ => exact h1.det hl
  | more h1 h2 =>
    obtain ⟨rfl, rfl, rfl⟩ := h1.det hl
    exfalso
    obtain ⟨a, sp, e, hsp⟩ := h2
    rcases List.eq_nil_or_concat sp with rfl | ⟨q, y, rfl⟩
    · exact (hs.2 a '\\' e).2 rfl
    · have h3 := hsp y (by simp)
      have h4 := (hs.2 (a ++ '\\' :: q) y (by rw [e]; simp)).1
      rw [h3] at h4
      exact absurd h4 (by decide)

theorem not_include_of_colon {l target : Text} {attrs : Option Text} (h : ∃ r, l = ':' :: r) : ¬ IncludeLine l target attrs := by
  obtain ⟨r, rfl⟩ := h
  intro h
  cases h <;> simp_all

theorem unlines_append (a b : List Text) : unlines (a ++ b) = unlines a ++ unlines b := by
  simp [unlines]

theorem expansion_pasted [Uni] {env : PreEnv} {files : Text → Option Text}
    (hfiles : ∀ file name al store, env.resolve file name al store = files name) {strict : Bool} {file : Option Text}
    {started : Bool} {n : Nat} {t : Text} {σ σ' : Reading} {outs : List OutLine}
    (h : Expansion env strict file started n t σ outs σ') :
    ∀ {ls ms : List Text}, LinesOf t ls → Pasted files ls ms → OutLine.join outs = unlines ms := by
  induction h with
  | done =>
    intro ls ms h1 h2
    cases h2 with
    | nil => rfl
    | line h3 => obtain ⟨_, _, _, _, h5⟩ := linesOf_cons h1 h3.1; exact absurd rfl h5
    | file h3 => obtain ⟨_, _, _, _, h5⟩ := linesOf_cons h1 h3; exact absurd rfl h5
  | @text file started n t l sep rest σ outs σ' ht hl hno hni _ ih =>
    intro ls ms h1 h2
    cases h2 with
    | nil => cases h1; exact absurd rfl ht
    | line h3 h4 h5 =>
      obtain ⟨sep', rest', g3, g4, g5⟩ := linesOf_cons h1 h3.1
      obtain ⟨rfl, rfl, rfl⟩ := hl.det g3
      rw [join_cons, ih g4 h5, unlines_cons]
      simp
    | file h3 h4 =>
      obtain ⟨sep', rest', g3, g4, g5⟩ := linesOf_cons h1 h3
      obtain ⟨rfl, rfl, rfl⟩ := hl.det g3
      exact absurd h4 (hni _ _)
  | @entry file started n t l lsep lrest c sep rest name kind v b σ outs σ' ht hl hea hv hb _ _ ih =>
    intro ls ms h1 h2
    cases h2 with
    | nil => cases h1; exact absurd rfl ht
    | line h3 h4 h5 =>
      obtain ⟨sep', rest', g3, g4, g5⟩ := linesOf_cons h1 h3.1
      obtain ⟨rfl, rfl, rfl⟩ := hl.det g3
      obtain ⟨rfl, rfl, rfl⟩ := extent_simple hea.2.2.2.1 hl h3
      have hbc : b = c := by
        rw [stripEnd_iff.mp hb]
        exact ((stripEnd_iff (t := c) (b := c)).mp ⟨[], by simp, by simp, fun x r e => (h3.2 r x e).1⟩).symm
      rw [join_append, ih g4 h5, join_numberedLines, hbc, unlines_cons]
      simp
    | file h3 h4 =>
      obtain ⟨sep', rest', g3, g4, g5⟩ := linesOf_cons h1 h3
      obtain ⟨rfl, rfl, rfl⟩ := hl.det g3
      exact absurd h4 (not_include_of_colon hea.2.1)
  | @resolved file started n t l sep rest target attrs target' al text σ outs₁ σ₁ outs₂ σ₂ ht hl hno hil hex _ hr _ _ ih₁ ih₂ =>
    intro ls ms h1 h2
    cases h2 with
    | nil => cases h1; exact absurd rfl ht
    | line h3 h4 h5 =>
      obtain ⟨sep', rest', g3, g4, g5⟩ := linesOf_cons h1 h3.1
      obtain ⟨rfl, rfl, rfl⟩ := hl.det g3
      exact absurd hil (h4 _ _)
    | file h3 h4 h5 h6 h7 h8 h9 =>
      obtain ⟨sep', rest', g3, g4, g5⟩ := linesOf_cons h1 h3
      obtain ⟨rfl, rfl, rfl⟩ := hl.det g3
      obtain ⟨rfl, rfl⟩ := hil.det h4
      rw [expands_plain hex h5, hfiles, h6] at hr
      cases hr
      rw [join_append, ih₁ h7 h8, ih₂ g4 h9, unlines_append]
  | @unresolved file started n t l sep rest target attrs target' al σ outs σ' ht hl hno hil hex _ hr =>
    intro ls ms h1 h2
    cases h2 with
    | nil => cases h1; exact absurd rfl ht
    | line h3 h4 h5 =>
      obtain ⟨sep', rest', g3, g4, g5⟩ := linesOf_cons h1 h3.1
      obtain ⟨rfl, rfl, rfl⟩ := hl.det g3
      exact absurd hil (h4 _ _)
    | file h3 h4 h5 h6 h7 h8 h9 =>
      obtain ⟨sep', rest', g3, g4, g5⟩ := linesOf_cons h1 h3
      obtain ⟨rfl, rfl, rfl⟩ := hl.det g3
      obtain ⟨rfl, rfl⟩ := hil.det h4
      rw [expands_plain hex h5, hfiles, h6] at hr
      cases hr

theorem pasted_plain {files : Text → Option Text} {ls ms : List Text} (h : Pasted files ls ms) :
    ∀ l ∈ ms, SimpleLine l ∧ ∀ target attrs, ¬ IncludeLine l target attrs := by
  induction h with
  | nil => simp
  | line h1 h2 _ ih =>
    intro l hl
    rcases List.mem_cons.mp hl with rfl | hl
    · exact ⟨h1, h2⟩
    · exact ih l hl
  | file _ _ _ _ _ _ _ ih₁ ih₂ =>
    intro l hl
    rcases List.mem_append.mp hl with hl | hl
    · exact ih₁ l hl
    · exact ih₂ l hl

theorem pasted_plainLines {files : Text → Option Text} {ls ms : List Text} (h : Pasted files ls ms) : PlainLines ms :=
  have hp := pasted_plain h
  ⟨fun l hl => (hp l hl).1.1, fun l hl => (hp l hl).2, fun l hl c r e => ((hp l hl).1.2 r c e).1,
   fun a l m b e hx => by obtain ⟨r, hr⟩ := hx; exact absurd rfl ((hp l (by rw [e]; simp)).1.2 r '\\' hr).2⟩

theorem linesOf_split [Uni] : ∀ (a : List Text) {t l : Text} {b : List Text}, LinesOf t (a ++ l :: b) → ∃ r, t = unlines a ++ l ++ r
  | [], t, l, b, h => by
    cases h with
    | last => exact ⟨[], by simp [unlines]⟩
    | @cons _ rest => exact ⟨'\n' :: rest, by simp [unlines]⟩
  | x :: a, t, l, b, h => by
    cases h' : a ++ l :: b with
    | nil => simp at h'
    | cons y ys =>
      rw [List.cons_append, h'] at h
      cases h with
      | cons h1 h2 =>
        rw [← h'] at h2
        obtain ⟨r, rfl⟩ := linesOf_split a h2
        exact ⟨r, by rw [unlines_cons]; simp⟩

theorem directive_found [Uni] {t l name : Text} {attrs primary : Option Text} {ls : List Text} (h : LinesOf t ls) (hl : l ∈ ls)
    (hi : IncludeLine l name attrs) : noDirectives t primary = false := by
  obtain ⟨a, b, rfl⟩ := List.append_of_mem hl
  obtain ⟨r, rfl⟩ := linesOf_split a h
  obtain ⟨⟨inner, e, _⟩, _⟩ := hi
  rcases List.eq_nil_or_concat a with rfl | ⟨q, y, rfl⟩
  · have h1 : startsWith (unlines [] ++ l ++ r) "include::".toList = true :=
      startsWith_iff.mpr ⟨name ++ '[' :: inner ++ [']'] ++ r, by rw [e]; simp [unlines]⟩
    unfold noDirectives
    rw [h1]; rfl
  · have h1 : containsSub (unlines (q.concat y) ++ l ++ r) "\ninclude::".toList = true :=
      containsSub_iff.mpr ⟨unlines q ++ y, name ++ '[' :: inner ++ [']'] ++ r, by
        rw [e, List.concat_eq_append, unlines_append]; simp [unlines]⟩
    unfold noDirectives
    rw [h1]
    simp

theorem linesOf_noNl {t : Text} {ls : List Text} (h : LinesOf t ls) : ∀ l ∈ ls, '\n' ∉ l := by
  induction h with
  | nil => simp
  | last _ h => simpa using h
  | cons h _ ih =>
    intro l hl
    rcases List.mem_cons.mp hl with rfl | hl
    · exact h
    · exact ih l hl

theorem noNl_pasted {files : Text → Option Text} {ls ms : List Text} (h : Pasted files ls ms) (hn : ∀ l ∈ ls, '\n' ∉ l) :
    ∀ l ∈ ms, '\n' ∉ l := by
  induction h with
  | nil => simp
  | line _ _ _ ih =>
    intro l hl
    rcases List.mem_cons.mp hl with rfl | hl
    · exact hn _ (by simp)
    · exact ih (fun x hx => hn x (List.mem_cons_of_mem _ hx)) l hl
  | file _ _ _ _ hi _ _ ih₁ ih₂ =>
    intro l hl
    rcases List.mem_append.mp hl with hl | hl
    · exact ih₁ (linesOf_noNl hi) l hl
    · exact ih₂ (fun x hx => hn x (List.mem_cons_of_mem _ hx)) l hl

theorem pasted_noNl {files : Text → Option Text} {t : Text} {ls ms : List Text} (h : LinesOf t ls) (hp : Pasted files ls ms) :
    ∀ l ∈ ms, '\n' ∉ l := noNl_pasted hp (linesOf_noNl h)

theorem linesOf_unlines [Uni] : ∀ (ls : List Text), (∀ l ∈ ls, '\n' ∉ l) → LinesOf (unlines ls) ls
  | [], _ => .nil
  | l :: ls, h => by
    rw [unlines_cons]
    exact .cons (h l (by simp)) (linesOf_unlines ls fun x hx => h x (List.mem_cons_of_mem _ hx))

theorem split_unlines [Uni] : ∀ {ls : List Text}, (∀ l ∈ ls, '\n' ∉ l) →
    (∀ l ∈ ls, (¬ ∃ r, l = "include::".toList ++ r) ∧ ¬ ∃ r, l = "if".toList ++ r) →
    ∀ l ∈ splitChar '\n' (unlines ls), (¬ ∃ r, l = "include::".toList ++ r) ∧ ¬ ∃ r, l = "if".toList ++ r
  | [], _, _, l, hl => by
    have : l = [] := by simpa [unlines, splitChar] using hl
    subst this
    exact ⟨by rintro ⟨r, hr⟩; simp at hr, by rintro ⟨r, hr⟩; simp at hr⟩
  | m :: ls, h, hd, l, hl => by
    rw [unlines_cons, splitChar_append (h m (by simp))] at hl
    rcases List.mem_cons.mp hl with rfl | hl
    · exact hd _ (by simp)
    · exact split_unlines (fun x hx => h x (List.mem_cons_of_mem _ hx)) (fun x hx => hd x (List.mem_cons_of_mem _ hx)) l hl

end Adoc
