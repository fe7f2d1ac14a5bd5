import Verif.Spec.Delimiters
import Verif.Lemmas.Gaps
/-!
# Delimiters of another length
-/

namespace Adoc
open Span Spec Props

private theorem form_delimiter {l : Text} {f : Form} (h : LineForm l f) (h1 : ∀ m x, f ≠ .verbatim m x) (h2 : ∀ x, f ≠ .container x) :
    ¬ Delimiter l := by
  rintro (⟨c, hc⟩ | ⟨x, hx⟩)
  · exact h1 _ _ (lineForm_unique h (.verbatim hc))
  · exact h2 _ (lineForm_unique h (.container hx))

private theorem delimiter_ends {l : Text} (h : Delimiter l) : EndsParagraph l := by
  rcases h with h | ⟨x, h⟩
  · exact Or.inr (Or.inr (Or.inl h))
  · refine Or.inr (Or.inr (Or.inr ?_))
    rcases h with ⟨rfl, _⟩ | ⟨n, ⟨rfl, _⟩ | ⟨rfl, _⟩ | ⟨rfl, _⟩⟩
    · exact Or.inl rfl
    · exact Or.inr ⟨'=', n, by simp, rfl⟩
    · exact Or.inr ⟨'*', n, by simp, rfl⟩
    · exact Or.inr ⟨'_', n, by simp, rfl⟩

private theorem delimiter_head {l : Text} (h : Delimiter l) : ∃ a b r, l = a :: b :: r ∧ a ≠ ' ' ∧ a ≠ '\t' ∧ a ≠ '[' ∧ (a = '.' → b = '.') := by
  rcases h with ⟨c, hc, n, rfl⟩ | ⟨x, h⟩
  · refine ⟨c, c, List.replicate (n + 2) c, rfl, ?_⟩
    rcases hc with rfl | rfl | rfl | rfl <;> decide
  · rcases h with ⟨rfl, _⟩ | ⟨n, ⟨rfl, _⟩ | ⟨rfl, _⟩ | ⟨rfl, _⟩⟩
    · exact ⟨'-', '-', [], rfl, by decide⟩
    · exact ⟨'=', '=', List.replicate (n + 2) '=', rfl, by decide⟩
    · exact ⟨'*', '*', List.replicate (n + 2) '*', rfl, by decide⟩
    · exact ⟨'_', '_', List.replicate (n + 2) '_', rfl, by decide⟩

private theorem blank_delimiter {l : Text} (h : ∀ c ∈ l, c = ' ' ∨ c = '\t') : ¬ Delimiter l := by
  intro hd
  obtain ⟨a, b, r, rfl, h1, h2, _⟩ := delimiter_head hd
  exact (h a (by simp)).elim h1 h2

private theorem label_delimiter {R : Rendering} {label : Label} {mls : List Text} (h : LabelLines R label mls) :
    ∀ l ∈ mls, ¬ Delimiter l := by
  have bracket : ∀ {x : Text}, ¬ Delimiter ('[' :: x) := by
    intro x hd
    obtain ⟨a, b, r, e, _, _, h3, _⟩ := delimiter_head hd
    exact h3 (List.cons.inj e).1.symm
  induction h with
  | nil => simp
  | title h1 _ ih =>
    intro l hl hd
    rcases List.mem_cons.mp hl with rfl | hl
    · obtain ⟨t, rfl, h2, _⟩ := h1
      obtain ⟨a, b, r, e, _, _, _, h3⟩ := delimiter_head hd
      obtain ⟨rfl, rfl⟩ := List.cons.inj e
      exact h2 (by rw [h3 rfl]; rfl)
    · exact ih l hl hd
  | attrs h1 _ ih =>
    intro l hl hd
    rcases List.mem_cons.mp hl with rfl | hl
    · obtain ⟨a, rfl, _⟩ := h1
      exact bracket hd
    · exact ih l hl hd
  | anchor h1 _ ih =>
    intro l hl hd
    rcases List.mem_cons.mp hl with rfl | hl
    · rw [h1.1] at hd
      exact bracket hd
    · exact ih l hl hd

variable {f : Text → Text} (hf : Redelimits f)
include hf

private theorem map_same {ls : List Text} (h : ∀ l ∈ ls, ¬ Delimiter l) : ls.map f = ls := by
  induction ls with
  | nil => rfl
  | cons l ls ih => rw [List.map_cons, hf.same l (h l (by simp)), ih fun x hx => h x (List.mem_cons_of_mem _ hx)]

private theorem ends_delimiter {l : Text} (h : EndsParagraph l) : EndsParagraph (f l) := by
  by_cases hd : Delimiter l
  · refine delimiter_ends ?_
    rcases hd with ⟨c, hc⟩ | ⟨x, hx⟩
    · exact Or.inl ⟨c, hf.raw c l hc⟩
    · exact Or.inr ⟨x, hf.compound x l hx⟩
  · rw [hf.same l hd]; exact h

private theorem nil_delimiter : f [] = [] := hf.same [] (blank_delimiter (by simp))

private theorem paragraph_delimiter {b : Bool} {x taken rest : List Text} (h : Paragraph b x taken rest)
    (hc : ∀ l ∈ taken, ¬ CommentLine l) (hd : b = false → ∀ l, taken.head? = some l → ¬ Delimiter l) :
    Paragraph b (taken ++ rest.map f) taken (rest.map f) ∧ ∀ l ∈ taken, ¬ Delimiter l := by
  induction h with
  | @stop b ls h1 =>
    refine ⟨.stop fun l r e => ?_, by simp⟩
    cases ls with
    | nil => cases e
    | cons a as =>
      cases e
      rcases h1 a as rfl with rfl | ⟨hb, he⟩
      · exact Or.inl (nil_delimiter hf)
      · exact Or.inr ⟨hb, ends_delimiter hf he⟩
  | comment h1 _ _ _ => exact absurd h1 (hc _ (by simp))
  | @line b l ls taken rest h1 h2 h3 _ ih =>
    obtain ⟨g1, g2⟩ := ih (fun x hx => hc x (List.mem_cons_of_mem _ hx)) (by simp)
    refine ⟨.line h1 h2 h3 g1, fun x hx => ?_⟩
    rcases List.mem_cons.mp hx with rfl | hx
    · cases b with
      | false => exact hd rfl _ rfl
      | true => exact fun hd => h3 ⟨rfl, delimiter_ends hd⟩
    · exact g2 x hx

private theorem not_mem_delimiter {d : Text} {ls : List Text} (h : d ∉ ls) : f d ∉ ls.map f := by
  intro hm
  obtain ⟨a, ha, e⟩ := List.mem_map.mp hm
  rw [hf.inj _ _ e] at ha
  exact h ha

theorem layout_delimiter {R : Rendering} {s : Bool} {ps : List Token} {ls : List Text} (h : Layout R s ps ls)
    (hp : ∀ x ∈ ps, x.Apart Delimiter) (hc : ∀ l ∈ ls, ¬ CommentLine l) : Layout R s ps (ls.map f) := by
  refine Layout.rec (R := R)
    (motive_1 := fun s ps ls _ => (∀ x ∈ ps, x.Apart Delimiter) → (∀ l ∈ ls, ¬ CommentLine l) → Layout R s ps (ls.map f))
    (motive_2 := fun as x s ls rest _ => x.Apart Delimiter → (∀ l ∈ ls, ¬ CommentLine l) →
      Takes R as x s (ls.map f) (rest.map f) ∧ ∀ l ∈ rest, l ∈ ls)
    ?_ ?_ ?_ ?_ ?_ ?_ ?_ ?_ ?_ ?_ ?_ ?_ h hp hc
  · intro s _ _
    exact .nil
  · intro ls h _ _
    rw [map_same hf fun l hl => blank_delimiter (h l hl)]
    exact .done h
  · intro s l x ps ls h1 _ ih hp hc
    rw [List.map_cons, hf.same l (blank_delimiter (by rcases h1 with rfl | h1; simp; exact h1.2))]
    exact .blank h1 (ih hp fun l hl => hc l (List.mem_cons_of_mem _ hl))
  · intro s x ps s' ls rest h1 _ ih1 ih2 hp hc
    obtain ⟨g1, g2⟩ := ih1 (hp _ (by simp)) hc
    exact .piece g1 (ih2 (fun x hx => hp x (List.mem_cons_of_mem _ hx)) fun l hl => hc l (g2 l hl))
  · intro as l p rest texts r h1 h2 h3 h4 _ hc
    have hb : ¬ Delimiter l := form_delimiter h1.form (by simp) (by simp)
    obtain ⟨g1, g2⟩ := paragraph_delimiter hf h2 (fun x hx => hc x (List.mem_append_left _ hx)) (fun _ x e => by cases e; exact hb)
    refine ⟨?_, fun x hx => List.mem_append_right _ hx⟩
    rw [List.map_append, map_same hf g2]
    exact .para h1 g1 h3 h4
  · intro as c d body rest h1 h2 h3 h4 hp _
    cases hp with
    | verbatim h =>
      refine ⟨?_, fun x hx => by simp [hx]⟩
      have hm := not_mem_delimiter hf h2
      rw [map_same hf h] at hm
      rw [List.map_append, List.map_cons, List.map_cons, map_same hf h]
      exact .verbatim (hf.raw c d h1) hm h3 h4
  · intro as ty l rest h1 h2 _ _
    rw [List.map_cons, hf.same l (form_delimiter (.brk h1) (by simp) (by simp))]
    exact ⟨.brk h1 h2, fun x hx => List.mem_cons_of_mem _ hx⟩
  · intro as ty target a attrs l rest h1 h2 h3 h4 _ _
    rw [List.map_cons, hf.same l (form_delimiter (.media h1 h2) (by simp) (by simp))]
    exact ⟨.media h1 h2 h3 h4, fun x hx => List.mem_cons_of_mem _ hx⟩
  · intro as context d blocks body rest h1 h2 h3 h4 h5 ih hp hc
    have hp' : ∀ x ∈ blocks.map Token.leaf, x.Apart Delimiter := by
      intro x hx
      obtain ⟨b, hb, rfl⟩ := List.mem_map.mp hx
      cases hp with
      | container h => exact h b hb
    rw [List.map_append, List.map_cons, List.map_cons]
    exact ⟨.container (hf.compound _ _ h1) (hf.marks _ h2) (not_mem_delimiter hf h3) (ih hp' fun l hl => hc l (by simp [hl])) h5,
      fun x hx => by simp [hx]⟩
  · intro as n title r l rest h1 h2 h3 _ _
    rw [List.map_cons, hf.same l (form_delimiter (.heading h2) (by simp) (by simp))]
    exact ⟨.discrete h1 h2 h3, fun x hx => List.mem_cons_of_mem _ hx⟩
  · intro label b s mls ls rest h1 h2 h3 h4 _ ih hp hc
    have hp' : (Token.leaf b).Apart Delimiter := by cases hp with | labelled h => exact h
    obtain ⟨g1, g2⟩ := ih hp' fun l hl => hc l (List.mem_append_right _ hl)
    rw [List.map_append, map_same hf (label_delimiter h1)]
    exact ⟨.labelled h1 h2 h3 h4 g1, fun x hx => List.mem_append_right _ (g2 x hx)⟩
  · intro n title r l rest label ls h1 h2 h3 _ _
    rw [List.map_append, List.map_cons, map_same hf (label_delimiter h1.written),
      hf.same l (form_delimiter (.heading h2) (by simp) (by simp))]
    exact ⟨.heading h1 h2 h3, fun x hx => by simp [hx]⟩

end Adoc
