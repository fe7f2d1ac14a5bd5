import Verif.Spec.Gaps
import Verif.Lemmas.Comments
/-!
# More empty lines between blocks
-/

namespace Adoc
open Span Spec Props

theorem spread_same {ls ls' : List Text} (h : Spread ls ls') (hb : ∀ l ∈ ls, l ≠ []) : ls' = ls := by
  induction h with
  | nil => rfl
  | @cons l g ls ls' h1 _ _ ih =>
    have hc : g = [] := Classical.byContradiction fun hne => hb l (by simp) (h1 hne)
    rw [hc, ih fun x hx => hb x (List.mem_cons_of_mem _ hx)]
    rfl

theorem spread_split {a : List Text} : ∀ {b x : List Text}, Spread (a ++ b) x →
    ∃ a' b', x = a' ++ b' ∧ Spread a a' ∧ Spread b b' := by
  induction a with
  | nil => exact fun h => ⟨[], _, rfl, .nil, h⟩
  | cons l a ih =>
    intro b x h
    cases h with
    | @cons _ g _ ls' h1 h2 h3 =>
      obtain ⟨a', b', rfl, h4, h5⟩ := ih h3
      exact ⟨l :: (g ++ a'), b', by simp, .cons h1 h2 h4, h5⟩

theorem spread_one {l : Text} {ls x : List Text} (h : Spread (l :: ls) x) (hl : l ≠ []) : ∃ ls', x = l :: ls' ∧ Spread ls ls' := by
  cases h with
  | @cons _ g _ ls' h1 h2 h3 =>
    have hc : g = [] := Classical.byContradiction fun hne => hl (h1 hne)
    exact ⟨ls', by rw [hc]; rfl, h3⟩

theorem spread_mem {ls ls' : List Text} (h : Spread ls ls') {l : Text} (hl : l ∈ ls') : l ∈ ls ∨ l = [] := by
  induction h with
  | nil => cases hl
  | cons _ h2 _ ih =>
    rcases List.mem_cons.mp hl with rfl | hl
    · exact Or.inl (by simp)
    · rcases List.mem_append.mp hl with hl | hl
      · exact Or.inr (h2 l hl)
      · exact (ih hl).imp (List.mem_cons_of_mem _) id

/-- What follows a paragraph matters by its first line only. -/
theorem paragraph_spread {b : Bool} {x taken rest : List Text} (h : Paragraph b x taken rest) : ∀ {rest' : List Text},
    Spread rest rest' → Paragraph b (taken ++ rest') taken rest' := by
  induction h with
  | @stop b ls h1 =>
    intro r' hr
    refine .stop fun l r e => ?_
    cases hr with
    | nil => cases e
    | cons _ _ _ => cases e; exact h1 _ _ rfl
  | comment h1 h2 _ ih => exact fun hr => .comment h1 h2 (ih hr)
  | line h1 h2 h3 _ ih => exact fun hr => .line h1 h2 h3 (ih hr)

theorem paragraph_full {b : Bool} {x taken rest : List Text} (h : Paragraph b x taken rest) : ∀ l ∈ taken, l ≠ [] := by
  induction h with
  | stop _ => simp
  | comment h1 _ _ ih =>
    intro l hl
    rcases List.mem_cons.mp hl with rfl | hl
    · obtain ⟨r, rfl, _⟩ := h1; simp
    · exact ih l hl
  | line h1 _ _ _ ih =>
    intro l hl
    rcases List.mem_cons.mp hl with rfl | hl
    · exact h1
    · exact ih l hl

private theorem label_full {R : Rendering} {label : Label} {mls : List Text} (h : LabelLines R label mls) : ∀ l ∈ mls, l ≠ [] := by
  induction h with
  | nil => simp
  | title h1 _ ih =>
    intro l hl
    rcases List.mem_cons.mp hl with rfl | hl
    · obtain ⟨t, rfl, _⟩ := h1; simp
    · exact ih l hl
  | attrs h1 _ ih =>
    intro l hl
    rcases List.mem_cons.mp hl with rfl | hl
    · obtain ⟨a, rfl, _⟩ := h1; simp
    · exact ih l hl
  | anchor h1 _ ih =>
    intro l hl
    rcases List.mem_cons.mp hl with rfl | hl
    · rw [h1.1]; simp
    · exact ih l hl

private theorem heading_full {n : Nat} {title l : Text} (h : Heading n title l) : l ≠ [] := by
  obtain ⟨_, _, m, gap, _, _, _, _, rfl⟩ := h
  rw [List.replicate_succ]
  simp

private theorem compound_full {d context : Text} (h : CompoundLine d context) : d ≠ [] := by
  rcases h with ⟨rfl, _⟩ | ⟨n, ⟨rfl, _⟩ | ⟨rfl, _⟩ | ⟨rfl, _⟩⟩ <;> simp

private theorem layout_blanks {R : Rendering} {s : Bool} {x : Token} {ps : List Token} {ls : List Text} (h : Layout R s (x :: ps) ls) :
    ∀ {g : List Text}, (∀ l ∈ g, l = []) → Layout R s (x :: ps) (g ++ ls) := by
  intro g hg
  induction g with
  | nil => exact h
  | cons a g ih => exact .blank (Or.inl (hg a (by simp))) (ih fun l hl => hg l (List.mem_cons_of_mem _ hl))

theorem layout_spread {R : Rendering} {s : Bool} {ps : List Token} {ls ls' : List Text} (h : Layout R s ps ls)
    (hp : ∀ x ∈ ps, x.Apart (· = [])) (hr : Spread ls ls') : Layout R s ps ls' := by
  refine Layout.rec (R := R) (motive_1 := fun s ps ls _ => ∀ ls', (∀ x ∈ ps, x.Apart (· = [])) → Spread ls ls' → Layout R s ps ls')
    (motive_2 := fun as x s ls rest _ => ∀ ls', x.Apart (· = []) → Spread ls ls' → ∃ rest', Takes R as x s ls' rest' ∧ Spread rest rest')
    ?_ ?_ ?_ ?_ ?_ ?_ ?_ ?_ ?_ ?_ ?_ ?_ h ls' hp hr
  · intro s ls' _ hr
    cases hr; exact .nil
  · intro ls h ls' _ hr
    refine .done fun l hl => ?_
    rcases spread_mem hr hl with hl | rfl
    · exact h l hl
    · simp
  · intro s l x ps ls h1 _ ih ls' hp hr
    cases hr with
    | cons _ h3 h4 => exact .blank h1 (layout_blanks (ih _ hp h4) h3)
  · intro s x ps s' ls rest h1 _ ih1 ih2 ls' hp hr
    obtain ⟨rest', g1, g2⟩ := ih1 _ (hp _ (by simp)) hr
    exact .piece g1 (ih2 _ (fun x hx => hp x (List.mem_cons_of_mem _ hx)) g2)
  · intro as l p rest texts r h1 h2 h3 h4 ls' _ hr
    obtain ⟨a', rest', rfl, g1, g2⟩ := spread_split hr
    rw [spread_same g1 (paragraph_full h2)]
    exact ⟨rest', .para h1 (paragraph_spread h2 g2) h3 h4, g2⟩
  · intro as c d body rest h1 h2 h3 h4 ls' hp hr
    have hd : d ≠ [] := by obtain ⟨_, n, rfl⟩ := h1; simp
    obtain ⟨x, rfl, hx⟩ := spread_one hr hd
    obtain ⟨body', y, rfl, g1, g2⟩ := spread_split hx
    obtain ⟨rest', rfl, g3⟩ := spread_one g2 hd
    cases hp with
    | verbatim h =>
      rw [spread_same g1 h]
      exact ⟨rest', .verbatim h1 h2 h3 h4, g3⟩
  · intro as ty l rest h1 h2 ls' _ hr
    have hl : l ≠ [] := by
      rintro rfl
      cases ty with
      | thematic =>
        obtain ⟨x, hx, e⟩ := h1
        simp only [List.mem_cons, List.not_mem_nil, or_false] at hx
        rcases hx with rfl | rfl | rfl | rfl | rfl <;> exact absurd e (by decide)
      | page => cases h1
    obtain ⟨x, rfl, hx⟩ := spread_one hr hl
    exact ⟨x, .brk h1 h2, hx⟩
  · intro as ty target a attrs l rest h1 h2 h3 h4 ls' _ hr
    obtain ⟨x, rfl, hx⟩ := spread_one hr (by rw [h1.1]; simp)
    exact ⟨x, .media h1 h2 h3 h4, hx⟩
  · intro as context d blocks body rest h1 h2 h3 h4 h5 ih ls' hp hr
    have hd := compound_full h1
    obtain ⟨x, rfl, hx⟩ := spread_one hr hd
    obtain ⟨body', y, rfl, g1, g2⟩ := spread_split hx
    obtain ⟨rest', rfl, g3⟩ := spread_one g2 hd
    have hp' : ∀ x ∈ blocks.map Token.leaf, x.Apart (· = []) := by
      intro x hx
      obtain ⟨b, hb, rfl⟩ := List.mem_map.mp hx
      cases hp with
      | container h => exact h b hb
    refine ⟨rest', .container h1 h2 (fun hm => ?_) (ih _ hp' g1) h5, g3⟩
    exact (spread_mem g1 hm).elim h3 hd
  · intro as n title r l rest h1 h2 h3 ls' _ hr
    obtain ⟨x, rfl, hx⟩ := spread_one hr (heading_full h2)
    exact ⟨x, .discrete h1 h2 h3, hx⟩
  · intro label b s mls ls rest h1 h2 h3 h4 _ ih ls' hp hr
    obtain ⟨a', b', rfl, g1, g2⟩ := spread_split hr
    rw [spread_same g1 (label_full h1)]
    have hp' : (Token.leaf b).Apart (· = []) := by cases hp with | labelled h => exact h
    obtain ⟨rest', k1, k2⟩ := ih _ hp' g2
    exact ⟨rest', .labelled h1 h2 h3 h4 k1, k2⟩
  · intro n title r l rest label ls h1 h2 h3 ls' _ hr
    obtain ⟨a', b', rfl, g1, g2⟩ := spread_split hr
    rw [spread_same g1 (label_full h1.written)]
    obtain ⟨x, rfl, hx⟩ := spread_one g2 (heading_full h2)
    exact ⟨x, .heading h1 h2 h3, hx⟩

end Adoc
