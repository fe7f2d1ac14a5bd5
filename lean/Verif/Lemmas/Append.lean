import Verif.Lemmas.Around
/-!
# Text behind an empty line at the end of a document
-/

namespace Adoc
open Span Spec Props

theorem paragraph_before {b : Bool} {ls taken rest xs : List Text} (h : Paragraph b ls taken rest) :
    Paragraph b (ls ++ [] :: xs) taken (rest ++ [] :: xs) := by
  induction h with
  | @stop b ls h1 =>
    refine .stop fun l r e => ?_
    cases ls with
    | nil => cases e; exact Or.inl rfl
    | cons a as => cases e; exact h1 _ _ rfl
  | comment h1 h2 _ ih => exact .comment h1 h2 ih
  | line h1 h2 h3 _ ih => exact .line h1 h2 h3 ih

theorem layout_skips {R : Rendering} {ps : List Token} : ∀ {ls : List Text}, Layout R false ps ls → ∀ {s : Bool}, Layout R s ps ls := by
  intro ls
  induction ls with
  | nil =>
    intro h s
    cases h with
    | nil => exact .nil
    | piece h1 h2 => exact .piece h1 h2
  | cons l ls ih =>
    intro h s
    cases h with
    | blank h1 h2 =>
      rcases h1 with rfl | ⟨h1, _⟩
      · exact .blank (Or.inl rfl) (ih h2)
      · cases h1
    | piece h1 h2 => exact .piece h1 h2

/-- Behind the lines for some blocks and headings, and an empty line, there may be more of them. -/
theorem layout_append {R : Rendering} {s : Bool} {ps ps2 : List Token} {ls xs : List Text} (h : Layout R s ps ls)
    (hx : Layout R false ps2 xs) (hne : ps2 ≠ []) : Layout R s (ps ++ ps2) (ls ++ [] :: xs) := by
  obtain ⟨x2, ps2, rfl⟩ := List.exists_cons_of_ne_nil hne
  refine Layout.rec (R := R) (motive_1 := fun s ps ls _ => Layout R s (ps ++ x2 :: ps2) (ls ++ [] :: xs))
    (motive_2 := fun as x s ls rest _ => Takes R as x s (ls ++ [] :: xs) (rest ++ [] :: xs))
    ?_ ?_ ?_ ?_ ?_ ?_ ?_ ?_ ?_ ?_ ?_ ?_ h
  · exact .blank (Or.inl rfl) (layout_skips hx)
  · intro ls h1
    induction ls with
    | nil => exact .blank (Or.inl rfl) (layout_skips hx)
    | cons l ls ih => exact .blank (Or.inr ⟨rfl, h1 l (by simp)⟩) (ih fun l hl => h1 l (List.mem_cons_of_mem _ hl))
  · intro s l x ps ls h1 _ ih
    exact .blank h1 ih
  · intro s x ps s' ls rest _ _ ih1 ih2
    exact .piece ih1 ih2
  · intro as l p rest texts r h1 h2 h3 h4
    have := paragraph_before (xs := xs) h2
    rw [List.append_assoc] at this ⊢
    exact .para h1 this h3 h4
  · intro as c d body rest h1 h2 h3 h4
    simp only [List.cons_append, List.append_assoc]
    exact .verbatim h1 h2 h3 h4
  · intro as ty l rest h1 h2
    exact .brk h1 h2
  · intro as ty target a attrs l rest h1 h2 h3 h4
    exact .media h1 h2 h3 h4
  · intro as context d blocks body rest h1 h2 h3 h4 h5 _
    simp only [List.cons_append, List.append_assoc]
    exact .container h1 h2 h3 h4 h5
  · intro as n title r l rest h1 h2 h3
    exact .discrete h1 h2 h3
  · intro label b s mls ls rest h1 h2 h3 h4 _ ih
    rw [List.append_assoc]
    exact .labelled h1 h2 h3 h4 ih
  · intro n title r l rest label ls h1 h2 h3
    rw [List.append_assoc]
    exact .heading h1 h2 h3

private theorem label_colon {R : Rendering} {label : Label} {l : Text} {mls : List Text} (h : LabelLines R label (l :: mls)) :
    l.head? ≠ some ':' := by
  cases h with
  | title h1 _ => obtain ⟨t, rfl, _⟩ := h1; simp
  | attrs h1 _ => obtain ⟨a, rfl, _⟩ := h1; simp
  | anchor h1 _ => rw [h1.1]; simp

private theorem heading_colon {n : Nat} {title l : Text} (h : Heading n title l) : l.head? ≠ some ':' := by
  obtain ⟨_, _, m, gap, hm, _, _, _, rfl⟩ := h
  rw [List.replicate_succ]
  rcases hm with rfl | rfl <;> simp

/-- No block or heading begins with a colon. -/
theorem layout_colon {R : Rendering} {s : Bool} {ps : List Token} {ls : List Text} (h : Layout R s ps ls) :
    ∀ l, ls.head? = some l → l.head? ≠ some ':' := by
  have blank : ∀ {l : Text}, (∀ c ∈ l, c = ' ' ∨ c = '\t') → l.head? ≠ some ':' := by
    intro l h e
    cases l with
    | nil => cases e
    | cons a l => cases e; exact absurd (h ':' (by simp)) (by decide)
  refine Layout.rec (R := R) (motive_1 := fun s ps ls _ => ∀ l, ls.head? = some l → l.head? ≠ some ':')
    (motive_2 := fun as x s ls rest _ => ∀ l, ls.head? = some l → l.head? ≠ some ':')
    ?_ ?_ ?_ ?_ ?_ ?_ ?_ ?_ ?_ ?_ ?_ ?_ h
  · intro s l e; cases e
  · intro ls h l e; exact blank (h l (List.mem_of_mem_head? e))
  · intro s l x ps ls h1 _ _ l' e
    cases e
    rcases h1 with rfl | h1
    · simp
    · exact blank h1.2
  · intro s x ps s' ls rest _ _ ih _; exact ih
  · intro as l p rest texts r h1 _ _ _ l' e
    cases e
    obtain ⟨c, r, rfl, _, hc⟩ := h1.head
    simpa using hc
  · intro as c d body rest h1 _ _ _ l e
    cases e
    obtain ⟨hc, n, rfl⟩ := h1
    rw [List.replicate_succ]
    rcases hc with rfl | rfl | rfl | rfl <;> simp
  · intro as ty l rest h1 _ l' e
    cases e
    cases ty with
    | thematic =>
      obtain ⟨x, hx, rfl⟩ := h1
      simp only [List.mem_cons, List.not_mem_nil, or_false] at hx
      rcases hx with rfl | rfl | rfl | rfl | rfl <;> decide
    | page => cases h1; decide
  · intro as ty target a attrs l rest h1 _ _ _ l' e
    cases e
    rw [h1.1]
    cases ty <;> simp [macroName]
  · intro as context d blocks body rest h1 _ _ _ _ _ l e
    cases e
    rcases h1 with ⟨rfl, _⟩ | ⟨n, ⟨rfl, _⟩ | ⟨rfl, _⟩ | ⟨rfl, _⟩⟩ <;> simp [List.replicate_succ]
  · intro as n title r l rest _ h1 _ l' e
    cases e
    exact heading_colon h1
  · intro label b s mls ls rest h1 h2 _ _ _ _ l e
    obtain ⟨m, mls, rfl⟩ := List.exists_cons_of_ne_nil h2
    cases e
    exact label_colon h1
  · intro n title r l rest label ls h1 h2 _ l' e
    cases ls with
    | nil => cases e; exact heading_colon h2
    | cons m ls => cases e; exact label_colon h1.written

/-- The header does not stop at a colon. -/
theorem rest_colon {R : Rendering} {s : Bool} {ps : List Token} {rest body : Text} (h2 : SkipEmpty rest body)
    (h : Layout R s ps (lines body)) : rest.head? ≠ some ':' := by
  intro hr
  obtain ⟨l, sep, r, hf⟩ : ∃ l sep r, FirstLine rest l sep r := by
    letI := asciiUni
    exact firstLine_exists rest
  have hne : rest ≠ [] := by rintro rfl; cases hr
  have hl : l.head? = some ':' := by
    cases l with
    | cons => rw [hf.eq] at hr; exact hr
    | nil =>
      rw [hf.eq] at hr
      rcases hf.term with rfl | rfl | ⟨rfl, e⟩
      · cases hr
      · cases hr
      · rcases e with rfl | rfl <;> cases hr
  have hb : body = rest := by
    cases h2 with
    | stop _ => rfl
    | skip h1 h2 h3 _ =>
      rw [(h2.det hf).1] at h3
      exact absurd (h3 ':' (List.mem_of_mem_head? hl)) (by decide)
  subst hb
  rw [firstLine_lines hf hne] at h
  refine layout_colon h _ rfl ?_
  cases l with
  | nil => cases hl
  | cons a l =>
    cases hl
    obtain ⟨w, e, hw⟩ := trimEndP_spec (· == ' ') (':' :: l)
    cases hx : trimEndP (· == ' ') (':' :: l) with
    | nil => rw [hx, List.nil_append] at e; rw [← e] at hw; simp at hw
    | cons b m => rw [hx] at e; cases e; rfl

theorem flat_most {n m : Nat} {secs : List Sec} {ps : List Token} (h : Flat n 0 secs ps) : Flat n m secs ps := by
  cases h with
  | nil => exact .nil
  | cons h1 h2 h3 => exact .cons (by omega) h2 h3

theorem flat_append {n m : Nat} {secs secs2 : List Sec} {ps ps2 : List Token} (h : Flat n m secs ps) (h2 : Flat n 0 secs2 ps2) :
    Flat n m (secs ++ secs2) (ps ++ ps2) := by
  induction secs generalizing m ps with
  | nil => cases h; exact flat_most h2
  | cons s secs ih =>
    cases h with
    | cons h3 h4 h5 =>
      simp only [List.cons_append, List.append_assoc]
      exact .cons h3 h4 (ih h5)

theorem split_behind {a t : Text} : ∀ l ∈ splitChar '\n' (a ++ '\n' :: '\n' :: t), l ∈ splitChar '\n' (a ++ ['\n']) ∨ l = [] ∨ l ∈ splitChar '\n' t := by
  intro l hl
  rw [splitChar_mid] at hl
  rw [splitChar_mid]
  rcases List.mem_append.mp hl with hl | hl
  · exact Or.inl (List.mem_append_left _ hl)
  · rw [show '\n' :: t = [] ++ '\n' :: t by rfl, splitChar_mid] at hl
    rcases List.mem_append.mp hl with hl | hl
    · exact Or.inr (Or.inl (by simpa [splitChar] using hl))
    · exact Or.inr (Or.inr hl)

theorem lines_behind (t : Text) : lines ('\n' :: t) = [] :: lines t := by
  have hf : FirstLine ('\n' :: t) [] ['\n'] t := ⟨rfl, by simp, Or.inl rfl, fun ⟨r, e⟩ => by simp at e⟩
  rw [firstLine_lines hf (by simp)]
  rfl

end Adoc
