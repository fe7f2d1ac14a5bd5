import Verif.Lemmas.Kept
import Verif.Props.Preprocessor

/-! C12: exactly which texts without directives are left as they are. -/

namespace Adoc.Props
open Spec

variable [Uni]

/-- C12. A text without include directives and carriage returns keeps its lines exactly if it is not looked at (there is no
primary file name, and no line begins like a directive) or none of the attribute entries that the reader comes to ends in
white space, such as a blank line behind a backslash. -/
theorem C12_kept_iff {env : PreEnv} {fuel : Nat} {store : AttrStore} {primary : Option Text} {source o : Text} {m : SourceMap}
    {ls : List Text} (h : preprocess env fuel store primary source = .ok (o, m)) (hls : LinesOf source ls)
    (hcr : '\r' ∉ source) (hi : ∀ l ∈ ls, ∀ target attrs, ¬ IncludeLine l target attrs) :
    (o = source ∨ o = unlines ls) ↔
      (primary = none ∧ ∀ l ∈ ls, ¬ LikeDirective l) ∨
        ∀ c, EntryMet env ⟨primary, source, Reading.start store⟩ c → ¬ EndsWhite c := by
  have hcr' : ∀ l ∈ ls, '\r' ∉ l := by
    intro l hl hc
    obtain ⟨a, b, rfl⟩ := List.append_of_mem hl
    obtain ⟨r, rfl⟩ := linesOf_split a hls
    exact hcr (by simp [hc])
  by_cases hlook : primary ≠ none ∨ ∃ l ∈ ls, LikeDirective l
  · have hn := (looks_iff hls (primary := primary)).mpr hlook
    obtain ⟨outs, σ, h1, rfl⟩ := C13_sound h hn
    obtain ⟨k1, k2⟩ := expansion_kept h1 hls hcr' hi
    constructor
    · intro ho
      right
      refine k2.mp ?_
      rcases ho with ho | ho
      · rcases linesOf_ends hls with e | ⟨hne, hend⟩
        · rw [ho, e]
        · rcases join_ends outs with e | ⟨r, e⟩
          · rw [e] at ho; exact absurd ho.symm hne
          · exact absurd ⟨r, by rw [← ho, e]⟩ hend
      · exact ho
    · rintro (⟨hp, hd⟩ | hm)
      · rcases hlook with hl | ⟨l, hl, hl'⟩
        · exact absurd hp hl
        · exact absurd hl' (hd l hl)
      · exact Or.inr (k2.mpr hm)
  · have hp : primary = none := Classical.byContradiction fun hp => hlook (Or.inl hp)
    have hd : ∀ l ∈ ls, ¬ LikeDirective l := fun l hl hl' => hlook (Or.inr ⟨l, hl, hl'⟩)
    have hn : noDirectives source primary = true := by
      cases hn : noDirectives source primary with
      | true => rfl
      | false => exact absurd ((looks_iff hls).mp hn) hlook
    unfold preprocess at h
    rw [if_pos hn] at h
    cases h
    exact ⟨fun _ => Or.inl ⟨hp, hd⟩, fun _ => Or.inl rfl⟩

/-- C12. Preprocessing never makes such a text longer, but for the line end of the last line. -/
theorem C12_no_longer {env : PreEnv} {fuel : Nat} {store : AttrStore} {primary : Option Text} {source o : Text} {m : SourceMap}
    {ls : List Text} (h : preprocess env fuel store primary source = .ok (o, m)) (hls : LinesOf source ls)
    (hcr : '\r' ∉ source) (hi : ∀ l ∈ ls, ∀ target attrs, ¬ IncludeLine l target attrs) : o.length ≤ source.length + 1 := by
  have hcr' : ∀ l ∈ ls, '\r' ∉ l := by
    intro l hl hc
    obtain ⟨a, b, rfl⟩ := List.append_of_mem hl
    obtain ⟨r, rfl⟩ := linesOf_split a hls
    exact hcr (by simp [hc])
  cases hn : noDirectives source primary with
  | true =>
    unfold preprocess at h
    rw [if_pos hn] at h
    cases h
    omega
  | false =>
    obtain ⟨outs, σ, h1, rfl⟩ := C13_sound h hn
    have := (expansion_kept h1 hls hcr' hi).1
    have := linesOf_length hls
    omega

/-- A text with an entry over two lines and a line that begins with `if` meets the hypotheses. -/
example : ∃ ls, LinesOf "if so\n\n:a: b \\\n c\n\n{a}".toList ls ∧ '\r' ∉ "if so\n\n:a: b \\\n c\n\n{a}".toList ∧
    (∀ l ∈ ls, ∀ target attrs, ¬ IncludeLine l target attrs) ∧ ∃ l ∈ ls, LikeDirective l := by
  refine ⟨["if so".toList, [], ":a: b \\".toList, " c".toList, [], "{a}".toList], ?_, by decide, ?_, "if so".toList, by simp,
    Or.inr ⟨" so".toList, by decide⟩⟩
  · exact .cons (l := "if so".toList) (by decide) (.cons (l := []) (by decide) (.cons (l := ":a: b \\".toList) (by decide)
      (.cons (l := " c".toList) (by decide) (.cons (l := []) (by decide) (.last (by decide) (by decide))))))
  · rintro l hl target attrs ⟨⟨inner, e, _⟩, _⟩
    have hs : startsWith l "include::".toList = true := startsWith_iff.mpr ⟨target ++ '[' :: inner ++ [']'], by rw [e]; simp⟩
    simp only [List.mem_cons, List.not_mem_nil, or_false] at hl
    rcases hl with rfl | rfl | rfl | rfl | rfl | rfl <;> revert hs <;> decide

/-- It is parsed, and its lines are kept. -/
example : letI := asciiUni
    (preprocess ⟨fun _ _ _ _ => none, fun _ t => .ok t⟩ 20 AttrStore.default none "if so\n\n:a: b \\\n c\n\n{a}".toList).toOption.map (·.1) =
      some "if so\n\n:a: b \\\n c\n\n{a}\n".toList := by decide +kernel

end Adoc.Props
