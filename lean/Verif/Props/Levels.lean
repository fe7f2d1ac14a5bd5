import Verif.Lemmas.Levels
/-!
# C25: sections nest by level
-/

namespace Adoc.Props
open Adoc Adoc.Spec Span

variable [Uni]

private theorem levels {c : Config} {fuel : Nat} {p p' : ParserState} (hu : Used c fuel (fun _ => True) p) {text : Text}
    {d : Document} {map : SourceMap} (h : c.parse fuel p text = .ok (d, map, p')) {x : Block} (hx : InDoc d x) :
    Levels x := by
  obtain ⟨t, _, hd⟩ := c.parse_parts h
  obtain ⟨h1, h2⟩ := used_num hu
  exact document_levels hd (by show p.num.topmost ≠ _; rw [h1]; nofun) h2 hx

/-- Every section, at any depth, has a level from 1 to 5. -/
theorem C25_levels {c : Config} {fuel : Nat} {p p' : ParserState} (hu : Used c fuel (fun _ => True) p) {text : Text}
    {d : Document} {map : SourceMap} (h : c.parse fuel p text = .ok (d, map, p')) {x : Block} (hx : InDoc d x) {l : Nat}
    (hl : level? x = some l) : 1 ≤ l ∧ l ≤ 5 :=
  (levels hu h hx).level l hl

/-- A discrete heading has no blocks. -/
theorem C25_discrete {c : Config} {fuel : Nat} {p p' : ParserState} (hu : Used c fuel (fun _ => True) p) {text : Text}
    {d : Document} {map : SourceMap} (h : c.parse fuel p text = .ok (d, map, p')) {x : Block} (hx : InDoc d x)
    (hd : IsDiscrete x) : x.children = [] :=
  (levels hu h hx).discrete hd

omit [Uni] in
private theorem SubSection.isSection {x y : Block} (h : SubSection x y) : IsSection x := by
  cases h <;> assumption

omit [Uni] in
private theorem level_of {x : Block} (h : IsSection x) : ∃ l, level? x = some l := by
  obtain ⟨l, _, _, _, _, h⟩ := h
  exact ⟨l, by unfold level?; rw [h]⟩

/-- A section in another section has a greater level, unless it is a discrete heading.
Missing: sections in delimited blocks (`C25_delimited_fails`), and sections with an attribute list in which something is
substituted (`C25_substituted_fails`). -/
theorem C25_nested_partial {c : Config} {fuel : Nat} {p p' : ParserState} (hu : Used c fuel (fun _ => True) p) {text : Text}
    {d : Document} {map : SourceMap} (h : c.parse fuel p text = .ok (d, map, p')) {x y : Block} (hx : InDoc d x)
    (hs : SubSection x y) (hd : ¬ IsDiscrete y) {l l' : Nat} (hl : level? x = some l) (hl' : level? y = some l') :
    l < l' := by
  induction hs generalizing l with
  | @child x y _ hc _ hp => exact (levels hu h hx).nested l hl y hc l' hl' hp hd
  | @step x y z _ hc hp hs ih =>
    have hy : InDoc d y := by
      obtain ⟨b, hb, hw⟩ := hx
      exact ⟨b, hb, hw.trans (.child hc (.self _))⟩
    obtain ⟨k, hk⟩ := level_of (SubSection.isSection hs)
    by_cases hyd : IsDiscrete y
    · have := (levels hu h hy).discrete hyd
      cases hs with
      | child _ hc' => rw [this] at hc'; cases hc'
      | step _ hc' => rw [this] at hc'; cases hc'
    · exact Nat.lt_trans ((levels hu h hx).nested l hl y hc k hk hp hyd) (ih hy hd hk hl')

/-- A section of the level that is no discrete heading. -/
private def isNormal (l : Nat) (b : Block) : Bool :=
  match b.kind with
  | .section l' _ .normal _ _ => l' == l
  | _ => false

omit [Uni] in
private theorem isNormal_spec {l : Nat} {b : Block} (h : isNormal l b = true) : level? b = some l ∧ ¬ IsDiscrete b := by
  unfold isNormal at h
  split at h
  · rename_i l' c i n hk
    rw [← eq_of_beq h]
    refine ⟨by unfold level?; rw [hk], ?_⟩
    rintro ⟨_, _, _, _, h⟩
    rw [hk] at h
    cases h
  · cases h

omit [Uni] in
/-- The full claim is false: in a delimited block in a section there can be a section of the same level. -/
theorem C25_delimited_fails : letI := asciiUni
    ∃ text d map p', (Config.default .checked).parse 40 .default text = .ok (d, map, p') ∧
      ∃ x y z, InDoc d x ∧ z ∈ x.children ∧ y ∈ z.children ∧ ¬ IsDiscrete y ∧ level? x = some 1 ∧ level? y = some 1 := by
  letI := asciiUni
  have h : parsed ((Config.default .checked).parse 40 .default "== A\n\n====\n== B\n====".toList) (fun d =>
      d.blocks.any fun x => isNormal 1 x && x.children.any fun z => z.children.any fun y => isNormal 1 y) = true := by
    decide +kernel
  obtain ⟨d, map, p', h1, h2⟩ := parsed_spec h
  simp only [List.any_eq_true, Bool.and_eq_true] at h2
  obtain ⟨x, hx, k1, z, hz, y, hy, k2⟩ := h2
  exact ⟨_, d, map, p', h1, x, y, z, ⟨x, hx, .self _⟩, hz, hy, (isNormal_spec k2).2, (isNormal_spec k1).1,
    (isNormal_spec k2).1⟩

omit [Uni] in
/-- And so can there be directly in a section, when its style is a discrete one only for the attributes a new parser has. -/
theorem C25_substituted_fails : letI := asciiUni
    ∃ text d map p', (Config.default .checked).parse 40 .default text = .ok (d, map, p') ∧
      ∃ x y, InDoc d x ∧ y ∈ x.children ∧ ¬ IsDiscrete y ∧ level? x = some 1 ∧ level? y = some 1 := by
  letI := asciiUni
  have h : parsed ((Config.default .checked).parse 40 .default
      ":sectids: x\n\n== A\n\n[{sectids}discrete]\n== B".toList) (fun d =>
      d.blocks.any fun x => isNormal 1 x && x.children.any fun y => isNormal 1 y) = true := by
    decide +kernel
  obtain ⟨d, map, p', h1, h2⟩ := parsed_spec h
  simp only [List.any_eq_true, Bool.and_eq_true] at h2
  obtain ⟨x, hx, k1, y, hy, k2⟩ := h2
  exact ⟨_, d, map, p', h1, x, y, ⟨x, hx, .self _⟩, hy, (isNormal_spec k2).2, (isNormal_spec k1).1, (isNormal_spec k2).1⟩

omit [Uni] in
/-- Non-vacuity: a section in a section in a section, a discrete heading, and a section with an attribute list. -/
example : letI := asciiUni
    parsed ((Config.default .checked).parse 40 .default
        "== A\n\n=== B\n\n[role=x]\n==== C\n\n[discrete]\n== D\n\n== E".toList) (fun d =>
      d.blocks.map (fun x => level? x) == [some 1, some 1] && d.blocks.any fun x => isNormal 1 x && x.children.any fun y =>
        isNormal 2 y && y.children.any fun z => isNormal 3 z && z.children.map (fun w => level? w) == [some 1]) = true := by
  decide +kernel

end Adoc.Props
