import Verif.Spec.Prose
import Verif.Props.Pass
import Verif.Props.Rendered
import Verif.Lemmas.Harmless
import Verif.Lemmas.Total
/-!
# C63: prose is rendered unchanged
-/

namespace Adoc.Props
open Adoc Span Spec

/-- The test for prose is right. -/
theorem isProse_iff {t : Text} : isProse t = true ↔ Prose t := by
  letI := asciiUni
  unfold isProse
  rw [Bool.and_eq_true, List.all_eq_true, List.all_eq_true]
  have hw : (∀ w ∈ ["--", "...", "(C", "(R", "(T", "://"], (!containsSub t w.toList) = true) ↔
      ∀ w ∈ ["--", "...", "(C", "(R", "(T", "://"], ¬ Occurs w.toList t := by
    refine forall_congr' fun w => forall_congr' fun _ => ?_
    rw [Bool.not_eq_true', ← Bool.not_eq_true, containsSub_iff]
    exact Iff.rfl
  rw [hw]
  constructor
  · rintro ⟨h1, h2⟩
    have h3 : ∀ c ∈ ['<', '>', '&', '*', '_', '`', '#', '^', '~', '{', '@', '\'', '[', '+', '$'], c ∉ t := by
      intro c hc ht
      have := h1 c ht
      rw [Bool.not_eq_true', ← Bool.not_eq_true] at this
      exact this (List.contains_iff_mem.mpr hc)
    refine ⟨⟨fun c hc => h3 c ?_, h2⟩, h3 _ (by decide), h3 _ (by decide), h3 _ (by decide)⟩
    simp only [List.mem_cons, List.not_mem_nil, or_false] at hc ⊢
    rcases hc with h | h | h | h | h | h | h | h | h | h | h | h <;> simp [h]
  · rintro ⟨⟨h1, h2⟩, h3, h4, h5⟩
    refine ⟨fun c hc => ?_, h2⟩
    rw [Bool.not_eq_true', ← Bool.not_eq_true]
    intro hm
    have hm := List.contains_iff_mem.mp hm
    simp only [List.mem_cons, List.not_mem_nil, or_false] at hm
    have : c ∈ ['<', '>', '&', '*', '_', '`', '#', '^', '~', '{', '@', '\''] ∨ c = '[' ∨ c = '+' ∨ c = '$' := by
      simp only [List.mem_cons, List.not_mem_nil, or_false]
      rcases hm with h | h | h | h | h | h | h | h | h | h | h | h | h | h | h <;> simp [h]
    rcases this with h | rfl | rfl | rfl
    · exact h1 c h hc
    · exact h3 hc
    · exact h4 hc
    · exact h5 hc

variable [Uni]

/-- C63. Whatever the renderer, the attributes and the substitutions: prose is rendered unchanged.  (With the option for hard
line breaks, text of several lines is not.) -/
theorem C63_text (e : Env) (al : Option Attrlist) (fuel : Nat) {g : Group} (hg : Step.callouts ∉ g.steps) {t : Text}
    (ht : Prose t) (hb : '\n' ∈ t → ¬ HardBreaks e al) : Group.apply (fuel + 1) e g al t = .ok t := by
  rw [Group.apply]
  have hs := steps_inert e al ht.inert ht.bracket ht.plus hb hg
  split
  · simp only [extract_harmless ht.bracket ht.plus ht.dollar, bind, Except.bind, hs, if_true]
  · exact hs

omit [Uni] in
/-- Non-vacuity: such a text. -/
example : Prose "Mind the gap: it is (nearly) 3/4 inch wide; or 5% \\ \"10\" - no, 2.\nReally!".toList :=
  isProse_iff.mp (by decide +kernel)

/-- C63. In every parsed document, whatever the configuration: a paragraph of prose shows the text of its lines, as they are
written but for indentation and comments.  (If the option for hard line breaks is not set.) -/
theorem C63_paragraph {c : Config} {fuel : Nat} {p p' : ParserState} {text : Text} {d : Document} {map : SourceMap}
    (h : c.parse fuel p text = .ok (d, map, p')) :
    ∃ store, BehindHeader c fuel p text store ∧
      ∀ pre b post content style, preorderAll d.blocks = pre ++ b :: post → b.kind = .simple content style →
        ∃ n raw texts, content.original.data = trimEnd raw ∧ IndentedBy n content.original.data ∧
          ParagraphText n (lines raw) texts ∧
          (Prose (joinWith ['\n'] texts) → (attrsBehind store pre).isAttributeSet "hardbreaks-option".toList = false →
            (∀ a, b.fields.attrlist = some a → a.hasOption "hardbreaks".toList = false) →
            content.rendered = joinWith ['\n'] texts) := by
  obtain ⟨store, h1, h2⟩ := C61_document h
  refine ⟨store, h1, fun pre b post content style he hk => ?_⟩
  have := (h2 pre b post he).1
  cases this with
  | @paragraph c' style' n raw texts hk' g1 g2 g3 g4 =>
    rw [hk] at hk'; cases hk'
    refine ⟨n, raw, texts, g1, g2, g3, fun ht hb hb' => ?_⟩
    cases fuel with
    | zero => cases g4
    | succ f =>
      have := C63_text ⟨⟨attrsBehind store pre, c.sep⟩, c.renderer⟩ b.fields.attrlist f
        (override_callouts (g := .normal) (by decide) b.fields.attrlist) ht (by
          rintro _ (hx | ⟨a, ha, hx⟩)
          · rw [show AttrStore.isAttributeSet _ _ = false from hb] at hx; cases hx
          · rw [hb' a ha] at hx; cases hx)
      exact (Except.ok.inj (g4.symm.trans this))
  | «section» hk' _ => rw [hk] at hk'; cases hk'
  | delimited hk' _ => rw [hk] at hk'; cases hk'
  | unclosed hk' _ _ => rw [hk] at hk'; cases hk'
  | entry hk' _ => rw [hk] at hk'; cases hk'
  | media hk' _ => rw [hk] at hk'; cases hk'
  | compound hk' => rw [hk] at hk'; cases hk'
  | preamble hk' => rw [hk] at hk'; cases hk'
  | brk hk' => rw [hk] at hk'; cases hk'

/-- C63. In every parsed document, whatever the configuration: a section title of prose is shown as it is written. -/
theorem C63_title {c : Config} {fuel : Nat} {p p' : ParserState} {text : Text} {d : Document} {map : SourceMap}
    (h : c.parse fuel p text = .ok (d, map, p')) {b : Block} {l : Nat} {title : Content} {ty : SectionType} {i : Option Text}
    {n : Option SectionNumber} (hb : b ∈ preorderAll d.blocks) (hk : b.kind = .section l title ty i n)
    (ht : Prose title.original.data) (hn : '\n' ∉ title.original.data) : title.rendered = title.original.data := by
  obtain ⟨store, _, h2⟩ := C61_document h
  obtain ⟨pre, post, he⟩ := List.append_of_mem hb
  have := (h2 pre b post he).1
  cases this with
  | «section» hk' g =>
    rw [hk] at hk'; cases hk'
    cases fuel with
    | zero => cases g
    | succ f =>
      have := C63_text ⟨⟨attrsBehind store (pre ++ preorder b), c.sep⟩, c.renderer⟩ b.fields.attrlist f
        (g := .title) (by decide) ht (fun h => absurd h hn)
      exact (Except.ok.inj (g.symm.trans this))
  | paragraph hk' _ _ _ _ => rw [hk] at hk'; cases hk'
  | delimited hk' _ => rw [hk] at hk'; cases hk'
  | unclosed hk' _ _ => rw [hk] at hk'; cases hk'
  | entry hk' _ => rw [hk] at hk'; cases hk'
  | media hk' _ => rw [hk] at hk'; cases hk'
  | compound hk' => rw [hk] at hk'; cases hk'
  | preamble hk' => rw [hk] at hk'; cases hk'
  | brk hk' => rw [hk] at hk'; cases hk'

end Adoc.Props
