import Verif.Spec.Substitution
import Verif.Lemmas.PassPanic
import Verif.Lemmas.Harmless
import Verif.Props.Passthrough
import Verif.Props.Steps
import Verif.Props.Typography
import Verif.Props.Formatting
import Verif.Props.InlineMacros
/-!
# C67: what every substitution makes of every text, when it panics, and when it does not end
-/

namespace Adoc.Props
open Adoc Adoc.Spec Adoc.Re
variable [Uni]

omit [Uni] in
private theorem lines_of (t : Text) : ∃ ls last, t = List.intercalate ['\n'] (ls ++ [last]) ∧ ∀ l ∈ ls ++ [last], '\n' ∉ l := by
  induction t with
  | nil => exact ⟨[], [], rfl, by simp⟩
  | cons c t ih =>
    obtain ⟨ls, last, e, h⟩ := ih
    by_cases hc : c = '\n'
    · subst hc
      refine ⟨[] :: ls, last, ?_, ?_⟩
      · rw [e]
        cases ls <;> simp [List.intercalate, List.intersperse]
      · intro l hl
        rcases List.mem_cons.mp hl with rfl | hl
        · simp
        · exact h l hl
    · cases ls with
      | nil =>
        refine ⟨[], c :: last, ?_, ?_⟩
        · rw [e]; simp [List.intercalate, List.intersperse]
        · have := h last (by simp)
          intro x hx
          rw [List.nil_append, List.mem_singleton] at hx
          subst hx
          simp only [List.mem_cons, not_or]
          exact ⟨fun e => hc e.symm, this⟩
      | cons l ls =>
        refine ⟨(c :: l) :: ls, last, ?_, ?_⟩
        · rw [e]
          cases ls <;> simp [List.intercalate, List.intersperse]
        · intro x hx
          rcases List.mem_cons.mp hx with rfl | hx
          · have := h l (by simp)
            simp only [List.mem_cons, not_or]
            exact ⟨fun e => hc e.symm, this⟩
          · exact h x (by simp; exact .inr (by simpa using hx))

/-- **Line breaks, for every text**: the last step makes exactly this of the lines, and never fails. -/
theorem C42_exact (e : Env) (al : Option Attrlist) (t out : Text) :
    applyPostReplacements e al t = .ok out ↔ LinesBroken e al t out := by
  have sound : ∀ {t out}, LinesBroken e al t out → applyPostReplacements e al t = .ok out := by
    intro t out h
    cases h with
    | single h => exact C42_single_line e al t h
    | marked h h2 hl => exact C42_marked_lines e al h _ h2 hl
    | hard h h1 hl hne => exact C42_hardbreaks_exact e al h _ _ h1 hl hne
    | hardNewline h hl => exact C42_hardbreaks_newline e al h _ _ hl
  refine ⟨fun h => ?_, sound⟩
  have total : ∃ out', LinesBroken e al t out' := by
    obtain ⟨ls, last, e1, hl⟩ := lines_of t
    by_cases h0 : ls = []
    · subst h0
      refine ⟨t, .single ?_⟩
      rw [e1]
      simpa [List.intercalate] using hl
    · by_cases hh : HardBreaks e al
      · by_cases hlast : last = []
        · subst hlast
          obtain ⟨ls', l, rfl⟩ : ∃ ls' l, ls = ls' ++ [l] :=
            ⟨ls.dropLast, ls.getLast h0, (List.dropLast_concat_getLast h0).symm⟩
          refine ⟨List.intercalate ['\n'] (ls'.map (fun l => unmarked (noCr l) ++ e.r.lineBreak) ++ [noCr l]), ?_⟩
          have : t = List.intercalate ['\n'] (ls' ++ [l]) ++ ['\n'] := by
            rw [e1, intercalate_concat (by simp)]
          rw [this]
          exact .hardNewline hh fun x hx => hl x (List.mem_append_left _ hx)
        · rw [e1]
          exact ⟨_, .hard hh h0 hl hlast⟩
      · rw [e1]
        refine ⟨_, .marked hh ?_ hl⟩
        have := List.length_pos_iff.mpr h0
        rw [List.length_append, List.length_singleton]
        omega
  obtain ⟨out', h'⟩ := total
  have := sound h'
  rw [h] at this
  cases this
  exact h'

/-- **What each step makes of a text**, for every text and every renderer. -/
theorem C67_step [LawfulUni] (e : Env) (al : Option Attrlist) (s : Step) (t out : Text) :
    s.apply e al t = .ok out ↔ StepBecomes e al s t out := by
  cases s with
  | specialCharacters =>
    show applySpecialCharacters e.r t = .ok out ↔ out = t.flatMap (escaped e.r)
    rw [C29_every_renderer]
    exact ⟨(fun h => by cases h; rfl), fun h => by rw [h]; rfl⟩
  | quotes => exact C64_exact e t out
  | attributeReferences =>
    show applyAttributes e.store t = .ok out ↔ Expands _ _ t out
    obtain ⟨o, h1, h2⟩ := C30_expands e.store t
    rw [h1]
    exact ⟨(fun h => by cases h; exact h2), fun h => by rw [C30_unique h h2]⟩
  | characterReplacements => exact C59_typography e.r t out
  | macros => exact C65_iff e t out
  | postReplacement => exact C42_exact e al t out
  | callouts => exact ⟨(fun h => by cases h), fun h => by cases h⟩

/-- **Which texts each step panics on**, for every text and every renderer. -/
theorem C67_step_panics [LawfulUni] (e : Env) (al : Option Attrlist) (s : Step) (t : Text) :
    s.apply e al t = .error .panic ↔ StepPanics e s t := by
  cases s with
  | specialCharacters =>
    show applySpecialCharacters e.r t = .error .panic ↔ False
    rw [C29_every_renderer]
    simp
  | quotes =>
    show applyQuotes e t = .error .panic ↔ _
    rw [C64_panics_iff]
    exact ⟨fun h => h.2, fun h => ⟨rfl, h⟩⟩
  | attributeReferences =>
    show applyAttributes e.store t = .error .panic ↔ False
    obtain ⟨o, h1, _⟩ := C30_expands e.store t
    rw [h1]
    simp
  | characterReplacements =>
    show applyCharacterReplacements e.r t = .error .panic ↔ False
    obtain ⟨o, h⟩ := C59_total e.r t
    rw [h]
    simp
  | macros => exact C46_exact e t .panic
  | postReplacement =>
    show applyPostReplacements e al t = .error .panic ↔ False
    obtain ⟨o, h⟩ := post_total e al t
    rw [h]
    simp
  | callouts => exact ⟨fun _ => trivial, fun _ => rfl⟩

/-- **What several steps make of a text.** -/
theorem C67_steps [LawfulUni] (e : Env) (al : Option Attrlist) (ss : List Step) (t out : Text) :
    applySteps e al ss t = .ok out ↔ StepsBecome e al ss t out := by
  induction ss generalizing t with
  | nil => exact ⟨(fun h => by cases h; exact .none), fun h => by cases h; rfl⟩
  | cons s ss ih =>
    show ((s.apply e al t).bind fun u => applySteps e al ss u) = .ok out ↔ _
    constructor
    · intro h
      cases h1 : s.apply e al t with
      | error er => rw [h1] at h; cases h
      | ok u =>
        rw [h1] at h
        exact .step ((C67_step e al s t u).mp h1) ((ih u).mp h)
    · intro h
      cases h with
      | step h1 h2 =>
        rw [(C67_step e al s t _).mpr h1]
        exact (ih _).mpr h2

/-- **Which texts several steps panic on.** -/
theorem C67_steps_panic [LawfulUni] (e : Env) (al : Option Attrlist) (ss : List Step) (t : Text) :
    applySteps e al ss t = .error .panic ↔ StepsPanic e al ss t := by
  induction ss generalizing t with
  | nil => exact ⟨(fun h => by cases h), fun h => by cases h⟩
  | cons s ss ih =>
    show ((s.apply e al t).bind fun u => applySteps e al ss u) = .error .panic ↔ _
    constructor
    · intro h
      cases h1 : s.apply e al t with
      | error er =>
        rw [h1] at h
        cases h
        exact .here ((C67_step_panics e al s t).mp h1)
      | ok u =>
        rw [h1] at h
        exact .later ((C67_step e al s t u).mp h1) ((ih u).mp h)
    · intro h
      cases h with
      | here h =>
        rw [(C67_step_panics e al s t).mpr h]
        rfl
      | later h1 h2 =>
        rw [(C67_step e al s t _).mpr h1]
        exact (ih _).mpr h2

private theorem becomes_eq [LawfulUni] (e : Env) :
    (fun al ss t out => applySteps e al ss t = .ok out) = StepsBecome e := by
  funext al ss t out
  exact propext (C67_steps e al ss t out)

private theorem panics_eq [LawfulUni] (e : Env) :
    (fun al ss t => applySteps e al ss t = .error .panic) = StepsPanic e := by
  funext al ss t
  exact propext (C67_steps_panic e al ss t)

/-- **What a substitution makes of a text**, for every text, every group, every renderer and all attributes: it ends with
`out` if and only if `out` is what the specification says, from the passthroughs that are taken out over each step to the
passthroughs that are put back. -/
theorem C67_becomes [LawfulUni] {e : Env} {g : Group} {al : Option Attrlist} {t out : Text} :
    (∃ f0, ∀ f ≥ f0, Group.apply f e g al t = .ok out) ↔ Becomes e g al t out := by
  unfold Becomes
  rw [← becomes_eq]
  exact substituted_iff

/-- **When a substitution panics.** -/
theorem C67_panics [LawfulUni] {e : Env} {g : Group} {al : Option Attrlist} {t : Text} :
    (∃ f0, ∀ f ≥ f0, Group.apply f e g al t = .error .panic) ↔ Panics e g al t := by
  unfold Panics
  rw [← becomes_eq, ← panics_eq]
  exact panics_iff

/-- **When a substitution does not end**: exactly when the specification has no account of it. -/
theorem C67_endless [LawfulUni] {e : Env} {g : Group} {al : Option Attrlist} {t : Text} :
    (∀ f, Group.apply f e g al t = .error .fuel) ↔ (∀ out, ¬ Becomes e g al t out) ∧ ¬ Panics e g al t := by
  unfold Becomes Panics
  rw [← becomes_eq, ← panics_eq]
  exact endless_iff

/-- The specification gives at most one outcome. -/
theorem C67_unique [LawfulUni] {e : Env} {g : Group} {al : Option Attrlist} {t out out' : Text} (h : Becomes e g al t out) :
    (Becomes e g al t out' → out' = out) ∧ ¬ Panics e g al t := by
  obtain ⟨f, hf⟩ := C67_becomes.mpr h
  refine ⟨fun h' => ?_, fun h' => ?_⟩
  · obtain ⟨f', hf'⟩ := C67_becomes.mpr h'
    have := hf (max f f') (Nat.le_max_left ..)
    rw [hf' _ (Nat.le_max_right ..)] at this
    cases this
    rfl
  · obtain ⟨f', hf'⟩ := C67_panics.mpr h'
    have := hf (max f f') (Nat.le_max_left ..)
    rw [hf' _ (Nat.le_max_right ..)] at this
    cases this

/-- Non-vacuity: all steps at work, with a passthrough. -/
example :
    letI := asciiUni
    ∀ out, Becomes htmlEnv .normal none "*A* & {empty}B -- `c` +*d*+ https://example.org[x] +\n(C)".toList out ↔
      out = ("<strong>A</strong> &amp; B&#8201;&#8212;&#8201;<code>c</code> *d* <a href=\"https://example.org\">x</a><br>\n&#169;").toList := by
  letI := asciiUni
  have h : ∃ f0, ∀ f ≥ f0, Group.apply f htmlEnv .normal none "*A* & {empty}B -- `c` +*d*+ https://example.org[x] +\n(C)".toList =
      .ok ("<strong>A</strong> &amp; B&#8201;&#8212;&#8201;<code>c</code> *d* <a href=\"https://example.org\">x</a><br>\n&#169;").toList :=
    C66_substituted.mpr ((subst_sound htmlEnv 6).1 _ _ _ _ (by decide +kernel))
  have h := C67_becomes.mp h
  intro out
  exact ⟨fun h' => (C67_unique h).1 h', fun e => by rw [e]; exact h⟩

/-- And a passthrough whose substitution panics. -/
example : letI := asciiUni; Panics htmlEnv .normal none "A pass:m[image:[\\]]".toList := by
  letI := asciiUni
  unfold Panics
  rw [← becomes_eq, ← panics_eq]
  exact (panics_sound htmlEnv 6).1 _ _ _ (by decide +kernel)

end Adoc.Props
