import Verif.Spec.Steps
import Verif.Spec.Typography
import Verif.Spec.Backquotes
import Verif.Spec.InlineMacros
import Verif.Spec.Passthrough
import Verif.Spec.Post
/-!
# Specification: substitution from end to end

`StepBecomes` says of each step what it makes of a text, in the words of the specifications of the steps, and `StepPanics` of
which texts a step panics.  `Becomes` and `Panics` say the same of a whole substitution with its passthroughs.
-/

namespace Adoc.Spec
open Adoc

/-- What a renderer makes of a character that is special in its output. -/
def escaped (r : Renderer) (c : Char) : Text :=
  if c = '<' then r.special .lt else if c = '>' then r.special .gt else if c = '&' then r.special .ampersand else [c]

/-- What becomes of the lines of a text.  Without the hardbreaks option a ` +` at the end of a line becomes a break, if there is
more than one line.  With the option every line but the last gets one, a ` +` and a carriage return at the end of these lines
are dropped, and a newline at the end of the text is too. -/
inductive LinesBroken (e : Env) (al : Option Attrlist) : Text → Text → Prop
  | single {t} : '\n' ∉ t → LinesBroken e al t t
  | marked {ls} : ¬ HardBreaks e al → 2 ≤ ls.length → (∀ l ∈ ls, '\n' ∉ l) →
      LinesBroken e al (List.intercalate ['\n'] ls) (List.intercalate ['\n'] (ls.map (marked e.r.lineBreak)))
  | hard {ls last} : HardBreaks e al → ls ≠ [] → (∀ l ∈ ls ++ [last], '\n' ∉ l) → last ≠ [] →
      LinesBroken e al (List.intercalate ['\n'] (ls ++ [last]))
        (List.intercalate ['\n'] (ls.map (fun l => unmarked (noCr l) ++ e.r.lineBreak) ++ [last]))
  | hardNewline {ls last} : HardBreaks e al → (∀ l ∈ ls ++ [last], '\n' ∉ l) →
      LinesBroken e al (List.intercalate ['\n'] (ls ++ [last]) ++ ['\n'])
        (List.intercalate ['\n'] (ls.map (fun l => unmarked (noCr l) ++ e.r.lineBreak) ++ [noCr last]))

/-- What a step makes of a text. -/
def StepBecomes [Uni] (e : Env) (al : Option Attrlist) : Step → Text → Text → Prop
  | .specialCharacters, t, out => out = t.flatMap (escaped e.r)
  | .quotes, t, out => ∃ u v, Typeset (formatsBefore (formatBy e)) t u ∧ Backquoted (backquotes (formatBy e)) 0 0 none u (some v) ∧
      Typeset (formatsLast (formatBy e)) v out
  | .attributeReferences, t, out => Expands (fun n => e.store.hasAttribute n = true) (refValue e.store) t out
  | .characterReplacements, t, out => Typeset (typography e.r.charRepl) t out
  | .macros, t, out => MacrosBecome e t out ∧ ∀ f, ¬ MacrosFail e t f
  | .postReplacement, t, out => LinesBroken e al t out
  | .callouts, _, _ => False

/-- A step panics on a text. -/
def StepPanics [Uni] (e : Env) : Step → Text → Prop
  | .quotes, t => ∃ u, Typeset (formatsBefore (formatBy e)) t u ∧ Backquoted (backquotes (formatBy e)) 0 0 none u none
  | .macros, t => MacrosFail e t .panic
  | .callouts, _ => True
  | _, _ => False

/-- What several steps make of a text, one after the other. -/
inductive StepsBecome [Uni] (e : Env) (al : Option Attrlist) : List Step → Text → Text → Prop
  | none {t} : StepsBecome e al [] t t
  | step {s ss t u out} : StepBecomes e al s t u → StepsBecome e al ss u out → StepsBecome e al (s :: ss) t out

/-- One of several steps panics. -/
inductive StepsPanic [Uni] (e : Env) (al : Option Attrlist) : List Step → Text → Prop
  | here {s ss t} : StepPanics e s t → StepsPanic e al (s :: ss) t
  | later {s ss t u} : StepBecomes e al s t u → StepsPanic e al ss u → StepsPanic e al (s :: ss) t

/-- What a text becomes when it is substituted. -/
def Becomes [Uni] (e : Env) : Group → Option Attrlist → Text → Text → Prop := SubstitutedBy (StepsBecome e) e

/-- The substitution of a text panics. -/
def Panics [Uni] (e : Env) : Group → Option Attrlist → Text → Prop := PanicsBy (StepsBecome e) (StepsPanic e) e

end Adoc.Spec
