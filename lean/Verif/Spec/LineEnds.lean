import Verif.Spec.Header
/-!
# Specification: texts that differ in their line ends only
-/

namespace Adoc.Spec

/-- A line end: a line feed, or a carriage return and a line feed. -/
def LineEnd (e : Text) : Prop := e = ['\n'] ∨ e = ['\r', '\n']

/-- Two texts with the same lines, which may end in one way here and in the other way there. -/
inductive LineEnds : Text → Text → Prop
  | last {l} : '\n' ∉ l → LineEnds l l
  | line {l e e' t t'} : '\n' ∉ l → ¬ EndsIn l '\r' → LineEnd e → LineEnd e' → LineEnds t t' →
      LineEnds (l ++ e ++ t) (l ++ e' ++ t')

/-- The text with a carriage return in front of every line feed. -/
def withReturns (t : Text) : Text := t.flatMap fun c => if c = '\n' then ['\r', '\n'] else [c]

/-- Entries for the author stand on one line. -/
def AuthorSingle (ls : List HLine) : Prop :=
  ∀ n raw, HLine.entry n (.value raw) ∈ ls → n.map Char.toLower = "author".toList → '\n' ∉ raw

end Adoc.Spec
