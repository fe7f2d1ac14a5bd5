import Verif.Spec.Lines
/-!
# Specification of headings
-/

namespace Adoc.Spec

/-- The line begins with a space or a tab. -/
def Indented (line : Text) : Prop := line.head? = some ' ' ∨ line.head? = some '\t'

/-- The line begins with exactly `n` equals signs or exactly `n` number signs. -/
def Marks (n : Nat) (line : Text) : Prop :=
  ∃ m rest, (m = '=' ∨ m = '#') ∧ line = List.replicate n m ++ rest ∧ rest.head? ≠ some m

/-- The line is the heading of a section: one mark more than its level says, spaces or tabs, and the title. -/
def Heading (level : Nat) (title line : Text) : Prop :=
  1 ≤ level ∧ level ≤ 5 ∧ ∃ m gap, (m = '=' ∨ m = '#') ∧ gap ≠ [] ∧ (∀ c ∈ gap, c = ' ' ∨ c = '\t') ∧
    ¬ Indented title ∧ line = List.replicate (level + 1) m ++ gap ++ title

end Adoc.Spec
