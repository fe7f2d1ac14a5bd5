import Verif.Spec.Includes

/-! Texts without directives that preprocessing leaves as they are. -/

namespace Adoc.Spec

/-- When a file is read from the place `p` on, the reader comes to an attribute entry that is written as `c`: its lines, with
those that continue it, up to the last line end. -/
def EntryMet [Uni] (env : PreEnv) (p : Point) (c : Text) : Prop :=
  ∃ file t σ l lsep lrest sep rest name kind, ReadsOn env p ⟨file, t, σ⟩ ∧ t ≠ [] ∧ FirstLine t l lsep lrest ∧
    EntryAt σ t l c sep rest name kind

/-- The text ends in white space, which may be a blank line. -/
def EndsWhite (c : Text) : Prop := ∃ r x, c = r ++ [x] ∧ isWhite x = true

/-- A line begins like a directive. -/
def LikeDirective (l : Text) : Prop := (∃ r, l = "include::".toList ++ r) ∨ ∃ r, l = "if".toList ++ r

end Adoc.Spec
