import Verif.Spec.Stall
/-!
# Specification: the places at which reading blocks stands still

`Stalls` is what such a place has at least; `Stuck` is exact.
-/

namespace Adoc.Spec

/-- The paragraph at the beginning of the lines has no text: there is none, or all of its lines are white space. -/
def OnlyWhite (ls : List Text) : Prop :=
  ∃ taken rest, Paragraph false ls taken rest ∧ ∀ l ∈ taken, ∀ c ∈ l, isWhite c = true

/-- No block is found at the beginning of the lines: there is no text at the very beginning (which is where the parser looks
first when the first line is blank), there is none behind blank lines and metadata either, and there are no metadata, or
only an anchor, or the metadata ask for the style `literal`. -/
def Stuck [Uni] (literal : Prop) (ls : List Text) : Prop :=
  ((∃ l r, ls = l :: r ∧ l.all Span.isBlank = false) ∨ OnlyWhite ls) ∧
    ∃ is rest, MetaItems [] (ls.dropWhile (·.all Span.isBlank)) is rest ∧ OnlyWhite rest ∧
      (is = [] ∨ (∃ a r, is = [.anchor a r]) ∨ literal)

end Adoc.Spec
