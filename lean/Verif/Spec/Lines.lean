import Verif.Model.Path
/-!
# Specification: the lines of a text
-/

namespace Adoc.Spec

/-- The pieces between newlines; there is no line behind a final newline. -/
def rawLines (t : Text) : List Text :=
  if (splitChar '\n' t).getLast? = some [] then (splitChar '\n' t).dropLast else splitChar '\n' t

/-- A line without the carriage return at its end and without the spaces in front of that. -/
def tidy (l : Text) : Text := trimEndP (· == ' ') (if endsWith l ['\r'] then l.dropLast else l)

/-- The lines of a text. -/
def lines (t : Text) : List Text := (rawLines t).map tidy

/-- A text that is not empty and neither begins nor ends with white space. -/
structure Solid (l : Text) : Prop where
  first : ∃ c r, l = c :: r ∧ isWhite c = false
  last : ∀ c, l.getLast? = some c → isWhite c = false

end Adoc.Spec
