import Verif.Model.Macros
/-!
# Specification: attribute values in a text, and line breaks
-/

namespace Adoc.Spec

/-- The text an attribute stands for in a reference: its value, and nothing when it is set without a value or unset. -/
def refValue (s : AttrStore) (name : Text) : Text :=
  match s.attributeValue name with
  | .value v => v
  | _ => []

/-- Is the hardbreaks option in force for this text? -/
def HardBreaks (e : Env) (attrlist : Option Attrlist) : Prop :=
  e.store.isAttributeSet "hardbreaks-option".toList = true ∨
    ∃ a, attrlist = some a ∧ a.hasOption "hardbreaks".toList = true

/-- The line without a final ` +`. -/
def unmarked (l : Text) : Text := if [' ', '+'] <:+ l then l.take (l.length - 2) else l

/-- A line whose marker, if there is one, becomes a break. -/
def marked (br l : Text) : Text := if [' ', '+'] <:+ l then l.take (l.length - 2) ++ br else l

/-- The line without a carriage return at its end. -/
def noCr (l : Text) : Text := if ['\r'] <:+ l then l.take (l.length - 1) else l

end Adoc.Spec
