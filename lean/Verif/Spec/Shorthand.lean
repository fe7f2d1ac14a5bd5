import Verif.Spec.Attrlist
/-!
# Specification of attribute lists with shorthand
-/

namespace Adoc.Spec

/-- A word as it may occur in shorthand: no delimiter, no white space and none of the characters that mean something in a list of
attributes. -/
def ShortWord (t : Text) : Prop :=
  ∀ c ∈ t, ¬ Delim c ∧ isWhite c = false ∧ c ≠ ',' ∧ c ≠ '=' ∧ c ≠ '{' ∧ c ≠ '"' ∧ c ≠ '\'' ∧ c ≠ '['

/-- Shorthand: a style (or nothing) followed by ids `#…`, roles `.…` and options `%…`. -/
def Shorthand (style : Text) (items : List (Char × Text)) : Prop :=
  ShortWord style ∧ (∀ i ∈ items, Delim i.1 ∧ i.2 ≠ [] ∧ ShortWord i.2) ∧ (style ≠ [] ∨ items ≠ [])

end Adoc.Spec
