import Verif.Model.Strings
/-!
# Specification of percent encoding: a decoder
-/

namespace Adoc.Spec

/-- The value of a hexadecimal digit. -/
def hexValue (c : Char) : Option Nat :=
  if '0'.toNat ≤ c.toNat ∧ c.toNat ≤ '9'.toNat then some (c.toNat - '0'.toNat)
  else if 'A'.toNat ≤ c.toNat ∧ c.toNat ≤ 'F'.toNat then some (c.toNat - 'A'.toNat + 10)
  else none

/-- A character that needs no escape in a URI component: a letter or digit of ASCII, or one of `-`, `.`, `_`, `~`, `*`. -/
def Plain (c : Char) : Prop := isAsciiAlnum c = true ∨ c ∈ ['-', '.', '_', '~', '*']

instance (c : Char) : Decidable (Plain c) := inferInstanceAs (Decidable (_ ∨ _))

/-- A text made of plain characters and escapes `%XX`, and the bytes it stands for. -/
inductive PctText : Text → List UInt8 → Prop
  | nil : PctText [] []
  | plain {c t b} : Plain c → PctText t b → PctText (c :: t) (UInt8.ofNat c.toNat :: b)
  | escape {x y i j t b} : hexValue x = some i → hexValue y = some j → PctText t b →
      PctText ('%' :: x :: y :: t) (UInt8.ofNat (16 * i + j) :: b)

end Adoc.Spec
