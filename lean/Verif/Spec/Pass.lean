import Verif.Spec.Macros
/-!
# Specification for passthroughs (C31)

A text with passthroughs is a sequence of pieces: some ordinary text, a passthrough, some more text, and so on.
-/

namespace Adoc.Spec
open Adoc

/-- The ways to write a passthrough. -/
inductive PassKind where
  /-- `+++body+++` -/
  | triple
  /-- `++body++` -/
  | double
  /-- `$$body$$` -/
  | dollars
  /-- `pass:[body]` -/
  | passMacro
deriving DecidableEq, Repr

/-- What stands in front of the body. -/
def PassKind.opening : PassKind → Text
  | .triple => "+++".toList
  | .double => "++".toList
  | .dollars => "$$".toList
  | .passMacro => "pass:[".toList

/-- What stands behind the body. -/
def PassKind.closing : PassKind → Text
  | .triple => "+++".toList
  | .double => "++".toList
  | .dollars => "$$".toList
  | .passMacro => "]".toList

/-- The bodies that can be written in this way: the closing mark does not come too early. -/
def PassKind.Body : PassKind → Text → Prop
  | .triple, b => ¬ Occurs "+++".toList (b ++ "++".toList)
  | .double, b => ¬ Occurs "++".toList (b ++ "+".toList) ∧ b ≠ [] ∧ b.head? ≠ some '+'
  | .dollars, b => ¬ Occurs "$$".toList (b ++ "$".toList)
  | .passMacro, b => ']' ∉ b ∧ b.getLast? ≠ some '\\'

/-- A text in which no passthrough can begin: it has none of the characters for that. -/
def NoPass (u : Text) : Prop := '[' ∉ u ∧ '\\' ∉ u ∧ '+' ∉ u ∧ '$' ∉ u ∧ ¬ Occurs "pass:".toList u

/-- The pieces one after the other, with a last one. -/
def interleave (pieces : List (Text × Text)) (last : Text) : Text := (pieces.flatMap fun p => p.1 ++ p.2) ++ last

/-- A passthrough as it is written. -/
def written (k : PassKind) (b : Text) : Text := k.opening ++ b ++ k.closing

/-- The characters that delimit a placeholder. -/
def markStart : Char := Char.ofNat 0x96
def markEnd : Char := Char.ofNat 0x97

/-- The placeholder with number `i`. -/
def placeholder (i : Nat) : Text := markStart :: (Nat.toDigits 10 i ++ [markEnd])

/-- The text of special characters as the renderer writes it. -/
def specialsShown (r : Renderer) (t : Text) : Text :=
  t.flatMap fun c =>
    if c = '<' then r.special .lt else if c = '>' then r.special .gt else if c = '&' then r.special .ampersand else [c]

/-- What is to be seen of the body of a passthrough: the body itself for `+++` and `pass:[]`; for `++` and `$$` the special
characters are still replaced. -/
def PassKind.shown (r : Renderer) : PassKind → Text → Text
  | .triple, b => b
  | .passMacro, b => b
  | .double, b => specialsShown r b
  | .dollars, b => specialsShown r b

/-- The texts, each followed by the next placeholder. -/
def withPlaceholders : Nat → List Text → List (Text × Text)
  | _, [] => []
  | i, u :: us => (u, placeholder i) :: withPlaceholders (i + 1) us

/-- A text to which the normal substitutions do nothing, for lack of anything to substitute. -/
structure Inert (u : Text) : Prop where
  /-- special characters, quotes, attribute references, e-mail addresses, apostrophes and entities -/
  chars : ∀ c ∈ ['<', '>', '&', '*', '_', '`', '#', '^', '~', '{', '@', '\''], c ∉ u
  /-- dashes, ellipses, `(C)` and the like, and links -/
  words : ∀ w ∈ ["--", "...", "(C", "(R", "(T", "://"], ¬ Occurs w.toList u

end Adoc.Spec
