import Verif.Model.SubGroup
/-!
# Custom substitution lists: what they denote
-/

namespace Adoc.Spec

/-- The documented names of the substitution steps. -/
def stepNames : List (String × Step) :=
  [("c", .specialCharacters), ("specialcharacters", .specialCharacters), ("specialchars", .specialCharacters),
   ("q", .quotes), ("quotes", .quotes), ("a", .attributeReferences), ("attributes", .attributeReferences),
   ("r", .characterReplacements), ("replacements", .characterReplacements), ("m", .macros), ("macros", .macros),
   ("p", .postReplacement), ("post_replacements", .postReplacement)]

/-- What one item of the list asks for. -/
inductive SubItem where
  /-- start again with these steps -/
  | reset (l : List Step)
  /-- a step at the end; `mod` when written with a leading `+` -/
  | add (mod : Bool) (s : Step)
  /-- a step in front: trailing `+` -/
  | addFront (s : Step)
  /-- without this step: leading `-` -/
  | remove (s : Step)

/-- The item written as the given text (without surrounding white space). -/
inductive Denotes : Text → SubItem → Prop
  | normal {t} : t = "n".toList ∨ t = "normal".toList → Denotes t (.reset [.specialCharacters, .quotes,
      .attributeReferences, .characterReplacements, .macros, .postReplacement])
  | verbatim {t} : t = "v".toList ∨ t = "verbatim".toList → Denotes t (.reset [.specialCharacters])
  | plain {n s} : (n, s) ∈ stepNames → Denotes n.toList (.add false s)
  | append {n s} : (n, s) ∈ stepNames → Denotes ('+' :: n.toList) (.add true s)
  | prepend {n s} : (n, s) ∈ stepNames → Denotes (n.toList ++ ['+']) (.addFront s)
  | subtract {n s} : (n, s) ∈ stepNames → Denotes ('-' :: n.toList) (.remove s)

/-- The item modifies an existing list rather than spelling out a new one. -/
def SubItem.modifies : SubItem → Bool
  | .reset _ => false
  | .add m _ => m
  | .addFront _ => true
  | .remove _ => true

/-- The steps after one item. -/
def SubItem.run (l : List Step) : SubItem → List Step
  | .reset l' => l'
  | .add _ s => l ++ [s]
  | .addFront s => s :: l
  | .remove s => l.filter (fun x => x ≠ s)

/-- Does the item put the step in (`some true`), take it out (`some false`), or leave it alone? -/
def SubItem.effect (x : Step) : SubItem → Option Bool
  | .reset l => some (decide (x ∈ l))
  | .add _ s => if s = x then some true else none
  | .addFront s => if s = x then some true else none
  | .remove s => if s = x then some false else none

/-- How often the step is in the list after the item, if it was there `n` times before. -/
def SubItem.times (x : Step) (n : Nat) : SubItem → Nat
  | .reset l => l.count x
  | .add _ s => if s = x then n + 1 else n
  | .addFront s => if s = x then n + 1 else n
  | .remove s => if s = x then 0 else n

end Adoc.Spec
