import Verif.Spec.Span
import Verif.Spec.Steps
/-!
# What an attribute entry is
-/

namespace Adoc.Spec

/-- `line` is the first line of `t`, `sep` its terminator and `rest` what follows.  A carriage return in front of the line
feed (or at the end of the text) belongs to the terminator. -/
structure FirstLine (t line sep rest : Text) : Prop where
  eq : t = line ++ sep ++ rest
  noNl : '\n' ∉ line
  term : IsTerminator sep rest
  cr : EndsIn line '\r' → sep = ['\r', '\n'] ∨ sep = ['\r']

/-- A line that is continued on the next one: it ends in a backslash, possibly followed by spaces. -/
def Continued (l : Text) : Prop := ∃ a sp, l = a ++ '\\' :: sp ∧ ∀ c ∈ sp, c = ' '

/-- The lines an entry at the beginning of `t` extends over: `content` up to its last terminator `sep`; the text behind
is `rest`. -/
inductive Extent : Text → Text → Text → Text → Prop
  | last {t l sep rest} : FirstLine t l sep rest → (¬ Continued l ∨ rest = []) → Extent t l sep rest
  | more {t l sep rest c sep' rest'} : FirstLine t l sep rest → Continued l → rest ≠ [] → Extent rest c sep' rest' →
      Extent t (l ++ sep ++ c) sep' rest'

/-- What an entry says about the attribute; `value` carries the value as written. -/
inductive EntryKind where
  | unset | set | value (raw : Text)
deriving DecidableEq, Repr

/-- The forms of an entry: `:!name:` and `:name!:` (whatever follows), `:name:`, and `:name: value`. -/
inductive Entry : Text → Text → EntryKind → Prop
  | unsetFront {n rest} : RefName n → Entry (':' :: '!' :: n ++ ':' :: rest) n .unset
  | unsetBack {n rest} : RefName n → Entry (':' :: n ++ '!' :: ':' :: rest) n .unset
  | set {n} : RefName n → Entry (':' :: n ++ [':']) n .set
  | value {n sp raw} : RefName n → sp ++ raw ≠ [] → Blank sp → (∀ c r, raw = c :: r → c ≠ ' ' ∧ c ≠ '\t') →
      Entry (':' :: n ++ ':' :: (sp ++ raw)) n (.value raw)

/-- `t` without the spaces at its end is `u`. -/
def StripSpaces (t u : Text) : Prop := ∃ sp, t = u ++ sp ∧ (∀ c ∈ sp, c = ' ') ∧ ¬ EndsIn u ' '

/-- A piece of a value: not empty, on one line, without spaces at its ends and without a marker at its end. -/
structure Piece (v : Text) : Prop where
  ne : v ≠ []
  noNl : '\n' ∉ v
  noCr : '\r' ∉ v
  first : ∀ c r, v = c :: r → c ≠ ' '
  last : ∀ c r, v = r ++ [c] → c ≠ ' ' ∧ c ≠ '\\' ∧ c ≠ '+'

/-- A value as written on several lines, and the value meant: ` \` at the end of a line joins it to the next one with a
space, ` + \` with a line end; the next line may be indented. -/
inductive Wrapped : Text → Text → Prop
  | last {v} : Piece v → Wrapped v v
  | soft {v sp raw x} : Piece v → (∀ c ∈ sp, c = ' ') → Wrapped raw x →
      Wrapped (v ++ [' ', '\\', '\n'] ++ sp ++ raw) (v ++ ' ' :: x)
  | hard {v sp raw x} : Piece v → (∀ c ∈ sp, c = ' ') → Wrapped raw x →
      Wrapped (v ++ [' ', '+', ' ', '\\', '\n'] ++ sp ++ raw) (v ++ '\n' :: x)

end Adoc.Spec
