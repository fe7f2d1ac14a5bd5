import Verif.Model.Steps
/-!
# Replacement with look-ahead

What replacing the matches of an expression with look-ahead is meant to do.  `Looked re rep strict done prev empty t out`:
scanning the text `t` from the left, with `prev` the character in front of it, writes `out`.

* Text outside matches is kept.
* A match is shown to the replacer together with the text behind it.  The replacer writes a replacement and the scan goes on
  behind the match; or it writes something else and asks to go on `n` bytes behind the start of the match, as at the start
  of a text.
* An empty match right behind another match is not a match (`empty` is false there), as for `Regex::replace_all`.

`done` says that a match has been replaced already.  With `strict`, the replacer never asks to skip after that.
-/

namespace Adoc.Spec
open Adoc Re
variable [Uni]

inductive Looked (re : Re) (rep : LookReplacer) (strict : Bool) : Bool → Option Char → Bool → Text → Text → Prop
  | finish {d pv e} : (∀ mt s, matchAt re pv [] = some (mt, s) → e = false) → Looked re rep strict d pv e [] []
  | keep {d pv e c cs out} : (∀ mt s, matchAt re pv (c :: cs) = some (mt, s) → mt.text = [] ∧ e = false) →
      Looked re rep strict d (some c) true cs out → Looked re rep strict d pv e (c :: cs) (c :: out)
  | replace {d pv e mt s x out} : matchAt re pv (mt.text ++ s.rest) = some (mt, s) → mt.text ≠ [] →
      rep mt s.rest = .ok (x, .continue_) → Looked re rep strict true s.prev false s.rest out →
      Looked re rep strict d pv e (mt.text ++ s.rest) (x ++ out)
  | replaceEmpty {d pv c cs mt s x out} : matchAt re pv (c :: cs) = some (mt, s) → mt.text = [] →
      rep mt (c :: cs) = .ok (x, .continue_) → Looked re rep strict true (some c) true cs out →
      Looked re rep strict d pv true (c :: cs) (x ++ c :: out)
  | replaceEnd {d pv mt s x} : matchAt re pv [] = some (mt, s) → rep mt [] = .ok (x, .continue_) →
      Looked re rep strict d pv true [] x
  | skip {d pv e mt s x a b out} : matchAt re pv (a ++ b) = some (mt, s) → (mt.text = [] → e = true) →
      rep mt s.rest = .ok (x, .skipAheadAndRetry (blen a)) → a ≠ [] → (strict = true → d = false) →
      Looked re rep strict d none true b out → Looked re rep strict d pv e (a ++ b) (x ++ out)

end Adoc.Spec
