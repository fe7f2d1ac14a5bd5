import Verif.Spec.Formatting
/-!
# Specification: single backquotes

A passage between single backquotes is not formatted when a quote follows it: then its first character is kept (with a
backslash in front of it, its first two), and the search starts again behind that, as at the beginning of a text.

`Monospace` says what is meant.  `Backquoted` says what happens: the program does not notice that it has started again, and
drops as many bytes behind the new start as there were up to the last formatted passage behind the old one.
-/

namespace Adoc.Spec
open Adoc

/-- A quote follows. -/
def QuoteNext (t : Text) : Prop := ∃ c r, t = c :: r ∧ (c = '"' ∨ c = '\'' ∨ c = '`')

/-- What is kept of a passage that is not formatted. -/
def keptOf (piece : Text) : Text := if ['\\'] <+: piece then piece.take 2 else piece.take 1

/-- What is meant to become of a text.  `P` says what the passages are and how they are formatted.  `done` says that a passage
has been formatted already.  With `strict`, no passage behind that is one that is not to be formatted, and those before that do
not stand behind a character of several bytes. -/
inductive Monospace (P : Option Char → Text → Text → Text → Prop) (strict : Bool) : Bool → Option Char → Text → Text → Prop
  | done {d before} : Monospace P strict d before [] []
  | keep {d before c t out} : (∀ piece behind new, c :: t = piece ++ behind → ¬ P before piece behind new) →
      Monospace P strict d (some c) t out → Monospace P strict d before (c :: t) (c :: out)
  | hit {d before piece behind new out} : P before piece behind new → ¬ QuoteNext behind →
      Monospace P strict true piece.getLast? behind out → Monospace P strict d before (piece ++ behind) (new ++ out)
  | held {d before piece behind new rest out} : P before piece behind new → QuoteNext behind →
      piece ++ behind = keptOf piece ++ rest → (strict = true → d = false ∧ ∀ c ∈ keptOf piece, c.utf8Size = 1) →
      Monospace P strict d none rest out → Monospace P strict d before (piece ++ behind) (keptOf piece ++ out)

/-- What becomes of a text: another text, or none when the program panics.  `pos` is how many bytes have been read since the
search started the last time; `last` is where the last formatted passage ended, counted from where the search had started
when that was found. -/
inductive Backquoted (P : Option Char → Text → Text → Text → Prop) : Nat → Nat → Option Char → Text → Option Text → Prop
  | done {pos last before} : last ≤ pos → Backquoted P pos last before [] (some [])
  | short {pos last before} : pos < last → Backquoted P pos last before [] none
  | keep {pos last before c t out} : last ≤ pos → (∀ piece behind new, c :: t = piece ++ behind → ¬ P before piece behind new) →
      Backquoted P (pos + c.utf8Size) last (some c) t out → Backquoted P pos last before (c :: t) (out.map (c :: ·))
  | lose {pos last before c t out} : pos + c.utf8Size ≤ last →
      (∀ piece behind new, c :: t = piece ++ behind → ¬ P before piece behind new) →
      Backquoted P (pos + c.utf8Size) last (some c) t out → Backquoted P pos last before (c :: t) out
  | torn {pos last before c t} : pos < last → last < pos + c.utf8Size →
      (∀ piece behind new, c :: t = piece ++ behind → ¬ P before piece behind new) → Backquoted P pos last before (c :: t) none
  | hit {pos last before piece behind new out} : last ≤ pos → P before piece behind new → ¬ QuoteNext behind →
      Backquoted P (pos + blen piece) (pos + blen piece) piece.getLast? behind out →
      Backquoted P pos last before (piece ++ behind) (out.map (new ++ ·))
  | held {pos last before piece behind new rest out} : last ≤ pos → P before piece behind new → QuoteNext behind →
      piece ++ behind = keptOf piece ++ rest → (∀ c ∈ keptOf piece, c.utf8Size = 1) → Backquoted P 0 last none rest out →
      Backquoted P pos last before (piece ++ behind) (out.map (keptOf piece ++ ·))
  | wide {pos last before piece behind new c} : last ≤ pos → P before piece behind new → QuoteNext behind →
      c ∈ keptOf piece → c.utf8Size ≠ 1 → Backquoted P pos last before (piece ++ behind) none
  | inside {pos last before piece behind new} : pos < last → P before piece behind new →
      Backquoted P pos last before (piece ++ behind) none

end Adoc.Spec
