import Verif.Model.Renderer
/-!
# Specification: typographic replacements
-/

namespace Adoc.Spec

/-- A text is rewritten from the left to the right: where a piece of it can be replaced, it is, and the search goes on behind
it; every other character is kept.  `P before piece behind new` says that the piece can be replaced by `new`, where `before`
is the character in front of it and `behind` the text behind it. -/
inductive Rewrites (P : Option Char → Text → Text → Text → Prop) : Option Char → Text → Text → Prop
  | done {before} : Rewrites P before [] []
  | hit {before piece behind new out} : P before piece behind new → Rewrites P piece.getLast? behind out →
      Rewrites P before (piece ++ behind) (new ++ out)
  | miss {before c t out} : (∀ piece behind new, c :: t = piece ++ behind → ¬ P before piece behind new) →
      Rewrites P (some c) t out → Rewrites P before (c :: t) (c :: out)

/-- `word` becomes `new`; with a backslash in front of it, it only loses that. -/
def Sign (word new : Text) (_ : Option Char) (piece _ out : Text) : Prop :=
  (piece = word ∧ out = new) ∨ (piece = '\\' :: word ∧ out = word)

/-- Two dashes behind a space, a line end or a backslash, or at the beginning, and in front of a space, a line end or the
end of the text. -/
def SpacedDash (new : Text) (before : Option Char) (piece behind out : Text) : Prop :=
  ∃ a b, piece = a ++ ['-', '-'] ++ b ∧ (a = [' '] ∨ a = ['\n'] ∨ a = ['\\'] ∨ (a = [] ∧ before = none)) ∧
    (b = [' '] ∨ b = ['\n'] ∨ (b = [] ∧ behind = [])) ∧ out = if a = ['\\'] then ['-', '-'] ++ b else new

/-- Two dashes behind a character of a word, or a backslash and two dashes. -/
def WordDash [Uni] (new : Text) (_ : Option Char) (piece _ out : Text) : Prop :=
  ∃ c, Uni.isWord c = true ∧ ((piece = [c, '-', '-'] ∧ out = c :: new) ∨ (piece = [c, '\\', '-', '-'] ∧ out = [c, '-', '-']))

/-- An apostrophe between a letter or digit and a letter, with or without a backslash in front of it. -/
def InnerApostrophe (new : Text) (_ : Option Char) (piece _ out : Text) : Prop :=
  ∃ c d, isAsciiAlnum c = true ∧ isAsciiAlpha d = true ∧
    ((piece = [c, '\'', d] ∧ out = c :: new ++ [d]) ∨ (piece = [c, '\\', '\'', d] ∧ out = [c, '\'', d]))

/-- What stands between the ampersand and the semicolon of a character reference: a name of letters with up to two digits
behind it, or a number sign and two to six digits, or `#x` and two to five hexadecimal digits. -/
def ReferenceName [Uni] (n : Text) : Prop :=
  (∃ a b, n = a ++ b ∧ 2 ≤ a.length ∧ (∀ c ∈ a, isAsciiAlpha c = true) ∧ b.length ≤ 2 ∧ ∀ c ∈ b, Uni.isNd c = true) ∨
  (∃ d, n = '#' :: d ∧ 2 ≤ d.length ∧ d.length ≤ 6 ∧ ∀ c ∈ d, Uni.isNd c = true) ∨
  (∃ d, n = '#' :: 'x' :: d ∧ 2 ≤ d.length ∧ d.length ≤ 5 ∧
    ∀ c ∈ d, Uni.isNd c = true ∨ ('a'.toNat ≤ c.toNat ∧ c.toNat ≤ 'f'.toNat) ∨ ('A'.toNat ≤ c.toNat ∧ c.toNat ≤ 'F'.toNat))

/-- An escaped ampersand, the name of a character reference and a semicolon, with or without a backslash in front. -/
def Reference [Uni] (new : Text → Text) (_ : Option Char) (piece _ out : Text) : Prop :=
  ∃ n, ReferenceName n ∧ ((piece = "&amp;".toList ++ n ++ [';'] ∧ out = new n) ∨
    (piece = '\\' :: "&amp;".toList ++ n ++ [';'] ∧ out = "&amp;".toList ++ n ++ [';']))

/-- The replacements of a renderer, in the order in which they are made. -/
def typography [Uni] (r : CharRepl → Text) : List (Option Char → Text → Text → Text → Prop) :=
  [Sign "(C)".toList (r .copyright), Sign "(R)".toList (r .registered), Sign "(TM)".toList (r .trademark),
    SpacedDash (r .emDashSurroundedBySpaces), WordDash (r .emDashWithoutSpace), Sign "...".toList (r .ellipsis),
    Sign "`'".toList (r .typographicApostrophe), InnerApostrophe (r .typographicApostrophe),
    Sign "-&gt;".toList (r .singleRightArrow), Sign "=&gt;".toList (r .doubleRightArrow),
    Sign "&lt;-".toList (r .singleLeftArrow), Sign "&lt;=".toList (r .doubleLeftArrow),
    Reference fun n => r (.characterReference n)]

/-- One replacement after the other is made in the whole text. -/
inductive Typeset : List (Option Char → Text → Text → Text → Prop) → Text → Text → Prop
  | nil {t} : Typeset [] t t
  | cons {P Ps t u v} : Rewrites P none t u → Typeset Ps u v → Typeset (P :: Ps) t v

end Adoc.Spec
