import Verif.Model.Text
/-!
# What the substitution steps should do
-/

namespace Adoc.Spec

/-- The entity that stands for a special character; every other character stands for itself. -/
def entity (c : Char) : Text :=
  if c = '<' then "&lt;".toList else if c = '>' then "&gt;".toList else if c = '&' then "&amp;".toList else [c]

/-- Decoding of the three entities. -/
def decode : Text → Text
  | '&' :: 'l' :: 't' :: ';' :: r => '<' :: decode r
  | '&' :: 'g' :: 't' :: ';' :: r => '>' :: decode r
  | '&' :: 'a' :: 'm' :: 'p' :: ';' :: r => '&' :: decode r
  | c :: r => c :: decode r
  | [] => []

/-- Attribute names as they may be referred to: ASCII letters, digits, `_` and (not in front) `-`. -/
def RefName (n : Text) : Prop :=
  ∃ c cs, n = c :: cs ∧ (isAsciiAlnum c = true ∨ c = '_') ∧ ∀ d ∈ cs, isAsciiAlnum d = true ∨ d = '_' ∨ d = '-'

/-- `t` begins with a reference `{name}`, and `rest` follows. -/
def BeginsRef (t name rest : Text) : Prop := RefName name ∧ t = '{' :: name ++ '}' :: rest

/-- `Expands known value t out`: reading `t` from left to right, every reference to a known attribute is replaced by
the value, an escaped one loses its backslash, references to unknown attributes (escaped or not) and all other
characters are kept.  What has been written is not read again. -/
inductive Expands (known : Text → Prop) (value : Text → Text) : Text → Text → Prop
  | nil : Expands known value [] []
  | known {t name rest out} : BeginsRef t name rest → known name → Expands known value rest out →
      Expands known value t (value name ++ out)
  | escaped {t name rest out} : BeginsRef t name rest → known name → Expands known value rest out →
      Expands known value ('\\' :: t) ('{' :: name ++ '}' :: out)
  | unknown {t name rest out} : BeginsRef t name rest → ¬ known name → Expands known value rest out →
      Expands known value t ('{' :: name ++ '}' :: out)
  | unknownEscaped {t name rest out} : BeginsRef t name rest → ¬ known name → Expands known value rest out →
      Expands known value ('\\' :: t) ('\\' :: '{' :: name ++ '}' :: out)
  | other {c t out} : (¬ ∃ name rest, BeginsRef (c :: t) name rest) → (¬ (c = '\\' ∧ ∃ name rest, BeginsRef t name rest)) →
      Expands known value t out → Expands known value (c :: t) (c :: out)

end Adoc.Spec
