import Verif.Model.Span
/-!
# Specification: what a faithful span is

Independent of how spans are computed: a span is faithful to a document when its text is literally a piece of the
document and its three coordinates are those of the place where the piece starts.
-/

namespace Adoc.Spec

/-- `b` is the part of `pre` after its last newline (all of `pre` if it has none). -/
def CurrentLine (pre b : Text) : Prop :=
  ∃ a, pre = a ++ b ∧ '\n' ∉ b ∧ (a = [] ∨ ∃ a', a = a' ++ ['\n'])

/-- The span's text is the piece of `doc` that follows `pre`, and its coordinates describe that place:
1-based line and column (in characters), 0-based byte offset. -/
structure At (doc pre : Text) (s : Span) : Prop where
  piece : ∃ post, doc = pre ++ s.data ++ post
  offset : s.offset = (String.ofList pre).utf8ByteSize
  line : s.line = (pre.filter (· = '\n')).length + 1
  col : ∃ cur, CurrentLine pre cur ∧ s.col = cur.length + 1

/-- The span describes some piece of `doc` faithfully. -/
def Faithful (doc : Text) (s : Span) : Prop := ∃ pre, At doc pre s

end Adoc.Spec

namespace Adoc.Spec

/-- Reading lines off the front of a span until nothing is left.  Each entry is (line text, terminator). -/
inductive ReadLines : Span → List (Text × Text) → Prop
  | done {s : Span} : s.data = [] → ReadLines s []
  | step {s : Span} {sep : Text} {ls : List (Text × Text)} :
      s.data ≠ [] → s.data = s.takeLine.item.data ++ sep ++ s.takeLine.after.data →
      ReadLines s.takeLine.after ls → ReadLines s ((s.takeLine.item.data, sep) :: ls)

/-- The terminators a line can have.  A lone carriage return counts only at the very end of the text. -/
def IsTerminator (sep rest : Text) : Prop :=
  sep = ['\n'] ∨ sep = ['\r', '\n'] ∨ (rest = [] ∧ (sep = ['\r'] ∨ sep = []))

/-- A line consisting only of spaces and tabs. -/
def Blank (t : Text) : Prop := ∀ c ∈ t, c = ' ' ∨ c = '\t'

/-- `t` ends with the character `c`. -/
def EndsIn (t : Text) (c : Char) : Prop := ∃ r, t = r ++ [c]

def Letter (c : Char) : Prop := ('a'.toNat ≤ c.toNat ∧ c.toNat ≤ 'z'.toNat) ∨ ('A'.toNat ≤ c.toNat ∧ c.toNat ≤ 'Z'.toNat)
def Digit (c : Char) : Prop := '0'.toNat ≤ c.toNat ∧ c.toNat ≤ '9'.toNat

/-- `name` is the longest prefix of `name ++ rest` that starts with a `first` character and continues with
`cont` characters. -/
def MaxName (first cont : Char → Prop) (name rest : Text) : Prop :=
  (∃ c cs, name = c :: cs ∧ first c ∧ ∀ d ∈ cs, cont d) ∧ ∀ d r, rest = d :: r → ¬ cont d

/-- The text begins with a `first` character. -/
def StartsName (first : Char → Prop) (t : Text) : Prop := ∃ c cs, t = c :: cs ∧ first c

/-- Every occurrence of `q` in `t` is directly preceded by a backslash (inside `t`). -/
def AllEscaped (q : Char) (t : Text) : Prop := ∀ a b, t = a ++ q :: b → EndsIn a '\\'

end Adoc.Spec
