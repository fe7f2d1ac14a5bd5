import Verif.Model.Leaf
import Verif.Spec.Lines
/-!
# Specification of paragraphs and of delimited blocks with verbatim content
-/

namespace Adoc.Spec

/-- Four or more of one of the characters `/`, `-`, `.`, `+`. -/
def RawDelim (c : Char) (t : Text) : Prop :=
  (c = '/' ∨ c = '-' ∨ c = '.' ∨ c = '+') ∧ ∃ n, t = List.replicate (n + 4) c

/-- Two dashes, or four or more of one of the characters `=`, `*`, `_`. -/
def CompoundDelim (t : Text) : Prop :=
  t = ['-', '-'] ∨ ∃ c n, (c = '=' ∨ c = '*' ∨ c = '_') ∧ t = List.replicate (n + 4) c

/-- What the delimiter made of the character opens: content model, context and default substitutions. -/
def rawBlockKind (c : Char) : ContentModel × Text × Group :=
  if c = '/' then (.raw, "comment".toList, .none)
  else if c = '-' then (.verbatim, "listing".toList, .verbatim)
  else if c = '.' then (.verbatim, "literal".toList, .verbatim)
  else (.raw, "pass".toList, .pass)

/-- `body` is `raw` without one line end at its end, if it has one. -/
def WithoutLineEnd (raw body : Text) : Prop :=
  raw = body ++ ['\r', '\n'] ∨ (raw = body ++ ['\n'] ∧ ∀ r, body ≠ r ++ ['\r']) ∨ (raw = body ∧ ∀ r, body ≠ r ++ ['\n'])

/-- The text consists of whole lines. -/
def WholeLines (t : Text) : Prop := t = [] ∨ ∃ r, t = r ++ ['\n']

/-- A comment line: two slashes but not three. -/
def CommentLine (l : Text) : Prop := ∃ r, l = '/' :: '/' :: r ∧ r.head? ≠ some '/'

/-- A line that ends a paragraph: a lone plus sign, a line in brackets, a delimiter. -/
def EndsParagraph (l : Text) : Prop :=
  l = ['+'] ∨ (∃ a, l = '[' :: a ++ [']']) ∨ (∃ c, RawDelim c l) ∨ CompoundDelim l

/-- The lines of a paragraph at the beginning of some lines: it ends at an empty line and, once it has a line that is not
a comment (`started`), at a line that ends paragraphs. -/
inductive Paragraph : Bool → List Text → List Text → List Text → Prop
  | stop {started ls} : (∀ l r, ls = l :: r → l = [] ∨ (started = true ∧ EndsParagraph l)) → Paragraph started ls [] ls
  | comment {started l ls taken rest} : CommentLine l → ¬ (started = true ∧ EndsParagraph l) →
      Paragraph started ls taken rest → Paragraph started (l :: ls) (l :: taken) rest
  | line {started l ls taken rest} : l ≠ [] → ¬ CommentLine l → ¬ (started = true ∧ EndsParagraph l) →
      Paragraph true ls taken rest → Paragraph started (l :: ls) (l :: taken) rest

/-- What a line becomes in a paragraph of which the first line is indented by `n`: at most as much indentation is removed
(none from a line of blanks), and the white space at the end. -/
inductive Stripped (n : Nat) : Text → Text → Prop
  | blank {l} : (∀ c ∈ l, c = ' ' ∨ c = '\t') → Stripped n l (trimEnd l)
  | indented {i l} : (∀ c ∈ i, c = ' ' ∨ c = '\t') → i.length ≤ n →
      (i.length = n ∨ (l.head? ≠ some ' ' ∧ l.head? ≠ some '\t')) → (∃ c ∈ l, c ≠ ' ' ∧ c ≠ '\t') →
      Stripped n (i ++ l) (trimEnd l)

/-- The lines of a paragraph and the lines of its content: comments are left out, the others are stripped. -/
inductive ParagraphText (n : Nat) : List Text → List Text → Prop
  | nil : ParagraphText n [] []
  | comment {l ls ts} : CommentLine l → ParagraphText n ls ts → ParagraphText n (l :: ls) ts
  | line {l ls x ts} : ¬ CommentLine l → Stripped n l x → ParagraphText n ls ts → ParagraphText n (l :: ls) (x :: ts)

end Adoc.Spec
