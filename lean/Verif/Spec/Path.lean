import Verif.Model.Path
/-! # Specification of clean web paths -/

namespace Adoc.Spec

/-- The pieces of a text between slashes, by what they have to satisfy: glued with slashes they give the text, and
no piece contains a slash.  (There is exactly one such list.) -/
def Segments (t : Text) (segs : List Text) : Prop :=
  segs ≠ [] ∧ t = (List.intersperse ['/'] segs).flatten ∧ ∀ s ∈ segs, '/' ∉ s

/-- No `.` segment; `..` only in an unbroken run at the front. -/
def DotsLead (segs : List Text) : Prop :=
  ['.'] ∉ segs ∧ ∃ k rest, segs = List.replicate k ['.', '.'] ++ rest ∧ ['.', '.'] ∉ rest

/-- A clean path: a path starting with `/` has neither `.` nor `..` segments; after an optional leading `./` a
relative path has no `.` segment, and `..` only as a leading run; no spaces anywhere. -/
def CleanPath (p : Text) : Prop :=
  ' ' ∉ p ∧
  ((∃ rest segs, p = '/' :: rest ∧ Segments rest segs ∧ ['.'] ∉ segs ∧ ['.', '.'] ∉ segs) ∨
   (∃ rest segs, p = '.' :: '/' :: rest ∧ Segments rest segs ∧ DotsLead segs) ∨
   (∃ segs, p.head? ≠ some '/' ∧ Segments p segs ∧ DotsLead segs))

/-- The shape of a URI scheme prefix: at least two characters, a letter first, a colon and up to two slashes at
the end. -/
def UriPrefix [Uni] (p : Text) : Prop :=
  ∃ c cs slashes, p = c :: cs ++ ':' :: slashes ∧ Uni.isAlphabetic c = true ∧ cs ≠ [] ∧
    (∀ d ∈ cs, Uni.isAlphabetic d = true ∨ Uni.isNumeric d = true ∨ d = '.' ∨ d = '+' ∨ d = '-') ∧
    (slashes = [] ∨ slashes = ['/'] ∨ slashes = ['/', '/'])

/-- What the model assumes of the Unicode tables where it needs any assumption: they agree with ASCII on ASCII, and white
space is neither a letter nor a number. -/
class LawfulUni [Uni] : Prop where
  alpha : ∀ c : Char, c.toNat < 128 → Uni.isAlphabetic c = isAsciiAlpha c
  num : ∀ c : Char, c.toNat < 128 → Uni.isNumeric c = isAsciiDigit c
  letter : ∀ c : Char, c.toNat < 128 → Uni.isLetter c = isAsciiAlpha c
  nd : ∀ c : Char, c.toNat < 160 → Uni.isNd c = isAsciiDigit c
  word : ∀ c : Char, c.toNat < 128 → Uni.isWord c = (isAsciiAlnum c || c == '_')
  lower : ∀ t : Text, (∀ c ∈ t, c.toNat < 128) → Uni.toLowercase t = t.map Char.toLower
  white : ∀ c : Char, isWhite c = true → Uni.isLetter c = false ∧ Uni.isNumeric c = false

/-- The assumption can be met: the tables of ASCII alone, which the examples use, meet it. -/
theorem asciiUni_lawful : @LawfulUni asciiUni :=
  letI := asciiUni
  { alpha := fun _ _ => rfl
    num := fun _ _ => rfl
    letter := fun _ _ => rfl
    nd := fun _ _ => rfl
    word := fun _ _ => rfl
    lower := fun _ _ => rfl
    white := fun c h => by
      change isAsciiAlpha c = false ∧ isAsciiDigit c = false
      simp only [isWhite, Bool.or_eq_true, Bool.and_eq_true, decide_eq_true_eq, beq_iff_eq] at h
      constructor <;> simp only [isAsciiAlpha, isAsciiDigit, Bool.or_eq_false_iff, Bool.and_eq_false_iff, decide_eq_false_iff_not,
        show 'a'.toNat = 97 from rfl, show 'z'.toNat = 122 from rfl, show 'A'.toNat = 65 from rfl, show 'Z'.toNat = 90 from rfl,
        show '0'.toNat = 48 from rfl, show '9'.toNat = 57 from rfl] <;> omega }

/-- Resolving one reference at a time: a `.` segment disappears, a segment cancels against a following `..`, and
at the root `..` has nowhere to go. -/
inductive Reduce (rooted : Bool) : List Text → List Text → Prop
  | refl {a} : Reduce rooted a a
  | dot {a b c} : Reduce rooted (a ++ b) c → Reduce rooted (a ++ [['.']] ++ b) c
  | up {a s b c} : s ≠ ['.', '.'] → s ≠ ['.'] → Reduce rooted (a ++ b) c →
      Reduce rooted (a ++ [s, ['.', '.']] ++ b) c
  | top {b c} : rooted = true → Reduce rooted b c → Reduce rooted (['.', '.'] :: b) c

/-- What is in front of an empty segment cancels altogether, and what is behind it comes to something and does not climb. -/
def EmptiesOut (segs : List Text) : Prop :=
  ∃ front back rest, segs = front ++ [[]] ++ back ∧ Reduce false front [] ∧ Reduce false back rest ∧ rest ≠ [] ∧
    ['.'] ∉ rest ∧ ['.', '.'] ∉ rest

/-- Spaces written as `%20`. -/
def escapeSpaces (t : Text) : Text := t.flatMap fun c => if c = ' ' then ['%', '2', '0'] else [c]

/-- Segments glued with slashes. -/
def glue (segs : List Text) : Text := (List.intersperse ['/'] segs).flatten

/-- Backslashes become slashes when the backslash is the platform's separator. -/
def Posix (sep : Char) (t p : Text) : Prop :=
  (sep = '\\' → p = t.map fun c => if c = '\\' then '/' else c) ∧ (sep ≠ '\\' → p = t)

/-- `out` is `path` resolved: its root is kept, its segments are reduced, spaces are escaped, and nothing is left
to reduce. -/
def ResolvedPath (path out : Text) : Prop :=
  ∃ root after segs result,
    path = root ++ after ∧
    (root = ['/'] ∨ (root = ['.', '/']) ∨
      (root = [] ∧ path.head? ≠ some '/' ∧ ¬ ∃ r, path = '.' :: '/' :: r)) ∧
    Segments after segs ∧ Reduce (decide (root = ['/'])) segs result ∧
    ['.'] ∉ result ∧ (root = ['/'] → ['.', '.'] ∉ result) ∧ DotsLead result ∧
    out = escapeSpaces (root ++ glue result)

end Adoc.Spec
