import Verif.Spec.Attribute
import Verif.Spec.SourceMap
import Verif.Model.Preprocessor
/-!
# What preprocessing should do

A reading of a file, line by line, that produces the lines of the result together with the file and line each of them was
copied from.  It mentions neither the output buffer, nor the source map, nor the flags of the code.
-/

namespace Adoc.Spec

/-- `l` is an include directive: `include::target[]` or `include::target[attrs]`.  The target has no `[` and no white
space at its ends; the attribute list has at least two characters and does not begin with `]`. -/
def IncludeLine (l target : Text) (attrs : Option Text) : Prop :=
  (∃ inner, l = "include::".toList ++ target ++ '[' :: inner ++ [']'] ∧
    ((attrs = none ∧ inner = []) ∨ (attrs = some inner ∧ 2 ≤ inner.length ∧ inner.head? ≠ some ']'))) ∧
  target ≠ [] ∧ '[' ∉ target ∧ (∀ c r, target = c :: r → isWhite c = false) ∧ (∀ c r, target = r ++ [c] → isWhite c = false)

/-- What has been learnt so far: the attributes, whether the document header is not over yet, and whether attribute
entries are looked for. -/
structure Reading where
  attrs : AttrStore
  header : Bool
  entries : Bool

/-- After an ordinary line.  The first empty line ends the header; afterwards entries are looked for behind an empty line
until some other text comes. -/
def Reading.line (σ : Reading) (l : Text) : Reading :=
  { σ with
    header := σ.header && !l.isEmpty
    entries := l.isEmpty || (σ.header && σ.entries) }

/-- After an attribute entry (a write from the document body). -/
def Reading.entry [Uni] (σ : Reading) (name : Text) (v : IVal) : Reading :=
  { σ with attrs := (σ.attrs.setFromBody ⟨Span.new name, none, v, Span.new []⟩).1 }

/-- An attribute entry stands at the beginning of `t`, whose first line is `l`. -/
def EntryAt (σ : Reading) (t l c sep rest name : Text) (kind : EntryKind) : Prop :=
  σ.entries = true ∧ (∃ r, l = ':' :: r) ∧ (EndsIn l ':' ∨ ∃ a b, l = a ++ ": ".toList ++ b) ∧ Extent t c sep rest ∧
  ∃ u, StripSpaces c u ∧ Entry u name kind

def NoEntry (σ : Reading) (t l : Text) : Prop := ∀ c sep rest name kind, ¬ EntryAt σ t l c sep rest name kind

/-- The value an entry gives to its attribute. -/
inductive EntryValue (hdr : Text → Res Text) : EntryKind → IVal → Prop
  | unset : EntryValue hdr .unset .unset
  | set : EntryValue hdr .set .set
  | value {raw v} : hdr (joinValue raw) = .ok v → EntryValue hdr (.value raw) (.value v)

/-- `b` is `t` without the white space at its end. -/
def StripEnd (t b : Text) : Prop := ∃ w, t = b ++ w ∧ (∀ c ∈ w, isWhite c = true) ∧ ∀ c r, b = r ++ [c] → isWhite c = false

/-- The attribute list handed to the include handler. -/
inductive IncludeAttrs [Uni] (store : AttrStore) : Option Text → Attrlist → Prop
  | none : IncludeAttrs store none ⟨[], none, Span.new []⟩
  | some {a al} : inlineAttrlist store a = .ok al → IncludeAttrs store (some a) al

/-- The text a reference stands for: the attribute's value, and nothing when there is none. -/
def attrText (s : AttrStore) (name : Text) : Text :=
  match s.attributeValue name with
  | .value v => v
  | _ => []

/-- A line of the result and where it comes from. -/
structure OutLine where
  text : Text
  origin : SourceLine
deriving DecidableEq, Repr

/-- The lines `ls` with consecutive line numbers from `n` on. -/
def numberedLines (file : Option Text) : Nat → List Text → List OutLine
  | _, [] => []
  | n, l :: ls => ⟨l, ⟨file, n⟩⟩ :: numberedLines file (n + 1) ls

/-- The line that stands for a directive that could not be resolved. -/
def unresolvedLine (file : Option Text) (l : Text) : Text :=
  "Unresolved directive in ".toList ++ file.getD "(root file)".toList ++ " - ".toList ++ l

/-- `Expansion env strict file started n t σ outs σ'`: reading the rest `t` of `file` from its line `n` on, beginning in
`σ`, gives the lines `outs` and ends in `σ'`.  `started` says that a line of this file was copied since its beginning or
since the last resolved directive (for a root file without name also at the beginning).

With `strict`, two things must not happen: a directive that cannot be resolved before `started`, and an attribute entry
that ends in blank lines and is followed by more text.  A strict expansion is an expansion. -/
inductive Expansion [Uni] (env : PreEnv) (strict : Bool) :
    Option Text → Bool → Nat → Text → Reading → List OutLine → Reading → Prop
  | done {file started n σ} : Expansion env strict file started n [] σ [] σ
  | text {file started n t l sep rest σ outs σ'} :
      t ≠ [] → FirstLine t l sep rest → NoEntry σ t l → (∀ target attrs, ¬ IncludeLine l target attrs) →
      Expansion env strict file true (n + 1) rest (σ.line l) outs σ' →
      Expansion env strict file started n t σ (⟨l, ⟨file, n⟩⟩ :: outs) σ'
  | entry {file started n t l lsep lrest c sep rest name kind v b σ outs σ'} :
      t ≠ [] → FirstLine t l lsep lrest → EntryAt σ t l c sep rest name kind → EntryValue (env.hdr σ.attrs) kind v →
      StripEnd c b → (strict = true → rest ≠ [] → b.count '\n' = c.count '\n') →
      Expansion env strict file true (n + c.count '\n' + 1) rest (σ.entry name v) outs σ' →
      Expansion env strict file started n t σ (numberedLines file n (splitChar '\n' b) ++ outs) σ'
  | resolved {file started n t l sep rest target attrs target' al text σ outs₁ σ₁ outs₂ σ₂} :
      t ≠ [] → FirstLine t l sep rest → NoEntry σ t l → IncludeLine l target attrs →
      Expands (fun n => σ.attrs.hasAttribute n = true) (attrText σ.attrs) target target' → IncludeAttrs σ.attrs attrs al →
      env.resolve file target' al σ.attrs = some text →
      Expansion env strict (some target') false 1 text σ outs₁ σ₁ →
      Expansion env strict file false (n + 1) rest σ₁ outs₂ σ₂ →
      Expansion env strict file started n t σ (outs₁ ++ outs₂) σ₂
  | unresolved {file started n t l sep rest target attrs target' al σ outs σ'} :
      t ≠ [] → FirstLine t l sep rest → NoEntry σ t l → IncludeLine l target attrs →
      Expands (fun n => σ.attrs.hasAttribute n = true) (attrText σ.attrs) target target' → IncludeAttrs σ.attrs attrs al →
      env.resolve file target' al σ.attrs = none → (strict = true → started = true ∧ '\n' ∉ file.getD []) →
      Expansion env strict file started (n + 1) rest σ outs σ' →
      Expansion env strict file started n t σ (⟨unresolvedLine file l, ⟨file, n⟩⟩ :: outs) σ'

/-- The text made of the lines: each is followed by a newline. -/
def OutLine.join (outs : List OutLine) : Text := outs.flatMap fun o => o.text ++ ['\n']

/-- In `t`, a backslash is never followed by two line ends with only white space in between. -/
def Tidy (t : Text) : Prop := ∀ a w r, t = a ++ '\\' :: w ++ r → (∀ x ∈ w, isWhite x = true) → w.count '\n' ≤ 1

/-- `ls` are the lines of `t`; the last one may lack its line end. -/
inductive LinesOf : Text → List Text → Prop
  | nil : LinesOf [] []
  | last {l} : l ≠ [] → '\n' ∉ l → LinesOf l [l]
  | cons {l rest ls} : '\n' ∉ l → LinesOf rest ls → LinesOf (l ++ '\n' :: rest) (l :: ls)

/-- The text made of these lines. -/
def unlines (ls : List Text) : Text := ls.flatMap (· ++ ['\n'])

/-- Lines that preprocessing keeps: no directives, no carriage returns, no white space at the end, no empty line behind one
that ends in a backslash. -/
structure PlainLines (ls : List Text) : Prop where
  noCr : ∀ l ∈ ls, '\r' ∉ l
  noInclude : ∀ l ∈ ls, ∀ target attrs, ¬ IncludeLine l target attrs
  noTrailing : ∀ l ∈ ls, ∀ c r, l = r ++ [c] → isWhite c = false
  noDangling : ∀ a l m b, ls = a ++ l :: m :: b → EndsIn l '\\' → m ≠ []

/-- The state of reading at the beginning of a document. -/
def Reading.start (attrs : AttrStore) : Reading := ⟨attrs, true, true⟩

end Adoc.Spec
