import Verif.Spec.Outline
import Verif.Spec.Prose
import Verif.Spec.Preprocessor
import Verif.Spec.Shorthand
/-!
# Specification: how to write down an outline

`documentText` is a printer: it turns a title, blocks and sections into the text of a document.  `Writable` says for which
outlines it is meant: those with prose in paragraphs and titles.
-/

namespace Adoc.Spec

/-- A delimiter that is longer than all of the lines together. -/
def fence (c : Char) (ls : List Text) : Text := List.replicate (ls.flatten.length + 4) c

/-- Some lines between delimiters. -/
def fenced (c : Char) (ls : List Text) : List Text := fence c ls :: ls ++ [fence c ls]

/-- Pieces of text, each some lines, with an empty line between any two of them. -/
def separate : List (List Text) → List Text
  | [] => []
  | [p] => p
  | p :: q :: ps => p ++ [] :: separate (q :: ps)

/-- The character for the delimiter of a quote or a sidebar. -/
def contextMark (context : Text) : Char := if context = "quote".toList then '_' else '*'

/-- An attribute, with its value in quotes. -/
def quotedAttr (a : ElemAttr) : Text :=
  (match a.name with | some n => n ++ ['='] | none => []) ++ '"' :: a.value ++ ['"']

/-- An attribute of a block: shorthand as it is, any other one with its value in quotes. -/
def blockAttr (a : ElemAttr) : Text := if a.shorthand = [] then quotedAttr a else a.value

/-- The line for the attributes of a block. -/
def attrsLine (as : List ElemAttr) : Text := '[' :: List.intercalate [','] (as.map blockAttr) ++ [']']

/-- The line for an anchor. -/
def anchorLine (a : BlockAnchor) : Text := '[' :: '[' :: a.inside ++ [']', ']']

/-- The lines for the title, the anchor and the attributes of a block. -/
def labelLines (label : Label) : List Text :=
  (label.title.map ('.' :: ·)).toList ++ ((label.anchor.map anchorLine).toList ++ (label.attrs.map attrsLine).toList)

/-- The line for an image or a video. -/
def mediaLine (ty : MediaType) (target : Text) (attrs : List ElemAttr) : Text :=
  (macroName ty).toList ++ ':' :: ':' :: target ++ '[' :: List.intercalate [','] (attrs.map quotedAttr) ++ [']']

mutual

/-- The lines with which a block is written. -/
def Leaf.written : Leaf → List Text
  | .para t => splitChar '\n' t
  | .verbatim c ls => fenced c ls
  | .brk .thematic => ["'''".toList]
  | .brk .page => ["<<<".toList]
  | .media ty target attrs => [mediaLine ty target attrs]
  | .container context bs => fenced (contextMark context) (separate (Leaf.writtenAll bs))
  | .discrete n t => [List.replicate (n + 1) '=' ++ ' ' :: t]
  | .labelled label b => labelLines label ++ b.written

/-- The lines with which each of some blocks is written. -/
def Leaf.writtenAll : List Leaf → List (List Text)
  | [] => []
  | b :: bs => b.written :: Leaf.writtenAll bs

end

/-- The lines with which a block or a heading is written. -/
def Token.written : Token → List Text
  | .leaf b => b.written
  | .heading n t label => labelLines label ++ [List.replicate (n + 1) '=' ++ ' ' :: t]

mutual

/-- A section in the order in which it is written: its heading, its blocks, its subsections. -/
def Sec.tokens (n : Nat) : Sec → List Token
  | .mk t bs subs label skipped => .heading (n + skipped) t label :: (bs.map .leaf ++ Sec.allTokens (n + skipped + 1) subs)

/-- Some sections in the order in which they are written. -/
def Sec.allTokens (n : Nat) : List Sec → List Token
  | [] => []
  | s :: secs => s.tokens n ++ Sec.allTokens n secs

end

/-- The line for the title of the document, and an empty line. -/
def titleLines : Option Text → List Text
  | none => []
  | some t => ['=' :: ' ' :: t, []]

/-- The lines of the body of a document. -/
def bodyLines (leaves : List Leaf) (secs : List Sec) : List Text :=
  separate ((leaves.map Token.leaf ++ Sec.allTokens 1 secs).map Token.written)

/-- The text of a document with the given title, blocks and sections. -/
def documentText (title : Option Text) (leaves : List Leaf) (secs : List Sec) : Text :=
  unlines (titleLines title ++ bodyLines leaves secs)

/-- A line that is read as it is written: one line, no space and no carriage return at its end; and it is not a directive. -/
structure CleanLine (l : Text) : Prop where
  single : '\n' ∉ l
  space : l.getLast? ≠ some ' '
  cr : l.getLast? ≠ some '\r'
  directive : (¬ ∃ r, l = "include::".toList ++ r) ∧ ¬ ∃ r, l = "if".toList ++ r

/-- A line of a paragraph. -/
structure ProseLine (l : Text) : Prop where
  clean : CleanLine l
  solid : Solid l
  mark : ∀ c ∈ ['.', '-', '/', '=', ':'], l.head? ≠ some c

/-- A title. -/
structure ProseTitle (t : Text) : Prop where
  prose : Prose t
  single : '\n' ∉ t
  solid : Solid t

/-- An attribute that can be written: with any name but those for substitutions and options, and any value on one line
without quotes, backslashes and braces. -/
structure WritableAttr (a : ElemAttr) : Prop where
  name : ∀ n, a.name = some n → AttrName n ∧ a.value ≠ "None".toList ∧
    ∀ x ∈ ["subs", "opts", "options"], n ≠ x.toList
  value : a.name = none → a.value ≠ []
  chars : '"' ∉ a.value ∧ '\\' ∉ a.value ∧ '{' ∉ a.value ∧ '\n' ∉ a.value
  shorthand : a.shorthand = []

/-- Shorthand that can be written: with any style, any ids and roles, and any options but the one for line breaks. -/
def WritableShort (a : ElemAttr) : Prop :=
  ∃ style items, Shorthand style items ∧
    ('%', "hardbreaks".toList) ∉ items ∧
    a = ⟨none, style ++ items.flatMap itemText, (parseShorthandItems (style ++ items.flatMap itemText)).1⟩

/-- Attributes of a block that can be written: the first one may be shorthand. -/
def WritableAttrs (as : List ElemAttr) : Prop :=
  ∃ a rest, as = a :: rest ∧ (WritableAttr a ∨ WritableShort a) ∧ ∀ x ∈ rest, WritableAttr x

/-- A title, attributes and an anchor that can be written. -/
structure WritableLabel [Uni] (label : Label) : Prop where
  title : ∀ t ∈ label.title, ProseTitle t ∧ t.head? ≠ .some '.'
  attrs : ∀ as ∈ label.attrs, WritableAttrs as
  anchor : ∀ a ∈ label.anchor, XmlName a.id ∧ ',' ∉ a.id ∧ '\n' ∉ a.id ∧ ∀ t ∈ a.reftext, t ≠ [] ∧ '\n' ∉ t

/-- What can be written above a heading: the style must not make it that of no section. -/
structure WritableHead [Uni] (label : Label) : Prop extends WritableLabel label where
  style : ∀ x ∈ ["discrete", "float", "literal"], styleOf label.attrs ≠ some x.toList

/-- The blocks that can be written: paragraphs of prose, verbatim blocks with any lines, breaks, images and videos, and quotes and
sidebars with such blocks, each with or without a title, attributes and an anchor, and discrete headings.  Only paragraphs can have the
style `literal`. -/
inductive Writable [Uni] : Leaf → Prop
  | para {t} : Prose t → (∀ l ∈ splitChar '\n' t, ProseLine l) → Writable (.para t)
  | verbatim {c ls} : (c = '/' ∨ c = '-' ∨ c = '.' ∨ c = '+') → (∀ l ∈ ls, CleanLine l) → Writable (.verbatim c ls)
  | brk {ty} : Writable (.brk ty)
  | media {ty target attrs} : ty ≠ .audio → target ≠ [] → '[' ∉ target → '\n' ∉ target →
      (∀ a ∈ attrs, WritableAttr a) → Writable (.media ty target attrs)
  | container {context bs} : (context = "quote".toList ∨ context = "sidebar".toList) → (∀ b ∈ bs, Writable b) →
      Writable (.container context bs)
  | labelled {label b} : WritableLabel label → label ≠ {} → (∀ label' b', b ≠ .labelled label' b') → Writable b →
      ((∃ t, b = .para t) ∨ styleOf label.attrs ≠ some "literal".toList) → Writable (.labelled label b)
  | discrete {label n t} : WritableLabel label →
      (styleOf label.attrs = some "discrete".toList ∨ styleOf label.attrs = some "float".toList) → 1 ≤ n → n ≤ 5 → ProseTitle t →
      Writable (.labelled label (.discrete n t))

/-- The sections that can be written.  `n` is the least level that they can have, and `most` the number of levels that the
first one may skip: a section behind another one in the same section is not deeper than that. -/
inductive SecsWritable [Uni] : Nat → Nat → List Sec → Prop
  | nil {n most} : SecsWritable n most []
  | cons {n most t bs subs label skipped secs} : skipped ≤ most → n + skipped ≤ 5 → ProseTitle t → (∀ b ∈ bs, Writable b) →
      SecsWritable (n + skipped + 1) 5 subs → SecsWritable n skipped secs →
      WritableHead label →
      SecsWritable n most (.mk t bs subs label skipped :: secs)

end Adoc.Spec
