import Verif.Spec.LineEnds
import Verif.Spec.Outline
/-!
# Specification: comment lines in a document
-/

namespace Adoc.Spec

/-- A line that stands in paragraphs only: it is neither blank, nor metadata of a block, nor does it begin any other block. -/
structure ParagraphLine (l : Text) : Prop where
  form : LineForm l .text
  solid : ∃ c ∈ l, c ≠ ' ' ∧ c ≠ '\t'
  title : ¬ ∃ t, l = '.' :: t ∧ t.head? ≠ some '.' ∧ t.head? ≠ some ' ' ∧ t.head? ≠ some '\t'
  bracket : ¬ ∃ a, l = '[' :: a ++ [']']

/-- The second lines are the first ones with comment lines put behind some of the lines `S` that stand in paragraphs. -/
inductive Remarked (S : Text → Prop) : List Text → List Text → Prop
  | nil : Remarked S [] []
  | cons {l cs ls ls'} : (cs ≠ [] → S l ∧ ParagraphLine l) → (∀ c ∈ cs, CommentLine c) → Remarked S ls ls' →
      Remarked S (l :: ls) (l :: (cs ++ ls'))

/-- A block in which none of the lines `S` is verbatim content. -/
inductive Leaf.Apart (S : Text → Prop) : Leaf → Prop
  | para {r} : Leaf.Apart S (.para r)
  | verbatim {c body} : (∀ l ∈ body, ¬ S l) → Leaf.Apart S (.verbatim c body)
  | brk {ty} : Leaf.Apart S (.brk ty)
  | media {ty target attrs} : Leaf.Apart S (.media ty target attrs)
  | container {x bs} : (∀ b ∈ bs, Leaf.Apart S b) → Leaf.Apart S (.container x bs)
  | discrete {n r} : Leaf.Apart S (.discrete n r)
  | labelled {label b} : Leaf.Apart S b → Leaf.Apart S (.labelled label b)

/-- A heading, or a block in which none of the lines `S` is verbatim content. -/
def Token.Apart (S : Text → Prop) : Token → Prop
  | .leaf b => b.Apart S
  | .heading _ _ _ => True

/-- The lines of a header that are neither empty nor comments. -/
def HLine.telling (ls : List HLine) : List HLine :=
  ls.filter fun l => match l with | .blank => false | .comment _ => false | _ => true

/-- Lines with comments or with nothing but spaces. -/
inductive CommentLines : Text → Prop
  | nil : CommentLines []
  | comment {l e t} : CommentLine l → '\n' ∉ l → (∀ r, l ≠ r ++ ['\r']) → LineEnd e → CommentLines t → CommentLines (l ++ e ++ t)
  | empty {sp e t} : (∀ c ∈ sp, c = ' ') → LineEnd e → CommentLines t → CommentLines (sp ++ e ++ t)

end Adoc.Spec
