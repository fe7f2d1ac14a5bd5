import Verif.Spec.Numbers
import Verif.Spec.Leaf
/-!
# Specification: what the blocks of a document show, and with which attributes
-/

namespace Adoc.Spec

/-- The attributes behind blocks in document order: every attribute entry takes effect. -/
def attrsBehind [Uni] (s : AttrStore) (bs : List Block) : AttrStore :=
  bs.foldl (fun s b => match b.kind with
    | .docAttr a => (s.setFromBody a).1
    | _ => s) s

/-- The title of a block and its attribute list are made of the texts they were written as, with the attributes `s`. -/
structure MetaShown [Uni] (subs : Subs) (s : AttrStore) (f : Meta) : Prop where
  title : f.titleSource = none ∧ f.title = none ∨
    ∃ src t, f.titleSource = some src ∧ f.title = some t ∧ subs s .normal none src.data = .ok t
  attrlist : ∀ a, f.attrlist = some a → ∃ ws, Attrlist.parse (subs s .normal none) s a.source .block = .ok (a, ws)

/-- The value of an attribute entry is made of the text it was written as, with the attributes `s`. -/
def EntryShown (subs : Subs) (s : AttrStore) (a : Attribute) : Prop :=
  a.valueSource = none ∧ (a.value = .set ∨ a.value = .unset) ∨
    ∃ src t, a.valueSource = some src ∧ a.value = .value t ∧ subs s .header none (joinValue src.data) = .ok t

/-- The text begins with `n` spaces and tabs. -/
def IndentedBy (n : Nat) (t : Text) : Prop :=
  ∃ ind rest, t = ind ++ rest ∧ ind.length = n ∧ (∀ c ∈ ind, c = ' ' ∨ c = '\t') ∧
    rest.head? ≠ some ' ' ∧ rest.head? ≠ some '\t'

/-- What a block itself shows (and not the blocks in it), when `s` are the attributes at its beginning and `s'` those at its
end. -/
inductive Shown [Uni] (subs : Subs) (s s' : AttrStore) (b : Block) : Prop
  /-- The lines of a paragraph, without comments and without the indentation of the first line, substituted. -/
  | paragraph {c style n raw texts} : b.kind = .simple c style → c.original.data = trimEnd raw →
      IndentedBy n c.original.data → ParagraphText n (lines raw) texts →
      subs s (Group.normal.overrideViaAttrlist b.fields.attrlist) b.fields.attrlist (joinWith ['\n'] texts) = .ok c.rendered →
      Shown subs s s' b
  /-- The text of a delimited block, substituted. -/
  | delimited {c model ctx g} : b.kind = .raw c model ctx g → subs s g b.fields.attrlist c.original.data = .ok c.rendered →
      Shown subs s s' b
  /-- The text of a delimited block that is not closed. -/
  | unclosed {c model ctx g} : b.kind = .raw c model ctx g → stopOf b.source ≤ stopOf c.original →
      c.rendered = c.original.data → Shown subs s s' b
  | entry {a} : b.kind = .docAttr a → EntryShown subs s a → Shown subs s s' b
  /-- The attributes of a media block. -/
  | media {t target a ws} : b.kind = .media t target a → Attrlist.parse (subs s .normal none) s a.source .inline = .ok (a, ws) →
      Shown subs s s' b
  /-- The title of a section, substituted with the attributes at its end. -/
  | «section» {l c t i n} : b.kind = .section l c t i n → subs s' .title b.fields.attrlist c.original.data = .ok c.rendered →
      Shown subs s s' b
  | compound {ctx} : b.kind = .compound ctx → Shown subs s s' b
  | preamble : b.kind = .preamble → Shown subs s s' b
  | brk {t} : b.kind = .brk t → Shown subs s s' b

end Adoc.Spec
