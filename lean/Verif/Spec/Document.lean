import Verif.Spec.Tree
/-!
# Specification: documents
-/

namespace Adoc.Spec

/-- `x` is a block of the document, at any depth. -/
def InDoc (d : Document) (x : Block) : Prop := ∃ b ∈ d.blocks, Within x b

/-- The block is a section (or a discrete heading). -/
def IsSection (b : Block) : Prop := ∃ l c t i n, b.kind = .section l c t i n

/-- The block is an attribute entry. -/
def IsEntry (b : Block) : Prop := ∃ a, b.kind = .docAttr a

/-- The blocks `bs` have a preamble: the blocks `front` in front of the first section `first`, not only attribute entries. -/
def HasPreamble (bs front : List Block) (first : Block) (back : List Block) : Prop :=
  bs = front ++ first :: back ∧ IsSection first ∧ (∀ b ∈ front, ¬ IsSection b) ∧ ∃ b ∈ front, ¬ IsEntry b

/-- The blocks of a document with the blocks of the preamble in place of the preamble. -/
def withoutPreamble (bs : List Block) : List Block :=
  bs.flatMap fun b => if b.kind = .preamble then b.children else [b]

end Adoc.Spec
