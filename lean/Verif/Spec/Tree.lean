import Verif.Model.Document
/-!
# Specification: the tree of blocks
-/

namespace Adoc.Spec

/-- The number of bytes of a text. -/
def bytes (t : Text) : Nat := (String.ofList t).utf8ByteSize

/-- The byte offset at which a span ends. -/
def stopOf (s : Span) : Nat := s.offset + bytes s.data

/-- `x` is `b`, or nested in `b` at some depth. -/
inductive Within : Block → Block → Prop
  | self (b : Block) : Within b b
  | child {x c b : Block} : c ∈ b.children → Within x c → Within x b

/-- Each block ends before the next ones begin. -/
def InOrder (bs : List Block) : Prop := bs.Pairwise fun a b => stopOf a.source ≤ b.source.offset

/-- Every visible character of `inner` lies in `outer`. -/
def Covers (outer inner : Span) : Prop :=
  outer.offset ≤ inner.offset ∧
  ∀ x c y, inner.data = x ++ c :: y → isWhite c = false → inner.offset + bytes (x ++ [c]) ≤ stopOf outer

/-- `inner` lies in `outer`. -/
def Contains (outer inner : Span) : Prop := outer.offset ≤ inner.offset ∧ stopOf inner ≤ stopOf outer

/-- The block is a raw delimited block. -/
def IsRaw (b : Block) : Prop := ∃ c m x g, b.kind = .raw c m x g

/-- The spans a block exposes: its own, those of its title, anchor and attribute list, and those of its content. -/
def spans (b : Block) : List Span :=
  b.source :: (b.fields.titleSource.toList ++ b.fields.anchor.toList ++ b.fields.anchorReftext.toList ++
    (b.fields.attrlist.map Attrlist.source).toList) ++
  match b.kind with
  | .simple c _ => [c.original]
  | .media _ t a => [t, a.source]
  | .section _ c _ _ _ => [c.original]
  | .raw c _ _ _ => [c.original]
  | .docAttr a => a.source :: a.name :: a.valueSource.toList
  | _ => []

/-- The level of a section. -/
def level? (b : Block) : Option Nat :=
  match b.kind with
  | .section l _ _ _ _ => some l
  | _ => none

/-- The block is a discrete heading. -/
def IsDiscrete (b : Block) : Prop := ∃ l c i n, b.kind = .section l c .discrete i n

end Adoc.Spec
