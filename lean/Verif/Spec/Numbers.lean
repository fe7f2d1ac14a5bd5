import Verif.Spec.Document
import Verif.Spec.Section
import Verif.Spec.History
/-!
# Specification: the sections of a document, in document order
-/

namespace Adoc.Spec

mutual

/-- A block and the blocks in it, in document order. -/
def preorder : Block → List Block
  | .mk k s f cs => .mk k s f cs :: preorderAll cs

/-- Blocks and the blocks in them, in document order. -/
def preorderAll : List Block → List Block
  | [] => []
  | b :: bs => preorder b ++ preorderAll bs

end

/-- What the number of the next section depends on: the attributes, and the last number given to a section and to an
appendix. -/
structure Tally where
  attrs : AttrStore
  normal : List Nat
  appendix : List Nat

/-- The numbers of the sections among blocks in document order, when sections down to the level `levels` are numbered. -/
inductive Counted [Uni] (levels : Nat) : Tally → List Block → Tally → Prop
  /-- No blocks. -/
  | nil {t} : Counted levels t [] t
  /-- An attribute entry takes effect for what follows. -/
  | entry {t t' b a bs} : b.kind = .docAttr a → Counted levels { t with attrs := (t.attrs.setFromBody a).1 } bs t' →
      Counted levels t (b :: bs) t'
  /-- A section with a number: the one that follows the last number. -/
  | normal {t t' b l c i n bs} : b.kind = .section l c .normal i (some ⟨.normal, n⟩) → l ≤ levels →
      t.attrs.isAttributeSet "sectnums".toList = true → NextNumber t.normal l n →
      Counted levels { t with normal := n } bs t' → Counted levels t (b :: bs) t'
  /-- An appendix with a number: the one that follows the last number of an appendix. -/
  | appendix {t t' b l c i n bs} : b.kind = .section l c .appendix i (some ⟨.appendix, n⟩) → l ≤ levels →
      t.attrs.isAttributeSet "sectnums".toList = true → NextNumber t.appendix l n →
      Counted levels { t with appendix := n } bs t' → Counted levels t (b :: bs) t'
  /-- A section without a number: a discrete heading, one that is too deep, or one that is not to be numbered. -/
  | plain {t t' b l c ty i bs} : b.kind = .section l c ty i none →
      (ty = .discrete ∨ levels < l ∨ t.attrs.isAttributeSet "sectnums".toList = false) →
      Counted levels t bs t' → Counted levels t (b :: bs) t'
  /-- Other blocks change nothing. -/
  | other {t t' b bs} : ¬ IsSection b → ¬ IsEntry b → Counted levels t bs t' → Counted levels t (b :: bs) t'

/-- `t` is written with decimal digits and means `n`. -/
inductive Digits : Text → Nat → Prop
  | one {d} : d < 10 → Digits [Char.ofNat (48 + d)] d
  | more {t n d} : Digits t n → d < 10 → Digits (t ++ [Char.ofNat (48 + d)]) (10 * n + d)

/-- The levels down to which sections are numbered: the value of the attribute `sectnumlevels`, if it is the numeral of a
number that fits in a machine word, and otherwise 3. -/
inductive NumberedLevels (s : AttrStore) : Nat → Prop
  | given {t n} : s.attributeValue "sectnumlevels".toList = .value t → (Digits t n ∨ ∃ r, t = '+' :: r ∧ Digits r n) →
      n < 2 ^ 64 → NumberedLevels s n
  | standard : (∀ t n, s.attributeValue "sectnumlevels".toList = .value t → (Digits t n ∨ ∃ r, t = '+' :: r ∧ Digits r n) →
      2 ^ 64 ≤ n) → NumberedLevels s 3

/-- The attributes behind the header of a document. -/
def BehindHeader [Uni] (c : Config) (fuel : Nat) (p : ParserState) (text : Text) (store : AttrStore) : Prop :=
  ∃ t map mi ws, preprocess ⟨c.includes, fun s t => (c.env fuel).subs s .header none t⟩ fuel p.store c.primary text =
      .ok (t, map) ∧
    Header.parse (fun s t => (c.env fuel).subs s .header none t) c.renderer p.store (Span.new t) = .ok (mi, ws, store)

/-- The numbers of the sections of a type, in document order. -/
def numbersIn (ty : SectionType) (bs : List Block) : List (List Nat) :=
  bs.filterMap fun b => match b.kind with
    | .section _ _ ty' _ (some n) => if ty' = ty then some n.components else none
    | _ => none

/-- The style of the block makes a heading a discrete one. -/
def DiscreteStyle (b : Block) : Prop :=
  b.fields.style = some "discrete".toList ∨ b.fields.style = some "float".toList

/-- The types of the sections among blocks: `t` is the type of sections of level 2 and more in front of the blocks, and the
last argument the one behind them. -/
inductive Typed : SectionType → List Block → SectionType → Prop
  | nil {t} : Typed t [] t
  /-- A section of level 1 has its own type, which holds for the blocks in it.  Behind it come normal sections. -/
  | first {t t1 t2 b c ty i n bs} : b.kind = .section 1 c ty i n → ¬ DiscreteStyle b →
      ty = (if b.fields.style = some "appendix".toList then .appendix else .normal) →
      Typed ty b.children t1 → Typed .normal bs t2 → Typed t (b :: bs) t2
  /-- A deeper section has the current type. -/
  | deeper {t t1 t2 b l c i n bs} : b.kind = .section l c t i n → l ≠ 1 → ¬ DiscreteStyle b → t ≠ .discrete →
      Typed t b.children t1 → Typed t1 bs t2 → Typed t (b :: bs) t2
  /-- A discrete heading is one because of its style. -/
  | discrete {t t1 t2 b l c i n bs} : b.kind = .section l c .discrete i n → DiscreteStyle b →
      Typed t b.children t1 → Typed t1 bs t2 → Typed t (b :: bs) t2
  | other {t t1 t2 b bs} : ¬ IsSection b → Typed t b.children t1 → Typed t1 bs t2 → Typed t (b :: bs) t2

/-- The block is a section of level 1 and not a discrete heading. -/
def IsTopmost (b : Block) : Prop := ∃ c t i n, b.kind = .section 1 c t i n ∧ t ≠ .discrete

/-- The type of a section. -/
def type? (b : Block) : Option SectionType :=
  match b.kind with
  | .section _ _ t _ _ => some t
  | _ => none

end Adoc.Spec
