import Verif.Model.Metadata
import Verif.Spec.Lines
/-!
# Specification of block metadata
-/

namespace Adoc.Spec

/-- A name as in XML. -/
def XmlName [Uni] (t : Text) : Prop :=
  ∃ c cs, t = c :: cs ∧ (c = ':' ∨ c = '_' ∨ (c.toNat ≠ 0x37e ∧ Uni.isAlphabetic c = true)) ∧
    ∀ d ∈ cs, d = ':' ∨ d = '_' ∨ d = '.' ∨ d = '-' ∨ d.toNat = 0xb7 ∨
      (d.toNat ≠ 0x37e ∧ (Uni.isAlphabetic d = true ∨ Uni.isNumeric d = true))

/-- What a line in front of a block says about it. -/
inductive MetaItem where
  | title (text : Text)
  | anchor (name : Text) (reftext : Option Text)
  | attrs (text : Text)
deriving DecidableEq, Repr

inductive MetaKind where
  | title | anchor | attrs
deriving DecidableEq, Repr

def MetaItem.kind : MetaItem → MetaKind
  | .title _ => .title
  | .anchor _ _ => .anchor
  | .attrs _ => .attrs

/-- A line and what it says: a title behind a single dot; an anchor, with or without a reference text, in double brackets;
an attribute list in single brackets. -/
inductive MetaLine [Uni] : Text → MetaItem → Prop
  | title {t} : t.head? ≠ some '.' → t.head? ≠ some ' ' → t.head? ≠ some '\t' → MetaLine ('.' :: t) (.title t)
  | anchor {a} : XmlName a → (∀ x y, a = x ++ ',' :: y → ',' ∉ x → y = []) →
      MetaLine ('[' :: '[' :: a ++ [']', ']']) (.anchor a none)
  | anchorText {a r} : XmlName a → ',' ∉ a → r ≠ [] →
      MetaLine ('[' :: '[' :: a ++ ',' :: r ++ [']', ']']) (.anchor a (some r))
  | attrs {t} : t.head? ≠ some ' ' → t.head? ≠ some '\t' → (∀ r, t ≠ '[' :: r ++ [']']) →
      MetaLine ('[' :: t ++ [']']) (.attrs t)

/-- The metadata at the beginning of some lines: as many lines as there are, but only one of each kind; `rest` are the
other lines. -/
inductive MetaItems [Uni] : List MetaKind → List Text → List MetaItem → List Text → Prop
  | stop {used ls} : (∀ l rest i, ls = l :: rest → MetaLine l i → i.kind ∈ used) → MetaItems used ls [] ls
  | item {used l ls i is rest} : MetaLine l i → i.kind ∉ used → MetaItems (i.kind :: used) ls is rest →
      MetaItems used (l :: ls) (i :: is) rest

def MetaItem.title? : MetaItem → Option Text | .title t => some t | _ => none
def MetaItem.anchor? : MetaItem → Option (Text × Option Text) | .anchor a r => some (a, r) | _ => none
def MetaItem.attrs? : MetaItem → Option Text | .attrs t => some t | _ => none

end Adoc.Spec
