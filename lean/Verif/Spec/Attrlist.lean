import Verif.Model.Attrlist
import Verif.Spec.Span
/-!
# Specification of attribute lists

The syntax of one element of a list as relations on text, and the decomposition of a list into elements and separators.
-/

namespace Adoc.Spec

/-- The white space allowed inside an element. -/
def WsChar (c : Char) : Prop := c = ' ' ∨ c = '\t' ∨ c = '\n'
def Ws (t : Text) : Prop := ∀ c ∈ t, WsChar c

/-- The name of a named attribute: a letter or digit followed by letters, digits and `-`. -/
def AttrName (n : Text) : Prop :=
  ∃ c cs, n = c :: cs ∧ (Letter c ∨ Digit c) ∧ ∀ d ∈ cs, (Letter d ∨ Digit d) ∨ d = '-'

/-- `t` has the form `name = body` with a body that neither is empty nor starts with a comma. -/
def NamedForm (t name body : Text) : Prop :=
  ∃ w1 w2, t = name ++ (w1 ++ '=' :: (w2 ++ body)) ∧ AttrName name ∧ Ws w1 ∧ Ws w2 ∧
    ∃ c cs, body = c :: cs ∧ ¬ WsChar c ∧ c ≠ ','

/-- The name of the element at the start of `t`, if it has one, and the text from its value on. -/
def Body (t : Text) : Option Text → Text → Prop
  | some name, body => NamedForm t name body
  | none, body => (∀ n b, ¬ NamedForm t n b) ∧ ∃ w, t = w ++ body ∧ Ws w ∧ ∀ c cs, body = c :: cs → ¬ WsChar c

def Quote (q : Char) : Prop := q = '\'' ∨ q = '"'

/-- The text starts with a quote. -/
def startsQuote : Text → Bool
  | [] => false
  | c :: _ => c == '\'' || c == '"'

/-- `body` starts with a complete quoted string: `raw` ends before the first quote that is not escaped. -/
def QuotedForm (body raw after : Text) : Prop :=
  ∃ q, Quote q ∧ body = q :: (raw ++ q :: after) ∧ AllEscaped q raw ∧ ¬ EndsIn raw '\\'

/-- The value at the start of `body` as written, whether it is a complete quoted string, and the text behind it.  A
value without quotes (or without a closing quote) extends to the next comma; its trailing spaces do not belong to it. -/
def RawValue (body raw : Text) (closed : Bool) (after : Text) : Prop :=
  if closed then QuotedForm body raw after
  else (∀ r a, ¬ QuotedForm body r a) ∧
    ∃ sp, body = raw ++ sp ++ after ∧ ',' ∉ raw ++ sp ∧ (∀ c ∈ sp, c = ' ') ∧ ¬ EndsIn raw ' ' ∧
      (after = [] ∨ ∃ r, after = ',' :: r)

/-- Replace every `\q` by `q`. -/
def unescape (q : Char) : Text → Text
  | [] => []
  | [c] => [c]
  | c :: d :: r => if c = '\\' ∧ d = q then q :: unescape q r else c :: unescape q (d :: r)

/-- The value an element has, given the value as written.  `nrm` applies the normal substitutions. -/
def ValueOf (nrm : Text → Res Text) (ctx : AttrlistCtx) (body raw value : Text) : Prop :=
  (∀ q r, body = q :: r → Quote q →
    (if q = '\'' ∧ ctx = .block then nrm (unescape q raw) = .ok value else value = unescape q raw)) ∧
  ((∀ q r, body = q :: r → ¬ Quote q) → value = raw)

/-- `t` starts with an element with this name and value, followed by `after`. -/
def Reads (nrm : Text → Res Text) (ctx : AttrlistCtx) (t : Text) (name : Option Text) (value : Text) (closed : Bool)
    (after : Text) : Prop :=
  ∃ body raw, Body t name body ∧ RawValue body raw closed after ∧ ValueOf nrm ctx body raw value

/-- What may stand between two elements: a comma with blanks around it, possibly followed by a second comma. -/
def IsSeparator (doubled : Bool) (s : Text) : Prop :=
  ∃ a b, Blank a ∧ Blank b ∧ s = a ++ ',' :: b ++ (if doubled then [','] else [])

/-! ## Shorthand -/

/-- The characters that introduce an id, a role or an option. -/
def Delim (c : Char) : Prop := c = '#' ∨ c = '.' ∨ c = '%'

/-- The text of a shorthand item. -/
def itemText (i : Char × Text) : Text := i.1 :: i.2

end Adoc.Spec

namespace Adoc.Spec

/-- The element at the start of `t` is `a`; `sh` says whether an unnamed, unquoted value may be shorthand. -/
def ElemAt (nrm : Text → Res Text) (ctx : AttrlistCtx) (sh : Bool) (t : Text) (a : ElemAttr) (ws : List WarningType)
    (after : Text) : Prop :=
  ∃ body raw closed, Body t a.name body ∧ RawValue body raw closed after ∧ ValueOf nrm ctx body raw a.value ∧
    let short := a.name = none ∧ sh = true ∧ closed = false
    (short → a.shorthand = (parseShorthandItems a.value).1) ∧ (¬ short → a.shorthand = []) ∧
    ∃ w1 w2, ws = w1 ++ w2 ∧
      (w1 = if startsQuote body ∧ closed = false then [.attributeValueMissingTerminatingQuote] else []) ∧
      (short → w2 = (parseShorthandItems a.value).2) ∧ (¬ short → w2 = [])

/-- `t` is a list of elements with separators between them.  The elements are `as`; the last one starts at `lastAt`
and is followed by `after`, which does not continue the list.  Only the first unnamed element may be shorthand. -/
inductive Elements (nrm : Text → Res Text) (ctx : AttrlistCtx) :
    Bool → Text → List ElemAttr → List WarningType → Text → Text → Prop
  | last {sh : Bool} {t : Text} {a : ElemAttr} {ws : List WarningType} {after : Text} :
      ElemAt nrm ctx sh t a ws after → (∀ b r, Blank b → after ≠ b ++ ',' :: r) → Elements nrm ctx sh t [a] ws t after
  | more {sh : Bool} {t : Text} {a : ElemAttr} {w ws : List WarningType} {sep t' : Text} {doubled : Bool}
      {as : List ElemAttr} {lastAt after : Text} :
      ElemAt nrm ctx sh t a w (sep ++ t') → IsSeparator doubled sep →
      (doubled = false → ∀ c r, t' = c :: r → c ≠ ' ' ∧ c ≠ '\t' ∧ c ≠ ',') →
      Elements nrm ctx (sh && a.name.isSome) t' as ws lastAt after →
      Elements nrm ctx sh t (a :: as) (w ++ (if doubled then [.emptyAttributeValue] else []) ++ ws) lastAt after

/-- Named attributes whose value is the word `None` are not recorded. -/
def Recorded (a : ElemAttr) : Bool := a.name.isNone || a.value ≠ "None".toList

/-- The list consists of one empty unnamed element that ends the text (behind elements that are not recorded). -/
def OnlyEmpty (as : List ElemAttr) (after : Text) : Prop :=
  as.dropLast.filter Recorded = [] ∧ after = [] ∧ ∃ a, as.getLast? = some a ∧ a.name = none ∧ a.value = []

end Adoc.Spec
