import Verif.Spec.Passthrough
import Verif.Spec.Rendered
import Verif.Spec.Header
/-!
# Specification: text that cannot write tags

`<` and `>` open and close the tags of the markup.  The renderer writes them; the text of a document should not be able to.
-/

namespace Adoc.Spec

/-- There is no `<` and no `>` in the text. -/
def Tagless (t : Text) : Prop := ∀ c ∈ t, c ≠ '<' ∧ c ≠ '>'

/-- The same for all that an attribute list says. -/
structure PlainAttrs (a : Attrlist) : Prop where
  value : ∀ x ∈ a.attributes, Tagless x.value
  name : ∀ x ∈ a.attributes, ∀ n, x.name = some n → Tagless n
  anchor : ∀ n, a.anchor = some n → Tagless n
  source : Tagless a.source.data

/-- The same for the values of all attributes, and for the values they have if they are only set. -/
structure PlainStore (s : AttrStore) : Prop where
  value : ∀ n av, s.values.get n = some av → ∀ v, av.value = .value v → Tagless v
  default : ∀ n v, s.defaults.get n = some v → Tagless v

/-- A renderer which has no use of `<` and `>` for markup of its own and escapes them where it is told to: it writes them only
if they are in what it is given. -/
structure AddsNone (r : Renderer) : Prop where
  special : ∀ s, Tagless (r.special s)
  quoted : ∀ ty sc al id body, (∀ a, al = some a → PlainAttrs a) → (∀ i, id = some i → Tagless i) → Tagless body →
    Tagless (r.quoted ty sc al id body)
  charRepl : ∀ k, (∀ n, k = .characterReference n → Tagless n) → Tagless (r.charRepl k)
  lineBreak : Tagless r.lineBreak
  image : ∀ p i out, PlainStore p.store → Tagless i.target → Tagless i.alt → (∀ w, i.width = some w → Tagless w) →
    (∀ w, i.height = some w → Tagless w) → PlainAttrs i.attrlist → r.image p i = .ok out → Tagless out
  icon : ∀ p i out, PlainStore p.store → Tagless i.target → Tagless i.alt → (∀ w, i.size = some w → Tagless w) →
    PlainAttrs i.attrlist → r.icon p i = .ok out → Tagless out
  link : ∀ p l, PlainStore p.store → Tagless l.target → Tagless l.linkText → (∀ x ∈ l.extraRoles, Tagless x) →
    (∀ w, l.window = some w → Tagless w) → PlainAttrs l.attrlist → Tagless (r.link p l)
  anchor : ∀ id ref, Tagless id → (∀ x, ref = some x → Tagless x) → Tagless (r.anchor id ref)

/-- The special characters are replaced first. -/
def EscapesFirst (g : Group) : Prop := ∃ ss, g.steps = .specialCharacters :: ss

/-- Nothing in the text gets around the replacement of special characters when it goes through the group: the group begins with
it, and so it is for every passthrough that is taken out of the text; or there is nothing to be replaced.  The attributes of
passthroughs are never escaped, so they must be plain. -/
inductive Escaped [Uni] : Group → Text → Prop
  | plain {g t} : Tagless t → Escaped g t
  | direct {g t} : EscapesFirst g → Step.macros ∉ g.steps → g ≠ .header → Escaped g t
  | around {g t ps out} : EscapesFirst g → Extracted t ps out → (∀ p ∈ ps, ∀ a, p.attrlist = some a → Tagless a) →
      (∀ p ∈ ps, Escaped p.subs p.text) → Escaped g t

/-- There is nothing in the text that could begin a passthrough. -/
def NoPassthrough (t : Text) : Prop := '[' ∉ t ∧ '+' ∉ t ∧ '$' ∉ t

/-- An author in whose text there are no `<` and `>` but those around the address. -/
inductive SafeAuthor (t : Text) : Prop
  | plain : Tagless t → SafeAuthor t
  | mail {n e} : Trimmed t (n ++ '<' :: e ++ ['>']) → Tagless n → Tagless e → '{' ∉ n → '{' ∉ e → SafeAuthor t

/-- A line of a header which defines no attribute with `<` or `>` in its value. -/
def SafeLine [Uni] : HLine → Prop
  | .entry n (.value raw) => Escaped .header (joinValue raw) ∧ (n.map Char.toLower = "author".toList → SafeAuthor raw)
  | .title x => Escaped .header x
  | .author l => ∀ authors, joinWith [';', ' '] authors = l → (∀ a ∈ authors, ¬ ∃ x y, a = x ++ [';', ' '] ++ y) →
      ∀ a ∈ authors, SafeAuthor a
  | .revision l => Tagless l
  | _ => True

end Adoc.Spec
