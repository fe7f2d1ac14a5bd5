import Verif.Spec.Source
import Verif.Spec.Section
import Verif.Spec.Refs
import Verif.Spec.Rendered
/-!
# Specification: the ids that are generated for sections
-/

namespace Adoc.Spec
open Adoc

/-- A tag. -/
def IsTag (x : Text) : Prop := ∃ y, y ≠ [] ∧ '>' ∉ y ∧ x = '<' :: y ++ ['>']

/-- A tag in the source, which has become text. -/
def IsEscapedTag (x : Text) : Prop := ∃ y, '&' ∉ y ∧ x = "&lt;".toList ++ y ++ "&gt;".toList

/-- A character reference. -/
inductive IsCharRef [Uni] : Text → Prop
  | name {a d} : 2 ≤ a.length → (∀ c ∈ a, 'a' ≤ c ∧ c ≤ 'z') → d.length ≤ 2 → (∀ c ∈ d, Uni.isNd c = true) →
      IsCharRef ('&' :: a ++ d ++ [';'])
  | decimal {d} : 2 ≤ d.length → d.length ≤ 5 → (∀ c ∈ d, Uni.isNd c = true) → IsCharRef ('&' :: '#' :: d ++ [';'])
  | hex {d} : 2 ≤ d.length → d.length ≤ 4 → (∀ c ∈ d, Uni.isNd c = true ∨ 'a' ≤ c ∧ c ≤ 'f') →
      IsCharRef ('&' :: '#' :: 'x' :: d ++ [';'])

/-- The text begins with an escaped tag. -/
def EscapedTagAhead (t : Text) : Prop := ∃ x r, IsEscapedTag x ∧ t = x ++ r

/-- The text begins with a tag, an escaped tag or a character reference. -/
def MarkupAhead [Uni] (t : Text) : Prop := ∃ x r, (IsTag x ∨ IsEscapedTag x ∨ IsCharRef x) ∧ t = x ++ r

/-- A character for an id: a letter, a digit or an underscore, or one that stands for the separator. -/
def ForId [Uni] (c : Char) : Prop := Uni.isWord c = true ∨ c = ' ' ∨ c = '.' ∨ c = '-'

/-- What is left of the characters of a title, from the left: tags, escaped tags and character references go, and so does every
run of characters that are not for ids.  (A run that begins in front of a tag takes the `<` of the tag with it, and then the
name of the tag is no longer seen as one: `C76_leak`.) -/
inductive Bared [Uni] : Text → Text → Prop
  | nil : Bared [] []
  | tag {x t u} : IsTag x → Bared t u → Bared (x ++ t) u
  | escapedTag {x t u} : IsEscapedTag x → Bared t u → Bared (x ++ t) u
  | charRef {x t u} : IsCharRef x → ¬ EscapedTagAhead (x ++ t) → Bared t u → Bared (x ++ t) u
  | run {x t u} : x ≠ [] → ¬ MarkupAhead (x ++ t) → (∀ c ∈ x, ¬ ForId c) → (∀ c, t.head? = some c → ForId c) →
      Bared t u → Bared (x ++ t) u
  | keep {c t u} : ForId c → Bared t u → Bared (c :: t) (c :: u)

/-- The title with spaces, full stops and hyphens made separators. -/
def separated (s : Char) (t : Text) : Text := t.map fun c => if c = ' ' ∨ c = '.' ∨ c = '-' then s else c

/-- The text without a separator at its end. -/
def WithoutLast (s : Char) (t u : Text) : Prop := t = u ++ [s] ∨ t = u ∧ t.getLast? ≠ some s

/-- The text without a separator at its beginning. -/
def WithoutFirst (s : Char) (t u : Text) : Prop := t = s :: u ∨ t = u ∧ t.head? ≠ some s

/-- The id for a title, before it is compared with other ids: the prefix, and what is left of the title in lower case, with
single separators between its words. -/
inductive IdFor [Uni] (pre : Text) : Text → Text → Text → Prop
  /-- Without a separator, the words are written together. -/
  | joined {title g} : Bared (Uni.toLowercase title) g →
      IdFor pre [] title (pre ++ g.filter fun c => !(c == ' ' || c == '.' || c == '-'))
  /-- Only the first character of the separator counts. -/
  | separate {title g s rest u} : Bared (Uni.toLowercase title) g → WithoutLast s (squeeze s (separated s g)) u → pre ≠ [] →
      IdFor pre (s :: rest) title (pre ++ u)
  | bare {title g s rest u v} : Bared (Uni.toLowercase title) g → WithoutLast s (squeeze s (separated s g)) u → pre = [] →
      WithoutFirst s u v → IdFor pre (s :: rest) title v

/-- The id for a title, with the prefix and the separator the attributes ask for. -/
def IdOf [Uni] (s : AttrStore) (title id : Text) : Prop :=
  IdFor ((valueOf s "idprefix".toList).getD []) ((valueOf s "idseparator".toList).getD []) title id

/-- The id a section of a document has from its title, when `s` are the attributes at its heading, `s'` those at its end, and
`all` the entries of the blocks of the document in order: none if it has an id of its own or if there are to be no such ids, and
otherwise the first one that is not taken by the blocks in front of it and in it. -/
inductive Identified [Uni] (all : List RefEntry) (s s' : AttrStore) (b : Block) (title : Content) : Option Text → Prop
  | own {i} : sectionId? b none = some i → Identified all s s' b title none
  | off : sectionId? b none = none → s.isAttributeSet "sectids".toList = false → Identified all s s' b title none
  | generated {i base before behind} : sectionId? b none = none → s.isAttributeSet "sectids".toList = true →
      IdOf s' title.rendered base → all = before ++ ⟨i, some (sectionReftext b title), .section⟩ :: behind →
      GeneratedId before base i → Identified all s s' b title (some i)

end Adoc.Spec
