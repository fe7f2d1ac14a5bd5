import Verif.Model.Macros
import Verif.Spec.Formatting
import Verif.Spec.Macros
import Verif.Spec.Attrlist
/-!
# Specification: what the inline macros become

Images and icons, links with and without brackets, link macros, e-mail addresses and anchors.  For each of them, a relation
`…At e before piece behind new` says that a piece of text, between the character `before` it and the text `behind` it, is
replaced by `new`.  How the parts of a macro are rendered is up to the renderer.  `inlineAttrlist` is the attribute list
written in a text (claims C33 to C36), `unescape q` drops the backslashes in front of `q`, `encodeUriComponent` is the
escaping of claim C38.
-/

namespace Adoc.Spec
open Adoc

/-- What stands between square brackets: it ends at the first closing bracket that has no backslash in front of it. -/
def Enclosed (t : Text) : Prop :=
  (∀ a b, t = a ++ ']' :: b → a.getLast? = some '\\') ∧ t.getLast? ≠ some '\\'

/-! ### Images and icons -/

/-- The target of an image or icon. -/
structure ImageTarget (t : Text) : Prop where
  long : 2 ≤ t.length
  first : ∀ c, t.head? = some c → c ≠ ':' ∧ isWhite c = false
  last : ∀ c, t.getLast? = some c → isWhite c = false
  inside : '[' ∉ t ∧ '\n' ∉ t

/-- Behind the last name of a path: slashes, and dots that stand alone. -/
inductive Trailing : Text → Prop
  | nil : Trailing []
  | slash {r} : Trailing r → Trailing ('/' :: r)
  | dot {r} : Trailing r → Trailing ('/' :: '.' :: r)

/-- The last name of a path. -/
def LastName (path name : Text) : Prop :=
  ∃ dir r, path = dir ++ name ++ r ∧ (dir = [] ∨ dir.getLast? = some '/') ∧ '/' ∉ name ∧ name ≠ [] ∧ name ≠ ['.'] ∧ Trailing r

/-- A path without names. -/
def NoName (path : Text) : Prop := Trailing path ∨ ∃ r, path = '.' :: r ∧ Trailing r

/-- The name of a file without its extension.  A dot at the beginning does not start an extension, and `..` is no name. -/
def FileStem (path stem : Text) : Prop :=
  (NoName path ∧ stem = []) ∨ (LastName path ['.', '.'] ∧ stem = []) ∨
  ∃ name, LastName path name ∧ name ≠ ['.', '.'] ∧
    ((∃ ext, name = stem ++ '.' :: ext ∧ '.' ∉ ext ∧ stem ≠ []) ∨
     (stem = name ∧ ∀ a ext, name = a ++ '.' :: ext → '.' ∉ ext → a = []))

/-- The alternative text of an image: the one that is given, without line ends and escaped brackets, or else the name of the
file without its extension, with spaces for underscores and hyphens. -/
def AltText (target : Text) (given : Option ElemAttr) (alt : Text) : Prop :=
  (∃ a, given = some a ∧ alt = unescape ']' (a.value.map fun c => if c = '\n' then ' ' else c)) ∨
  (given = none ∧ FileStem (target.map fun c => if c = '_' ∨ c = '-' then ' ' else c) alt)

/-- How an image or icon with this target and these attributes is rendered. -/
inductive ImageBecomes [Uni] (e : Env) (target : Text) (a : Attrlist) : Text → Text → Prop
  | image {alt new} : AltText target (a.namedOrPositional "alt".toList 1) alt → e.r.image e.toPEnv
        { target := target
          alt := alt
          width := (a.namedOrPositional "width".toList 2).map ElemAttr.value
          height := (a.namedOrPositional "height".toList 3).map ElemAttr.value
          attrlist := a } = .ok new →
      ImageBecomes e target a "image:".toList new
  | icon {alt new} : AltText target (a.namedAttribute "alt".toList) alt → e.r.icon e.toPEnv
        { target := target
          alt := alt
          size := (a.namedOrPositional "size".toList 1).map ElemAttr.value
          attrlist := a } = .ok new →
      ImageBecomes e target a "icon:".toList new

/-- `image:target[attributes]` or `icon:target[attributes]`; with a backslash in front of it (in which case the target may
be missing), it only loses that. -/
inductive ImageAt [Uni] (e : Env) (before : Option Char) : Text → Text → Text → Prop
  | image {name target attrs behind a new} : ImageTarget target → Enclosed attrs → inlineAttrlist e.store attrs = .ok a →
      ImageBecomes e target a name new →
      ImageAt e before (name ++ target ++ '[' :: attrs ++ [']']) behind new
  | escaped {name target attrs behind} : name = "image:".toList ∨ name = "icon:".toList →
      ImageTarget target ∨ target = [] → Enclosed attrs →
      ImageAt e before ('\\' :: (name ++ target ++ '[' :: attrs ++ [']'])) behind (name ++ target ++ '[' :: attrs ++ [']'])

/-! ### The text of links -/

/-- A scheme: a letter, and letters, digits, dots, plus signs and hyphens. -/
def UriScheme [Uni] (s : Text) : Prop :=
  ∃ c r, s = c :: r ∧ Uni.isAlphabetic c = true ∧ r ≠ [] ∧
    ∀ d ∈ r, Uni.isAlphabetic d = true ∨ Uni.isNd d = true ∨ d = '.' ∨ d = '+' ∨ d = '-'

/-- An address without its scheme, colon and up to two slashes. -/
def WithoutScheme [Uni] (t u : Text) : Prop :=
  (∃ s slashes, UriScheme s ∧ t = s ++ ':' :: slashes ++ u ∧
    (slashes = ['/', '/'] ∨ (slashes = ['/'] ∧ u.head? ≠ some '/') ∨ (slashes = [] ∧ u.head? ≠ some '/'))) ∨
  (u = t ∧ ∀ s r, UriScheme s → t ≠ s ++ ':' :: r)

/-- What is shown for an address without words of its own. -/
def ShownAddress [Uni] (e : Env) (target shown : Text) : Prop :=
  if e.store.isAttributeSet "hide-uri-scheme".toList = true then WithoutScheme target shown else shown = target

/-- A caret behind the words of a link opens it in a new window. -/
def Caret (words shown : Text) (window : Option Text) : Prop :=
  (words = shown ++ ['^'] ∧ window = some "_blank".toList) ∨
  (words.getLast? ≠ some '^' ∧ shown = words ∧ window = none)

/-- The value of the first attribute without a name. -/
def firstValue (a : Attrlist) : Text := ((a.nthAttribute 1).map ElemAttr.value).getD []

/-! ### Links -/

/-- The schemes that make a link. -/
def linkSchemes : List Text :=
  ["http://".toList, "https://".toList, "file://".toList, "ftp://".toList, "irc://".toList]

/-- What stands in front of a link: nothing at the beginning of a line, the word `link:`, a space or a tab, an angle bracket
(escaped already, and possibly with a backslash), or one of a few other characters. -/
def LinkLead (before : Option Char) (l : Text) : Prop :=
  (l = [] ∧ (before = none ∨ before = some '\n')) ∨ l = "link:".toList ∨ l = [' '] ∨ l = ['\t'] ∨
  l = "&lt;".toList ∨ l = "\\&lt;".toList ∨ ∃ c ∈ ['>', '(', ')', '[', ']', ';', '"', '\''], l = [c]

/-- What follows the scheme of a link. -/
inductive LinkEnd where
  /-- `target[words]` -/
  | brackets (target words : Text)
  /-- `target&gt;` -/
  | angle (target : Text)
  /-- `target` -/
  | bare (target : Text)

/-- As written. -/
def LinkEnd.text : LinkEnd → Text
  | .brackets target words => target ++ '[' :: words ++ [']']
  | .angle target => target ++ "&gt;".toList
  | .bare target => target

/-- A target in front of brackets. -/
def BracketTarget (t : Text) : Prop := t ≠ [] ∧ ∀ c ∈ t, isWhite c = false ∧ c ≠ '[' ∧ c ≠ ']'

/-- A target in front of an angle bracket. -/
def AngleTarget (t : Text) : Prop := t ≠ [] ∧ ∀ c ∈ t, isWhite c = false

/-- A target without brackets: it does not end with a character that may well end a sentence. -/
def BareTarget (t : Text) : Prop :=
  (∀ c ∈ t, isWhite c = false ∧ c ≠ '[' ∧ c ≠ ']' ∧ c ≠ '<') ∧ ∃ c, t.getLast? = some c ∧ c ∉ [',', '.', '?', '!', ')']

/-- A target with brackets is what stands in front of the text. -/
def BracketsAhead (t : Text) : Prop :=
  ∃ target words r, BracketTarget target ∧ Enclosed words ∧ t = target ++ '[' :: words ++ ']' :: r

/-- A target that an angle bracket closes stands in front of the text. -/
def AngleAhead (t : Text) : Prop := ∃ target r, AngleTarget target ∧ t = target ++ "&gt;".toList ++ r

/-- What follows the scheme: brackets are looked for first, then an angle bracket, the nearest one.  Otherwise the target is
as long as possible. -/
inductive LinkFollows : LinkEnd → Text → Prop
  | brackets {target words behind} : BracketTarget target → Enclosed words → LinkFollows (.brackets target words) behind
  | angle {target behind} : ¬ BracketsAhead (target ++ "&gt;".toList ++ behind) →
      Shortest AngleTarget (fun r => ∃ x, r = "&gt;".toList ++ x) target ("&gt;".toList ++ behind) →
      LinkFollows (.angle target) behind
  | bare {target behind} : ¬ BracketsAhead (target ++ behind) → ¬ AngleAhead (target ++ behind) → BareTarget target →
      (∀ t r, t ++ r = target ++ behind → target.length < t.length → ¬ BareTarget t) →
      LinkFollows (.bare target) behind

/-- A colon or semicolon at the end is not part of a bare address, and neither is a parenthesis in front of it. -/
inductive TrimmedAddress : Text → Text → Text → Prop
  | plain {t} : t.getLast? ≠ some ';' → t.getLast? ≠ some ':' → TrimmedAddress t t []
  | colon {t c} : c = ';' ∨ c = ':' → t.getLast? ≠ some ')' → TrimmedAddress (t ++ [c]) t [c]
  | paren {t c} : c = ';' ∨ c = ':' → TrimmedAddress (t ++ [')', c]) t [')', c]

/-- The words of a link and its attributes, from what stands between its brackets: with an equals sign this is an attribute
list whose first value is the words. -/
def LinkWords [Uni] (e : Env) (text words : Text) (a : Attrlist) : Prop :=
  if '=' ∈ text then inlineAttrlist e.store text = .ok a ∧ words = unescape '"' (firstValue a)
  else inlineAttrlist e.store [] = .ok a ∧ words = unescape ']' text

/-- A link that is shown as its address. -/
def bareLink (e : Env) (target shown : Text) (window : Option Text) (a : Attrlist) : Text :=
  e.r.link e.toPEnv { target := target, linkText := shown, extraRoles := ["bare".toList], window := window, attrlist := a }

/-- A link that is shown as words. -/
def wordLink (e : Env) (target shown : Text) (window : Option Text) (a : Attrlist) : Text :=
  e.r.link e.toPEnv { target := target, linkText := shown, extraRoles := [], window := window, attrlist := a }

/-- What a link becomes.  `lead` stands in front of it, `esc` is a backslash or nothing. -/
inductive LinkBecomes [Uni] (e : Env) (lead esc scheme : Text) : LinkEnd → Text → Prop
  /-- a backslash in front of the angle bracket is dropped, and that is all -/
  | escapedAngle {f} : (∀ t w, f ≠ .brackets t w) → lead = "\\&lt;".toList →
      LinkBecomes e lead esc scheme f ("&lt;".toList ++ esc ++ scheme ++ f.text)
  /-- a backslash in front of the scheme is dropped, and that is all -/
  | escaped {f} : (∀ t w, f ≠ .brackets t w) → lead ≠ "\\&lt;".toList → esc = ['\\'] →
      LinkBecomes e lead esc scheme f (lead ++ scheme ++ f.text)
  | escapedWords {t w} : esc = ['\\'] →
      LinkBecomes e lead esc scheme (.brackets t w) (lead ++ scheme ++ (LinkEnd.brackets t w).text)
  /-- between angle brackets: the brackets disappear -/
  | angle {t shown a} : lead = "&lt;".toList → esc = [] → ShownAddress e (scheme ++ t) shown →
      inlineAttrlist e.store [] = .ok a → LinkBecomes e lead esc scheme (.angle t) (bareLink e (scheme ++ t) shown none a)
  /-- an angle bracket that is not closed, or a quotation mark in front: no link -/
  | kept {t} : lead = "&lt;".toList ∨ lead = ['"'] ∨ lead = ['\''] → esc = [] →
      LinkBecomes e lead esc scheme (.bare t) (lead ++ scheme ++ t)
  /-- a bare address -/
  | bare {t target suffix shown a} : lead ≠ "&lt;".toList → lead ≠ "\\&lt;".toList → lead ≠ ['"'] → lead ≠ ['\''] → esc = [] →
      TrimmedAddress (scheme ++ t) target suffix → ShownAddress e target shown → inlineAttrlist e.store [] = .ok a →
      LinkBecomes e lead esc scheme (.bare t) (lead ++ bareLink e target shown none a ++ suffix)
  /-- nothing between the brackets -/
  | noWords {t shown a} : esc = [] → ShownAddress e (scheme ++ t) shown → inlineAttrlist e.store [] = .ok a →
      LinkBecomes e lead esc scheme (.brackets t [])
        ((if lead = "link:".toList then [] else lead) ++ bareLink e (scheme ++ t) shown none a)
  /-- no words between the brackets -/
  | onlyAttributes {t text words window shown a} : esc = [] → text ≠ [] → LinkWords e text words a →
      Caret words [] window → ShownAddress e (scheme ++ t) shown →
      LinkBecomes e lead esc scheme (.brackets t text)
        ((if lead = "link:".toList then [] else lead) ++ bareLink e (scheme ++ t) shown window a)
  | words {t text words shown window a} : esc = [] → text ≠ [] → LinkWords e text words a →
      Caret words shown window → shown ≠ [] →
      LinkBecomes e lead esc scheme (.brackets t text)
        ((if lead = "link:".toList then [] else lead) ++ wordLink e (scheme ++ t) shown window a)

/-- A link: something in front of it, possibly a backslash, a scheme, and what follows. -/
def LinkAt [Uni] (e : Env) (before : Option Char) (piece behind new : Text) : Prop :=
  ∃ lead esc scheme f, piece = lead ++ esc ++ scheme ++ LinkEnd.text f ∧ LinkLead before lead ∧ (esc = [] ∨ esc = ['\\']) ∧
    scheme ∈ linkSchemes ∧ LinkFollows f behind ∧ LinkBecomes e lead esc scheme f new

/-! ### Link macros -/

/-- The target of a link or mail macro. -/
def MacroTarget (t : Text) : Prop := 2 ≤ t.length ∧ t.head? ≠ some ':' ∧ ∀ c ∈ t, isWhite c = false ∧ c ≠ '['

/-- The words of a link macro and its attributes. -/
def MacroWords [Uni] (e : Env) (sep : Char) (text words : Text) (a : Attrlist) : Prop :=
  if sep ∈ text then
    inlineAttrlist e.store (text.map fun c => if c = '\n' then ' ' else c) = .ok a ∧ words = firstValue a
  else inlineAttrlist e.store [] = .ok a ∧ words = unescape ']' text

/-- Subject and body of a mail, from the second and third attribute. -/
def mailQuery (a : Attrlist) : Text :=
  match a.nthAttribute 2, a.nthAttribute 3 with
  | some s, some b => "?subject=".toList ++ encodeUriComponent s.value ++ "&amp;body=".toList ++ encodeUriComponent b.value
  | some s, none => "?subject=".toList ++ encodeUriComponent s.value
  | none, _ => []

/-- What `link:target[text]` becomes. -/
inductive LinkMacroBecomes [Uni] (e : Env) (target text : Text) : Text → Prop
  | words {words shown window a} : MacroWords e '=' text words a → Caret words shown window → shown ≠ [] →
      LinkMacroBecomes e target text (wordLink e target shown window a)
  | address {words window shown a} : MacroWords e '=' text words a → Caret words [] window →
      (shown ≠ [] ∧ ShownAddress e target shown ∨ ShownAddress e target [] ∧ shown = target) →
      LinkMacroBecomes e target text (bareLink e target shown window a)

/-- What `mailto:address[text]` becomes. -/
inductive MailMacroBecomes [Uni] (e : Env) (address text : Text) : Text → Prop
  | mail {words shown window a} : MacroWords e ',' text words a → Caret words shown window →
      MailMacroBecomes e address text
        (wordLink e ("mailto:".toList ++ address ++ (if ',' ∈ text then mailQuery a else []))
          (if shown = [] then address else shown) window a)

/-- `link:target[text]` or `mailto:address[text]`; with a backslash in front of it, it only loses that. -/
inductive LinkMacroAt [Uni] (e : Env) (before : Option Char) : Text → Text → Text → Prop
  | link {target text behind new} : MacroTarget target → Enclosed text → LinkMacroBecomes e target text new →
      LinkMacroAt e before ("link:".toList ++ target ++ '[' :: text ++ [']']) behind new
  | mail {target text behind new} : MacroTarget target → Enclosed text → MailMacroBecomes e target text new →
      LinkMacroAt e before ("mailto:".toList ++ target ++ '[' :: text ++ [']']) behind new
  | escaped {name target text behind} : name = "link:".toList ∨ name = "mailto:".toList →
      MacroTarget target ∨ target.length = 1 → Enclosed text →
      LinkMacroAt e before ('\\' :: (name ++ target ++ '[' :: text ++ [']'])) behind (name ++ target ++ '[' :: text ++ [']'])

/-! ### E-mail addresses -/

/-- What may follow in front of the `@`. -/
inductive MailName [Uni] : Text → Prop
  | nil : MailName []
  | char {c t} : Uni.isWord c = true ∨ c ∈ ['-', '.', '%', '+'] → MailName t → MailName (c :: t)
  | ampersand {t} : MailName t → MailName ("&amp;".toList ++ t)

/-- An e-mail address. -/
def MailAddress [Uni] (a : Text) : Prop :=
  ∃ c name d domain tld, a = c :: name ++ '@' :: d :: domain ++ '.' :: tld ∧
    (Uni.isWord c = true ∨ c = '_') ∧ MailName name ∧ (Uni.isLetter d = true ∨ Uni.isNd d = true) ∧
    (∀ x ∈ domain, Uni.isLetter x = true ∨ Uni.isNd x = true ∨ x = '_' ∨ x = '-' ∨ x = '.') ∧
    2 ≤ tld.length ∧ tld.length ≤ 5 ∧ ∀ x ∈ tld, isAsciiAlpha x = true

/-- An address at which a word ends, and no longer one does. -/
def LongestMail [Uni] (a behind : Text) : Prop :=
  MailAddress a ∧ WordEnds behind ∧ ∀ b r, b ++ r = a ++ behind → a.length < b.length → MailAddress b → ¬ WordEnds r

/-- An address becomes a link.  With a backslash in front of it, it only loses that, and behind a colon, a slash or an angle
bracket it is kept. -/
inductive MailAt [Uni] (e : Env) (before : Option Char) : Text → Text → Text → Prop
  | mail {address behind a} : LongestMail address behind → inlineAttrlist e.store [] = .ok a →
      MailAt e before address behind (wordLink e ("mailto:".toList ++ address) address none a)
  | escaped {address behind} : LongestMail address behind → MailAt e before ('\\' :: address) behind address
  | kept {c address behind} : c ∈ ['>', ':', '/'] → LongestMail address behind →
      MailAt e before (c :: address) behind (c :: address)

/-! ### Anchors -/

/-- The name of an anchor. -/
def AnchorId [Uni] (t : Text) : Prop :=
  ∃ c r, t = c :: r ∧ (Uni.isAlphabetic c = true ∨ c = '_' ∨ c = ':') ∧
    ∀ d ∈ r, Uni.isAlphabetic d = true ∨ Uni.isNd d = true ∨ d ∈ ['_', '-', ':', '.']

/-- Behind the comma: white space and a text in one line, up to two closing brackets. -/
def RefText (space text behind : Text) : Prop :=
  (∀ c ∈ space, isWhite c = true) ∧ Shortest (fun t => t ≠ [] ∧ '\n' ∉ t) (fun r => ∃ x, r = "]]".toList ++ x) text behind

/-- What stands between the double brackets of an anchor, behind its name. -/
inductive AnchorRest : Text → Option Text → Text → Prop
  | none {behind} : AnchorRest [] none behind
  /-- as much white space as possible is left out -/
  | some {space text behind} : RefText space text ("]]".toList ++ behind) →
      (∀ s t r, s ++ t ++ r = space ++ text ++ "]]".toList ++ behind → space.length < s.length → ¬ RefText s t r) →
      AnchorRest (',' :: space ++ text) (some text) behind

/-- An anchor as written, its name and its text. -/
inductive Anchor [Uni] : Text → Text → Option Text → Text → Prop
  | brackets {id rest text behind} : AnchorId id → AnchorRest rest text behind →
      Anchor ("[[".toList ++ id ++ rest ++ "]]".toList) id text behind
  | empty {id behind} : AnchorId id → Anchor ("anchor:".toList ++ id ++ "[]".toList) id none behind
  | named {id text behind} : AnchorId id → text ≠ [] → Enclosed text → '\n' ∉ text.dropLast →
      Anchor ("anchor:".toList ++ id ++ '[' :: text ++ [']']) id (some (unescape ']' text)) behind

/-- An anchor; with a backslash in front of it, it only loses that. -/
inductive AnchorAt [Uni] (e : Env) (before : Option Char) : Text → Text → Text → Prop
  | anchor {piece id text behind} : Anchor piece id text behind → AnchorAt e before piece behind (e.r.anchor id text)
  | escaped {piece id text behind} : Anchor piece id text behind → AnchorAt e before ('\\' :: piece) behind piece

/-! ### All of them -/

/-- One kind of macro is replaced from the left to the right, if there is a reason to look for it. -/
def When (c : Prop) (P : Option Char → Text → Text → Text → Prop) (t u : Text) : Prop :=
  (c ∧ Rewrites P none t u) ∨ (¬ c ∧ u = t)

/-- One kind of macro after the other is replaced.  Whether a kind is looked for depends on the text as it was in the
beginning. -/
def MacrosBecome [Uni] (e : Env) (t out : Text) : Prop :=
  ∃ t1 t2 t3 t4,
    When ('[' ∈ t ∧ (Occurs "image:".toList t ∨ Occurs "icon:".toList t)) (ImageAt e) t t1 ∧
    When (Occurs "://".toList t) (LinkAt e) t1 t2 ∧
    When ('[' ∈ t ∧ (Occurs "link:".toList t ∨ Occurs "ilto:".toList t)) (LinkMacroAt e) t2 t3 ∧
    When ('@' ∈ t) (MailAt e) t3 t4 ∧
    When (Occurs "[[".toList t ∨ ('[' ∈ t ∧ Occurs "or:".toList t)) (AnchorAt e) t4 out

/-! ### What makes the step fail -/

/-- The search described by `Rewrites` comes to a piece of which `F` says that it fails. -/
inductive Breaks (P : Option Char → Text → Text → Text → Prop) (F : Option Char → Text → Text → Fail → Prop) :
    Option Char → Text → Fail → Prop
  | here {before piece behind f} : F before piece behind f → Breaks P F before (piece ++ behind) f
  | hit {before piece behind new f} : P before piece behind new → Breaks P F piece.getLast? behind f →
      Breaks P F before (piece ++ behind) f
  | miss {before c t f} : (∀ piece behind, c :: t = piece ++ behind →
        (∀ new, ¬ P before piece behind new) ∧ ∀ g, ¬ F before piece behind g) →
      Breaks P F (some c) t f → Breaks P F before (c :: t) f

/-- An image or icon fails without a target, and if the renderer fails. -/
inductive ImageFails [Uni] (e : Env) (before : Option Char) : Text → Text → Fail → Prop
  | noTarget {name attrs behind} : name = "image:".toList ∨ name = "icon:".toList → Enclosed attrs →
      ImageFails e before (name ++ '[' :: attrs ++ [']']) behind .panic
  | image {target attrs behind a alt f} : ImageTarget target → Enclosed attrs → inlineAttrlist e.store attrs = .ok a →
      AltText target (a.namedOrPositional "alt".toList 1) alt → e.r.image e.toPEnv
        { target := target
          alt := alt
          width := (a.namedOrPositional "width".toList 2).map ElemAttr.value
          height := (a.namedOrPositional "height".toList 3).map ElemAttr.value
          attrlist := a } = .error f →
      ImageFails e before ("image:".toList ++ target ++ '[' :: attrs ++ [']']) behind f
  | icon {target attrs behind a alt f} : ImageTarget target → Enclosed attrs → inlineAttrlist e.store attrs = .ok a →
      AltText target (a.namedAttribute "alt".toList) alt → e.r.icon e.toPEnv
        { target := target
          alt := alt
          size := (a.namedOrPositional "size".toList 1).map ElemAttr.value
          attrlist := a } = .error f →
      ImageFails e before ("icon:".toList ++ target ++ '[' :: attrs ++ [']']) behind f

/-- A link fails if an angle bracket closes it that none opened. -/
def LinkFails (before : Option Char) (piece behind : Text) (f : Fail) : Prop :=
  ∃ lead scheme target, piece = lead ++ scheme ++ target ++ "&gt;".toList ∧ LinkLead before lead ∧ lead ≠ "&lt;".toList ∧
    lead ≠ "\\&lt;".toList ∧ scheme ∈ linkSchemes ∧ LinkFollows (.angle target) behind ∧ f = .panic

/-- A link or mail macro fails if its target is a single character. -/
def LinkMacroFails (_ : Option Char) (piece _ : Text) (f : Fail) : Prop :=
  ∃ name target text, (name = "link:".toList ∨ name = "mailto:".toList) ∧ target.length = 1 ∧ Enclosed text ∧
    piece = name ++ target ++ '[' :: text ++ [']'] ∧ f = .panic

/-- One kind of macro fails, if there is a reason to look for it. -/
def FailsWhen (c : Prop) (P : Option Char → Text → Text → Text → Prop) (F : Option Char → Text → Text → Fail → Prop)
    (t : Text) (f : Fail) : Prop :=
  c ∧ Breaks P F none t f

/-- One kind of macro is replaced, if there is a reason to look for it, and does not fail. -/
def WhenSafe (c : Prop) (P : Option Char → Text → Text → Text → Prop) (F : Option Char → Text → Text → Fail → Prop)
    (t u : Text) : Prop :=
  When c P t u ∧ ∀ f, ¬ FailsWhen c P F t f

/-- Images fail, or links when the images are done, or link macros when the links are done. -/
def MacrosFail [Uni] (e : Env) (t : Text) (f : Fail) : Prop :=
  FailsWhen ('[' ∈ t ∧ (Occurs "image:".toList t ∨ Occurs "icon:".toList t)) (ImageAt e) (ImageFails e) t f ∨
  ∃ t1, WhenSafe ('[' ∈ t ∧ (Occurs "image:".toList t ∨ Occurs "icon:".toList t)) (ImageAt e) (ImageFails e) t t1 ∧
    (FailsWhen (Occurs "://".toList t) (LinkAt e) LinkFails t1 f ∨
    ∃ t2, WhenSafe (Occurs "://".toList t) (LinkAt e) LinkFails t1 t2 ∧
      FailsWhen ('[' ∈ t ∧ (Occurs "link:".toList t ∨ Occurs "ilto:".toList t)) (LinkMacroAt e) LinkMacroFails t2 f)

end Adoc.Spec
