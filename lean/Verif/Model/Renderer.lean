import Verif.Model.Attrlist
import Verif.Model.Path
/-!
# Inline renderer

Model of `parser/src/parser/inline_substitution_renderer.rs`.

A renderer appends to a destination string; the model returns the text appended.  (A custom renderer could also
inspect or change what is already in the destination; such renderers are not modelled.)
-/

namespace Adoc

/-- `SpecialCharacter` (parser/inline_substitution_renderer.rs 157-166). -/
inductive SpecialCharacter where
  | lt | gt | ampersand
deriving DecidableEq, Repr

/-- `QuoteType` (parser/inline_substitution_renderer.rs 172-199). -/
inductive QuoteType where
  | strong | doubleQuote | singleQuote | monospaced | emphasis | mark | superscript | subscript | unquoted
deriving DecidableEq, Repr

/-- `QuoteScope` (parser/inline_substitution_renderer.rs 203-209). -/
inductive QuoteScope where
  | constrained | unconstrained
deriving DecidableEq, Repr

/-- `CharacterReplacementType` (parser/inline_substitution_renderer.rs 215-251). -/
inductive CharRepl where
  | copyright | registered | trademark | emDashSurroundedBySpaces | emDashWithoutSpace | ellipsis
  | singleRightArrow | doubleRightArrow | singleLeftArrow | doubleLeftArrow | typographicApostrophe
  | characterReference (name : Text)
deriving DecidableEq, Repr

/-- `ImageRenderParams` (parser/inline_substitution_renderer.rs 255-274), without the parser. -/
structure ImageParams where
  target : Text
  alt : Text
  width : Option Text
  height : Option Text
  attrlist : Attrlist
deriving DecidableEq, Repr

/-- `IconRenderParams` (parser/inline_substitution_renderer.rs 278-294), without the parser. -/
structure IconParams where
  target : Text
  alt : Text
  size : Option Text
  attrlist : Attrlist
deriving DecidableEq, Repr

/-- `LinkRenderParams` (parser/inline_substitution_renderer.rs 298-320), without the parser and the type (there is only
one). -/
structure LinkParams where
  target : Text
  linkText : Text
  extraRoles : List Text
  window : Option Text
  attrlist : Attrlist
deriving DecidableEq, Repr

/-- The part of the parser an inline renderer looks at: attributes and the separator of the path resolver. -/
structure PEnv where
  store : AttrStore
  sep : Char

/-- `InlineSubstitutionRenderer` (parser/inline_substitution_renderer.rs 13-152). -/
structure Renderer where
  special : SpecialCharacter → Text
  quoted : QuoteType → QuoteScope → Option Attrlist → Option Text → Text → Text
  charRepl : CharRepl → Text
  lineBreak : Text
  image : PEnv → ImageParams → Res Text
  icon : PEnv → IconParams → Res Text
  link : PEnv → LinkParams → Text
  anchor : Text → Option Text → Text

namespace Html

/-- `render_special_character` (parser/inline_substitution_renderer.rs 335-347). -/
def special : SpecialCharacter → Text
  | .lt => "&lt;".toList
  | .gt => "&gt;".toList
  | .ampersand => "&amp;".toList

/-- `wrap_body_in_html_tag` (parser/inline_substitution_renderer.rs 695-724). -/
def wrap (tag : Text) (id : Option Text) (roles : List Text) (body : Text) : Text :=
  '<' :: tag ++
  (match id with | some i => " id=\"".toList ++ i ++ ['"'] | none => []) ++
  (if roles = [] then [] else " class=\"".toList ++ joinWith [' '] roles ++ ['"']) ++
  '>' :: body ++ "</".toList ++ tag ++ ['>']

/-- `render_quoted_substitition` (parser/inline_substitution_renderer.rs 349-425). -/
def quoted (type : QuoteType) (_scope : QuoteScope) (attrlist : Option Attrlist) (id : Option Text) (body : Text) :
    Text :=
  let first := attrlist.bind (fun a => a.nthAttribute 1)
  let roles := match attrlist with | some a => a.roles | none => []
  let roles := match first.bind ElemAttr.blockStyle with | some s => s :: roles | none => roles
  let id := match id with | some i => some i | none => first.bind ElemAttr.id
  match type with
  | .strong => wrap "strong".toList id roles body
  | .doubleQuote => "&#8220;".toList ++ body ++ "&#8221;".toList
  | .singleQuote => "&#8216;".toList ++ body ++ "&#8217;".toList
  | .monospaced => wrap "code".toList id roles body
  | .emphasis => wrap "em".toList id roles body
  | .mark => if roles = [] ∧ id = none then wrap "mark".toList id roles body else wrap "span".toList id roles body
  | .superscript => wrap "sup".toList id roles body
  | .subscript => wrap "sub".toList id roles body
  | .unquoted => if roles = [] ∧ id = none then body else wrap "span".toList id roles body

/-- `render_character_replacement` (parser/inline_substitution_renderer.rs 427-479). -/
def charRepl : CharRepl → Text
  | .copyright => "&#169;".toList
  | .registered => "&#174;".toList
  | .trademark => "&#8482;".toList
  | .emDashSurroundedBySpaces => "&#8201;&#8212;&#8201;".toList
  | .emDashWithoutSpace => "&#8212;&#8203;".toList
  | .ellipsis => "&#8230;&#8203;".toList
  | .singleLeftArrow => "&#8592;".toList
  | .doubleLeftArrow => "&#8656;".toList
  | .singleRightArrow => "&#8594;".toList
  | .doubleRightArrow => "&#8658;".toList
  | .typographicApostrophe => "&#8217;".toList
  | .characterReference name => '&' :: name ++ [';']

/-- `encode_attribute_value` (parser/inline_substitution_renderer.rs 762-764). -/
def encodeAttributeValue (t : Text) : Text := replaceChar '"' "&quot;".toList t

/-- `URI_SNIFF` (parser/inline_substitution_renderer.rs 800-812, the same as content/macros.rs 762-765):
`^\p{Alphabetic}[\p{Alphabetic}\p{Nd}.+-]+:/{0,2}`. -/
def uriSniffRe [Uni] : Re :=
  Re.cat [.bot, .cls Uni.isAlphabetic,
    Re.plus (.cls fun c => Uni.isAlphabetic c || Uni.isNd c || c == '.' || c == '+' || c == '-'),
    Re.chr ':', Re.upTo (Re.chr '/') 2]

/-- `is_uri_ish` (parser/inline_substitution_renderer.rs 779-781). -/
def isUriIsh [Uni] (t : Text) : Bool := t.contains ':' && Re.isMatch uriSniffRe t

/-- `encode_spaces_in_uri` (parser/inline_substitution_renderer.rs 783-785). -/
def encodeSpacesInUri (t : Text) : Text := replaceChar ' ' "%20".toList t

/-- `normalize_web_path` (parser/inline_substitution_renderer.rs 766-777) with `preserve_uri_target` (all calls). -/
def normalizeWebPath [Uni] (p : PEnv) (target : Text) (start : Option Text) : Text :=
  if isUriIsh target then encodeSpacesInUri target else Path.webPath p.sep target start

/-- `InterpretedValue::as_maybe_str` (document/attribute.rs 215-220). -/
def maybeStr : IVal → Option Text
  | .value v => some v
  | _ => none

/-- `image_uri` (parser/inline_substitution_renderer.rs 559-593). -/
def imageUri [Uni] (p : PEnv) (target : Text) (assetDirKey : Option Text) : Text :=
  normalizeWebPath p target (maybeStr (p.store.attributeValue (assetDirKey.getD "imagesdir".toList)))

/-- `icon_uri` (parser/inline_substitution_renderer.rs 110-139). -/
def iconUri [Uni] (p : PEnv) (name : Text) : Text :=
  imageUri p (name ++ ['.'] ++ (maybeStr (p.store.attributeValue "icontype".toList)).getD "png".toList)
    (some "iconsdir".toList)

/-- `link_constraint_attrs` (parser/inline_substitution_renderer.rs 814-842). -/
def linkConstraintAttrs (a : Attrlist) (window : Option Text) : Text :=
  let rel : Option Text := if a.hasOption "nofollow".toList then some "nofollow".toList else none
  match ((a.namedAttribute "window".toList).map ElemAttr.value).or window with
  | some w =>
    let noopener : Text :=
      if w = "_blank".toList ∨ a.hasOption "noopener".toList = true then
        match rel with
        | some r => " rel=\"".toList ++ r ++ "\" noopener".toList
        | none => " rel=\"noopener\"".toList
      else []
    " target=\"".toList ++ w ++ ['"'] ++ noopener
  | none =>
    match rel with
    | some r => " rel=\"".toList ++ r ++ ['"']
    | none => []

/-- `render_icon_or_image` (parser/inline_substitution_renderer.rs 726-760). -/
def iconOrImage (a : Attrlist) (img src type : Text) : Text :=
  let img := match a.namedAttribute "link".toList with
    | some l =>
      let link := if l.value = "self".toList then src else l.value
      "<a class=\"image\" href=\"".toList ++ link ++ ['"'] ++ linkConstraintAttrs a none ++ ['>'] ++ img ++ "</a>".toList
    | none => img
  let roles := match a.namedAttribute "float".toList with | some f => f.value :: a.roles | none => a.roles
  "<span class=\"".toList ++ joinWith [' '] (type :: roles) ++ "\">".toList ++ img ++ "</span>".toList

def attrText (name : String) (value : Text) : Text := name.toList ++ "=\"".toList ++ value ++ ['"']

/-- `render_image` (parser/inline_substitution_renderer.rs 485-557); the `todo!()` of inline and interactive SVG images
is a panic. -/
def image [Uni] (p : PEnv) (params : ImageParams) : Res Text :=
  let a := params.attrlist
  let src := imageUri p params.target none
  let attrs : List Text :=
    [attrText "src" src, attrText "alt" (encodeAttributeValue params.alt)] ++
    (match params.width with | some w => [attrText "width" w] | none => []) ++
    (match params.height with | some h => [attrText "height" h] | none => []) ++
    (match a.namedAttribute "title".toList with
      | some t => [attrText "title" (encodeAttributeValue t.value)] | none => [])
  let format := (a.namedAttribute "format".toList).map ElemAttr.value
  let img := "<img ".toList ++ joinWith [' '] attrs ++ ['>']
  if format = some "svg".toList ∨ containsSub params.target ".svg".toList = true then
    if a.hasOption "inline".toList then .error .panic
    else if a.hasOption "interactive".toList then .error .panic
    else .ok (iconOrImage a img src "image".toList)
  else .ok (iconOrImage a img src "image".toList)

/-- `render_icon` (parser/inline_substitution_renderer.rs 595-659). -/
def icon [Uni] (p : PEnv) (params : IconParams) : Res Text :=
  let a := params.attrlist
  let src := iconUri p params.target
  let named := fun (n : String) => a.namedAttribute n.toList
  let img :=
    if p.store.hasAttribute "icons".toList then
      if maybeStr (p.store.attributeValue "icons".toList) = some "font".toList then
        let cls : List Text :=
          ["fa".toList, "fa-".toList ++ params.target] ++
          (match a.namedOrPositional "size".toList 1 with | some s => ["fa-".toList ++ s.value] | none => []) ++
          (match named "flip" with
            | some f => ["fa-flip-".toList ++ f.value]
            | none => match named "rotate" with | some r => ["fa-rotate-".toList ++ r.value] | none => [])
        "<i class=\"".toList ++ joinWith [' '] cls ++ ['"'] ++
          (match named "title" with | some t => " ".toList ++ attrText "title" t.value | none => []) ++ "></i>".toList
      else
        let attrs : List Text :=
          [attrText "src" src, attrText "alt" (encodeAttributeValue params.alt)] ++
          (match named "width" with | some w => [attrText "width" w.value] | none => []) ++
          (match named "height" with | some h => [attrText "height" h.value] | none => []) ++
          (match named "title" with | some t => [attrText "title" t.value] | none => [])
        "<img ".toList ++ joinWith [' '] attrs ++ ['>']
    else '[' :: params.alt ++ "&#93;".toList
  .ok (iconOrImage a img src "icon".toList)

/-- `render_link` (parser/inline_substitution_renderer.rs 661-688). -/
def link (_p : PEnv) (params : LinkParams) : Text :=
  let roles := params.extraRoles ++ params.attrlist.roles
  "<a href=\"".toList ++ params.target ++ ['"'] ++
  (match params.attrlist.id with | some i => ' ' :: attrText "id" i | none => []) ++
  (if roles = [] then [] else ' ' :: attrText "class" (joinWith [' '] roles)) ++
  linkConstraintAttrs params.attrlist params.window ++ ['>'] ++ params.linkText ++ "</a>".toList

/-- `render_anchor` (parser/inline_substitution_renderer.rs 690-692). -/
def anchor (id : Text) (_reftext : Option Text) : Text := "<a id=\"".toList ++ id ++ "\"></a>".toList

/-- `HtmlSubstitutionRenderer` (parser/inline_substitution_renderer.rs 332-693). -/
def renderer [Uni] : Renderer where
  special := special
  quoted := quoted
  charRepl := charRepl
  lineBreak := "<br>".toList
  image := image
  icon := icon
  link := link
  anchor := anchor

end Html

/-- What the inline substitutions see of the parser. -/
structure Env extends PEnv where
  r : Renderer

end Adoc
