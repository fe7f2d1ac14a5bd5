import Verif.Model.Renderer
import Verif.Spec.Source
/-!
# Specification: what is shown for images, icons and links
-/

namespace Adoc.Spec
open Adoc

/-- The attributes of a tag, as they are written. -/
def attrsText (l : List (String × Option Text)) : Text :=
  l.flatMap fun p => ' ' :: p.1.toList ++ (match p.2 with | some v => '=' :: '"' :: v ++ ['"'] | none => [])

/-- A tag with attributes. -/
def tagText (name : String) (l : List (String × Option Text)) : Text := '<' :: name.toList ++ attrsText l ++ ['>']

/-- An element. -/
def element (name : String) (l : List (String × Option Text)) (body : Text) : Text :=
  tagText name l ++ body ++ '<' :: '/' :: name.toList ++ ['>']

/-- An attribute that is there if it has a value. -/
def given (n : String) (v : Option Text) : List (String × Option Text) := (v.map fun v => (n, some v)).toList

/-- Words with a blank between them. -/
def words : List Text → Text
  | [] => []
  | w :: ws => w ++ ws.flatMap (' ' :: ·)

/-- The value of a named attribute. -/
def named (a : Attrlist) (n : String) : Option Text := (a.namedAttribute n.toList).map ElemAttr.value

/-- The text of an attribute, without quotation marks. -/
def quoted (t : Text) : Text := t.flatMap fun c => if c = '"' then "&quot;".toList else [c]

/-- The attributes of a link for its window and its options.  (They are not always those one would expect: see C44.) -/
def windowAttrs (window : Option Text) (nofollow noopener : Bool) : List (String × Option Text) :=
  match window with
  | none => if nofollow then [("rel", some "nofollow".toList)] else []
  | some w =>
    ("target", some w) ::
      if w = "_blank".toList ∨ noopener = true then
        if nofollow then [("rel", some "nofollow".toList), ("noopener", none)] else [("rel", some "noopener".toList)]
      else []

/-- The attributes of a link, the window being the one of the list or else the one given. -/
def windowOfList (a : Attrlist) (window : Option Text) : List (String × Option Text) :=
  windowAttrs ((named a "window").or window) (a.hasOption "nofollow".toList) (a.hasOption "noopener".toList)

/-- What stands in the text for an image or an icon that is shown as `inner`: it is a link, if the list has one, which may be
to the image itself; and it has the classes of the list, behind the way it floats. -/
def around (kind : String) (a : Attrlist) (src inner : Text) : Text :=
  element "span" [("class", some (words (kind.toList :: (named a "float").toList ++ a.roles)))]
    (match named a "link" with
      | none => inner
      | some l => element "a" ([("class", some "image".toList), ("href", some (if l = "self".toList then src else l))] ++
          windowOfList a none) inner)

/-- An SVG image which is to be part of the page.  (These are not implemented.) -/
def SvgInPage (i : ImageParams) : Prop :=
  (named i.attrlist "format" = some "svg".toList ∨ ∃ u v, i.target = u ++ ".svg".toList ++ v) ∧
  (i.attrlist.hasOption "inline".toList = true ∨ i.attrlist.hasOption "interactive".toList = true)

/-- What is shown for an image. -/
def ImageShown [Uni] (p : PEnv) (i : ImageParams) (out : Text) : Prop :=
  ¬ SvgInPage i ∧ ∃ src, ImageSource p i.target src ∧
    out = around "image" i.attrlist src (tagText "img" ([("src", some src), ("alt", some (quoted i.alt))] ++
      given "width" i.width ++ given "height" i.height ++ given "title" ((named i.attrlist "title").map quoted)))

/-- The class of an icon that is flipped or else rotated. -/
def turned : Option Text → Option Text → List Text
  | some f, _ => ["fa-flip-".toList ++ f]
  | none, some r => ["fa-rotate-".toList ++ r]
  | none, none => []

/-- What is shown for an icon: a character of the icon font, an image, or the alternative text in brackets. -/
inductive IconShown [Uni] (p : PEnv) (i : IconParams) : Text → Prop
  | font {src} : IconSource p i.target src → valueOf p.store "icons".toList = some "font".toList →
      IconShown p i (around "icon" i.attrlist src (element "i"
        (("class", some (words (["fa".toList, "fa-".toList ++ i.target] ++
            (((i.attrlist.namedOrPositional "size".toList 1).map ElemAttr.value).map ("fa-".toList ++ ·)).toList ++
            turned (named i.attrlist "flip") (named i.attrlist "rotate")))) ::
          given "title" (named i.attrlist "title")) []))
  | image {src} : IconSource p i.target src → p.store.hasAttribute "icons".toList = true →
      valueOf p.store "icons".toList ≠ some "font".toList →
      IconShown p i (around "icon" i.attrlist src (tagText "img" ([("src", some src), ("alt", some (quoted i.alt))] ++
        given "width" (named i.attrlist "width") ++ given "height" (named i.attrlist "height") ++
        given "title" (named i.attrlist "title"))))
  | text {src} : IconSource p i.target src → p.store.hasAttribute "icons".toList = false →
      IconShown p i (around "icon" i.attrlist src ('[' :: i.alt ++ "&#93;".toList))

/-- What is shown for a link. -/
def linkShown (l : LinkParams) : Text :=
  element "a" ([("href", some l.target)] ++ given "id" l.attrlist.id ++
    (match l.extraRoles ++ l.attrlist.roles with
      | [] => []
      | rs => [("class", some (words rs))]) ++ windowOfList l.attrlist l.window) l.linkText

end Adoc.Spec
