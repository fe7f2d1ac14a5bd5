import Verif.Spec.Path
import Verif.Spec.InlineMacros
/-!
# Specification: where the images of a document are
-/

namespace Adoc.Spec
open Adoc

/-- `pre` is the scheme at the beginning of the text, with as many slashes as there are, up to two; nothing, if there is no
scheme. -/
def SchemeOf [Uni] (full pre path : Text) : Prop :=
  full = pre ++ path ∧
    ((UriPrefix pre ∧ ∀ pre' path', full = pre' ++ path' → UriPrefix pre' → pre'.length ≤ pre.length) ∨
     (pre = [] ∧ ∀ pre' path', full = pre' ++ path' → ¬ UriPrefix pre'))

/-- The path to a target: of its own if it is rooted or there is no start, otherwise joined to the start with one slash and
resolved behind a scheme. -/
inductive WebPath [Uni] (sep : Char) : Text → Option Text → Text → Prop
  | alone {target start p out} : Posix sep target p → (start = none ∨ ∃ r, p = '/' :: r) → ResolvedPath p out →
      WebPath sep target start out
  | joined {target start p q pre path out} : Posix sep target p → (∀ r, p ≠ '/' :: r) → Posix sep start q →
      SchemeOf (q ++ (if q.getLast? = some '/' then [] else ['/']) ++ p) pre path → ResolvedPath path out →
      WebPath sep target (some start) (pre ++ out)

/-- An address with a scheme. -/
def Uri [Uni] (t : Text) : Prop := ∃ s r, UriScheme s ∧ t = s ++ ':' :: r

/-- The value of an attribute, if it has one. -/
def valueOf (s : AttrStore) (name : Text) : Option Text :=
  match s.attributeValue name with
  | .value v => some v
  | _ => none

/-- Where the target of an image is: at the address, with the spaces in it escaped, or in the directory `dir`. -/
inductive Source [Uni] (sep : Char) (dir : Option Text) : Text → Text → Prop
  | uri {target} : Uri target → Source sep dir target (escapeSpaces target)
  | path {target src} : ¬ Uri target → WebPath sep target dir src → Source sep dir target src

/-- Where an image is. -/
def ImageSource [Uni] (p : PEnv) (target src : Text) : Prop := Source p.sep (valueOf p.store "imagesdir".toList) target src

/-- Where an icon is: it is an image of the type `icontype` says, or a PNG image. -/
def IconSource [Uni] (p : PEnv) (name src : Text) : Prop :=
  Source p.sep (valueOf p.store "iconsdir".toList)
    (name ++ ['.'] ++ (valueOf p.store "icontype".toList).getD "png".toList) src

end Adoc.Spec
