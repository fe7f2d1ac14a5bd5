import Verif.Model.AttrStore
/-!
# Specification of the attribute store

Each attribute name is a cell of its own: a value and the contexts in which it may still be modified.
-/

namespace Adoc.Spec

/-- A request to change an attribute. -/
inductive Write where
  | api (name value : Text) (ctx : ModCtx)
  | apiBool (name : Text) (value : Bool) (ctx : ModCtx)
  | headerEntry (attr : Attribute)
  | implicitHeader (name value : Text)
  | bodyEntry (attr : Attribute)

/-- The name under which a document entry is stored: lower case, with the one alias resolved. -/
def entryKey [Uni] (name : Text) : Text :=
  if Uni.toLowercase name = "hardbreaks".toList then "hardbreaks-option".toList else Uni.toLowercase name

/-- The cell a request is about.  API calls are case-insensitive but do not resolve the alias. -/
def Write.target [Uni] : Write → Text
  | .api n _ _ => Uni.toLowercase n
  | .apiBool n _ _ => Uni.toLowercase n
  | .headerEntry a => entryKey a.name.data
  | .implicitHeader n _ => entryKey n
  | .bodyEntry a => entryKey a.name.data

/-- May a header entry change a cell with this context? -/
def HeaderMay : ModCtx → Prop
  | .apiOrHeader | .anywhere => True
  | .apiOnly | .apiOrDocumentBody => False

/-- May a body entry change a cell with this context? -/
def BodyMay : ModCtx → Prop
  | .apiOrDocumentBody | .anywhere => True
  | .apiOnly | .apiOrHeader => False

/-- The cell forbids the request. -/
def Refused : Option (IVal × ModCtx) → Write → Prop
  | some (_, ctx), .headerEntry _ => ¬ HeaderMay ctx
  | some (_, ctx), .bodyEntry _ => ¬ BodyMay ctx
  | _, _ => False

/-- What an accepted request leaves in its cell. -/
def Write.effect : Write → IVal × ModCtx
  | .api _ v ctx => (.value v, ctx)
  | .apiBool _ b ctx => (if b then .set else .unset, ctx)
  | .headerEntry a => (a.value, .anywhere)
  | .implicitHeader _ v => (.value v, .anywhere)
  | .bodyEntry a => (a.value, .anywhere)

/-- The cell `name` after a history: the effect of the last accepted request about it, or what was there at the
start if there is none. -/
inductive Cell [Uni] (name : Text) (start : Option (IVal × ModCtx)) : List Write → Option (IVal × ModCtx) → Prop
  | nil : Cell name start [] start
  | other {ws w c} : Cell name start ws c → w.target ≠ name → Cell name start (ws ++ [w]) c
  | refused {ws w c} : Cell name start ws c → w.target = name → Refused c w → Cell name start (ws ++ [w]) c
  | accepted {ws w c} : Cell name start ws c → w.target = name → ¬ Refused c w →
      Cell name start (ws ++ [w]) (some w.effect)

/-- What a reader sees of a cell: a bare "set" reads as the built-in default of the name, if there is one;
no cell reads as "unset". -/
def readCell (dflt : Option Text) : Option (IVal × ModCtx) → IVal
  | none => .unset
  | some (.set, _) => match dflt with
    | some d => .value d
    | none => .set
  | some (v, _) => v

end Adoc.Spec
