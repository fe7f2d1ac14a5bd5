import Verif.Model.AttrStore
import Verif.Model.Regex
/-!
# Attribute references

Model of the attribute references step of `parser/src/content/substitution_step.rs`.
-/

namespace Adoc
open Re

def isAttrNameStart (c : Char) : Bool := isAsciiAlnum c || c == '_'
def isAttrNameChar (c : Char) : Bool := isAsciiAlnum c || c == '_' || c == '-'

/-- `ATTRIBUTE_REFERENCE` (content/substitution_step.rs 448-451): `\\?\{([A-Za-z0-9_][A-Za-z0-9_-]*)\}`. -/
def attributeReferenceRe : Re :=
  cat [opt (chr '\\'), chr '{', cap 1 (seq (cls isAttrNameStart) (star true (cls isAttrNameChar))), chr '}']

/-- `AttributeReplacer::replace_append` (content/substitution_step.rs 456-477): the text appended. -/
def attributeReplacer (s : AttrStore) (mt : Match) : Res Text := do
  let name ← mt.at! 1
  if !s.hasAttribute name then .ok mt.text
  else if startsWith mt.text ['\\'] then .ok mt.text.tail
  else match s.attributeValue name with
    | .value v => .ok v
    | _ => .ok []

/-- `apply_attributes` (content/substitution_step.rs 479-495). -/
def applyAttributes [Uni] (s : AttrStore) (t : Text) : Res Text :=
  if !t.contains '{' then .ok t
  else replaceAll attributeReferenceRe (attributeReplacer s) t

end Adoc
