import Verif.Model.AMap
import Verif.Model.Warning
/-!
# The document-attribute store of the parser

Model of the attribute part of `parser/src/parser/parser.rs`, `parser/src/parser/attribute_value.rs`,
`parser/src/parser/built_in_attrs.rs` and the data types of `parser/src/document/attribute.rs`.
-/

namespace Adoc

/-- `InterpretedValue` (document/attribute.rs 146-156). -/
inductive IVal where
  | value (t : Text) | set | unset
deriving DecidableEq, Repr

/-- `ModificationContext` (parser/attribute_value.rs 49-67). -/
inductive ModCtx where
  | apiOnly | apiOrHeader | apiOrDocumentBody | anywhere
deriving DecidableEq, Repr

/-- `AttributeValue` (parser/attribute_value.rs 13-22).  `allowable_value` is never read by the crate and is
left out. -/
structure AttrVal where
  ctx : ModCtx
  value : IVal
deriving DecidableEq, Repr

/-- `Attribute` (document/attribute.rs 32-37). -/
structure Attribute where
  name : Span
  valueSource : Option Span
  value : IVal
  source : Span
deriving DecidableEq, Repr

/-- The fields `attribute_values` and `default_attribute_values` of `Parser` (parser/parser.rs 21-24). -/
structure AttrStore where
  values : AMap AttrVal
  defaults : AMap Text
deriving DecidableEq, Repr

/-- `built_in_attrs` (parser/built_in_attrs.rs 8-121). -/
def builtInAttrs : AMap AttrVal :=
  [("empty", ⟨.apiOnly, .value []⟩),
   ("sp", ⟨.apiOnly, .value [' ']⟩),
   ("deg", ⟨.apiOnly, .value "&#176;".toList⟩),
   ("plus", ⟨.apiOnly, .value "&#43;".toList⟩),
   ("toc", ⟨.apiOrHeader, .unset⟩),
   ("sectids", ⟨.anywhere, .set⟩),
   ("sectnums", ⟨.anywhere, .unset⟩),
   ("sectnumlevels", ⟨.apiOrHeader, .value "3".toList⟩),
   ("idprefix", ⟨.anywhere, .value "_".toList⟩),
   ("idseparator", ⟨.anywhere, .value "_".toList⟩),
   ("example-caption", ⟨.anywhere, .set⟩),
   ("iconsdir", ⟨.anywhere, .set⟩)].foldl
    (fun (m : AMap AttrVal) (p : String × AttrVal) => m.insert p.1.toList p.2) AMap.empty

/-- `built_in_default_values` (parser/built_in_attrs.rs 123-132). -/
def builtInDefaultValues : AMap Text :=
  [("example-caption", "Example"), ("iconsdir", "./images/icons"), ("sectnums", "all"), ("toc", "auto")].foldl
    (fun (m : AMap Text) (p : String × String) => m.insert p.1.toList p.2.toList) AMap.empty

namespace AttrStore

/-- The attribute part of `Parser::default` (parser/parser.rs 65-66). -/
def default : AttrStore := ⟨builtInAttrs, builtInDefaultValues⟩

/-- `attribute_value` (parser/parser.rs 154-168). -/
def attributeValue (s : AttrStore) (name : Text) : IVal :=
  match s.values.get name with
  | none => .unset
  | some av =>
    match av.value with
    | .set =>
      match s.defaults.get name with
      | some d => .value d
      | none => .set
    | v => v

/-- `has_attribute` (parser/parser.rs 173-175). -/
def hasAttribute (s : AttrStore) (name : Text) : Bool := s.values.contains name

/-- `is_attribute_set` (parser/parser.rs 182-187). -/
def isAttributeSet (s : AttrStore) (name : Text) : Bool :=
  match s.values.get name with
  | some av => av.value != .unset
  | none => false

/-- `remap_attr_name` (parser/parser.rs 477-485). -/
def remapAttrName [Uni] (raw : Text) : Text :=
  let n := Uni.toLowercase raw
  if n = "hardbreaks".toList then "hardbreaks-option".toList else n

/-- `self.attribute_values.insert`. -/
def put (s : AttrStore) (name : Text) (v : AttrVal) : AttrStore := { s with values := s.values.insert name v }

/-- `with_intrinsic_attribute` (parser/parser.rs 208-224). -/
def withIntrinsic [Uni] (s : AttrStore) (name value : Text) (ctx : ModCtx) : AttrStore :=
  s.put (Uni.toLowercase name) ⟨ctx, .value value⟩

/-- `with_intrinsic_attribute_bool` (parser/parser.rs 299-319). -/
def withIntrinsicBool [Uni] (s : AttrStore) (name : Text) (value : Bool) (ctx : ModCtx) : AttrStore :=
  s.put (Uni.toLowercase name) ⟨ctx, if value then .set else .unset⟩

/-- The permission check of `set_attribute_from_header` (parser/parser.rs 375-380). -/
def headerLocked (s : AttrStore) (name : Text) : Bool :=
  match s.values.get name with
  | some e => e.ctx == ModCtx.apiOnly || e.ctx == ModCtx.apiOrDocumentBody
  | none => false

/-- The substitution of the default value (parser/parser.rs 389-395). -/
def headerValue (s : AttrStore) (name : Text) (v : IVal) : IVal :=
  match v with
  | .set => match s.defaults.get name with
    | some d => .value d
    | none => .set
  | v => v

/-- `set_attribute_from_header` (parser/parser.rs 368-404): the new store and the warning pushed, if any. -/
def setFromHeader [Uni] (s : AttrStore) (attr : Attribute) : AttrStore × Option Warning :=
  let name := remapAttrName attr.name.data
  if s.headerLocked name then
    (s, some ⟨attr.source, .attributeValueIsLocked name⟩)
  else
    (s.put name ⟨.anywhere, s.headerValue name attr.value⟩, none)

/-- `set_attribute_by_value_from_header` (parser/parser.rs 410-424). -/
def setByValueFromHeader [Uni] (s : AttrStore) (name value : Text) : AttrStore :=
  s.put (remapAttrName name) ⟨.anywhere, .value value⟩

/-- The permission check of `set_attribute_from_body` (parser/parser.rs 438-441). -/
def bodyLocked (s : AttrStore) (name : Text) : Bool :=
  match s.values.get name with
  | some e => e.ctx != ModCtx.anywhere && e.ctx != ModCtx.apiOrDocumentBody
  | none => false

/-- `set_attribute_from_body` (parser/parser.rs 430-456). -/
def setFromBody [Uni] (s : AttrStore) (attr : Attribute) : AttrStore × Option Warning :=
  let name := remapAttrName attr.name.data
  if s.bodyLocked name then
    (s, some ⟨attr.source, .attributeValueIsLocked name⟩)
  else
    (s.put name ⟨.anywhere, attr.value⟩, none)

end AttrStore

end Adoc
