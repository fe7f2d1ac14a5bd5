import Verif.Model.AttrRef
import Verif.Model.Warning
/-!
# Attribute lists

Model of `parser/src/attributes/attrlist.rs` and `parser/src/attributes/element_attribute.rs`.

`ElementAttribute::parse` works on `&source_text[start_index..]` and returns the byte index behind the attribute; the
model passes the remaining text itself, so an index is represented by the text from there to the end.  Byte indices into
the value of an attribute (`shorthand_item_indices`) are character indices here.
-/

namespace Adoc

/-- `AttrlistContext` (attributes/attrlist.rs 425-431). -/
inductive AttrlistCtx where
  | block | inline
deriving DecidableEq, Repr

/-- `ElementAttribute` (attributes/element_attribute.rs 18-22). -/
structure ElemAttr where
  name : Option Text
  value : Text
  shorthand : List Nat
deriving DecidableEq, Repr

/-- `is_shorthand_delimiter` (attributes/element_attribute.rs 363-365). -/
def isShorthandDelim (c : Char) : Bool := c == '#' || c == '%' || c == '.'

/-- The `while` loop of `parse_shorthand_items` (attributes/element_attribute.rs 330-358).  `pos` is the position of
`rest` in the value; every iteration consumes a character, so the length of `rest` bounds the iterations
(`Verif.Lemmas.Attrlist`). -/
def shorthandLoop : Nat → Nat → Text → List Nat × List WarningType
  | 0, _, _ => ([], [])
  | _ + 1, _, [] => ([], [])
  | n + 1, pos, d :: tl =>
    let i := Span.prefLen (fun c => !isShorthandDelim c) tl
    if i = tl.length then
      if tl = [] then ([pos], [.emptyShorthandItem]) else ([pos], [])
    else if i = 0 then
      let r := shorthandLoop n (pos + 1) tl
      (pos :: r.1, .emptyShorthandItem :: r.2)
    else
      let r := shorthandLoop n (pos + (i + 1)) ((d :: tl).drop (i + 1))
      (pos :: r.1, r.2)

/-- `parse_shorthand_items` (attributes/element_attribute.rs 319-361). -/
def parseShorthandItems (value : Text) : List Nat × List WarningType :=
  let n := Span.prefLen (fun c => !isShorthandDelim c) value
  let r := shorthandLoop value.length n (value.drop n)
  if n = 0 then r
  else (Span.prefLen Span.isBlank (value.take n) :: r.1, r.2)

/-- The name part of `ElementAttribute::parse` (attributes/element_attribute.rs 38-55): the name, if there is one, and
the text in which the value is looked for. -/
def attrNamePart (source : Span) : Option Text × Span :=
  match source.takeAttrName with
  | some name =>
    match name.after.takeWhitespaceWithNewline.after.takePrefix ['='] with
    | some equals =>
      let space := equals.after.takeWhitespaceWithNewline
      if space.after.data = [] || startsWith space.after.data [','] then (none, source)
      else (some name.item.data, space.after)
    | none => (none, source)
  | none => (none, source)

/-- The value part of `ElementAttribute::parse` (attributes/element_attribute.rs 60-72): the raw value with the text
behind it, whether it was a complete quoted string, and the warnings. -/
def attrValuePart (after : Span) : MI Span × Bool × List WarningType :=
  let bare := (after.takeWhile (· ≠ ',')).trimItemTrailingSpaces
  match after.data.head? with
  | some c =>
    if c = '\'' ∨ c = '"' then
      match after.takeQuotedString with
      | some v => (v, true, [])
      | none => (bare, false, [.attributeValueMissingTerminatingQuote])
    else (bare, false, [])
  | none => (bare, false, [])

/-- The treatment of quoted values (attributes/element_attribute.rs 77-96).  `nrm` is
`SubstitutionGroup::Normal.apply`. -/
def attrUnquote (nrm : Text → Res Text) (ctx : AttrlistCtx) (first : Option Char) (value : Text) : Res Text :=
  match first with
  | some q =>
    if q = '\'' ∨ q = '"' then
      let v := replaceStr value ['\\', q] [q]
      if q = '\'' ∧ ctx = .block then nrm v else .ok v
    else .ok value
  | none => .ok value

/-- `ElementAttribute::parse` (attributes/element_attribute.rs 25-118). -/
def ElemAttr.parse (nrm : Text → Res Text) (rest : Text) (sh : Bool) (ctx : AttrlistCtx) :
    Res (ElemAttr × Text × List WarningType) := do
  let np := attrNamePart (Span.new rest)
  let after := np.2.takeWhitespaceWithNewline.after
  let vp := attrValuePart after
  let value ← attrUnquote nrm ctx after.data.head? vp.1.item.data
  let si := if np.1 = none ∧ sh = true ∧ vp.2.1 = false then parseShorthandItems value else ([], [])
  .ok (⟨np.1, value, si.1⟩, vp.1.after.data, vp.2.2 ++ si.2)

namespace ElemAttr

/-- The slices taken by `shorthand_items` (attributes/element_attribute.rs 138-145).  `C35_slices_in_range` shows that
none of them can panic. -/
def slices (value : Text) : List Nat → List Text
  | [] => []
  | [c] => [value.drop c]
  | c :: n :: r => (value.drop c).take (n - c) :: slices value (n :: r)

/-- `shorthand_items` (attributes/element_attribute.rs 134-159). -/
def shorthandItems (a : ElemAttr) : List Text :=
  (((slices a.value a.shorthand).filter (fun s => !(s == ['#'] || s == ['.'] || s == ['%']))).map trimEnd).filter
    (fun s => !s.isEmpty)

/-- `block_style` (attributes/element_attribute.rs 162-167). -/
def blockStyle (a : ElemAttr) : Option Text :=
  match a.shorthandItems.head? with
  | some v => if v.any isShorthandDelim then none else some v
  | none => none

/-- `id` (attributes/element_attribute.rs 202-207). -/
def id (a : ElemAttr) : Option Text :=
  (a.shorthandItems.find? (fun v => startsWith v ['#'])).map List.tail

/-- `roles` (attributes/element_attribute.rs 230-236). -/
def roles (a : ElemAttr) : List Text :=
  (a.shorthandItems.filter (fun v => startsWith v ['.'])).map List.tail

/-- `options` (attributes/element_attribute.rs 302-308). -/
def options (a : ElemAttr) : List Text :=
  (a.shorthandItems.filter (fun v => startsWith v ['%'])).map List.tail

end ElemAttr

/-- `Attrlist` (attributes/attrlist.rs 21-25). -/
structure Attrlist where
  attributes : List ElemAttr
  anchor : Option Text
  source : Span
deriving DecidableEq, Repr

namespace Attrlist

/-- The text behind an attribute (attributes/attrlist.rs 106-127): `.inl` the text at which the next attribute starts and
whether a doubled comma was skipped, `.inr` the text at which the list ends. -/
def separator (after : Text) : Sum (Text × Bool) Text :=
  match after.dropWhile Span.isBlank with
  | ',' :: r =>
    match r.dropWhile Span.isBlank with
    | ',' :: r' => .inl (r', true)
    | r' => .inl (r', false)
  | r => .inr r

/-- The loop of `Attrlist::parse` (attributes/attrlist.rs 68-128): the attributes, the warnings, and the text from
`after_index` on. -/
def loop (nrm : Text → Res Text) (source : Span) (ctx : AttrlistCtx) :
    Nat → Text → Bool → List ElemAttr → List Warning → Res (List ElemAttr × List Warning × Text)
  | 0, _, _, _, _ => .error .fuel
  | n + 1, rest, sh, attrs, ws => do
    let (attr, after, wts) ← ElemAttr.parse nrm rest sh ctx
    let ws := ws ++ wts.map (fun w => ⟨source, w⟩)
    let sh := if attr.name = none then false else sh
    if attr.name = none ∧ attr.value = [] ∧ after = [] ∧ attrs = [] then .ok (attrs, ws, rest)
    else
      let attrs := if attr.name = none ∨ attr.value ≠ "None".toList then attrs ++ [attr] else attrs
      match separator after with
      | .inl (next, doubled) =>
        loop nrm source ctx n next sh attrs (if doubled then ws ++ [⟨source, .emptyAttributeValue⟩] else ws)
      | .inr r => .ok (attrs, ws, r)

/-- `Attrlist::parse` (attributes/attrlist.rs 32-148): the list and the warnings.  (`after` is always the end of
`source`.)  Each iteration of the loop consumes a comma, so the length of the text bounds the iterations
(`C33_terminates`). -/
def parse [Uni] (nrm : Text → Res Text) (store : AttrStore) (source : Span) (ctx : AttrlistCtx) :
    Res (Attrlist × List Warning) := do
  let text ← if source.data.contains '{' && source.data.contains '}' then applyAttributes store source.data
    else .ok source.data
  if startsWith text ['['] && endsWith text [']'] then
    .ok (⟨[], some (text.tail.dropLast), source⟩, [])
  else
    let (attrs, ws, r) ← loop nrm source ctx (text.length + 1) text true [] []
    .ok (⟨attrs, none, source⟩,
      if r ≠ [] then ws ++ [⟨source, .missingCommaAfterQuotedAttributeValue⟩] else ws)

/-- `named_attribute` (attributes/attrlist.rs 162-170). -/
def namedAttribute (a : Attrlist) (name : Text) : Option ElemAttr :=
  a.attributes.find? (fun x => x.name == some name)

/-- `nth_attribute` (attributes/attrlist.rs 176-185). -/
def nthAttribute (a : Attrlist) (n : Nat) : Option ElemAttr :=
  if n = 0 then none else (a.attributes.filter (fun x => x.name == none))[n - 1]?

/-- `named_or_positional_attribute` (attributes/attrlist.rs 194-201). -/
def namedOrPositional (a : Attrlist) (name : Text) (n : Nat) : Option ElemAttr :=
  (a.namedAttribute name).or (a.nthAttribute n)

/-- `id` (attributes/attrlist.rs 233-239). -/
def id (a : Attrlist) : Option Text :=
  a.anchor.or (((a.nthAttribute 1).bind ElemAttr.id).or ((a.namedAttribute "id".toList).map ElemAttr.value))

/-- The splitting loop shared by `roles` and `options` (attributes/attrlist.rs 269-279, 357-367, 373-383): the maximal
pieces without the separator.  Every iteration consumes a character. -/
def pieces (sep : Char) : Nat → Text → List Text
  | 0, _ => []
  | n + 1, t =>
    if t = [] then []
    else
      let item := t.takeWhile (· ≠ sep)
      let rest := (t.dropWhile (· ≠ sep)).dropWhile (· = sep)
      if item = [] then pieces sep n rest else item :: pieces sep n rest

def splitPieces (sep : Char) (t : Text) : List Text :=
  let t := t.dropWhile (· = sep)
  pieces sep t.length t

/-- `roles` (attributes/attrlist.rs 262-285). -/
def roles (a : Attrlist) : List Text :=
  (match a.nthAttribute 1 with | some x => x.roles | none => []) ++
  (match a.namedAttribute "role".toList with | some r => splitPieces ' ' r.value | none => [])

/-- `options` (attributes/attrlist.rs 350-389). -/
def options (a : Attrlist) : List Text :=
  (match a.nthAttribute 1 with | some x => x.options | none => []) ++
  (match a.namedAttribute "opts".toList with | some r => splitPieces ',' r.value | none => []) ++
  (match a.namedAttribute "options".toList with | some r => splitPieces ',' r.value | none => [])

/-- `has_option` (attributes/attrlist.rs 396-401). -/
def hasOption (a : Attrlist) (name : Text) : Bool := a.options.contains name

/-- `block_style` (attributes/attrlist.rs 404-406). -/
def blockStyle (a : Attrlist) : Option Text := (a.nthAttribute 1).bind ElemAttr.blockStyle

end Attrlist

end Adoc
