import Verif.Model.Section
import Verif.Model.Attribute
/-!
# Block metadata

Model of `parser/src/blocks/metadata.rs`: the title, the anchor and the attribute list in front of a block.

The substitutions are a parameter, so that everything proved about blocks holds for whatever they do.
-/

namespace Adoc

/-- `SubstitutionGroup::apply` (content/substitution_group.rs 165-187) for given document attributes. -/
abbrev Subs := AttrStore → Group → Option Attrlist → Text → Res Text

/-- The title, anchor and attribute list of a block (blocks/metadata.rs 16-32, and the fields of the same names of every
block type). -/
structure Meta where
  titleSource : Option Span := none
  title : Option Text := none
  anchor : Option Span := none
  anchorReftext : Option Span := none
  attrlist : Option Attrlist := none
deriving DecidableEq, Repr

/-- `BlockMetadata` (blocks/metadata.rs 15-40). -/
structure BlockMetadata where
  fields : Meta
  source : Span
  blockStart : Span
deriving DecidableEq, Repr

/-- The style named by an attribute list, if there is one. -/
def Meta.style (m : Meta) : Option Text := m.attrlist.bind Attrlist.blockStyle

/-- `BlockMetadata::is_empty` (blocks/metadata.rs 175-177): the anchor is not looked at. -/
def BlockMetadata.isEmpty (m : BlockMetadata) : Bool := m.fields.title.isNone && m.fields.attrlist.isNone

/-- `BlockMetadata::is_discrete` (blocks/metadata.rs 184-192). -/
def BlockMetadata.isDiscrete (m : BlockMetadata) : Bool :=
  m.fields.style == some "discrete".toList || m.fields.style == some "float".toList

/-- The title on the first line, if it is one (blocks/metadata.rs 72-80). -/
def maybeTitle (source : Span) : Option (MI Span) :=
  let l := source.takeNormalizedLine
  if startsWith l.item.data ['.'] && !startsWith l.item.data ['.', '.'] then
    let title := l.item.discard 1
    if title.takeWhitespace.item.data = [] then some ⟨title, l.after⟩ else none
  else none

/-- `parse_maybe_block_anchor` (blocks/metadata.rs 195-236): the text between the brackets.  The line begins and ends with
a pair of different brackets, so that it has at least four characters and the slice cannot fail. -/
def maybeBlockAnchor (source : Span) : Option (MI Span) × List Warning :=
  if !startsWith source.data ['[', '['] then (none, [])
  else
    let l := source.takeNormalizedLine
    if !endsWith l.item.data [']', ']'] then (none, [])
    else
      let a := (l.item.dropN 2).takeN (l.item.data.length - 4)
      if a.data = [] then (none, [⟨a, .emptyBlockAnchorName⟩]) else (some ⟨a, l.after⟩, [])

/-- The anchor of a block and its reference text (blocks/metadata.rs 92-128): the text between the brackets is cut at the
first comma, unless the comma is its last character. -/
def splitAnchor (a : Span) : Span × Option Span :=
  let n := Span.prefLen (· ≠ ',') a.data
  if n + 1 < a.data.length then (a.takeN n, some (a.dropN (n + 1))) else (a, none)

/-- `parse_maybe_attrlist_line` (blocks/metadata.rs 238-281). -/
def maybeAttrlistLine [Uni] (subs : Subs) (store : AttrStore) (source : Span) :
    Res (Option (MI Attrlist × List Warning)) :=
  if !startsWith source.data ['['] then .ok none
  else
    let l := source.takeNormalizedLine
    if !endsWith l.item.data [']'] then .ok none
    else
      let a := (l.item.dropN 1).takeN (l.item.data.length - 2)
      if startsWith a.data [' '] || startsWith a.data ['\t'] || (startsWith a.data ['['] && endsWith a.data [']']) then
        .ok none
      else do
        let (al, ws) ← Attrlist.parse (subs store .normal none) store a .block
        .ok (some (⟨al, l.after⟩, ws))

/-- The variables of the loop of `BlockMetadata::parse` (blocks/metadata.rs 58-62). -/
structure MetaState where
  titleSource : Option Span := none
  anchor : Option Span := none
  reftext : Option Span := none
  attrlist : Option Attrlist := none
  blockStart : Span
  warnings : List Warning := []
deriving DecidableEq, Repr

/-- The part of an iteration that looks for an anchor (blocks/metadata.rs 84-131): whether one was found. -/
def anchorStep [Uni] (st : MetaState) : Bool × MetaState :=
  if st.anchor.isNone then
    match maybeBlockAnchor st.blockStart with
    | (none, ws) => (false, { st with warnings := st.warnings ++ ws })
    | (some mi, ws) =>
      let p := splitAnchor mi.item
      if p.1.isXmlName then
        (true, { st with anchor := some p.1, reftext := p.2.or st.reftext, blockStart := mi.after,
                         warnings := st.warnings ++ ws })
      else (false, { st with warnings := st.warnings ++ ws ++ [⟨p.1, .invalidBlockAnchorName⟩] })
  else (false, st)

/-- One iteration of the loop of `BlockMetadata::parse` (blocks/metadata.rs 65-153): whether something was found. -/
def metaStep [Uni] (subs : Subs) (store : AttrStore) (st : MetaState) : Res (Bool × MetaState) :=
  match (if st.titleSource.isNone then maybeTitle st.blockStart else none) with
  | some t => .ok (true, { st with titleSource := some t.item, blockStart := t.after })
  | none =>
    match anchorStep st with
    | (true, st) => .ok (true, st)
    | (false, st) =>
      if st.attrlist.isNone then do
        match ← maybeAttrlistLine subs store st.blockStart with
        | some (mi, ws) =>
          .ok (true, { st with attrlist := some mi.item, blockStart := mi.after, warnings := st.warnings ++ ws })
        | none => .ok (false, st)
      else .ok (false, st)

/-- The loop of `BlockMetadata::parse` (blocks/metadata.rs 64-153).  Every iteration but the last finds a title, an anchor
or an attribute list, each at most once, so four iterations suffice (`C27_terminates`). -/
def metaLoop [Uni] (subs : Subs) (store : AttrStore) : Nat → MetaState → Res MetaState
  | 0, _ => .error .fuel
  | n + 1, st => do
    let (found, st) ← metaStep subs store st
    if found then metaLoop subs store n st else .ok st

/-- `BlockMetadata::parse` (blocks/metadata.rs 51-172). -/
def BlockMetadata.parse [Uni] (subs : Subs) (store : AttrStore) (source : Span) : Res (BlockMetadata × List Warning) := do
  let source := source.discardEmptyLines
  let st ← metaLoop subs store 4 { blockStart := source }
  let title ← st.titleSource.mapM fun s => subs store .normal none s.data
  .ok (⟨⟨st.titleSource, title, st.anchor, st.reftext, st.attrlist⟩, source, st.blockStart⟩, st.warnings)

end Adoc
