import Verif.Model.Leaf
/-!
# Blocks

Model of `Block::parse` (`parser/src/blocks/block.rs`), of the blocks with nested blocks (`compound_delimited.rs`,
`section.rs`) and of `parse_blocks_until` (`parse_utils.rs`).
-/

namespace Adoc

/-- What distinguishes the variants of `Block` (blocks/block.rs 30-73), without the fields they share. -/
inductive BlockKind where
  | simple (content : Content) (style : SimpleStyle)
  | media (type : MediaType) (target : Span) (attrs : Attrlist)
  | section (level : Nat) (title : Content) (type : SectionType) (id : Option Text) (number : Option SectionNumber)
  | raw (content : Content) (model : ContentModel) (context : Text) (group : Group)
  | compound (context : Text)
  | preamble
  | brk (type : BreakType)
  | docAttr (attr : Attribute)
deriving DecidableEq, Repr

/-- `Block` (blocks/block.rs 30-73). -/
inductive Block where
  | mk (kind : BlockKind) (source : Span) (fields : Meta) (children : List Block)
deriving Repr

namespace Block

def kind : Block → BlockKind | mk k _ _ _ => k

/-- `HasSpan::span`. -/
def source : Block → Span | mk _ s _ _ => s

/-- `title_source`, `title`, `anchor`, `anchor_reftext` and `attrlist` of `IsBlock`. -/
def fields : Block → Meta | mk _ _ m _ => m

/-- `IsBlock::nested_blocks`. -/
def children : Block → List Block | mk _ _ _ c => c

end Block

/-- `IsBlock::id` (blocks/is_block.rs 146-150) for the blocks other than sections. -/
def Meta.id (m : Meta) : Option Text := (m.anchor.map Span.data).or (m.attrlist.bind Attrlist.id)

/-- `IsBlock::id` (blocks/is_block.rs 146-150, blocks/section.rs 239-246). -/
def Block.id (b : Block) : Option Text :=
  match b.kind with
  | .section _ _ _ i _ => b.fields.id.or i
  | _ => b.fields.id

/-- The fields of `Parser` that change while blocks are parsed (parser/parser.rs 19-58). -/
structure ParserState where
  store : AttrStore
  catalog : Option Catalog
  num : Numbering
  sectnumlevels : Nat
deriving DecidableEq, Repr

/-- What stays the same while blocks are parsed: arithmetic on `usize`, the substitutions with the renderer of the parser,
and those with the renderer of `Parser::default()`. -/
structure BlockEnv where
  ar : Arith
  subs : Subs
  dsubs : Subs

/-- `Block::register_block_id` (blocks/block.rs 340-363). -/
def registerBlockId (p : ParserState) (m : Meta) (span : Span) : ParserState × List Warning :=
  match m.id, p.catalog with
  | some id, some c =>
    match c.registerRef id m.title .anchor with
    | some c => ({ p with catalog := some c }, [])
    | none => (p, [⟨span, .duplicateId id⟩])
  | _, _ => (p, [])

/-- The closures given to `parse_blocks_until`: that of a compound block or a document (blocks/compound_delimited.rs 106,
document/document.rs 79), that of a discrete heading, and that of another section with the variable it captures
(blocks/section.rs 88-93). -/
inductive Stop where
  | never | always
  | peer (level mostRecent : Nat)
deriving DecidableEq, Repr

/-- `peer_or_ancestor_section` (blocks/section.rs 321-357): the answer, the new most recent level, and the warnings. -/
def peerOrAncestor [Uni] (e : BlockEnv) (source : Span) (level mostRecent : Nat) : Res (Bool × Nat × List Warning) := do
  let (m, _) ← BlockMetadata.parse e.dsubs AttrStore.default source
  if m.isDiscrete then .ok (false, mostRecent, [])
  else do
    let (mi, ws) ← parseTitleLine e.ar m.blockStart
    match mi with
    | none => .ok (false, mostRecent, ws)
    | some mi => do
      let limit ← e.ar.succ mostRecent
      let skipped := if mi.item.1 > limit then
          [Warning.mk source.takeNormalizedLine.item (.sectionHeadingLevelSkipped mostRecent mi.item.1)]
        else []
      .ok (mi.item.1 ≤ level, mi.item.1, ws ++ skipped)

/-- The test at the head of the loop (blocks/parse_utils.rs 26). -/
def Stop.check [Uni] (e : BlockEnv) (source : Span) : Stop → Res (Bool × Stop × List Warning)
  | .never => .ok (false, .never, [])
  | .always => .ok (true, .always, [])
  | .peer level mostRecent => do
    let (b, mr, ws) ← peerOrAncestor e source level mostRecent
    .ok (b, .peer level mr, ws)

/-- What `parse_blocks_until` returns (blocks/parse_utils.rs 42-48), with the warnings pushed by the closure and the state
of the parser. -/
structure Blocks where
  blocks : List Block
  after : Span
  warnings : List Warning
  stopWarnings : List Warning
  state : ParserState

/-- Calling `parse_blocks_until` (blocks/parse_utils.rs 10-18). -/
abbrev Nested := Stop → ParserState → Span → Res Blocks

/-- The kind of block a delimiter opens (blocks/compound_delimited.rs 74-83). -/
def compoundKind (t : Text) : Option Text :=
  if t.take 4 = "====".toList then some "example".toList
  else if t.take 4 = "--".toList then some "open".toList
  else if t.take 4 = "****".toList then some "sidebar".toList
  else if t.take 4 = "____".toList then some "quote".toList
  else none

/-- `CompoundDelimitedBlock::parse` (blocks/compound_delimited.rs 64-139). -/
def parseCompound (nested : Nested) (p : ParserState) (m : BlockMetadata) :
    Res (Option (MI Block × List Warning × ParserState)) :=
  let d := m.blockStart.takeNormalizedLine
  match compoundKind d.item.data with
  | none => .ok none
  | some context =>
    if !isCompoundDelimiter d.item.data then .ok none
    else do
      let (closing, after) := match findClosing d.item.data d.after.data.length d.after with
        | (some l, _) => (l.item, l.after)
        | (none, next) => (next, next)
      let inside ← Res.ofOption (d.after.trimRemainder? closing)
      let maw ← nested .never p inside
      let src ← Res.ofOption (m.source.trimRemainder? closing.discardAll)
      .ok (some (⟨.mk (.compound context) src.trimTrailingWhitespace m.fields maw.blocks, after⟩,
        if closing.data = [] then ⟨d.item, .unterminatedDelimitedBlock⟩ :: maw.warnings else maw.warnings, maw.state))

/-- The type of a section and the type remembered for the sections in it (blocks/section.rs 58-74). -/
def sectionType (num : Numbering) (discrete : Bool) (level : Nat) (style : Option Text) : SectionType × Numbering :=
  if discrete then (.discrete, num)
  else if level = 1 then
    let ty := if style = some "appendix".toList then SectionType.appendix else .normal
    (ty, { num with topmost := ty })
  else (num.topmost, num)

/-- The number of a section (blocks/section.rs 78-83). -/
def sectionNumber (p : ParserState) (discrete : Bool) (level : Nat) : Option SectionNumber × ParserState :=
  if p.store.isAttributeSet "sectnums".toList && level ≤ p.sectnumlevels && !discrete then
    (some (p.num.assign level).2, { p with num := (p.num.assign level).1 })
  else (none, p)

/-- The registration of a section (blocks/section.rs 105-139): the generated id, the new state, and whether the id given by
the author was taken. -/
def registerSection (p : ParserState) (sectids : Bool) (base : Text) (manual : Option Text) (reftext : Text) :
    Res (Option Text × ParserState × Option Text) :=
  match p.catalog with
  | none => .ok (none, p, none)
  | some c =>
    match manual with
    | some id =>
      match c.registerRef id (some reftext) .section with
      | some c => .ok (none, { p with catalog := some c }, none)
      | none => .ok (none, p, some id)
    | none =>
      if sectids then
        match c.generate base (some reftext) .section with
        | some (c, id) => .ok (some id, { p with catalog := some c }, none)
        | none => .error .fuel
      else .ok (none, p, none)

/-- `SectionBlock::parse` (blocks/section.rs 40-161): the block, if there is one, the warnings and the state. -/
def parseSection [Uni] (e : BlockEnv) (nested : Nested) (p : ParserState) (m : BlockMetadata) :
    Res (Option (MI Block) × List Warning × ParserState) := do
  let discrete := m.isDiscrete
  let (mi, tw) ← parseTitleLine e.ar m.blockStart.discardEmptyLines
  match mi with
  | none => .ok (none, tw, p)
  | some mi => do
    let sectids := p.store.isAttributeSet "sectids".toList
    let level := mi.item.1
    let (ty, num) := sectionType p.num discrete level m.fields.style
    let (number, p) := sectionNumber { p with num := num } discrete level
    let maw ← nested (if discrete then .always else .peer level level) p mi.after
    let src ← Res.ofOption (m.source.trimRemainder? maw.after)
    let title ← e.subs maw.state.store .title m.fields.attrlist mi.item.2.data
    let base ← generateSectionId maw.state.store title
    let manual := (m.fields.attrlist.bind Attrlist.id).or (m.fields.anchor.map Span.data)
    let reftext := ((m.fields.attrlist.bind (·.namedAttribute "reftext".toList)).map ElemAttr.value).getD title
    let (id, p, dup) ← registerSection maw.state sectids base manual reftext
    let dupSrc ← Res.ofOption (m.source.trimRemainder? mi.after)
    let p := if level = 1 ∧ discrete = false then { p with num := { p.num with topmost := .normal } } else p
    .ok (some ⟨.mk (.section level ⟨mi.item.2, title⟩ ty id number) src.trimTrailingWhitespace m.fields maw.blocks,
        maw.after⟩,
      tw ++ maw.stopWarnings ++ (dup.toList.map fun i => ⟨dupSrc, .duplicateId i⟩) ++ maw.warnings, p)

/-- The characters that rule out the short cut for simple blocks (blocks/block.rs 107-110). -/
def isMarker (c : Char) : Bool :=
  c == '.' || c == '#' || c == '=' || c == '/' || c == '-' || c == '+' || c == '*' || c == '_' || c == '[' || c == ':' ||
  c == '\'' || c == '<'

/-- The short cut for simple blocks (blocks/block.rs 105-115). -/
def fastPath (e : BlockEnv) (p : ParserState) (source : Span) : Res (Option (MI SimpleBlock)) :=
  match source.data.head? with
  | none => .ok none
  | some c =>
    if !isMarker c && !containsSub source.takeLine.item.data [':', ':'] then SimpleBlock.parseFast e.subs p.store source
    else .ok none

/-- The attribute entry at the beginning of a text, if there is one (blocks/block.rs 135-138). -/
def bodyEntryAt (e : BlockEnv) (p : ParserState) (source : Span) : Res (Option (MI Attribute)) :=
  let line := source.takeLine.item.data
  if startsWith line [':'] && (endsWith line [':'] || containsSub line [':', ' ']) then
    Attribute.parse (e.subs p.store .header none) source
  else .ok none

/-- A simple block (blocks/block.rs 312-331); if `missing`, the lines of the metadata are its text (blocks/block.rs
296-310). -/
def finishSimple (e : BlockEnv) (p : ParserState) (m : BlockMetadata) (missing : Bool) :
    Res (Option (MI Block) × List Warning × ParserState) := do
  let ws := if missing then [Warning.mk m.source .missingBlockAfterTitleOrAttributeList] else []
  let m := if missing then
      { m with fields := { anchorReftext := m.fields.anchorReftext }, blockStart := m.source }
    else m
  match ← SimpleBlock.parse e.subs p.store m with
  | none => .ok (none, ws, p)
  | some mi =>
    let (p, dw) := registerBlockId p m.fields mi.item.source
    .ok (some ⟨.mk (.simple mi.item.content mi.item.style) mi.item.source m.fields [], mi.after⟩, ws ++ dw, p)

/-- What is tried last (blocks/block.rs 283-331): a simple block, which takes the lines of the metadata for text when there
is no text behind them.  (For the literal style the lines of the metadata stay metadata.) -/
def parseSimple (e : BlockEnv) (p : ParserState) (m : BlockMetadata) (isLiteral : Bool) :
    Res (Option (MI Block) × List Warning × ParserState) :=
  if isLiteral then finishSimple e p m false
  else do
    let s ← SimpleBlock.parse e.subs p.store m
    finishSimple e p m (s.isNone && !m.isEmpty)

/-- The line behind the metadata (blocks/block.rs 216). -/
def BlockMetadata.line (m : BlockMetadata) : Text := m.blockStart.takeNormalizedLine.item.data

/-- The media block behind metadata, if there is one (blocks/block.rs 218-253).  (`video::` is tested twice, `audio::`
never.) -/
def mediaAt [Uni] (e : BlockEnv) (p : ParserState) (m : BlockMetadata) : Res (Option (MI MediaBlock × List Warning)) :=
  if startsWith m.line "image::".toList || startsWith m.line "video::".toList then MediaBlock.parse e.subs p.store m
  else .ok none

/-- The section behind metadata, if there is one (blocks/block.rs 255-269). -/
def sectionAt [Uni] (e : BlockEnv) (nested : Nested) (p : ParserState) (m : BlockMetadata) :
    Res (Option (MI Block) × List Warning × ParserState) :=
  if startsWith m.line ['='] || startsWith m.line ['#'] then parseSection e nested p m else .ok (none, [], p)

/-- The break behind metadata, if there is one (blocks/block.rs 271-286). -/
def breakAt (m : BlockMetadata) : Res (Option (MI (BreakType × Span))) :=
  if startsWith m.line ['\''] || startsWith m.line ['-'] || startsWith m.line ['*'] || startsWith m.line ['<'] then
    Break.parse m
  else .ok none

/-- The block behind metadata that do not request the literal style (blocks/block.rs 163-331). -/
def parseBehind [Uni] (e : BlockEnv) (nested : Nested) (p : ParserState) (m : BlockMetadata) :
    Res (Option (MI Block) × List Warning × ParserState) := do
  match ← RawBlock.parse e.subs p.store m with
  | some (mi, ws) =>
    let (p, dw) := registerBlockId p m.fields mi.item.source
    .ok (some ⟨.mk (.raw mi.item.content mi.item.model mi.item.context mi.item.group) mi.item.source m.fields [],
      mi.after⟩, ws ++ dw, p)
  | none =>
    match ← parseCompound nested p m with
    | some (mi, ws, p) =>
      let (p, dw) := registerBlockId p m.fields mi.item.source
      .ok (some mi, ws ++ dw, p)
    | none => do
      match ← mediaAt e p m with
      | some (mi, ws) =>
        let fields := { m.fields with anchorReftext := none }
        let (p, dw) := registerBlockId p fields mi.item.source
        .ok (some ⟨.mk (.media mi.item.type mi.item.target mi.item.attrs) mi.item.source fields [], mi.after⟩, ws ++ dw, p)
      | none => do
        let (sec, sw, p) ← sectionAt e nested p m
        match sec with
        | some mi => .ok (some mi, sw, p)
        | none =>
          match ← breakAt m with
          | some mi =>
            .ok (some ⟨.mk (.brk mi.item.1) mi.item.2 { m.fields with anchorReftext := none } [], mi.after⟩, sw, p)
          | none => do
            let (b, ws, p) ← parseSimple e p m false
            .ok (b, sw ++ ws, p)

/-- `Block::parse` (blocks/block.rs 97-332): the block, if there is one, the warnings and the state. -/
def parseBlock [Uni] (e : BlockEnv) (nested : Nested) (p : ParserState) (source : Span) :
    Res (Option (MI Block) × List Warning × ParserState) := do
  match ← fastPath e p source with
  | some mi =>
    let (p, dw) := registerBlockId p {} mi.item.source
    .ok (some ⟨.mk (.simple mi.item.content mi.item.style) mi.item.source {} [], mi.after⟩, dw, p)
  | none =>
    match ← bodyEntryAt e p source with
    | some mi =>
      let (store, w) := p.store.setFromBody mi.item
      .ok (some ⟨.mk (.docAttr mi.item) mi.item.source {} [], mi.after⟩, w.toList, { p with store := store })
    | none => do
      let (m, mw) ← BlockMetadata.parse e.subs p.store source
      let (b, ws, p) ← if m.fields.style = some "literal".toList then parseSimple e p m true
        else parseBehind e nested p m
      .ok (b, mw ++ ws, p)

/-- The loop of `parse_blocks_until` (blocks/parse_utils.rs 25-40) with what it has collected so far.  The first argument
bounds the number of iterations and the depth of the nested calls together; when a block cannot be read the text stays the
same, and the loop need not end (`C21_diverges`). -/
def blocksLoop [Uni] (e : BlockEnv) : Nat → Stop → Blocks → Res Blocks
  | 0, _, _ => .error .fuel
  | n + 1, stop, acc =>
    if acc.after.data = [] then .ok acc
    else do
      let (halt, stop, sw) ← stop.check e acc.after
      let acc := { acc with stopWarnings := acc.stopWarnings ++ sw }
      if halt then .ok acc
      else do
        let nested : Nested := fun stop p source => blocksLoop e n stop ⟨[], source.discardEmptyLines, [], [], p⟩
        let (b, ws, p) ← parseBlock e nested acc.state acc.after
        let acc := { acc with warnings := acc.warnings ++ ws, state := p }
        match b with
        | some mi => blocksLoop e n stop { acc with after := mi.after, blocks := acc.blocks ++ [mi.item] }
        | none => blocksLoop e n stop acc

/-- `parse_blocks_until` (blocks/parse_utils.rs 10-49). -/
def parseBlocksUntil [Uni] (e : BlockEnv) (n : Nat) (stop : Stop) (p : ParserState) (source : Span) : Res Blocks :=
  blocksLoop e n stop ⟨[], source.discardEmptyLines, [], [], p⟩

end Adoc
