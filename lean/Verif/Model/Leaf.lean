import Verif.Model.Metadata
/-!
# Blocks without nested blocks

Model of `parser/src/blocks/simple.rs`, `raw_delimited.rs`, `media.rs`, `break.rs` and of the delimiters of
`compound_delimited.rs`.
-/

namespace Adoc

/-- `Content` (content/content.rs 18-24): where the text comes from and what it became. -/
structure Content where
  original : Span
  rendered : Text
deriving DecidableEq, Repr

/-! ## Delimiters -/

/-- `RawDelimitedBlock::is_valid_delimiter` (blocks/raw_delimited.rs 37-59). -/
def isRawDelimiter (t : Text) : Bool :=
  if startsWith t "////".toList then (t.drop 4).all (· == '/')
  else if startsWith t "----".toList then (t.drop 4).all (· == '-')
  else if startsWith t "....".toList then (t.drop 4).all (· == '.')
  else if startsWith t "++++".toList then (t.drop 4).all (· == '+')
  else false

/-- `CompoundDelimitedBlock::is_valid_delimiter` (blocks/compound_delimited.rs 38-62). -/
def isCompoundDelimiter (t : Text) : Bool :=
  if t = "--".toList then true
  else if startsWith t "====".toList then (t.drop 4).all (· == '=')
  else if startsWith t "****".toList then (t.drop 4).all (· == '*')
  else if startsWith t "____".toList then (t.drop 4).all (· == '_')
  else false

/-! ## Simple blocks -/

/-- `SimpleBlockStyle` (blocks/simple.rs 14-34). -/
inductive SimpleStyle where
  | paragraph | literal | listing | source
deriving DecidableEq, Repr

/-- The style of a simple block (blocks/simple.rs 132-163). -/
def simpleStyle (source : Span) (attrlist : Option Attrlist) : SimpleStyle :=
  let base := if source.discardWhitespace.col = source.col then SimpleStyle.paragraph else .literal
  match attrlist.bind Attrlist.blockStyle with
  | some s =>
    if s = "normal".toList then .paragraph
    else if s = "literal".toList then .literal
    else if s = "listing".toList then .listing
    else if s = "source".toList then .source
    else base
  | none => base

/-- The lines that end a simple block, unless it has no line yet (blocks/simple.rs 175-195). -/
def endsSimple (line : Text) : Bool :=
  line == ['+'] ||
  (startsWith line ['['] && endsWith line [']']) ||
  ((startsWith line ['/'] || startsWith line ['-'] || startsWith line ['.'] || startsWith line ['+'] ||
      startsWith line ['='] || startsWith line ['*'] || startsWith line ['_']) &&
    (isRawDelimiter line || isCompoundDelimiter line))

/-- `//` but not `///` (blocks/simple.rs 200). -/
def isCommentLine (line : Text) : Bool := startsWith line ['/', '/'] && !startsWith line ['/', '/', '/']

/-- A line of a simple block without the indentation of the first line and without trailing white space
(blocks/simple.rs 206-212). -/
def stripIndent (strip : Nat) (line : Span) : Text :=
  let line := if strip > 0 && line.data.any (fun c => !Span.isBlank c) then
      line.dropN (min (Span.prefLen Span.isBlank line.data) strip)
    else line
  line.trimTrailingWhitespace.data

/-- The loop of `parse_lines` (blocks/simple.rs 168-213).  Every iteration consumes a character, so the length of the
text bounds their number (`Verif.Lemmas.Leaf`). -/
def linesLoop (strip : Nat) : Nat → Span → List Text → Span × List Text
  | 0, next, lines => (next, lines)
  | n + 1, next, lines =>
    match next.takeNonEmptyLine with
    | none => (next, lines)
    | some mi =>
      if lines ≠ [] ∧ endsSimple mi.item.data then (next, lines)
      else if isCommentLine mi.item.data then linesLoop strip n mi.after lines
      else linesLoop strip n mi.after (lines ++ [stripIndent strip mi.item])

/-- `parse_lines` (blocks/simple.rs 127-231).  (The column of a span is at least 1, so that `col() - 1` does not
overflow.) -/
def parseLines (subs : Subs) (store : AttrStore) (source : Span) (attrlist : Option Attrlist) :
    Res (Option (MI (Content × SimpleStyle))) := do
  let (next, lines) := linesLoop (source.discardWhitespace.col - 1) source.data.length source []
  let src ← Res.ofOption (source.trimRemainder? next)
  let src := src.trimTrailingWhitespace
  if src.data = [] then .ok none
  else do
    let rendered ← subs store (Group.normal.overrideViaAttrlist attrlist) attrlist (joinWith ['\n'] lines)
    .ok (some ⟨(⟨src, rendered⟩, simpleStyle source attrlist), next.discardEmptyLines⟩)

/-- What `SimpleBlock::parse` and `parse_fast` return: content, style and span of the block. -/
structure SimpleBlock where
  content : Content
  style : SimpleStyle
  source : Span
deriving DecidableEq, Repr

/-- `SimpleBlock::parse` (blocks/simple.rs 62-87). -/
def SimpleBlock.parse (subs : Subs) (store : AttrStore) (m : BlockMetadata) : Res (Option (MI SimpleBlock)) := do
  match ← parseLines subs store m.blockStart m.fields.attrlist with
  | none => .ok none
  | some mi => do
    let src ← Res.ofOption (m.source.trimRemainder? mi.after)
    .ok (some ⟨⟨mi.item.1, mi.item.2, src.trimTrailingWhitespace⟩, mi.after.discardEmptyLines⟩)

/-- `SimpleBlock::parse_fast` (blocks/simple.rs 89-113). -/
def SimpleBlock.parseFast (subs : Subs) (store : AttrStore) (source : Span) : Res (Option (MI SimpleBlock)) := do
  match ← parseLines subs store source none with
  | none => .ok none
  | some mi => .ok (some ⟨⟨mi.item.1, mi.item.2, mi.item.1.original⟩, mi.after.discardEmptyLines⟩)

/-! ## Raw delimited blocks -/

/-- `ContentModel` (blocks/is_block.rs 287-308). -/
inductive ContentModel where
  | compound | simple | verbatim | raw | empty | table
deriving DecidableEq, Repr

/-- The kind of block a delimiter opens (blocks/raw_delimited.rs 71-87). -/
def rawKind (t : Text) : Option (ContentModel × Text × Group) :=
  if startsWith t "////".toList then some (.raw, "comment".toList, .none)
  else if startsWith t "----".toList then some (.verbatim, "listing".toList, .verbatim)
  else if startsWith t "....".toList then some (.verbatim, "literal".toList, .verbatim)
  else if startsWith t "++++".toList then some (.raw, "pass".toList, .pass)
  else none

/-- The search for the closing line (blocks/raw_delimited.rs 96-127, blocks/compound_delimited.rs 91-102): the closing
line, if there is one before the end of the text, and the text from the closing line (or the end) on.  Every iteration
consumes a character. -/
def findClosing (delimiter : Text) : Nat → Span → Option (MI Span) × Span
  | 0, next => (none, next)
  | n + 1, next =>
    if next.data = [] then (none, next)
    else
      let l := next.takeNormalizedLine
      if l.item.data = delimiter then (some l, next) else findClosing delimiter n l.after

/-- `RawDelimitedBlock` without the fields of `Meta` (blocks/raw_delimited.rs 23-34). -/
structure RawBlock where
  content : Content
  model : ContentModel
  context : Text
  source : Span
  group : Group
deriving DecidableEq, Repr

/-- `RawDelimitedBlock::parse` (blocks/raw_delimited.rs 61-159): the substitutions are only applied to a terminated
block. -/
def RawBlock.parse (subs : Subs) (store : AttrStore) (m : BlockMetadata) : Res (Option (MI RawBlock × List Warning)) :=
  let d := m.blockStart.takeNormalizedLine
  match rawKind d.item.data with
  | none => .ok none
  | some (model, context, group) =>
    if !isRawDelimiter d.item.data then .ok none
    else
      match findClosing d.item.data d.after.data.length d.after with
      | (some l, next) => do
        let body ← Res.ofOption (d.after.trimRemainder? next)
        let body := body.trimTrailingLineEnd
        let group := group.overrideViaAttrlist m.fields.attrlist
        let rendered ← subs store group m.fields.attrlist body.data
        let src ← Res.ofOption (m.source.trimRemainder? l.after)
        .ok (some (⟨⟨⟨body, rendered⟩, model, context, src.trimTrailingLineEnd, group⟩, l.after⟩, []))
      | (none, next) => do
        let body ← Res.ofOption (d.after.trimRemainder? next)
        let body := body.trimTrailingLineEnd
        let src ← Res.ofOption (m.source.trimRemainder? next)
        .ok (some (⟨⟨⟨body, body.data⟩, model, context, src.trimTrailingLineEnd, group⟩, next⟩,
          [⟨d.item, .unterminatedDelimitedBlock⟩]))

/-! ## Media blocks -/

/-- `MediaType` (blocks/media.rs 25-36). -/
inductive MediaType where
  | image | video | audio
deriving DecidableEq, Repr

/-- `MediaBlock` without the fields of `Meta` (blocks/media.rs 11-22). -/
structure MediaBlock where
  type : MediaType
  target : Span
  attrs : Attrlist
  source : Span
deriving DecidableEq, Repr

/-- The media type with the given name (blocks/media.rs 70-80). -/
def mediaType (t : Text) : Option MediaType :=
  if t = "image".toList then some .image
  else if t = "video".toList then some .video
  else if t = "audio".toList then some .audio
  else none

/-- `&s[0..s.trim().len()]` (blocks/break.rs 57, blocks/media.rs 116); a failure is a cut inside a character. -/
def trimmedLength (s : Span) : Res Span := Res.ofOption (s.slice? 0 (blen (trim s.data)))

/-- `MediaBlock::parse` (blocks/media.rs 49-135).  Its warnings are dropped by the caller when there is no block, so they
are only modelled for a block. -/
def MediaBlock.parse [Uni] (subs : Subs) (store : AttrStore) (m : BlockMetadata) :
    Res (Option (MI MediaBlock × List Warning)) :=
  let l := m.blockStart.takeNormalizedLine
  if !endsWith l.item.data [']'] then .ok none
  else match l.item.takeIdent with
    | none => .ok none
    | some name => match mediaType name.item.data with
      | none => .ok none
      | some ty => match name.after.takePrefix [':', ':'] with
        | none => .ok none
        | some colons =>
          let target := colons.after.takeWhile (· ≠ '[')
          if target.item.data = [] then .ok none
          else match target.after.takePrefix ['['] with
            | none => .ok none
            | some brace => do
              let (al, ws) ← Attrlist.parse (subs store .normal none) store
                (brace.after.takeN (brace.after.data.length - 1)) .inline
              let src ← Res.ofOption (m.source.trimRemainder? l.after)
              let src ← trimmedLength src
              .ok (some (⟨⟨ty, target.item, al, src⟩, l.after.discardEmptyLines⟩, ws))

/-! ## Breaks -/

/-- `BreakType` (blocks/break.rs 21-28). -/
inductive BreakType where
  | thematic | page
deriving DecidableEq, Repr

/-- The break a line stands for (blocks/break.rs 46-52). -/
def breakType (t : Text) : Option BreakType :=
  if t = "'''".toList ∨ t = "---".toList ∨ t = "- - -".toList ∨ t = "***".toList ∨ t = "* * *".toList then some .thematic
  else if t = "<<<".toList then some .page
  else none

/-- `Break::parse` (blocks/break.rs 40-71): the type and the span. -/
def Break.parse (m : BlockMetadata) : Res (Option (MI (BreakType × Span))) :=
  let l := m.blockStart.takeNormalizedLine
  match breakType l.item.data with
  | none => .ok none
  | some ty => do
    let src ← Res.ofOption (m.source.trimRemainder? l.after)
    let src ← trimmedLength src
    .ok (some ⟨(ty, src), l.after.discardEmptyLines⟩)

end Adoc
