import Verif.Model.Block
import Verif.Model.Header
import Verif.Model.Preprocessor
/-!
# Documents

Model of `Document::parse` (`parser/src/document/document.rs`), `parser/src/blocks/preamble.rs` and `Parser::parse`
(`parser/src/parser/parser.rs`).
-/

namespace Adoc

/-- `str::parse::<usize>` on a 64-bit machine. -/
def parseUsize (t : Text) : Option Nat :=
  let t := match t with
    | '+' :: r => r
    | t => t
  if t ≠ [] ∧ t.all isAsciiDigit then
    let n := t.foldl (fun n c => n * 10 + (c.toNat - 48)) 0
    if n < 2 ^ 64 then some n else none
  else none

/-- The levels of sections that are numbered (document/document.rs 68-72). -/
def sectnumlevelsOf (s : AttrStore) : Nat :=
  match s.attributeValue "sectnumlevels".toList with
  | .value t => (parseUsize t).getD 3
  | _ => 3

/-- `Block::Section(_)`. -/
def Block.isSection (b : Block) : Bool :=
  match b.kind with
  | .section .. => true
  | _ => false

/-- `Block::DocumentAttribute(_)`. -/
def Block.isDocAttr (b : Block) : Bool :=
  match b.kind with
  | .docAttr _ => true
  | _ => false

/-- The search for the end of the preamble (document/document.rs 86-101). -/
def preambleSplit : Nat → Bool → List Block → Option Nat
  | _, _, [] => none
  | i, content, b :: bs =>
    if b.isDocAttr then preambleSplit (i + 1) content bs
    else if b.isSection then if content then some i else none
    else preambleSplit (i + 1) true bs

/-- `Preamble::from_blocks` (blocks/preamble.rs 20-38). -/
def preambleOf (blocks : List Block) (source : Span) : Res Block := do
  let src ← match blocks.getLast? with
    | some b => Res.ofOption (source.trimRemainder? b.source.discardAll)
    | none => Res.ofOption (source.trimRemainder? source)
  .ok (.mk .preamble src {} blocks)

/-- The blocks of a document (document/document.rs 83-110). -/
def withPreamble (blocks : List Block) (afterHeader : Span) : Res (List Block) :=
  match preambleSplit 0 false blocks with
  | none => .ok blocks
  | some i => do
    let p ← preambleOf (blocks.take i) afterHeader
    .ok (p :: blocks.drop i)

/-- `InternalDependent` (document/document.rs 37-45) without the source map. -/
structure Document where
  header : Header
  blocks : List Block
  source : Span
  warnings : List Warning
  catalog : Option Catalog

/-- `Document::parse` (document/document.rs 59-125): the document and the state of the parser.  `hr` is the renderer used
for author lines. -/
def Document.parse [Uni] (e : BlockEnv) (hr : Renderer) (fuel : Nat) (p : ParserState) (text : Text) :
    Res (Document × ParserState) := do
  let source := Span.new text
  let (mi, hw, store) ← Header.parse (fun s t => e.subs s .header none t) hr p.store source
  let p := { p with store := store, sectnumlevels := sectnumlevelsOf store }
  let maw ← parseBlocksUntil e fuel .never p mi.after
  let blocks ← withPreamble maw.blocks mi.after
  .ok (⟨mi.item, blocks, source.trimTrailingWhitespace, hw ++ maw.warnings, maw.state.catalog⟩,
    { maw.state with catalog := none })

/-- The state in which `Parser::parse` calls `Document::parse` (parser/parser.rs 115-128): a catalog if there is none, and
fresh section numbers. -/
def ParserState.fresh (p : ParserState) : ParserState :=
  { p with catalog := some (p.catalog.getD Catalog.new), num := { p.num with last := .default } }

/-- The state of `Parser::default` (parser/parser.rs 62-81). -/
def ParserState.default : ParserState := ⟨.default, some Catalog.new, .default, 3⟩

/-- `Parser::parse` (parser/parser.rs 115-128).  `pre` are the parameters of the preprocessor. -/
def parseDocument [Uni] (e : BlockEnv) (hr : Renderer) (pre : PreEnv) (primary : Option Text) (fuel : Nat) (p : ParserState)
    (text : Text) : Res (Document × SourceMap × ParserState) := do
  let (text, map) ← preprocess pre fuel p.store primary text
  let (d, p) ← Document.parse e hr fuel p.fresh text
  .ok (d, map, p)

end Adoc
