import Lean.Data.Json
import Verif.Model.Parser
import Verif.Model.IsBlock
/-! Evaluates the model on requests read from standard input, one JSON object per line.  Used only by `run.py`. -/
open Adoc Lean
set_option warn.classDefReducibility false

/-- Tables that are good enough for the characters of the tests. -/
@[instance, instance_reducible] def testUni : Uni where
  isAlphabetic c := isAsciiAlpha c || (c.toNat ≥ 0xC0 && c.toNat ≠ 0xD7 && c.toNat ≠ 0xF7 && c.toNat < 0x2000) ||
    (c.toNat ≥ 0x3040 && c.toNat < 0xE000)
  isNumeric c := isAsciiDigit c
  isLetter c := isAsciiAlpha c || (c.toNat ≥ 0xC0 && c.toNat ≠ 0xD7 && c.toNat ≠ 0xF7 && c.toNat < 0x2000) ||
    (c.toNat ≥ 0x3040 && c.toNat < 0xE000)
  isNd c := isAsciiDigit c
  isWord c := isAsciiAlnum c || c == '_' || (c.toNat ≥ 0xC0 && c.toNat ≠ 0xD7 && c.toNat ≠ 0xF7 && c.toNat < 0x2000) ||
    (c.toNat ≥ 0x3040 && c.toNat < 0xE000)
  toLowercase t := t.map fun c =>
    if c.toNat ≥ 0xC0 && c.toNat ≤ 0xDE && c.toNat ≠ 0xD7 then Char.ofNat (c.toNat + 32) else c.toLower

structure P where
  st : ParserState := .default
  cfg : Config := Config.default .checked

def str (t : Text) : Json := .str (String.ofList t)
def opt {α} (f : α → Json) : Option α → Json | none => .null | some a => f a
def arr {α} (f : α → Json) (l : List α) : Json := .arr (l.map f).toArray
def obj (n : String) (fs : List (String × Json)) : Json := Json.mkObj (("$", .str n) :: fs)
def nat (n : Nat) : Json := .num n
def tag (n : String) (args : List Json) : Json := .mkObj (("$", .str n) :: args.mapIdx fun i a => (toString i, a))

def jspan (s : Span) : Json := obj "Span" [("data", str s.data), ("line", nat s.line), ("col", nat s.col), ("offset", nat s.offset)]
def jival : IVal → Json
  | .value t => tag "Value" [str t] | .set => tag "Set" [] | .unset => tag "Unset" []
def jattr (a : Adoc.Attribute) : Json :=
  obj "Attribute" [("name", jspan a.name), ("value_source", opt jspan a.valueSource), ("value", jival a.value), ("source", jspan a.source)]
def jelem (a : ElemAttr) : Json :=
  obj "ElementAttribute" [("name", opt str a.name), ("value", str a.value), ("shorthand_items", arr str a.shorthandItems),
    ("_block_style", opt str a.blockStyle), ("_id", opt str a.id), ("_roles", arr str a.roles), ("_options", arr str a.options),
    ("_shorthand", arr nat a.shorthand)]
def jal (a : Attrlist) : Json :=
  obj "Attrlist" [("attributes", arr jelem a.attributes), ("anchor", opt str a.anchor), ("source", jspan a.source),
    ("_id", opt str a.id), ("_roles", arr str a.roles), ("_options", arr str a.options), ("_block_style", opt str a.blockStyle)]
def jcontent (c : Content) : Json := obj "Content" [("original", jspan c.original), ("rendered", str c.rendered)]
def jstyle : SimpleStyle → Json
  | .paragraph => tag "Paragraph" [] | .literal => tag "Literal" [] | .listing => tag "Listing" [] | .source => tag "Source" []
def jmodel : ContentModel → Json
  | .compound => tag "Compound" [] | .simple => tag "Simple" [] | .verbatim => tag "Verbatim" [] | .raw => tag "Raw" []
  | .empty => tag "Empty" [] | .table => tag "Table" []
def jstep : Step → Json
  | .specialCharacters => tag "SpecialCharacters" [] | .quotes => tag "Quotes" [] | .attributeReferences => tag "AttributeReferences" []
  | .characterReplacements => tag "CharacterReplacements" [] | .macros => tag "Macros" [] | .postReplacement => tag "PostReplacement" []
  | .callouts => tag "Callouts" []
def jgroup : Group → Json
  | .normal => tag "Normal" [] | .title => tag "Title" [] | .header => tag "Header" [] | .verbatim => tag "Verbatim" []
  | .pass => tag "Pass" [] | .none => tag "None" [] | .attributeEntryValue => tag "AttributeEntryValue" []
  | .custom s => tag "Custom" [arr jstep s]
def jsect : SectionType → Json
  | .normal => tag "Normal" [] | .appendix => tag "Appendix" [] | .discrete => tag "Discrete" []
def jnum (n : SectionNumber) : Json :=
  obj "SectionNumber" [("section_type", jsect n.ty), ("components", arr nat n.components), ("_display", str n.display)]
def jmedia : MediaType → Json | .image => tag "Image" [] | .video => tag "Video" [] | .audio => tag "Audio" []
def jbreak : BreakType → Json | .thematic => tag "Thematic" [] | .page => tag "Page" []
def jw : WarningType → Json
  | .attributeValueMissingTerminatingQuote => tag "AttributeValueMissingTerminatingQuote" []
  | .documentHeaderNotTerminated => tag "DocumentHeaderNotTerminated" []
  | .emptyAttributeValue => tag "EmptyAttributeValue" []
  | .emptyShorthandItem => tag "EmptyShorthandItem" []
  | .invalidMacroName => tag "InvalidMacroName" []
  | .mediaMacroMissingTarget => tag "MediaMacroMissingTarget" []
  | .macroMissingAttributeList => tag "MacroMissingAttributeList" []
  | .macroMissingDoubleColon => tag "MacroMissingDoubleColon" []
  | .missingCommaAfterQuotedAttributeValue => tag "MissingCommaAfterQuotedAttributeValue" []
  | .unterminatedDelimitedBlock => tag "UnterminatedDelimitedBlock" []
  | .missingBlockAfterTitleOrAttributeList => tag "MissingBlockAfterTitleOrAttributeList" []
  | .emptyBlockAnchorName => tag "EmptyBlockAnchorName" []
  | .invalidBlockAnchorName => tag "InvalidBlockAnchorName" []
  | .attributeValueIsLocked n => tag "AttributeValueIsLocked" [str n]
  | .duplicateId n => tag "DuplicateId" [str n]
  | .level0SectionHeadingNotSupported => tag "Level0SectionHeadingNotSupported" []
  | .sectionHeadingLevelSkipped a b => tag "SectionHeadingLevelSkipped" [nat a, nat b]
  | .sectionHeadingLevelExceedsMaximum a => tag "SectionHeadingLevelExceedsMaximum" [nat a]
def jwarn (w : Warning) : Json := obj "Warning" [("source", jspan w.source), ("warning", jw w.warning)]
def jmeta (m : Meta) : List (String × Json) :=
  [("title_source", opt jspan m.titleSource), ("title", opt str m.title), ("anchor", opt jspan m.anchor),
   ("anchor_reftext", opt jspan m.anchorReftext), ("attrlist", opt jal m.attrlist)]

partial def jblock (b : Block) : Json :=
  let acc := [("source", jspan b.source), ("_blocks", arr jblock b.children), ("_content_model", jmodel b.contentModel),
    ("_rendered_content", opt str b.renderedContent), ("_raw_context", str b.rawContext),
    ("_resolved_context", str b.resolvedContext), ("_declared_style", opt str b.declaredStyle), ("_id", opt str b.id),
    ("_roles", arr str b.roles), ("_options", arr str b.options), ("_substitution_group", jgroup b.substitutionGroup),
    ("_enum_id", opt str b.enumId)] ++ jmeta b.fields
  match b.kind with
  | .simple c s => tag "Simple" [obj "SimpleBlock" ([("content", jcontent c), ("style", jstyle s)] ++ acc)]
  | .media t tg al => tag "Media" [obj "MediaBlock" ([("type_", jmedia t), ("target", jspan tg), ("macro_attrlist", jal al)] ++ acc)]
  | .section l t ty i n => tag "Section" [obj "SectionBlock" ([("level", nat l), ("section_title", jcontent t),
      ("section_type", jsect ty), ("section_id", opt str i), ("section_number", opt jnum n), ("blocks", arr jblock b.children)] ++ acc)]
  | .raw c m ctx g => tag "RawDelimited" [obj "RawDelimitedBlock" ([("content", jcontent c), ("content_model", jmodel m),
      ("context", str ctx), ("substitution_group", jgroup g)] ++ acc)]
  | .compound ctx => tag "CompoundDelimited" [obj "CompoundDelimitedBlock" ([("context", str ctx), ("blocks", arr jblock b.children)] ++ acc)]
  | .preamble => tag "Preamble" [obj "Preamble" ([("blocks", arr jblock b.children)] ++ acc)]
  | .brk t => tag "Break" [obj "Break" ([("type_", jbreak t)] ++ acc)]
  | .docAttr a => tag "DocumentAttribute" [(jattr a).mergeObj (.mkObj (acc.filter fun x => x.1.startsWith "_" || x.1 == "title_source" || x.1 == "title" || x.1 == "anchor" || x.1 == "attrlist" || x.1 == "anchor_reftext"))]

def jauthor (a : Author) : Json := obj "Author" [("name", str a.name), ("firstname", str a.firstname),
  ("middlename", opt str a.middlename), ("lastname", opt str a.lastname), ("email", opt str a.email), ("_initials", str a.initials)]
def jauthors (a : AuthorLine) : Json := obj "AuthorLine" [("authors", arr jauthor a.authors), ("source", jspan a.source)]
def jrev (r : RevisionLine) : Json := obj "RevisionLine" [("revnumber", opt str r.revnumber), ("revdate", str r.revdate),
  ("revremark", opt str r.revremark), ("source", jspan r.source)]
def jheader (h : Header) : Json := obj "Header" [("title_source", opt jspan h.titleSource), ("title", opt str h.title),
  ("attributes", arr jattr h.attributes), ("author_line", opt jauthors h.authorLine), ("revision_line", opt jrev h.revisionLine),
  ("comments", arr jspan h.comments), ("source", jspan h.source)]
def jref (r : RefEntry) : Json := obj "RefEntry" [("id", str r.id), ("reftext", opt str r.reftext),
  ("ref_type", match r.refType with | .anchor => tag "Anchor" [] | .section => tag "Section" [] | .bibliography => tag "Bibliography" [])]
def jcat (c : Catalog) : Json := obj "Catalog" [
  ("refs", .mkObj (c.refs.entries.map fun x => (String.ofList x.1, jref x.2))),
  ("reftext_to_id", .mkObj (c.reftextToId.entries.map fun x => (String.ofList x.1, str x.2)))]
def jline (l : SourceLine) : Json := tag "SourceLine" [opt str l.file, nat l.line]
def jmap (m : SourceMap) : Json := tag "SourceMap" [arr (fun x => Json.arr #[nat x.1, jline x.2]) m]
def jdoc (d : Document) (m : SourceMap) : Json :=
  obj "Document" [("header", jheader d.header), ("blocks", arr jblock d.blocks), ("source", jspan d.source),
    ("warnings", arr jwarn d.warnings), ("source_map", jmap m), ("catalog", opt jcat d.catalog)]
def jmi {α} (f : α → Json) (m : MI α) : Json := obj "MatchedItem" [("item", f m.item), ("after", jspan m.after)]
def jmaw (item : Json) (ws : List Warning) : Json := obj "MatchAndWarnings" [("item", item), ("warnings", arr jwarn ws)]
def jmeta' (m : BlockMetadata) : Json :=
  obj "BlockMetadata" (jmeta m.fields ++ [("source", jspan m.source), ("block_start", jspan m.blockStart)])

def fuel : Nat := 400

def get (j : Json) (k : String) : Json := (j.getObjVal? k).toOption.getD .null
def getS (j : Json) (k : String) : Text := (((get j k).getStr?).toOption.getD "").toList
def getN (j : Json) (k : String) : Nat := ((get j k).getNat?).toOption.getD 0
def isNull (j : Json) : Bool := match j with | .null => true | _ => false
def getSpan (j : Json) (k : String) : Span :=
  let s := get j k
  ⟨getS s "data", getN s "line", getN s "col", getN s "offset"⟩

def ctxOf (s : String) : ModCtx :=
  if s == "ApiOnly" then .apiOnly else if s == "ApiOrHeader" then .apiOrHeader
  else if s == "ApiOrDocumentBody" then .apiOrDocumentBody else .anywhere
def stepOf (s : String) : Step :=
  if s == "SpecialCharacters" then .specialCharacters else if s == "Quotes" then .quotes
  else if s == "AttributeReferences" then .attributeReferences else if s == "CharacterReplacements" then .characterReplacements
  else if s == "Macros" then .macros else if s == "PostReplacement" then .postReplacement else .callouts
def groupOf (j : Json) : Group :=
  let s := String.ofList (getS j "$")
  if s == "Normal" then .normal else if s == "Title" then .title else if s == "Header" then .header
  else if s == "Verbatim" then .verbatim else if s == "Pass" then .pass else if s == "None" then .none
  else if s == "AttributeEntryValue" then .attributeEntryValue
  else .custom (match get j "0" with
    | .arr a => a.toList.map fun x => stepOf (String.ofList (getS x "$"))
    | _ => [])

def elemOf (j : Json) : ElemAttr :=
  ⟨if isNull (get j "name") then none else some (getS j "name"), getS j "value",
   match get j "_shorthand" with | .arr a => a.toList.map (fun x => (x.getNat?).toOption.getD 0) | _ => []⟩
def alOf (j : Json) : Attrlist :=
  ⟨match get j "attributes" with | .arr a => a.toList.map elemOf | _ => [],
   if isNull (get j "anchor") then none else some (getS j "anchor"), getSpan j "source"⟩

def jquote : QuoteType → Json
  | .strong => tag "Strong" [] | .doubleQuote => tag "DoubleQuote" [] | .singleQuote => tag "SingleQuote" []
  | .monospaced => tag "Monospaced" [] | .emphasis => tag "Emphasis" [] | .mark => tag "Mark" []
  | .superscript => tag "Superscript" [] | .subscript => tag "Subscript" [] | .unquoted => tag "Unquoted" []
def quoteOf (s : String) : QuoteType :=
  match s with
  | "Strong" => .strong | "DoubleQuote" => .doubleQuote | "SingleQuote" => .singleQuote | "Monospaced" => .monospaced
  | "Emphasis" => .emphasis | "Mark" => .mark | "Superscript" => .superscript | "Subscript" => .subscript | _ => .unquoted
def jpass (p : Passthrough) : Json :=
  obj "Passthrough" [("text", str p.text), ("subs", jgroup p.subs), ("type_", opt jquote p.type), ("attrlist", opt str p.attrlist)]
def list (j : Json) : List Json := match j with | .arr a => a.toList | _ => []
def passOf (j : Json) : Passthrough :=
  ⟨getS j "text", groupOf (get j "subs"), if isNull (get j "type_") then none else some (quoteOf (String.ofList (getS (get j "type_") "$"))),
   if isNull (get j "attrlist") then none else some (getS j "attrlist")⟩
def lineOf (j : Json) : SourceLine := ⟨if isNull (get j "0") then none else some (getS j "0"), getN j "1"⟩
def mapOf (j : Json) : SourceMap := (list j).map fun e =>
  match list e with
  | [n, l] => ((n.getNat?).toOption.getD 0, lineOf l)
  | _ => (0, ⟨none, 0⟩)
def refTypeOf (s : String) : RefType := if s == "Anchor" then .anchor else if s == "Section" then .section else .bibliography
def catOf (j : Json) : Catalog :=
  ⟨⟨(list (get j "r")).map fun e => match list e with
      | [k, v] => (((k.getStr?).toOption.getD "").toList, ⟨getS v "id", if isNull (get v "reftext") then none else some (getS v "reftext"),
          refTypeOf (String.ofList (getS (get v "ref_type") "$"))⟩)
      | _ => ([], ⟨[], none, .anchor⟩)⟩,
   ⟨(list (get j "t")).map fun e => match list e with
      | [k, v] => (((k.getStr?).toOption.getD "").toList, ((v.getStr?).toOption.getD "").toList)
      | _ => ([], [])⟩⟩
def sectOf (s : String) : SectionType := if s == "Normal" then .normal else if s == "Appendix" then .appendix else .discrete
def numOf (j : Json) : SectionNumber :=
  ⟨sectOf (String.ofList (getS (get j "section_type") "$")), (list (get j "components")).map fun x => (x.getNat?).toOption.getD 0⟩

def err : Fail → Json | .panic => .str "$panic" | .fuel => .str "$fuel"

def span1 (s : Span) (m : String) (a : Json) : Option Json :=
  let t := getS a "arg"
  match m with
  | "take_normalized_line" => some (jmi jspan s.takeNormalizedLine)
  | "take_line" => some (jmi jspan s.takeLine)
  | "take_non_empty_line" => some (opt (jmi jspan) s.takeNonEmptyLine)
  | "take_empty_line" => some (opt (jmi jspan) s.takeEmptyLine)
  | "take_line_with_continuation" => some (opt (jmi jspan) s.takeLineWithContinuation)
  | "take_whitespace" => some (jmi jspan s.takeWhitespace)
  | "take_whitespace_with_newline" => some (jmi jspan s.takeWhitespaceWithNewline)
  | "take_required_whitespace" => some (opt (jmi jspan) s.takeRequiredWhitespace)
  | "take_prefix" => some (opt (jmi jspan) (s.takePrefix t))
  | "take_ident" => some (opt (jmi jspan) s.takeIdent)
  | "take_attr_name" => some (opt (jmi jspan) s.takeAttrName)
  | "take_user_attr_name" => some (opt (jmi jspan) s.takeUserAttrName)
  | "take_quoted_string" => some (opt (jmi jspan) s.takeQuotedString)
  | "discard_whitespace" => some (jspan s.discardWhitespace)
  | "discard_empty_lines" => some (jspan s.discardEmptyLines)
  | "discard_all" => some (jspan s.discardAll)
  | "discard" => some (jspan (s.discard (getN a "arg")))
  | "trim_trailing_whitespace" => some (jspan s.trimTrailingWhitespace)
  | "trim_trailing_line_end" => some (jspan s.trimTrailingLineEnd)
  | "is_xml_name" => some (.bool s.isXmlName)
  | "trim_remainder" => some (opt jspan (s.trimRemainder? (getSpan a "arg")))
  | "into_parse_result" => some (opt (jmi jspan) (s.intoParseResult? (getN a "arg")))
  | _ => none

def handle (ps : Array P) (j : Json) : Array P × Json :=
  let i := getN j "p"
  let p := ps.getD i {}
  let text := getS j "text"
  let e := p.cfg.env fuel
  let out (r : Res Json) : Array P × Json := (ps, match r with | .ok v => v | .error f => err f)
  let upd (r : Res (Json × ParserState)) : Array P × Json :=
    match r with
    | .ok (v, st) => (ps.setIfInBounds i { p with st := st }, v)
    | .error f => (ps, err f)
  let bm : Res BlockMetadata := (BlockMetadata.parse (e.dsubs) AttrStore.default (Span.new (getS j "meta"))).map Prod.fst
  let nested : Nested := fun stop p source => blocksLoop e fuel stop ⟨[], source.discardEmptyLines, [], [], p⟩
  match String.ofList (getS j "op") with
  | "new" => (ps.push {}, nat ps.size)
  | "clone" => (ps.push p, nat ps.size)
  | "attr" =>
    let v := get j "value"
    let ctx := ctxOf (String.ofList (getS j "ctx"))
    let st := match v with
      | .bool b => p.st.store.withIntrinsicBool (getS j "name") b ctx
      | _ => p.st.store.withIntrinsic (getS j "name") (getS j "value") ctx
    (ps.push { p with st := { p.st with store := st } }, nat ps.size)
  | "primary" => (ps.push { p with cfg := { p.cfg with primary := some (getS j "name") } }, nat ps.size)
  | "includes" =>
    let m := get j "map"
    let find : IncludeHandler := fun _ t _ _ =>
      match m.getObjVal? (String.ofList t) with
      | .ok (.str x) => some x.toList
      | _ => none
    (ps.push { p with cfg := { p.cfg with includes := find } }, nat ps.size)
  | "sep" => (ps.push { p with cfg := { p.cfg with sep := ((getS j "sep").head?).getD '/' } }, nat ps.size)
  | "parse" => upd (do
      let (d, m, st) ← p.cfg.parse fuel p.st text
      .ok (jdoc d m, st))
  | "preprocess" => out (do
      let (t, m) ← preprocess ⟨p.cfg.includes, fun s t => e.subs s .header none t⟩ fuel p.st.store p.cfg.primary text
      .ok (.arr #[str t, jmap m]))
  | "value" => (ps, jival (p.st.store.attributeValue (getS j "name")))
  | "has" => (ps, .bool (p.st.store.hasAttribute (getS j "name")))
  | "isset" => (ps, .bool (p.st.store.isAttributeSet (getS j "name")))
  | "block" => upd (do
      let (b, ws, st) ← parseBlock e nested p.st (getSpan j "span")
      .ok (jmaw (opt (jmi jblock) b) ws, st))
  | "meta" => out (do
      let (m, ws) ← BlockMetadata.parse e.subs p.st.store (getSpan j "span")
      .ok (jmaw (jmeta' m) ws))
  | "metanew" => out (bm.map jmeta')
  | "section" => upd (do
      let m ← bm
      let (b, ws, st) ← parseSection e nested p.st m
      .ok (.arr #[opt (jmi jblock) b, arr jwarn ws], st))
  | "compound" => upd (do
      let m ← bm
      match ← parseCompound nested p.st m with
      | none => .ok (.null, p.st)
      | some (mi, ws, st) => .ok (jmaw (jmi jblock mi) ws, st))
  | "raw" => out (do
      let m ← bm
      match ← RawBlock.parse e.subs p.st.store m with
      | none => .ok .null
      | some (mi, ws) => .ok (jmaw (jmi (fun r => jblock (.mk (.raw r.content r.model r.context r.group) r.source m.fields [])) mi) ws))
  | "media" => out (do
      let m ← bm
      match ← MediaBlock.parse e.subs p.st.store m with
      | none => .ok .null
      | some (mi, ws) => .ok (jmaw (jmi (fun r => jblock (.mk (.media r.type r.target r.attrs) r.source m.fields [])) mi) ws))
  | "break" => out (do
      let m ← bm
      match ← Break.parse m with
      | none => .ok .null
      | some mi => .ok (jmi (fun r => jblock (.mk (.brk r.1) r.2 m.fields [])) mi))
  | "simple" => out (do
      let m ← bm
      match ← SimpleBlock.parse e.subs p.st.store m with
      | none => .ok .null
      | some mi => .ok (jmi (fun r => jblock (.mk (.simple r.content r.style) r.source m.fields [])) mi))
  | "step" => out (do
      let a ← if isNull (get j "attrlist") then .ok none
        else ((Attrlist.parse (e.subs p.st.store .normal none) p.st.store (Span.new (getS j "attrlist")) .block).map (some ·.1))
      (Step.apply { store := p.st.store, sep := p.cfg.sep, r := p.cfg.renderer } a text (stepOf (String.ofList (getS j "step")))).map str)
  | "group" => out (do
      let a ← if isNull (get j "attrlist") then .ok none
        else ((Attrlist.parse (e.subs p.st.store .normal none) p.st.store (Span.new (getS j "attrlist")) .block).map (some ·.1))
      (e.subs p.st.store (groupOf (get j "group")) a text).map str)
  | "custom" => (ps, opt jgroup (Group.fromCustomString
      (if isNull (get j "start") then none else some (groupOf (get j "start"))) text))
  | "attrlist" => out (do
      let (a, ws) ← Attrlist.parse (e.subs p.st.store .normal none) p.st.store (getSpan j "span")
        (if getS j "ctx" == "Inline".toList then .inline else .block)
      .ok (jmaw (jmi jal ⟨a, (getSpan j "span").discardAll⟩) ws))
  | "elem" => out (do
      let (a, rest, ws) ← ElemAttr.parse (e.subs p.st.store .normal none) text ((get j "sh") == .bool true)
        (if getS j "ctx" == "Inline".toList then .inline else .block)
      .ok (.arr #[jelem a, nat (blen text - blen rest), arr jw ws]))
  | "attribute" => out (do
      let a ← Adoc.Attribute.parse (e.subs p.st.store .header none) (getSpan j "span")
      .ok (opt (jmi jattr) a))
  | "header" => upd (do
      let (mi, ws, st) ← Header.parse (fun s t => e.subs s .header none t) p.cfg.renderer p.st.store (getSpan j "span")
      .ok (jmaw (jmi jheader mi) ws, { p.st with store := st }))
  | "authors" => upd (do
      let (a, st) ← AuthorLine.parse p.cfg.renderer p.st.store (getSpan j "span")
      .ok (jauthors a, { p.st with store := st }))
  | "author" => out ((Author.parse p.cfg.renderer p.st.store text).map (opt jauthor))
  | "revision" => upd (do
      let (a, st) ← RevisionLine.parse (fun s t => e.subs s .header none t) p.st.store (getSpan j "span")
      .ok (jrev a, { p.st with store := st }))
  | "span" => (ps, (span1 (getSpan j "span") (String.ofList (getS j "method")) j).getD (.str "$unsupported"))
  | "extract" => out (do
      let (l, t) ← extractPassthroughs text
      .ok (.arr #[arr jpass l, str t]))
  | "restore" => out ((restorePassthroughs fuel { store := p.st.store, sep := p.cfg.sep, r := p.cfg.renderer }
      ((list (get j "pass")).map passOf) text).map str)
  | "posixify" => (ps, str (Path.posixify ((getS j "sep").headD '/') text))
  | "webpath" => (ps, str (Path.webPath ((getS j "sep").headD '/') text (if isNull (get j "start") then none else some (getS j "start"))))
  | "origin" => (ps, opt jline ((mapOf (get j "map")).originalFileAndLine (getN j "n")))
  | "rawdelim" => (ps, .bool (isRawDelimiter text))
  | "compdelim" => (ps, .bool (isCompoundDelimiter text))
  | "builtin" => (ps, .bool (isBuiltInContext text))
  | "register" =>
    let c := catOf (get j "cat")
    (ps, opt jcat (c.registerRef (getS j "id") (if isNull (get j "reftext") then none else some (getS j "reftext"))
      (refTypeOf (String.ofList (getS j "type")))))
  | "generate" =>
    let c := catOf (get j "cat")
    (ps, opt (fun r => .arr #[jcat r.1, str r.2]) (c.generate (getS j "id")
      (if isNull (get j "reftext") then none else some (getS j "reftext")) (refTypeOf (String.ofList (getS j "type")))))
  | "catq" =>
    let c := catOf (get j "cat")
    (ps, match String.ofList (getS j "method") with
      | "contains_id" => .bool (c.containsId (getS j "name"))
      | "get_ref" => opt jref (c.getRef (getS j "name"))
      | "resolve_id" => opt str (c.resolveId (getS j "name"))
      | "len" => nat c.len
      | "is_empty" => .bool c.isEmpty
      | _ => .str "$unsupported")
  | "assign" => (ps, jnum ((numOf (get j "num")).assignNext (getN j "n")))
  | "display" => (ps, str (numOf (get j "num")).display)
  | "alq" =>
    let a := alOf (get j "al")
    let n := getN j "n"
    let name := getS j "name"
    (ps, match String.ofList (getS j "method") with
      | "nth_attribute" => opt jelem (a.nthAttribute n)
      | "named_attribute" => opt jelem (a.namedAttribute name)
      | "named_or_positional_attribute" => opt jelem (a.namedOrPositional name n)
      | "has_option" => .bool (a.hasOption name)
      | _ => .str "$unsupported")
  | _ => (ps, .str "$unsupported")

partial def main : IO Unit := do
  let stdin ← IO.getStdin
  let stdout ← IO.getStdout
  let rec loop (ps : Array P) : IO Unit := do
    let line ← stdin.getLine
    if line.isEmpty then return ()
    let (ps, r) := match Json.parse line with
      | .ok j => handle ps j
      | .error e => (ps, .str ("$bad " ++ e))
    stdout.putStrLn r.compress
    stdout.flush
    loop ps
  loop #[]
