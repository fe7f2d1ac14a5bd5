import Verif.Model.Attribute
import Verif.Model.SourceMap
/-!
# The preprocessor

Model of `parser/src/parser/preprocessor.rs`.

The include file handler is a parameter: what it returns may depend on everything it is given (the including file, the
target, the attribute list and the parser's attributes).  A handler with hidden state is not covered.  The field
`include_depth` is written but never read and is left out.
-/

namespace Adoc
open Re

/-- `IncludeFileHandler::resolve_target` (parser/include_file_handler.rs); without a handler, a function that always
returns `none`. -/
abbrev IncludeHandler := Option Text → Text → Attrlist → AttrStore → Option Text

/-- What the preprocessor is given besides the text: the handler and the header substitutions. -/
structure PreEnv where
  resolve : IncludeHandler
  hdr : AttrStore → Text → Res Text

/-- `INCLUDE_DIRECTIVE` (parser/preprocessor.rs 224-248). -/
def includeDirectiveRe : Re :=
  cat [bot, lit "include::".toList,
    cap 1 (cat [cls (fun c => !isWhite c && c != '['),
      opt (cat [star true (cls (· != '[')), cls (fun c => !isWhite c && c != '[')])]),
    chr '[', opt (cap 2 (cat [cls (· != ']'), plus dot])), chr ']', eot]

/-- `PreprocessorState` (parser/preprocessor.rs 46-54). -/
structure PState where
  store : AttrStore
  inDocumentHeader : Bool
  canHaveAttribute : Bool
  outputLineNumber : Nat
  output : Text
  sourceMap : SourceMap
deriving DecidableEq, Repr

/-- `PreprocessorState::new` (parser/preprocessor.rs 57-67). -/
def PState.init (store : AttrStore) : PState := ⟨store, true, true, 1, [], []⟩

/-- Recording where the text that follows comes from (parser/preprocessor.rs 92-98 and 154-160). -/
def PState.report (st : PState) (reported : Bool) (file : Option Text) (line : Nat) : PState :=
  if reported then st else { st with sourceMap := st.sourceMap.append st.outputLineNumber ⟨file, line⟩ }

/-- Writing an attribute entry (parser/preprocessor.rs 100-115). -/
def PState.entry [Uni] (st : PState) (a : Attribute) : PState :=
  { st with
    store := (st.store.setFromBody a).1
    output := st.output ++ a.source.data ++ ['\n']
    outputLineNumber := st.outputLineNumber + (a.source.data.count '\n' + 1) }

/-- Writing the line of a directive that could not be resolved (parser/preprocessor.rs 145-150). -/
def PState.unresolved (st : PState) (file : Option Text) (line : Text) : PState :=
  { st with
    output := st.output ++ "Unresolved directive in ".toList ++ file.getD "(root file)".toList ++ " - ".toList ++ line ++
      ['\n']
    outputLineNumber := st.outputLineNumber + 1 }

/-- Writing any other line (parser/preprocessor.rs 162-171). -/
def PState.copy (st : PState) (line : Text) : PState :=
  { st with
    inDocumentHeader := if line = [] then false else st.inDocumentHeader
    canHaveAttribute := if line = [] then true else if st.inDocumentHeader then st.canHaveAttribute else false
    output := st.output ++ line ++ ['\n']
    outputLineNumber := st.outputLineNumber + 1 }

/-- The test for an attribute entry (parser/preprocessor.rs 83-86). -/
def entryAt (env : PreEnv) (st : PState) (source : Span) (line : Text) : Res (Option (MI Attribute)) :=
  if st.canHaveAttribute && startsWith line [':'] && (endsWith line [':'] || containsSub line ": ".toList) then
    Attribute.parse (env.hdr st.store) source
  else .ok none

/-- The test for an include directive (parser/preprocessor.rs 118-131): the target and the attribute list.
`substitute_attributes` (180-217, 250-253) is the code of the attribute references step once more. -/
def includeAt [Uni] (st : PState) (line : Text) : Res (Option (Text × Attrlist)) :=
  if startsWith line "include::".toList then
    match captures includeDirectiveRe line with
    | none => .ok none
    | some mt => do
      let t ← mt.at! 1
      let target ← applyAttributes st.store t
      let al ← match mt.get 2 with
        | some a => inlineAttrlist st.store a
        | none => .ok ⟨[], none, Span.new []⟩
      .ok (some (target, al))
  else .ok none

/-- The loop of `process_adoc_include` (parser/preprocessor.rs 69-176).  The first argument bounds the number of
iterations and the depth of the nested calls together. -/
def processLines [Uni] (env : PreEnv) : Nat → Option Text → Bool → Span → PState → Res PState
  | 0, _, _, _, _ => .error .fuel
  | n + 1, file, reported, source, st =>
    if source.data = [] then .ok st
    else
      let l := source.takeLine
      match entryAt env st source l.item.data with
      | .error e => .error e
      | .ok (some attr) => processLines env n file true attr.after ((st.report reported file l.item.line).entry attr.item)
      | .ok none =>
        match includeAt st l.item.data with
        | .error e => .error e
        | .ok (some (target, al)) =>
          match env.resolve file target al st.store with
          | some text =>
            match processLines env n (some target) false (Span.new text) st with
            | .error e => .error e
            | .ok st' => processLines env n file false l.after st'
          | none => processLines env n file reported l.after (st.unresolved file l.item.data)
        | .ok none => processLines env n file true l.after ((st.report reported file l.item.line).copy l.item.data)

/-- The test for the short cut (parser/preprocessor.rs 26-30). -/
def noDirectives (source : Text) (primary : Option Text) : Bool :=
  !startsWith source "include::".toList && !startsWith source "if".toList &&
  !containsSub source "\ninclude::".toList && !containsSub source "\nif".toList && primary.isNone

/-- `preprocess` (parser/preprocessor.rs 23-43). -/
def preprocess [Uni] (env : PreEnv) (fuel : Nat) (store : AttrStore) (primary : Option Text) (source : Text) :
    Res (Text × SourceMap) :=
  if noDirectives source primary then .ok (source, [])
  else
    match processLines env fuel primary primary.isNone (Span.new source) (PState.init store) with
    | .error e => .error e
    | .ok st => .ok (st.output, st.sourceMap)

end Adoc
