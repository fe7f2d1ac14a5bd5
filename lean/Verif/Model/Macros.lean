import Verif.Model.Steps
/-!
# Inline macros

Model of `parser/src/content/macros.rs`.
-/

namespace Adoc
open Re

/-- `(|.*?[^\\])` with `s` -/
def bracketed (n : Nat) : Re := cap n (alt eps (cat [star false anyChar, cls (· != '\\')]))

/-- `INLINE_IMAGE_MACRO` (content/macros.rs 105-129). -/
def inlineImageRe : Re :=
  cat [opt (chr '\\'), chr 'i', alt (lit "mage".toList) (lit "con".toList), chr ':',
    opt (cap 1 (cat [cls (fun c => c != ':' && !isWhite c && c != '[' && c != '\n'),
      star false (cls fun c => c != '[' && c != '\n'), cls (fun c => !isWhite c && c != '[' && c != '\n')])),
    chr '[', bracketed 2, chr ']']

/-- `basename` (content/macros.rs 197-203): `Path::file_stem` on a Unix system. -/
def basename (path : Text) : Text :=
  match ((splitChar '/' path).filter (fun s => !(s == [] || s == ['.']))).getLast? with
  | none => []
  | some f =>
    if f = ['.', '.'] then []
    else if f.contains '.' then
      let before := (f.reverse.dropWhile (· ≠ '.')).tail.reverse
      if before = [] then f else before
    else f

/-- `normalize_text_lf_escaped_bracket` (content/macros.rs 205-207). -/
def normalizeTextLfEscapedBracket (t : Text) : Text := replaceStr (replaceChar '\n' [' '] t) ['\\', ']'] [']']

/-- `InlineImageMacroReplacer::replace_append` (content/macros.rs 134-195). -/
def imageReplacer [Uni] (e : Env) (mt : Match) : Res Text :=
  if startsWith mt.text ['\\'] then .ok mt.text.tail
  else do
    let target ← mt.at! 1
    let t2 ← mt.at! 2
    let a ← inlineAttrlist e.store t2
    let defaultAlt := basename (target.map fun c => if c = '_' ∨ c = '-' then ' ' else c)
    let alt := fun (x : Option ElemAttr) => match x with
      | some v => normalizeTextLfEscapedBracket v.value
      | none => defaultAlt
    if startsWith mt.text "image:".toList then
      e.r.image e.toPEnv ⟨target, alt (a.namedOrPositional "alt".toList 1),
        (a.namedOrPositional "width".toList 2).map ElemAttr.value,
        (a.namedOrPositional "height".toList 3).map ElemAttr.value, a⟩
    else
      e.r.icon e.toPEnv ⟨target, alt (a.namedAttribute "alt".toList),
        (a.namedOrPositional "size".toList 1).map ElemAttr.value, a⟩

/-- `INLINE_LINK` (content/macros.rs 209-226). -/
def inlineLinkRe : Re :=
  cat [
    cap 1 (oneOf [bol, lit "link:".toList, cls (fun c => c == ' ' || c == '\t'),
      cat [opt (chr '\\'), lit "&lt;".toList, cap 2 eps],
      cls (fun c => ['>', '(', ')', '[', ']', ';', '"', '\''].contains c)]),
    cap 3 (cat [opt (chr '\\'),
      oneOf [cat [lit "http".toList, opt (chr 's')], lit "file".toList, lit "ftp".toList, lit "irc".toList],
      lit "://".toList]),
    oneOf [
      cat [cap 4 (plus (cls fun c => !isWhite c && c != '[' && c != ']')), chr '[', bracketed 5, chr ']'],
      cat [cap 6 (plusLazy nonSpace), lit "&gt;".toList],
      cap 7 (cat [star true (cls fun c => !isWhite c && c != '[' && c != ']' && c != '<'),
        cap 8 (cls fun c => !isWhite c && ![',', '.', '?', '!', '[', ']', '<', ')'].contains c)])]]

/-- `URI_SNIFF.replace_all(&target, "")` (content/macros.rs 762-765). -/
def stripScheme [Uni] (t : Text) : Res Text := replaceAll Html.uriSniffRe (fun _ => .ok []) t

/-- `extract_attributes_from_text` (content/macros.rs 561-585) with `default_text` none (all calls). -/
def extractAttributesFromText [Uni] (e : Env) (t : Text) : Res (Text × Attrlist) := do
  let a ← inlineAttrlist e.store t
  match a.nthAttribute 1 with
  | some x => .ok (x.value, a)
  | none => .ok ([], a)

/-- The link text when none is given (content/macros.rs 363-368, 376-380). -/
def bareText [Uni] (e : Env) (target : Text) : Res Text :=
  if e.store.isAttributeSet "hide-uri-scheme".toList then stripScheme target else .ok target

/-- The `^` suffix of a link text (content/macros.rs 355-358, 505-508). -/
def caretWindow (t : Text) : Text × Option Text :=
  if endsWith t ['^'] then (t.dropLast, some "_blank".toList) else (t, none)

/-- `InlineLinkReplacer::replace_append` (content/macros.rs 231-404). -/
def linkReplacer [Uni] (e : Env) (mt : Match) : Res Text := do
  let attrlist ← inlineAttrlist e.store []
  if (mt.get 2).isSome ∧ (mt.get 5).isNone then do
    let c1 ← mt.at! 1
    if startsWith c1 ['\\'] then .ok mt.text.tail
    else do
      let c3 ← mt.at! 3
      if startsWith c3 ['\\'] then .ok (c1 ++ mt.text.drop (c1.length + 1))
      else
        match mt.get 6 with
        | none => .ok mt.text
        | some suf => do
          let target := c3 ++ suf
          let linkText ← bareText e target
          .ok (e.r.link e.toPEnv ⟨target, linkText, ["bare".toList], none, attrlist⟩)
  else do
    let pfx ← mt.at! 1
    let scheme ← mt.at! 3
    if startsWith scheme ['\\'] then .ok (pfx ++ mt.text.drop (pfx.length + 1))
    else do
      let tail7 ← match mt.get 4 with
        | some x => .ok x
        | none => mt.at! 7
      let target := scheme ++ tail7
      match mt.get 5 with
      | some al =>
        let pfx := if pfx = "link:".toList then [] else pfx
        if al = [] then do
          let linkText ← bareText e target
          .ok (pfx ++ e.r.link e.toPEnv ⟨target, linkText, ["bare".toList], none, attrlist⟩)
        else do
          let linkText := replaceStr al ['\\', ']'] [']']
          let (linkText, attrlist) ←
            if linkText.contains '=' then do
              let (lt, attrs) ← extractAttributesFromText e al
              .ok (replaceStr lt ['\\', '"'] ['"'], attrs)
            else .ok (linkText, attrlist)
          let (linkText, window) := caretWindow linkText
          if linkText = [] then do
            let bt ← bareText e target
            .ok (pfx ++ e.r.link e.toPEnv ⟨target, bt, ["bare".toList], window, attrlist⟩)
          else .ok (pfx ++ e.r.link e.toPEnv ⟨target, linkText, [], window, attrlist⟩)
      | none =>
        if pfx = "link".toList ∨ pfx = ['"'] ∨ pfx = ['\''] then .ok mt.text
        else do
          let tail ← mt.at! 8
          let (target, suffix) :=
            if tail = [';'] ∨ tail = [':'] then
              let t1 := target.dropLast
              if endsWith t1 [')'] then (t1.dropLast, ')' :: tail) else (t1, tail)
            else (target, [])
          let linkText ← bareText e target
          .ok (pfx ++ e.r.link e.toPEnv ⟨target, linkText, ["bare".toList], none, attrlist⟩ ++ suffix)

/-- `INLINE_LINK_MACRO` (content/macros.rs 406-436). -/
def inlineLinkMacroRe : Re :=
  cat [opt (chr '\\'), alt (lit "link".toList) (cap 1 (lit "mailto".toList)), chr ':',
    alt (cat [cap 2 eps, anyChar])
      (cap 3 (cat [cls (fun c => c != ':' && !isWhite c && c != '['), star true (cls fun c => !isWhite c && c != '[')])),
    chr '[', alt (cap 4 eps) (cap 5 (cat [star false anyChar, cls (· != '\\')])), chr ']']

/-- The characters `percent_encoding` leaves alone with `CGI_ESCAPE_SET` (content/macros.rs 590-618): the ASCII
characters that are neither controls nor in the list. -/
def uriKeep (c : Char) : Bool :=
  32 ≤ c.toNat && c.toNat < 127 &&
  !([' ', '!', '"', '#', '$', '%', '&', '\'', '(', ')', '+', ',', '/', ':', ';', '<', '=', '>', '?', '@', '[', '\\',
    ']', '^', '`', '{', '|', '}'].contains c)

def hexDigit (n : Nat) : Char := if n < 10 then Char.ofNat (48 + n) else Char.ofNat (55 + n)

/-- `%XX` for one byte. -/
def pctByte (b : UInt8) : Text := ['%', hexDigit (b.toNat / 16), hexDigit (b.toNat % 16)]

/-- `utf8_percent_encode(s, CGI_ESCAPE_SET)` of the `percent-encoding` crate. -/
def percentEncode (t : Text) : Text :=
  t.flatMap fun c => if uriKeep c then [c] else (String.utf8EncodeChar c).flatMap pctByte

/-- `encode_uri_component` (content/macros.rs 620-630). -/
def encodeUriComponent (t : Text) : Text :=
  replaceChar '+' "%20".toList (replaceStr (percentEncode t) "%20".toList ['+'])

/-- `InlineLinkMacroReplacer::replace_append` (content/macros.rs 441-552). -/
def linkMacroReplacer [Uni] (e : Env) (mt : Match) : Res Text :=
  if startsWith mt.text ['\\'] then .ok mt.text.tail
  else do
    let mailto := (mt.get 1).isSome
    let c3 ← mt.at! 3
    let target := if mailto then "mailto:".toList ++ c3 else c3
    let text0 := (mt.get 5).getD []
    let forAttrs := replaceChar '\n' [' '] text0
    let (linkText, target, attrlist, window) ←
      if text0 = [] then .ok (text0, target, (none : Option Attrlist), (none : Option Text))
      else do
        let linkText := replaceStr text0 ['\\', ']'] [']']
        let (linkText, target, attrlist) ←
          if mailto then
            if linkText.contains ',' then do
              let (lt, attrs) ← extractAttributesFromText e forAttrs
              let target := match attrs.nthAttribute 2 with
                | some s =>
                  let t2 := target ++ "?subject=".toList ++ encodeUriComponent s.value
                  match attrs.nthAttribute 3 with
                  | some b => t2 ++ "&amp;body=".toList ++ encodeUriComponent b.value
                  | none => t2
                | none => target
              .ok (lt, target, some attrs)
            else .ok (linkText, target, none)
          else if linkText.contains '=' then do
            let (lt, attrs) ← extractAttributesFromText e forAttrs
            .ok (lt, target, some attrs)
          else .ok (linkText, target, (none : Option Attrlist))
        let (linkText, window) := caretWindow linkText
        .ok (linkText, target, attrlist, window)
    let attrlist ← match attrlist with
      | some a => .ok a
      | none => inlineAttrlist e.store []
    if linkText = [] then
      if mailto then .ok (e.r.link e.toPEnv ⟨target, c3, [], window, attrlist⟩)
      else do
        let lt ←
          if e.store.isAttributeSet "hide-uri-scheme".toList then do
            let lt ← stripScheme target
            .ok (if lt = [] then target else lt)
          else .ok target
        .ok (e.r.link e.toPEnv ⟨target, lt, ["bare".toList], window, attrlist⟩)
    else .ok (e.r.link e.toPEnv ⟨target, linkText, [], window, attrlist⟩)

/-- `INLINE_EMAIL` (content/macros.rs 636-656). -/
def inlineEmailRe [Uni] : Re :=
  cat [cap 1 (opt (cls fun c => c == '\\' || c == '>' || c == ':' || c == '/')),
    cap 2 (cat [cls (fun c => Uni.isWord c || c == '_'),
      star true (alt (lit "&amp;".toList) (cls fun c => Uni.isWord c || c == '-' || c == '.' || c == '%' || c == '+')),
      chr '@', cls (fun c => Uni.isLetter c || Uni.isNd c),
      star true (cls fun c => Uni.isLetter c || Uni.isNd c || c == '_' || c == '-' || c == '.'),
      chr '.', alphaRe, alphaRe, upTo alphaRe 3]),
    wb]

/-- `InlineEmailReplacer::replace_append` (content/macros.rs 661-692). -/
def emailReplacer [Uni] (e : Env) (mt : Match) : Res Text :=
  match mt.get 1 with
  | some (c :: cs) => if (c :: cs) = ['\\'] then .ok mt.text.tail else .ok mt.text
  | _ => do
    let addr ← mt.at! 2
    let attrlist ← inlineAttrlist e.store []
    .ok (e.r.link e.toPEnv ⟨"mailto:".toList ++ addr, addr, [], none, attrlist⟩)

def anchorIdRe (n : Nat) [Uni] : Re :=
  cap n (cat [cls (fun c => Uni.isAlphabetic c || c == '_' || c == ':'),
    star true (cls fun c => Uni.isAlphabetic c || Uni.isNd c || c == '_' || c == '-' || c == ':' || c == '.')])

/-- `INLINE_ANCHOR` (content/macros.rs 702-733). -/
def inlineAnchorRe [Uni] : Re :=
  cat [opt (cap 1 (chr '\\')),
    alt
      (cat [lit "[[".toList, anchorIdRe 2,
        opt (cat [chr ',', star true (cls isWhite), cap 3 (plusLazy dot)]), lit "]]".toList])
      (cat [lit "anchor:".toList, anchorIdRe 4, chr '[',
        alt (chr ']') (cat [cap 5 (cat [star false dot, cls (· != '\\')]), chr ']'])])]

/-- `InlineAnchorReplacer::replace_append` (content/macros.rs 738-760). -/
def anchorReplacer (e : Env) (mt : Match) : Res Text :=
  if (mt.get 1).isSome then .ok mt.text.tail
  else match mt.get 2 with
    | some id => .ok (e.r.anchor id (mt.get 3))
    | none => do
      let id ← mt.at! 4
      .ok (e.r.anchor id ((mt.get 5).map fun t => replaceStr t ['\\', ']'] [']']))

/-- `apply_macros` (content/macros.rs 13-103).  All conditions look at the text before the first replacement. -/
def applyMacros [Uni] (e : Env) (t : Text) : Res Text := do
  let has := fun (s : String) => containsSub t s.toList
  let bracket := t.contains '['
  let colon := t.contains ':'
  let r ← if bracket && colon && (has "image:" || has "icon:") then replaceAll inlineImageRe (imageReplacer e) t else .ok t
  let r ← if colon && has "://" then replaceAll inlineLinkRe (linkReplacer e) r else .ok r
  let r ← if bracket && colon && (has "link:" || has "ilto:") then replaceAll inlineLinkMacroRe (linkMacroReplacer e) r
    else .ok r
  let r ← if t.contains '@' then replaceAll inlineEmailRe (emailReplacer e) r else .ok r
  if (bracket && has "[[") || (bracket && colon && has "or:") then replaceAll inlineAnchorRe (anchorReplacer e) r else .ok r

end Adoc
