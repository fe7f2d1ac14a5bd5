import Verif.Model.Renderer
/-!
# Substitution steps

Model of `parser/src/content/substitution_step.rs` and `parser/src/internal/regex.rs`.  A step maps the rendered text
of a `Content` to the new rendered text.
-/

namespace Adoc
open Re

/-- `SubstitutionStep` (content/substitution_step.rs 23-48). -/
inductive Step where
  | specialCharacters | quotes | attributeReferences | characterReplacements | macros | postReplacement | callouts
deriving DecidableEq, Repr

/-! ## Special characters -/

/-- `SPECIAL_CHARS` (content/substitution_step.rs 98-101). -/
def specialCharsRe : Re := cls (fun c => c == '<' || c == '>' || c == '&')

/-- `SpecialCharacterReplacer` (content/substitution_step.rs 108-128). -/
def specialReplacer (r : Renderer) (mt : Match) : Res Text :=
  if mt.text = ['<'] then .ok (r.special .lt)
  else if mt.text = ['>'] then .ok (r.special .gt)
  else if mt.text = ['&'] then .ok (r.special .ampersand)
  else .ok []

/-- `apply_special_characters` (content/substitution_step.rs 83-96). -/
def applySpecialCharacters [Uni] (r : Renderer) (t : Text) : Res Text :=
  if !t.any (fun c => c == '<' || c == '>' || c == '&') then .ok t
  else replaceAll specialCharsRe (specialReplacer r) t

/-! ## Replacement with look-ahead -/

/-- `LookaheadResult` (internal/regex.rs 53-59). -/
inductive Look where
  | continue_ | skipAheadAndRetry (n : Nat)
deriving DecidableEq, Repr

/-- `LookaheadReplacer::replace_append` (internal/regex.rs 62-69): match, text after the match; what is appended. -/
abbrev LookReplacer := Match → Text → Res (Text × Look)

/-- The loops of `replace_with_lookahead` (internal/regex.rs 15-49).  `pos` is the byte position of `rest` in the
haystack `hay`, `last` is `last_match`, `new` the result so far.  The result `none` is `Cow::Borrowed`. -/
def lookLoop [Uni] (re : Re) (rep : LookReplacer) :
    Nat → Text → Nat → Option Char → Text → Bool → Nat → Text → Res (Option Text)
  | 0, _, _, _, _, _, _, _ => .error .fuel
  | fuel + 1, hay, pos, prev, rest, emptyOk, last, new =>
    let advance := fun (last : Nat) (new : Text) =>
      match rest with
      | [] =>
        match splitB hay last with
        | some (_, tl) => .ok (some (new ++ tl))
        | none => .error .panic
      | c :: cs => lookLoop re rep fuel hay (pos + c.utf8Size) (some c) cs true last new
    match matchAt re prev rest with
    | some (mt, s') =>
      if mt.text ≠ [] ∨ emptyOk = true then
        match sliceB hay last pos with
        | none => .error .panic
        | some (_, mid) =>
          match rep mt s'.rest with
          | .error e => .error e
          | .ok (x, .continue_) =>
            if mt.text ≠ [] then
              lookLoop re rep fuel hay (pos + blen mt.text) s'.prev s'.rest false (pos + blen mt.text) (new ++ mid ++ x)
            else advance pos (new ++ mid ++ x)
          | .ok (x, .skipAheadAndRetry n) =>
            if n = 0 then .error .panic
            else
              match splitB hay (pos + n) with
              | none => .error .panic
              | some (_, hay') =>
                if new ++ mid ++ x = [] ∧ isMatch re hay' = false then .ok none
                else lookLoop re rep fuel hay' 0 none hay' true last (new ++ mid ++ x)
      else advance last new
    | none => advance last new

/-- `replace_with_lookahead` (internal/regex.rs 7-50).  Every retry shortens the haystack, which bounds the iterations
(`C32_terminates`). -/
def replaceWithLookahead [Uni] (re : Re) (hay : Text) (rep : LookReplacer) : Res (Option Text) :=
  if isMatch re hay = false then .ok none
  else lookLoop re rep ((hay.length + 1) * (hay.length + 1)) hay 0 none hay true 0 []

/-! ## Quotes -/

def nonSpace : Re := cls (fun c => !isWhite c)

/-- `(?:\[([^\[\]]+)\])?` -/
def optAttrs (n : Nat) : Re :=
  opt (cat [chr '[', cap n (plus (cls fun c => c != '[' && c != ']')), chr ']'])

/-- `\\?(?:\[([^\[\]]+)\])?<mark>(.+?)<mark>` with `s` -/
def unconstrainedRe (mark : Text) : Re :=
  cat [opt (chr '\\'), optAttrs 1, lit mark, cap 2 (plusLazy anyChar), lit mark]

/-- `(\S|\S.*?\S)` with `s` -/
def quotedBody : Re := alt nonSpace (cat [nonSpace, star false anyChar, nonSpace])

/-- `(^|[^\w<excl>])(?:\[([^\[\]]+)\])?<open>(\S|\S.*?\S)<close>\b{end-half}` with `s` -/
def constrainedRe [Uni] (excl : List Char) (op cl : Text) : Re :=
  cat [cap 1 (alt bot (cls fun c => !Uni.isWord c && !excl.contains c)), optAttrs 2, lit op, cap 3 quotedBody, lit cl,
    endHalf]

structure QuoteSub where
  type : QuoteType
  scope : QuoteScope
  pattern : Re

/-- `QUOTE_SUBS` (content/substitution_step.rs 161-293). -/
def quoteSubs [Uni] : List QuoteSub :=
  let ex := ['&', ';', ':', '}']
  [ ⟨.strong, .unconstrained, unconstrainedRe "**".toList⟩,
    ⟨.strong, .constrained, constrainedRe ex "*".toList "*".toList⟩,
    ⟨.doubleQuote, .constrained, constrainedRe ex "\"`".toList "`\"".toList⟩,
    ⟨.singleQuote, .constrained, constrainedRe ex "'`".toList "`'".toList⟩,
    ⟨.monospaced, .unconstrained, unconstrainedRe "``".toList⟩,
    ⟨.monospaced, .constrained, constrainedRe ['&', ';', ':', '"', '\'', '`', '}'] "`".toList "`".toList⟩,
    ⟨.emphasis, .unconstrained, unconstrainedRe "__".toList⟩,
    ⟨.emphasis, .constrained, constrainedRe ex "_".toList "_".toList⟩,
    ⟨.mark, .unconstrained, unconstrainedRe "##".toList⟩,
    ⟨.mark, .constrained, constrainedRe ex "#".toList "#".toList⟩,
    ⟨.superscript, .unconstrained,
      cat [opt (chr '\\'), optAttrs 1, chr '^', cap 2 (plusLazy nonSpace), chr '^']⟩,
    ⟨.subscript, .unconstrained,
      cat [opt (chr '\\'), optAttrs 1, chr '~', cap 2 (plusLazy nonSpace), chr '~']⟩ ]

/-- `Attrlist::parse(span, parser, AttrlistContext::Inline).item.item`.  In this context `ElementAttribute::parse` never
calls the Normal substitutions (`C33_inline_total`). -/
def inlineAttrlist [Uni] (store : AttrStore) (t : Text) : Res Attrlist :=
  (Attrlist.parse (fun _ => .error .panic) store (Span.new t) .inline).map Prod.fst

/-- The attribute list of a quoted passage and the type under which it is rendered
(content/substitution_step.rs 347-369 and 386-408). -/
def quoteAttrs [Uni] (e : Env) (type : QuoteType) : Option Text → Res (Option Attrlist × QuoteType)
  | some a => do
    let l ← inlineAttrlist e.store a
    .ok (some l, if type = .mark then .unquoted else type)
  | none => .ok (none, type)

/-- Whether a text begins with a quote (content/substitution_step.rs 318). -/
def quoteFollows : Text → Bool
  | c :: _ => c == '"' || c == '\'' || c == '`'
  | [] => false

/-- `QuoteReplacer::replace_append` (content/substitution_step.rs 302-421). -/
def quoteReplacer [Uni] (e : Env) (type : QuoteType) (scope : QuoteScope) : LookReplacer := fun mt after => do
  if type = .monospaced ∧ scope = .constrained ∧
      quoteFollows after = true then
    let n := if startsWith mt.text ['\\'] then 2 else 1
    match sliceB mt.text 0 n with
    | some (_, x) => .ok (x, .skipAheadAndRetry n)
    | none => .error .panic
  else if startsWith mt.text ['\\'] then
    match scope, mt.get 2 with
    | .constrained, some attrs => do
      let body ← mt.at! 3
      .ok ('[' :: attrs ++ [']'] ++ e.r.quoted type scope none none body, .continue_)
    | _, _ => .ok (mt.text.tail, .continue_)
  else
    match scope with
    | .constrained => do
      let (al, ty) ← quoteAttrs e type (mt.get 2)
      let body ← mt.at! 3
      .ok ((mt.get 1).getD [] ++ e.r.quoted ty scope al (al.bind Attrlist.id) body, .continue_)
    | .unconstrained => do
      let (al, ty) ← quoteAttrs e type (mt.get 1)
      let body ← mt.at! 2
      .ok (e.r.quoted ty scope al (al.bind Attrlist.id) body, .continue_)

/-- `QUOTED_TEXT_SNIFF` (content/substitution_step.rs 130-133). -/
def quotedTextSniff (t : Text) : Bool :=
  t.any fun c => c == '*' || c == '_' || c == '`' || c == '#' || c == '^' || c == '~'

/-- The loop of `apply_quotes` (content/substitution_step.rs 431-443). -/
def applyQuoteSubs [Uni] (e : Env) : List QuoteSub → Text → Res Text
  | [], t => .ok t
  | q :: qs, t => do
    let r ← replaceWithLookahead q.pattern t (quoteReplacer e q.type q.scope)
    applyQuoteSubs e qs (r.getD t)

/-- `apply_quotes` (content/substitution_step.rs 424-446). -/
def applyQuotes [Uni] (e : Env) (t : Text) : Res Text :=
  if !quotedTextSniff t then .ok t else applyQuoteSubs e quoteSubs t

/-! ## Character replacements -/

def alphaRe : Re := cls isAsciiAlpha
def digitRe [Uni] : Re := cls Uni.isNd
def hexRe [Uni] : Re :=
  cls fun c => Uni.isNd c || ('a'.toNat ≤ c.toNat && c.toNat ≤ 'f'.toNat) || ('A'.toNat ≤ c.toNat && c.toNat ≤ 'F'.toNat)

/-- `REPLACEABLE_TEXT_SNIFF` (content/substitution_step.rs 528-531). -/
def replaceableTextSniffRe : Re :=
  oneOf [cls (fun c => c == '&' || c == '\''), lit "--".toList, lit "...".toList,
    cat [chr '(', cls (fun c => c == 'C' || c == 'R' || c == 'T'), opt (chr 'M'), chr ')']]

/-- `REPLACEMENTS` (content/substitution_step.rs 538-619). -/
def replacements [Uni] : List (CharRepl × Re) :=
  [ (.copyright, cat [opt (chr '\\'), lit "(C)".toList]),
    (.registered, cat [opt (chr '\\'), lit "(R)".toList]),
    (.trademark, cat [opt (chr '\\'), lit "(TM)".toList]),
    (.emDashSurroundedBySpaces,
      cat [oneOf [chr ' ', chr '\n', bot, chr '\\'], lit "--".toList, oneOf [chr ' ', chr '\n', eot]]),
    (.emDashWithoutSpace, cat [cap 1 (cls Uni.isWord), opt (chr '\\'), lit "--".toList, startHalf]),
    (.ellipsis, cat [opt (chr '\\'), lit "...".toList]),
    (.typographicApostrophe, cat [opt (chr '\\'), lit "`'".toList]),
    (.typographicApostrophe, cat [cap 1 (cls isAsciiAlnum), opt (chr '\\'), chr '\'', cap 2 alphaRe]),
    (.singleRightArrow, cat [opt (chr '\\'), lit "-&gt;".toList]),
    (.doubleRightArrow, cat [opt (chr '\\'), lit "=&gt;".toList]),
    (.singleLeftArrow, cat [opt (chr '\\'), lit "&lt;-".toList]),
    (.doubleLeftArrow, cat [opt (chr '\\'), lit "&lt;=".toList]),
    (.characterReference [],
      cat [opt (chr '\\'), lit "&amp;".toList,
        cap 1 (oneOf [
          cat [alphaRe, plus alphaRe, upTo digitRe 2],
          cat [chr '#', digitRe, digitRe, upTo digitRe 4],
          cat [chr '#', chr 'x', hexRe, hexRe, upTo hexRe 3]]),
        chr ';']) ]

/-- `CharacterReplacer::replace_append` (content/substitution_step.rs 627-681). -/
def charReplacer (r : Renderer) (type : CharRepl) (mt : Match) : Res Text :=
  if mt.text.contains '\\' then .ok (replaceChar '\\' [] mt.text)
  else match type with
    | .emDashWithoutSpace => do
      let b ← mt.at! 1
      .ok (b ++ r.charRepl .emDashWithoutSpace)
    | .typographicApostrophe => .ok ((mt.get 1).getD [] ++ r.charRepl .typographicApostrophe ++ (mt.get 2).getD [])
    | .characterReference _ => do
      let n ← mt.at! 1
      .ok (r.charRepl (.characterReference n))
    | t => .ok (r.charRepl t)

/-- The loop of `apply_character_replacements` (content/substitution_step.rs 507-518). -/
def applyReplacements [Uni] (r : Renderer) : List (CharRepl × Re) → Text → Res Text
  | [], t => .ok t
  | (ty, re) :: rs, t => do
    let t' ← replaceAll re (charReplacer r ty) t
    applyReplacements r rs t'

/-- `apply_character_replacements` (content/substitution_step.rs 497-521). -/
def applyCharacterReplacements [Uni] (r : Renderer) (t : Text) : Res Text :=
  if !isMatch replaceableTextSniffRe t then .ok t else applyReplacements r replacements t

/-! ## Post replacements -/

/-- One line as `str::lines` returns it: a carriage return in front of the newline belongs to the line ending. -/
def chompCr (l : Text) : Text := if endsWith l ['\r'] then l.dropLast else l

/-- `str::lines`. -/
def strLines (t : Text) : List Text :=
  let ps := splitChar '\n' t
  match ps.getLast? with
  | some [] => ps.dropLast.map chompCr
  | some l => ps.dropLast.map chompCr ++ [l]
  | none => []

/-- A line of the hardbreaks branch (content/substitution_step.rs 701-711). -/
def hardBreakLine (r : Renderer) (l : Text) : Text :=
  (if endsWith l [' ', '+'] then l.take (l.length - 2) else l) ++ r.lineBreak

/-- `HARD_LINE_BREAK` (content/substitution_step.rs 742-745): `(?m)^(.*) \+$`. -/
def hardLineBreakRe : Re := cat [bol, cap 1 (star true dot), lit " +".toList, eol]

/-- `PostReplacementReplacer` (content/substitution_step.rs 735-740). -/
def postReplacer (r : Renderer) (mt : Match) : Res Text := do
  let b ← mt.at! 1
  .ok (b ++ r.lineBreak)

/-- `apply_post_replacements` (content/substitution_step.rs 683-730). -/
def applyPostReplacements [Uni] (e : Env) (attrlist : Option Attrlist) (t : Text) : Res Text :=
  if e.store.isAttributeSet "hardbreaks-option".toList = true ∨
      (match attrlist with | some a => a.hasOption "hardbreaks".toList | none => false) = true then
    if !t.contains '\n' then .ok t
    else
      let lines := strLines t
      .ok (joinChar '\n' (lines.dropLast.map (hardBreakLine e.r) ++ [lines.getLast?.getD []]))
  else if !(t.contains '+' && t.contains '\n') then .ok t
  else replaceAll hardLineBreakRe (postReplacer e.r) t

end Adoc
