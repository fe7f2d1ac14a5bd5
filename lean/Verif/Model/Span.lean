import Verif.Model.Text
/-!
# Spans

Model of `parser/src/span/*.rs`.
-/

namespace Adoc

/-- `Span` (span/mod.rs 52-58). -/
structure Span where
  data : Text
  line : Nat
  col : Nat
  offset : Nat
deriving DecidableEq, Repr

/-- `MatchedItem<T>` (span/matched_item.rs 5-12). -/
structure MI (α : Type) where
  item : α
  after : Span
deriving DecidableEq, Repr

namespace Span

/-- `Span::new` (span/mod.rs 62-69). -/
def new (data : Text) : Span := { data := data, line := 1, col := 1, offset := 0 }

/-- `slice_internal` (span/slice.rs 37-73).  `old` is the skipped text `self.data[..offset]`, `new` the
sub-slice.  `num_chars(old[last_index..])` is the number of characters of `old` after its last newline. -/
def sliceInternal (s : Span) (old new : Text) : Span :=
  if old = [] then
    { data := new, line := s.line, col := s.col, offset := s.offset }
  else
    let linesToAdd := old.count '\n'
    let col := (old.reverse.takeWhile (· ≠ '\n')).length
    { data := new
      line := s.line + linesToAdd
      col := if linesToAdd = 0 then s.col + col else col + 1
      offset := s.offset + blen old }

/-- `Span::slice(a..b)` (span/slice.rs 10-12); `none` = panic. -/
def slice? (s : Span) (a b : Nat) : Option Span :=
  match sliceB s.data a b with
  | some (old, mid) => some (s.sliceInternal old mid)
  | none => none

/-- `Span::slice_from(a..)` (span/slice.rs 15-17); `none` = panic. -/
def sliceFrom? (s : Span) (a : Nat) : Option Span := s.slice? a (blen s.data)

/-- `Span::slice_to(..b)` (span/slice.rs 20-22); `none` = panic. -/
def sliceTo? (s : Span) (b : Nat) : Option Span := s.slice? 0 b

/-- `Span::position` (span/slice.rs 25-35): byte index of the first character satisfying `p`. -/
def position (p : Char → Bool) : Text → Option Nat
  | [] => none
  | c :: cs => if p c then some 0 else (position p cs).map (· + c.utf8Size)

/-- `Span::into_parse_result(at_index)` (span/split.rs 6-14) with a byte index; `none` = panic. -/
def intoParseResult? (s : Span) (at_index : Nat) : Option (MI Span) :=
  let n := min (blen s.data) at_index
  match s.sliceTo? n, s.sliceFrom? n with
  | some i, some a => some { item := i, after := a }
  | _, _ => none

/-! ## Character-indexed forms

Every caller obtains its byte index from `find`, `position`, `char_indices`, `trim*` or the length of a
matched ASCII prefix, that is, from a character position `k`.  The definitions below take that `k` directly;
`Verif.Lemmas.Span` proves that they agree with the byte-indexed forms above (which then do not panic). -/

/-- The sub-span left after skipping the first `k` characters. -/
def dropN (s : Span) (k : Nat) : Span := s.sliceInternal (s.data.take k) (s.data.drop k)

/-- The sub-span made of the first `k` characters. -/
def takeN (s : Span) (k : Nat) : Span := s.sliceInternal [] (s.data.take k)

/-- `into_parse_result` (span/split.rs 6-14) at the `k`-th character. -/
def cut (s : Span) (k : Nat) : MI Span := { item := s.takeN k, after := s.dropN k }

/-- Number of leading characters that satisfy `p`. -/
def prefLen (p : Char → Bool) : Text → Nat
  | [] => 0
  | c :: cs => if p c then prefLen p cs + 1 else 0

/-- `take_while` (span/take.rs 35-43). -/
def takeWhile (s : Span) (p : Char → Bool) : MI Span := s.cut (prefLen p s.data)

/-- `split_at_match_non_empty` (span/split.rs 24-39). -/
def splitAtMatchNonEmpty (s : Span) (p : Char → Bool) : Option (MI Span) :=
  if prefLen (fun c => !p c) s.data = 0 then none
  else some (s.cut (prefLen (fun c => !p c) s.data))

/-- `take_prefix` (span/take.rs 8-14). -/
def takePrefix (s : Span) (pre : Text) : Option (MI Span) :=
  if startsWith s.data pre then some (s.cut pre.length) else none

/-- The blank characters of the crate: space and tab. -/
def isBlank (c : Char) : Bool := c == ' ' || c == '\t'

/-- `take_whitespace` (span/take.rs 17-19). -/
def takeWhitespace (s : Span) : MI Span := s.takeWhile isBlank

/-- `take_whitespace_with_newline` (span/take.rs 22-24). -/
def takeWhitespaceWithNewline (s : Span) : MI Span :=
  s.takeWhile (fun c => c == ' ' || c == '\t' || c == '\n')

/-- `take_required_whitespace` (span/take.rs 29-32). -/
def takeRequiredWhitespace (s : Span) : Option (MI Span) :=
  let mi := s.takeWhile isBlank
  if mi.item.data = [] then none else some mi

/-- `discard(n)` (span/discard.rs 6-8), at the `k`-th character. -/
def discard (s : Span) (k : Nat) : Span := (s.cut k).after

/-- `discard_whitespace` (span/discard.rs 12-14). -/
def discardWhitespace (s : Span) : Span := s.takeWhitespace.after

/-- `discard_all` (span/discard.rs 17-19). -/
def discardAll (s : Span) : Span := s.discard s.data.length

/-- `trim_trailing_whitespace` (span/trim.rs 6-9). -/
def trimTrailingWhitespace (s : Span) : Span := s.takeN (trimEnd s.data).length

/-- `trim_trailing_line_end` (span/trim.rs 13-21). -/
def trimTrailingLineEnd (s : Span) : Span :=
  if endsWith s.data ['\r', '\n'] then s.takeN (s.data.length - 2)
  else if endsWith s.data ['\n'] then s.takeN (s.data.length - 1)
  else s

end Span

namespace MI

/-- `trim_after_start_matches(c)` (span/matched_item.rs 17-28): drops one leading `c` of `after`. -/
def trimAfterStart (m : MI Span) (c : Char) : MI Span :=
  if startsWith m.after.data [c] then { item := m.item, after := m.after.dropN 1 } else m

/-- `trim_item_end_matches(c)` (span/matched_item.rs 32-42): drops one trailing `c` of `item`. -/
def trimItemEnd (m : MI Span) (c : Char) : MI Span :=
  if endsWith m.item.data [c] then
    { item := m.item.takeN (m.item.data.length - 1), after := m.after }
  else m

/-- `trim_item_trailing_spaces` (span/matched_item.rs 45-52). -/
def trimItemTrailingSpaces (m : MI Span) : MI Span :=
  { item := m.item.takeN (trimEndP (· == ' ') m.item.data).length, after := m.after }

end MI

namespace Span

/-- `take_line` (span/line.rs 9-17). -/
def takeLine (s : Span) : MI Span :=
  ((s.cut (prefLen (· ≠ '\n') s.data)).trimAfterStart '\n').trimItemEnd '\r'

/-- `take_normalized_line` (span/line.rs 26-28). -/
def takeNormalizedLine (s : Span) : MI Span := s.takeLine.trimItemTrailingSpaces

/-- `take_non_empty_line` (span/line.rs 41-49). -/
def takeNonEmptyLine (s : Span) : Option (MI Span) :=
  match s.splitAtMatchNonEmpty (· == '\n') with
  | some mi =>
    let m := ((mi.trimAfterStart '\n').trimItemEnd '\r').trimItemTrailingSpaces
    if m.item.data = [] then none else some m
  | none => none

/-- `take_empty_line` (span/line.rs 57-65). -/
def takeEmptyLine (s : Span) : Option (MI Span) :=
  let l := s.takeLine
  if l.item.data.all isBlank then some l else none

/-- The loop of `discard_empty_lines` (span/line.rs 70-81) with an explicit iteration bound; each iteration
consumes at least one character, so the length of the data suffices (`Verif.Lemmas.Span`). -/
def discardEmptyLinesAux : Nat → Span → Span
  | 0, s => s
  | n + 1, s =>
    if s.data = [] then s
    else match s.takeEmptyLine with
      | some l => discardEmptyLinesAux n l.after
      | none => s

/-- `discard_empty_lines` (span/line.rs 70-81). -/
def discardEmptyLines (s : Span) : Span := discardEmptyLinesAux s.data.length s

/-- `one_line_with_continuation` (span/line.rs 119-126). -/
def oneLineWithContinuation (s : Span) : Option (MI Span) :=
  let l := s.takeNormalizedLine
  if endsWith l.item.data ['\\'] then some l else none

/-- The `while let` loop of `take_line_with_continuation` (span/line.rs 103-105), returning `mi.after`. -/
def contLoop : Nat → Span → Span
  | 0, s => s
  | n + 1, s =>
    match s.oneLineWithContinuation with
    | some l => contLoop n l.after
    | none => s

/-- `take_line_with_continuation` (span/line.rs 100-117).  `mi.after.byte_offset() - self.byte_offset()` is the
number of bytes consumed; in characters it is the difference of the data lengths. -/
def takeLineWithContinuation (s : Span) : Option (MI Span) :=
  let after := (contLoop s.data.length s).takeLine.after
  let mi := ((s.cut (s.data.length - after.data.length)).trimItemEnd '\n').trimItemEnd '\r'
    |>.trimItemTrailingSpaces
  if mi.item.data = [] then none else some mi

/-- `trim_remainder` (span/primitives.rs 163-173); `none` = panic (cut inside a character). -/
def trimRemainder? (s after : Span) : Option Span :=
  let offset := min (s.offset + blen s.data) after.offset
  if offset ≤ s.offset then s.slice? 0 0
  else s.slice? 0 (offset - s.offset)

/-- `take_ident` (span/primitives.rs 15-30). -/
def takeIdent (s : Span) : Option (MI Span) :=
  match s.data with
  | [] => none
  | c :: cs =>
    if isAsciiAlpha c || c == '_' then
      some (s.cut (1 + prefLen (fun c => isAsciiAlnum c || c == '_') cs))
    else none

/-- `take_attr_name` (span/primitives.rs 38-53). -/
def takeAttrName (s : Span) : Option (MI Span) :=
  match s.data with
  | [] => none
  | c :: cs =>
    if isAsciiAlnum c then some (s.cut (1 + prefLen (fun c => isAsciiAlnum c || c == '-') cs))
    else none

/-- `take_user_attr_name` (span/primitives.rs 74-89). -/
def takeUserAttrName (s : Span) : Option (MI Span) :=
  match s.data with
  | [] => none
  | c :: cs =>
    if isAsciiAlnum c || c == '_' then
      some (s.cut (1 + prefLen (fun c => isAsciiAlnum c || c == '_' || c == '-') cs))
    else none

/-- The character loop of `take_quoted_string` (span/primitives.rs 145-153): number of characters before the
closing quote. -/
def quotedLen (delim : Char) : Bool → Text → Option Nat
  | _, [] => none
  | prevBs, c :: cs =>
    if c == delim && !prevBs then some 0
    else (quotedLen delim (c == '\\') cs).map (· + 1)

/-- `take_quoted_string` (span/primitives.rs 132-157). -/
def takeQuotedString (s : Span) : Option (MI Span) :=
  match s.data with
  | [] => none
  | d :: cs =>
    if d == '\'' || d == '"' then
      match quotedLen d false cs with
      | some n => some { item := (s.dropN 1).takeN n, after := s.dropN (n + 2) }
      | none => none
    else none

end Span

/-- The Unicode tables used through `char::is_alphabetic`, `char::is_alphanumeric`/`is_numeric`,
`str::to_lowercase` and the regex classes `\p{L}`, `\p{Nd}` (also `\d`) and `\w`.  They are not part of the crate,
so the model takes them as a parameter. -/
class Uni where
  isAlphabetic : Char → Bool
  isNumeric : Char → Bool
  isLetter : Char → Bool
  isNd : Char → Bool
  isWord : Char → Bool
  toLowercase : Text → Text

/-- `is_xml_name` (span/primitives.rs 94-118). -/
def Span.isXmlName [Uni] (s : Span) : Bool :=
  match s.data with
  | [] => false
  | c :: cs =>
    ((c == ':' || c == '_') || (c.toNat != 0x37e && Uni.isAlphabetic c)) &&
    cs.all (fun c =>
      (c == ':' || c == '_' || c == '.' || c == '-' || c.toNat == 0xb7) ||
      (c.toNat != 0x37e && (Uni.isAlphabetic c || Uni.isNumeric c)))

/-- Tables for examples: the letters and digits of ASCII.  Theorems never use it. -/
@[instance_reducible] def asciiUni : Uni where
  isAlphabetic c := isAsciiAlpha c
  isNumeric c := isAsciiDigit c
  isLetter c := isAsciiAlpha c
  isNd c := isAsciiDigit c
  isWord c := isAsciiAlnum c || c == '_'
  toLowercase t := t.map Char.toLower

end Adoc
