import Verif.Model.SubGroup
/-!
# Section numbers, section ids and heading lines

Model of the parts of `parser/src/blocks/section.rs` that do not depend on other blocks, and of
`Parser::assign_section_number` (`parser/src/parser/parser.rs`).
-/

namespace Adoc
open Re

/-- `SectionType` (blocks/section.rs 426-438). -/
inductive SectionType where
  | normal | appendix | discrete
deriving DecidableEq, Repr

/-- `SectionNumber` (blocks/section.rs 456-460). -/
structure SectionNumber where
  ty : SectionType
  components : List Nat
deriving DecidableEq, Repr

namespace SectionNumber

/-- `SectionNumber::default` (derived). -/
def default : SectionNumber := ⟨.normal, []⟩

/-- `assign_next_number` (blocks/section.rs 467-476).  The components are natural numbers, so the overflow of a `usize`
is not modelled. -/
def assignNext (n : SectionNumber) (level : Nat) : SectionNumber :=
  let t := n.components.take level
  if t.length < level then { n with components := t ++ List.replicate (level - t.length) 1 }
  else if level > 0 then { n with components := t.modify (level - 1) (· + 1) }
  else { n with components := t }

/-- The letter of an appendix (blocks/section.rs 493-495): `char::from_u32` rejects surrogates and numbers beyond the
last character.  (The truncation of `x - 1` to 32 bits and its underflow for `x = 0` are not modelled; components are
never 0.) -/
def letter (x : Nat) : Char :=
  if ('A'.toNat + (x - 1)).isValidChar then Char.ofNat ('A'.toNat + (x - 1)) else '?'

/-- One component of the displayed number (blocks/section.rs 491-499). -/
def showComponent (n : SectionNumber) (index x : Nat) : Text :=
  if index = 0 ∧ n.ty = .appendix then [letter x] else decimal x

/-- `Display` (blocks/section.rs 484-504). -/
def display (n : SectionNumber) : Text := joinWith ['.'] (n.components.mapIdx n.showComponent)

end SectionNumber

/-- The numbering fields of `Parser` (parser/parser.rs 48-58). -/
structure Numbering where
  last : SectionNumber
  lastAppendix : SectionNumber
  topmost : SectionType
deriving DecidableEq, Repr

namespace Numbering

/-- The numbering fields of `Parser::default` (parser/parser.rs 72-79). -/
def default : Numbering := ⟨.default, ⟨.appendix, []⟩, .normal⟩

/-- `assign_section_number` (parser/parser.rs 459-475). -/
def assign (n : Numbering) (level : Nat) : Numbering × SectionNumber :=
  match n.topmost with
  | .normal => ({ n with last := n.last.assignNext level }, n.last.assignNext level)
  | .appendix => ({ n with lastAppendix := n.lastAppendix.assignNext level }, n.lastAppendix.assignNext level)
  | .discrete => (n, n.last)

end Numbering

/-- Arithmetic on `usize`: with overflow checks (as in a debug build) or wrapping around (as in a release build). -/
inductive Arith where
  | checked | wrapping
deriving DecidableEq, Repr

namespace Arith

/-- The number of values of a 64-bit `usize`. -/
def size : Nat := 2 ^ 64

/-- `n - 1`. -/
def pred : Arith → Nat → Res Nat
  | _, n + 1 => .ok n
  | .checked, 0 => .error .panic
  | .wrapping, 0 => .ok (size - 1)

/-- `n + 1`. -/
def succ (a : Arith) (n : Nat) : Res Nat :=
  if n + 1 < size then .ok (n + 1)
  else match a with
    | .checked => .error .panic
    | .wrapping => .ok (n + 1 - size)

end Arith

/-- The counting loops of `parse_title_line` (blocks/section.rs 281-292): the number of leading marks. -/
def markCount (line : Text) : Nat :=
  if startsWith line ['='] then Span.prefLen (· == '=') line else Span.prefLen (· == '#') line

/-- `parse_title_line` (blocks/section.rs 274-319): the level, the title and the text behind the line; the warnings pushed
on the way. -/
def parseTitleLine (ar : Arith) (source : Span) : Res (Option (MI (Nat × Span)) × List Warning) :=
  match source.takeNonEmptyLine with
  | none => .ok (none, [])
  | some mi =>
    let count := markCount mi.item.data
    let line := mi.item.dropN count
    if count = 1 then
      .ok (none, [⟨source.takeNormalizedLine.item, .level0SectionHeadingNotSupported⟩])
    else if count > 6 then
      .ok (none, [⟨source.takeNormalizedLine.item, .sectionHeadingLevelExceedsMaximum (count - 1)⟩])
    else
      match line.takeRequiredWhitespace with
      | none => .ok (none, [])
      | some title => do
        let level ← ar.pred count
        .ok (some ⟨(level, title.after), mi.after⟩, [])

/-! ## Section ids -/

/-- `INVALID_SECTION_ID_CHARS` (blocks/section.rs 384-389). -/
def invalidSectionIdRe [Uni] : Re :=
  oneOf [
    cat [chr '<', plus (cls (· != '>')), chr '>'],
    cat [lit ['&', 'l', 't', ';'], star true (cls (· != '&')), lit ['&', 'g', 't', ';']],
    cat [chr '&',
      oneOf [
        cat [cls (fun c => 'a' ≤ c && c ≤ 'z'), plus (cls (fun c => 'a' ≤ c && c ≤ 'z')), upTo (cls Uni.isNd) 2],
        cat [chr '#', cls Uni.isNd, cls Uni.isNd, upTo (cls Uni.isNd) 3],
        cat [lit ['#', 'x'], cls (fun c => Uni.isNd c || ('a' ≤ c && c ≤ 'f')),
          cls (fun c => Uni.isNd c || ('a' ≤ c && c ≤ 'f')),
          upTo (cls (fun c => Uni.isNd c || ('a' ≤ c && c ≤ 'f'))) 2]],
      chr ';'],
    plus (cls (fun c => !(c == ' ' || Uni.isWord c || c == '-' || c == '.')))]

/-- `gen_id.replace([' ', '.', '-'], &sep)` (blocks/section.rs 402). -/
def sepChars (sep : Text) (t : Text) : Text :=
  t.flatMap fun c => if c == ' ' || c == '.' || c == '-' then sep else [c]

/-- The `while` loop that removes doubled separators (blocks/section.rs 405-407); every iteration shortens the text, so
its length bounds the iterations (`C20_well_formed`). -/
def undouble (s : Char) : Nat → Text → Res Text
  | 0, _ => .error .fuel
  | n + 1, t => if containsSub t [s, s] then undouble s n (replaceStr t [s, s] [s]) else .ok t

/-- `generate_section_id` (blocks/section.rs 368-419) for given values of `idprefix` and `idseparator`. -/
def sectionId [Uni] (prefix_ separator title : Text) : Res Text := do
  let g ← replaceAll invalidSectionIdRe (fun _ => .ok []) (Uni.toLowercase title)
  let g := sepChars (separator.take 1) g
  match separator with
  | [] => .ok (prefix_ ++ g)
  | s :: _ => do
    let g ← undouble s (g.length + 1) g
    let g := if endsWith g [s] then g.dropLast else g
    let g := if prefix_ = [] ∧ startsWith g [s] then g.tail else g
    .ok (prefix_ ++ g)

/-- `as_maybe_str().unwrap_or_default()` (document/attribute.rs 214-219). -/
def IVal.str : IVal → Text
  | .value t => t
  | _ => []

/-- `generate_section_id` (blocks/section.rs 368-419). -/
def generateSectionId [Uni] (store : AttrStore) (title : Text) : Res Text :=
  sectionId (store.attributeValue "idprefix".toList).str (store.attributeValue "idseparator".toList).str title

end Adoc
