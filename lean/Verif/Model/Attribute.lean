import Verif.Model.SubGroup
/-!
# Attribute entries

Model of `Attribute::parse` and `InterpretedValue::from_raw_value` (`parser/src/document/attribute.rs`).  The header
substitutions are a parameter `hdr`, so that everything proved about entries holds for whatever they do.
-/

namespace Adoc

/-- One line of a value that spans several lines (document/attribute.rs 185-203). -/
def interpretLine (count last : Nat) (line : Text) : Text :=
  let line := if count > 0 then line.dropWhile (· == ' ') else line
  let line := trimEndP (· == ' ') (trimEndP (· == '\\') (trimEndP (· == ' ') (line.dropWhile (· == '\r'))))
  if endsWith line ['+'] then trimEndP (· == ' ') (trimEndP (· == '+') line) ++ ['\n']
  else if count < last then line ++ [' ']
  else line

/-- The lines of a value from number `count` on (document/attribute.rs 181-207). -/
def interpretLines (last : Nat) : Nat → List Text → Text
  | _, [] => []
  | count, l :: ls => interpretLine count last l ++ interpretLines last (count + 1) ls

/-- The text of a value before substitution (document/attribute.rs 174-208). -/
def joinValue (raw : Text) : Text :=
  if raw.contains '\n' then interpretLines ((strLines raw).length - 1) 0 (strLines raw) else raw

/-- `InterpretedValue::from_raw_value` (document/attribute.rs 173-213). -/
def fromRawValue (hdr : Text → Res Text) (raw : Span) : Res IVal := (hdr (joinValue raw.data)).map IVal.value

/-- The line of an entry up to its second colon (document/attribute.rs 42-61): the name, whether the entry unsets it, and
the text behind the colon. -/
def Attribute.parseHead (item : Span) : Option (Span × Bool × Span) :=
  match item.takePrefix [':'] with
  | none => none
  | some colon =>
    let bang := startsWith colon.after.data ['!']
    let line := if bang then colon.after.dropN 1 else colon.after
    match line.takeUserAttrName with
    | none => none
    | some name =>
      let bang2 := startsWith name.after.data ['!'] && !bang
      let line := if bang2 then name.after.dropN 1 else name.after
      match line.takePrefix [':'] with
      | none => none
      | some line => some (name.item, bang || bang2, line.after)

/-- `Attribute::parse` (document/attribute.rs 40-86); the outer failure is that of the header substitutions (or of
`trim_remainder`, which cannot fail here). -/
def Attribute.parse (hdr : Text → Res Text) (source : Span) : Res (Option (MI Attribute)) :=
  match source.takeLineWithContinuation with
  | none => .ok none
  | some attrLine =>
    match Attribute.parseHead attrLine.item with
    | none => .ok none
    | some (name, unset, line) => do
      let (value, valueSource) ←
        if unset then .ok (IVal.unset, none)
        else if line.data = [] then .ok (IVal.set, none)
        else (fromRawValue hdr line.takeWhitespace.after).map fun v => (v, some line.takeWhitespace.after)
      match source.trimRemainder? attrLine.after with
      | none => .error .panic
      | some src =>
        .ok (some ⟨⟨name, valueSource, value, src.trimTrailingWhitespace⟩, attrLine.after⟩)

end Adoc
