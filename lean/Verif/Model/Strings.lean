import Verif.Model.Text
/-!
# String representations

Model of `parser/src/strings.rs`.  Lifetimes and the sharing of memory are not modelled.
-/

namespace Adoc

/-- `str::as_bytes`: the UTF-8 encoding. -/
def bytesOf (t : Text) : List UInt8 := t.flatMap String.utf8EncodeChar

/-- `std::str::from_utf8`: decoding, `none` for bytes that are not UTF-8. -/
def fromUtf8 (b : List UInt8) : Option Text := b.toByteArray.utf8Decode?.map Array.toList

/-- `MAX_INLINE_STR_LEN` (strings.rs 33) on a 64-bit machine. -/
def maxInlineStrLen : Nat := 3 * 8 - 2

/-- `InlineStr` (strings.rs 42-46). -/
structure InlineStr where
  inner : List UInt8
  len : UInt8
deriving DecidableEq

namespace InlineStr

/-- The buffer filled with the given bytes, zeros behind them (strings.rs 62-65, 81-83). -/
def fill (b : List UInt8) : List UInt8 := b ++ List.replicate (maxInlineStrLen - b.length) 0

/-- `From<char>` (strings.rs 60-67). -/
def ofChar (c : Char) : InlineStr := ⟨fill (String.utf8EncodeChar c), UInt8.ofNat c.utf8Size⟩

/-- `TryFrom<&str>` (strings.rs 75-89); `none` = `StringTooLongError`. -/
def tryFrom (t : Text) : Option InlineStr :=
  if blen t ≤ maxInlineStrLen then some ⟨fill (bytesOf t), UInt8.ofNat (blen t)⟩ else none

/-- `Deref` (strings.rs 91-98). -/
def deref (s : InlineStr) : Text := (fromUtf8 (s.inner.take s.len.toNat)).getD []

/-- `PartialEq` (strings.rs 69-73). -/
def eq (a b : InlineStr) : Bool := a.deref == b.deref

end InlineStr

/-- `CowStr` (strings.rs 126-134). -/
inductive CowStr where
  | boxed (t : Text)
  | borrowed (t : Text)
  | inlined (s : InlineStr)
deriving DecidableEq

/-- `std::borrow::Cow<str>`. -/
inductive StdCow where
  | borrowed (t : Text)
  | owned (t : Text)

namespace CowStr

/-- `Deref` (strings.rs 210-220), also `AsRef`, `Borrow` and `Display`. -/
def deref : CowStr → Text
  | boxed t => t
  | borrowed t => t
  | inlined s => s.deref

/-- `Clone` (strings.rs 148-159). -/
def clone : CowStr → CowStr
  | boxed t => match InlineStr.tryFrom t with
    | some i => inlined i
    | none => boxed t
  | borrowed t => borrowed t
  | inlined s => inlined s

/-- `PartialEq` (strings.rs 161-165). -/
def eq (a b : CowStr) : Bool := a.deref == b.deref

/-- `Hash` (strings.rs 142-146), for any way `h` of hashing a text. -/
def hash {H : Type} (h : Text → H) (a : CowStr) : H := h a.deref

/-- `From<&str>` (strings.rs 167-171). -/
def ofStr (t : Text) : CowStr := borrowed t

/-- `From<String>` (strings.rs 173-177). -/
def ofString (t : Text) : CowStr := boxed t

/-- `From<char>` and `From<Cow<char>>` (strings.rs 179-183, 204-208). -/
def ofChar (c : Char) : CowStr := inlined (.ofChar c)

/-- `From<Cow<str>>` (strings.rs 185-192). -/
def ofCow : StdCow → CowStr
  | .borrowed t => borrowed t
  | .owned t => boxed t

/-- `From<CowStr> for Cow<str>` (strings.rs 194-202). -/
def toCow : CowStr → StdCow
  | boxed t => .owned t
  | inlined s => .owned s.deref
  | borrowed t => .borrowed t

/-- `into_string` (strings.rs 230-236). -/
def intoString : CowStr → Text
  | boxed t => t
  | borrowed t => t
  | inlined s => s.deref

end CowStr
end Adoc
