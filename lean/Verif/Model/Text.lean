/-!
# Text

Rust `&str` / `String` values are modelled as lists of Unicode scalar values.  Byte lengths and byte indices
(everything in the crate is indexed by bytes) are recovered from the UTF-8 size of each character.
-/

namespace Adoc

/-- A Rust `str`: a sequence of Unicode scalar values. -/
abbrev Text := List Char

/-- `str::len`: length in bytes. -/
def blen : Text → Nat
  | [] => 0
  | c :: cs => c.utf8Size + blen cs

/-- `str::split_at_checked(n)`: split at byte index `n`; `none` when `n` is past the end or not on a
character boundary (for `&s[..n]` / `&s[n..]` Rust panics exactly there). -/
def splitB : Text → Nat → Option (Text × Text)
  | t, 0 => some ([], t)
  | [], _ + 1 => none
  | c :: cs, n + 1 =>
    if c.utf8Size ≤ n + 1 then
      match splitB cs (n + 1 - c.utf8Size) with
      | some (a, b) => some (c :: a, b)
      | none => none
    else none

/-- `&s[a..b]`: byte range slicing together with the text skipped in front of it; `none` = panic.
(`a > b` is a panic as well.) -/
def sliceB (t : Text) (a b : Nat) : Option (Text × Text) :=
  if a ≤ b then
    match splitB t a with
    | some (pre, rest) =>
      match splitB rest (b - a) with
      | some (mid, _) => some (pre, mid)
      | none => none
    | none => none
  else none

/-- `str::starts_with(prefix)`. -/
def startsWith (t pre : Text) : Bool := pre.isPrefixOf t

/-- `str::ends_with(suffix)`. -/
def endsWith (t suf : Text) : Bool := suf.isSuffixOf t

/-- `str::contains(needle)` for a string needle. -/
def containsSub : Text → Text → Bool
  | [], n => n.isEmpty
  | c :: cs, n => n.isPrefixOf (c :: cs) || containsSub cs n

/-- `str::replace(needle, w)` for a non-empty needle: leftmost non-overlapping occurrences, `skip` characters of the
occurrence just replaced still to be passed over. -/
def replaceStrGo (needle w : Text) : Nat → Text → Text
  | _, [] => []
  | k + 1, _ :: cs => replaceStrGo needle w k cs
  | 0, c :: cs =>
    if needle.isPrefixOf (c :: cs) then w ++ replaceStrGo needle w (needle.length - 1) cs
    else c :: replaceStrGo needle w 0 cs

/-- `str::replace(needle, w)`. -/
def replaceStr (t needle w : Text) : Text := replaceStrGo needle w 0 t

/-- `[String]::join(sep)`. -/
def joinWith (sep : Text) : List Text → Text
  | [] => []
  | [t] => t
  | t :: ts => t ++ sep ++ joinWith sep ts

/-- The Unicode property `White_Space` (`char::is_whitespace`): the complete list of code points. -/
def isWhite (c : Char) : Bool :=
  (9 ≤ c.toNat && c.toNat ≤ 13) || c.toNat == 32 || c.toNat == 0x85 || c.toNat == 0xA0 ||
  c.toNat == 0x1680 || (0x2000 ≤ c.toNat && c.toNat ≤ 0x200A) || c.toNat == 0x2028 ||
  c.toNat == 0x2029 || c.toNat == 0x202F || c.toNat == 0x205F || c.toNat == 0x3000

/-- Remove the longest suffix whose characters satisfy `p` (`str::trim_end_matches`). -/
def trimEndP (p : Char → Bool) (t : Text) : Text := (t.reverse.dropWhile p).reverse

/-- `str::trim_end`. -/
def trimEnd (t : Text) : Text := trimEndP isWhite t

/-- `str::trim_start`. -/
def trimStart (t : Text) : Text := t.dropWhile isWhite

/-- `str::trim`. -/
def trim (t : Text) : Text := trimEnd (trimStart t)

/-- `char::is_ascii_alphabetic`. -/
def isAsciiAlpha (c : Char) : Bool :=
  ('a'.toNat ≤ c.toNat && c.toNat ≤ 'z'.toNat) || ('A'.toNat ≤ c.toNat && c.toNat ≤ 'Z'.toNat)

/-- `char::is_ascii_digit`. -/
def isAsciiDigit (c : Char) : Bool := '0'.toNat ≤ c.toNat && c.toNat ≤ '9'.toNat

/-- `char::is_ascii_alphanumeric`. -/
def isAsciiAlnum (c : Char) : Bool := isAsciiAlpha c || isAsciiDigit c

end Adoc
