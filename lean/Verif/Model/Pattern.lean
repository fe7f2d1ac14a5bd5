import Verif.Model.Regex
/-!
# The notation of regular expressions

The patterns of the crate are strings in the notation of the `regex` crate.  This file reads that notation, as far as the
crate uses it, so that the expressions of the model can be compared with the strings in the source
(`Verif.Model.PatternTexts`, `Verif.Props.Pattern`).  It follows the documentation of the `regex` crate (section
"Syntax"); whatever the crate does not use is rejected.
-/

namespace Adoc.Pattern

/-- The named sets of characters: `\d`, `\s`, `\w`, `\p{L}`, `\p{N}`, `\p{Alphabetic}`, `[:alnum:]`, `[:alpha:]`. -/
inductive Named where
  | digit | space | word | letter | number | alphabetic | asciiAlnum | asciiAlpha
deriving DecidableEq, Repr

/-- An item of a character class. -/
inductive Item where
  | chr (c : Char)
  | range (lo hi : Char)
  | named (n : Named)
deriving DecidableEq, Repr

/-- The assertions: `^`, `$` (both without and with the flag `m`), `\b`, `\b{start-half}`, `\b{end-half}`. -/
inductive Assertion where
  | bot | eot | bol | eol | wb | startHalf | endHalf
deriving DecidableEq, Repr

/-- A pattern. -/
inductive Pat where
  | empty
  | lit (c : Char)
  /-- `.`; `nl`: it matches a newline as well -/
  | dot (nl : Bool)
  | cls (negated : Bool) (items : List Item)
  | look (a : Assertion)
  | seq (a b : Pat)
  | alt (a b : Pat)
  /-- between `min` and `max` times (`none`: any number) -/
  | rep (min : Nat) (max : Option Nat) (greedy : Bool) (p : Pat)
  | group (n : Nat) (p : Pat)
deriving DecidableEq, Repr

/-- The flags `x` (white space and comments are ignored), `s` (`.` matches a newline), `m` (`^` and `$` match at lines). -/
structure Flags where
  x : Bool := false
  s : Bool := false
  m : Bool := false
deriving DecidableEq, Repr

/-- White space and comments in front of a token, which are ignored with the flag `x`. -/
def skipSpace (comment : Bool) : Text → Text
  | [] => []
  | c :: cs =>
    if comment then skipSpace (c != '\n') cs
    else if isWhite c then skipSpace false cs
    else if c == '#' then skipSpace true cs
    else c :: cs

def skip (f : Flags) (t : Text) : Text := if f.x then skipSpace false t else t

/-- The sets that can be named with `\p{…}`, as far as the crate uses them. -/
def property (name : Text) : Option Named :=
  if name = "L".toList then some .letter
  else if name = "N".toList ∨ name = "Number".toList then some .number
  else if name = "Nd".toList ∨ name = "digit".toList then some .digit
  else if name = "Alphabetic".toList ∨ name = "alpha".toList then some .alphabetic
  else none

/-- What follows a backslash, inside and outside of a class. -/
def escaped : Text → Option (Item × Text)
  | 'd' :: t => some (.named .digit, t)
  | 's' :: t => some (.named .space, t)
  | 'w' :: t => some (.named .word, t)
  | 'n' :: t => some (.chr '\n', t)
  | 't' :: t => some (.chr '\t', t)
  | 'p' :: '{' :: t =>
    match property (t.takeWhile (· != '}')), t.dropWhile (· != '}') with
    | some n, '}' :: t => some (.named n, t)
    | _, _ => none
  | c :: t => if isAsciiAlnum c then none else some (.chr c, t)
  | [] => none

/-- One item of a class, without the second half of a range. -/
def classAtom : Text → Option (Item × Text)
  | '[' :: ':' :: 'a' :: 'l' :: 'n' :: 'u' :: 'm' :: ':' :: ']' :: t => some (.named .asciiAlnum, t)
  | '[' :: ':' :: 'a' :: 'l' :: 'p' :: 'h' :: 'a' :: ':' :: ']' :: t => some (.named .asciiAlpha, t)
  | '[' :: _ => none
  | '\\' :: t => escaped t
  | '-' :: ']' :: t => some (.chr '-', ']' :: t)
  | '-' :: _ => none
  | '&' :: '&' :: _ => none
  | '~' :: '~' :: _ => none
  | c :: t => some (.chr c, t)
  | [] => none

/-- A class behind its opening bracket: the items and the text behind the closing bracket. -/
def classItems (f : Flags) : Nat → Text → Option (List Item × Text)
  | 0, _ => none
  | n + 1, t =>
    match skip f t with
    | ']' :: t => some ([], t)
    | t =>
      match classAtom t with
      | some (.chr lo, '-' :: hi :: t) =>
        if hi = ']' then (classItems f n ('-' :: hi :: t)).map fun r => (.chr lo :: r.1, r.2)
        else if hi = '-' ∨ hi = '\\' ∨ hi = '[' then none
        else (classItems f n t).map fun r => (.range lo hi :: r.1, r.2)
      | some (i, t) => (classItems f n t).map fun r => (i :: r.1, r.2)
      | none => none

/-- A number in decimal notation and the text behind it. -/
def number (t : Text) : Option (Nat × Text) :=
  let d := t.takeWhile isAsciiDigit
  if d = [] then none
  else some (d.foldl (fun n c => n * 10 + (c.toNat - 48)) 0, t.dropWhile isAsciiDigit)

/-- `?` behind a repetition makes it lazy. -/
def lazily (min : Nat) (max : Option Nat) (p : Pat) : Text → Pat × Text
  | '?' :: t => (.rep min max false p, t)
  | t => (.rep min max true p, t)

/-- The repetition behind an expression, if there is one. -/
def repetition (p : Pat) : Text → Option (Pat × Text)
  | '*' :: t => some (lazily 0 none p t)
  | '+' :: t => some (lazily 1 none p t)
  | '?' :: t => some (lazily 0 (some 1) p t)
  | '{' :: t =>
    match number t with
    | some (lo, ',' :: t) =>
      match number t with
      | some (hi, '}' :: t) => if lo ≤ hi then some (lazily lo (some hi) p t) else none
      | _ => none
    | some (n, '}' :: t) => some (lazily n (some n) p t)
    | _ => none
  | t => some (p, t)

/-- Putting an expression in front of others. -/
def cons (p : Pat) : Pat → Pat
  | .empty => p
  | q => .seq p q

mutual

/-- Alternatives up to a closing parenthesis or the end; `n` is the number of the next group. -/
def alternatives (f : Flags) : Nat → Nat → Text → Option (Pat × Nat × Text)
  | 0, _, _ => none
  | k + 1, n, t =>
    match sequence f k n t with
    | some (p, n, '|' :: t) =>
      match alternatives f k n t with
      | some (q, n, t) => some (.alt p q, n, t)
      | none => none
    | r => r

/-- Expressions in a row up to a bar, a closing parenthesis or the end. -/
def sequence (f : Flags) : Nat → Nat → Text → Option (Pat × Nat × Text)
  | 0, _, _ => none
  | k + 1, n, t =>
    match skip f t with
    | [] => some (.empty, n, [])
    | '|' :: t => some (.empty, n, '|' :: t)
    | ')' :: t => some (.empty, n, ')' :: t)
    | t =>
      match atom f k n t with
      | some (p, n, t) =>
        match repetition p (skip f t) with
        | some (p, t) =>
          match sequence f k n t with
          | some (q, n, t) => some (cons p q, n, t)
          | none => none
        | none => none
      | none => none

/-- One expression without its repetition. -/
def atom (f : Flags) : Nat → Nat → Text → Option (Pat × Nat × Text)
  | 0, _, _ => none
  | k + 1, n, t =>
    match t with
    | '(' :: '?' :: ':' :: t =>
      match alternatives f k n t with
      | some (p, n, ')' :: t) => some (p, n, t)
      | _ => none
    | '(' :: '?' :: _ => none
    | '(' :: t =>
      match alternatives f k (n + 1) t with
      | some (p, n', ')' :: t) => some (.group n p, n', t)
      | _ => none
    | '[' :: '^' :: t => (classItems f k t).map fun r => (.cls true r.1, n, r.2)
    | '[' :: t => (classItems f k t).map fun r => (.cls false r.1, n, r.2)
    | '.' :: t => some (.dot f.s, n, t)
    | '^' :: t => some (.look (if f.m then .bol else .bot), n, t)
    | '$' :: t => some (.look (if f.m then .eol else .eot), n, t)
    | '\\' :: 'A' :: t => some (.look .bot, n, t)
    | '\\' :: 'S' :: t => some (.cls true [.named .space], n, t)
    | '\\' :: 'b' :: t =>
      if startsWith t "{start-half}".toList then some (.look .startHalf, n, t.drop 12)
      else if startsWith t "{end-half}".toList then some (.look .endHalf, n, t.drop 10)
      else if startsWith t ['{'] then none
      else some (.look .wb, n, t)
    | '\\' :: t =>
      match escaped t with
      | some (.chr c, t) => some (.lit c, n, t)
      | some (i, t) => some (.cls false [i], n, t)
      | none => none
    | c :: t => if c = '*' ∨ c = '+' ∨ c = '?' ∨ c = '{' then none else some (.lit c, n, t)
    | [] => none

end

/-- The flags in front of a pattern, and the pattern behind them. -/
def flags (f : Flags) : Text → Option (Flags × Text)
  | 'x' :: t => flags { f with x := true } t
  | 's' :: t => flags { f with s := true } t
  | 'm' :: t => flags { f with m := true } t
  | ')' :: t => some (f, t)
  | _ => none

/-- Reading a pattern: the flags at its beginning apply to all of it. -/
def read (f : Flags) (t : Text) : Option Pat :=
  let ft := match t with
    | '(' :: '?' :: t' => (flags f t').getD (f, t)
    | t => (f, t)
  match alternatives ft.1 (2 * ft.2.length + 3) 1 ft.2 with
  | some (p, _, []) => some p
  | _ => none

/-- The text of a pattern given line by line. -/
def ofLines (ls : List String) : Text := joinWith ['\n'] (ls.map String.toList)

/-! ## Meaning -/

/-- Membership in a named set. -/
def Named.mem [Uni] : Named → Char → Bool
  | .digit, c => Uni.isNd c
  | .space, c => isWhite c
  | .word, c => Uni.isWord c
  | .letter, c => Uni.isLetter c
  | .number, c => Uni.isNumeric c
  | .alphabetic, c => Uni.isAlphabetic c
  | .asciiAlnum, c => isAsciiAlnum c
  | .asciiAlpha, c => isAsciiAlpha c

/-- Membership in an item of a class. -/
def Item.mem [Uni] : Item → Char → Bool
  | .chr d, c => c == d
  | .range lo hi, c => lo.toNat ≤ c.toNat && c.toNat ≤ hi.toNat
  | .named n, c => n.mem c

def Assertion.toRe : Assertion → Re
  | .bot => .bot
  | .eot => .eot
  | .bol => .bol
  | .eol => .eol
  | .wb => .wb
  | .startHalf => .startHalf
  | .endHalf => .endHalf

/-- `r` up to `n` times. -/
def atMost (greedy : Bool) (r : Re) : Nat → Re
  | 0 => .eps
  | n + 1 => if greedy then .alt (.seq r (atMost greedy r n)) .eps else .alt .eps (.seq r (atMost greedy r n))

/-- `r` exactly `n` times, then `k`. -/
def times (r : Re) (k : Re) : Nat → Re
  | 0 => k
  | n + 1 => .seq r (times r k n)

/-- The expression a pattern denotes. -/
def Pat.toRe [Uni] : Pat → Re
  | .empty => .eps
  | .lit c => .cls (· == c)
  | .dot nl => .cls fun c => nl || c != '\n'
  | .cls negated items => .cls fun c => negated != items.any (fun i => i.mem c)
  | .look a => a.toRe
  | .seq a b => .seq a.toRe b.toRe
  | .alt a b => .alt a.toRe b.toRe
  | .rep lo none g p => times p.toRe (.star g p.toRe) lo
  | .rep lo (some hi) g p => times p.toRe (atMost g p.toRe (hi - lo)) lo
  | .group n p => .cap n p.toRe

end Adoc.Pattern
