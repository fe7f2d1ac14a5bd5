import Verif.Model.Span
import Verif.Model.Res
/-!
# Regular expressions

The crate relies on the `regex` crate, which is not part of the repository.  Its documented behaviour
(leftmost-first, non-overlapping matches, greedy and lazy repetition, captures) is modelled by a backtracking matcher.
`Verif.Lemmas.Regex` relates the matcher to a declarative semantics.
-/

namespace Adoc

/-- Regular expressions, as far as the crate uses them. -/
inductive Re where
  | eps
  | cls (p : Char → Bool)
  | seq (a b : Re)
  | alt (a b : Re)
  | star (greedy : Bool) (r : Re)
  | cap (n : Nat) (r : Re)
  /-- `^` without the `m` flag -/
  | bot
  /-- `$` without the `m` flag -/
  | eot
  /-- `^` with the `m` flag -/
  | bol
  /-- `$` with the `m` flag -/
  | eol
  /-- `\b` -/
  | wb
  /-- `\b{start-half}`: no word character on the left -/
  | startHalf
  /-- `\b{end-half}`: no word character on the right -/
  | endHalf

/-- A position in the haystack: the character in front, the text behind, and the captures so far (latest first). -/
structure RS where
  prev : Option Char
  rest : Text
  caps : List (Nat × Text)
deriving DecidableEq, Repr

namespace Re

/-- The body of a repetition, as a matcher in continuation-passing style. -/
abbrev Matcher := (RS → Option RS) → RS → Option RS

/-- Repetition.  An iteration that consumes nothing is not counted, so the length of the rest bounds the number of
iterations. -/
def starM (greedy : Bool) (body : Matcher) : Nat → Matcher
  | 0, k, s => k s
  | n + 1, k, s =>
    let more := fun (_ : Unit) =>
      body (fun s' => if s'.rest.length < s.rest.length then starM greedy body n k s' else none) s
    if greedy then
      match more () with
      | some r => some r
      | none => k s
    else
      match k s with
      | some r => some r
      | none => more ()

def wordAt [Uni] : Option Char → Bool
  | some c => Uni.isWord c
  | none => false

/-- Backtracking search in priority order. -/
def m [Uni] : Re → Matcher
  | eps, k, s => k s
  | cls p, k, s =>
    match s.rest with
    | c :: cs => if p c then k { s with prev := some c, rest := cs } else none
    | [] => none
  | seq a b, k, s => m a (m b k) s
  | alt a b, k, s =>
    match m a k s with
    | some r => some r
    | none => m b k s
  | star g r, k, s => starM g (m r) s.rest.length k s
  | cap n r, k, s =>
    m r (fun s' => k { s' with caps := (n, s.rest.take (s.rest.length - s'.rest.length)) :: s'.caps }) s
  | bot, k, s => if s.prev = none then k s else none
  | eot, k, s => if s.rest = [] then k s else none
  | bol, k, s => if s.prev = none ∨ s.prev = some '\n' then k s else none
  | eol, k, s => if s.rest = [] ∨ s.rest.head? = some '\n' then k s else none
  | wb, k, s => if wordAt s.prev != wordAt s.rest.head? then k s else none
  | startHalf, k, s => if !wordAt s.prev then k s else none
  | endHalf, k, s => if !wordAt s.rest.head? then k s else none

/-! Abbreviations -/

def chr (c : Char) : Re := cls (· == c)

def lit : List Char → Re
  | [] => eps
  | [c] => chr c
  | c :: cs => seq (chr c) (lit cs)

/-- `r?` -/
def opt (r : Re) : Re := alt r eps

/-- `r??` -/
def optLazy (r : Re) : Re := alt eps r

/-- `r+` -/
def plus (r : Re) : Re := seq r (star true r)

/-- `r+?` -/
def plusLazy (r : Re) : Re := seq r (star false r)

/-- `r{0,n}` -/
def upTo (r : Re) : Nat → Re
  | 0 => eps
  | n + 1 => opt (seq r (upTo r n))

/-- Concatenation of several parts. -/
def cat : List Re → Re
  | [] => eps
  | [r] => r
  | r :: rs => seq r (cat rs)

/-- Alternation of several parts, in order of priority. -/
def oneOf : List Re → Re
  | [] => cls (fun _ => false)
  | [r] => r
  | r :: rs => alt r (oneOf rs)

/-- `.` with the `s` flag -/
def anyChar : Re := cls (fun _ => true)

/-- `.` without the `s` flag -/
def dot : Re := cls (· != '\n')

end Re

/-- A match, as passed to a replacer (`regex::Captures`). -/
structure Match where
  text : Text
  caps : List (Nat × Text)
deriving DecidableEq, Repr

namespace Match

/-- `caps.get(n)` -/
def get (mt : Match) (n : Nat) : Option Text :=
  if n = 0 then some mt.text else (mt.caps.find? (fun p => p.1 == n)).map Prod.snd

/-- `caps[n]`; panics when the group did not take part in the match. -/
def at! (mt : Match) (n : Nat) : Res Text := Res.ofOption (mt.get n)

end Match

namespace Re
variable [Uni]

/-- The match starting exactly here: the match and the position after it. -/
def matchAt (re : Re) (prev : Option Char) (rest : Text) : Option (Match × RS) :=
  (m re some ⟨prev, rest, []⟩).map fun s =>
    (⟨rest.take (rest.length - s.rest.length), s.caps⟩, s)

/-- Leftmost match: the text in front of it, the match, and the position after it. -/
def search (re : Re) (prev : Option Char) : Text → Option (Text × Match × RS)
  | [] => (matchAt re prev []).map fun r => ([], r.1, r.2)
  | c :: cs =>
    match matchAt re prev (c :: cs) with
    | some r => some ([], r.1, r.2)
    | none => (search re (some c) cs).map fun r => (c :: r.1, r.2.1, r.2.2)

/-- `Regex::is_match`. -/
def isMatch (re : Re) (t : Text) : Bool := (search re none t).isSome

/-- `Regex::captures`. -/
def captures (re : Re) (t : Text) : Option Match := (search re none t).map fun r => r.2.1

/-- A replacer with state: it sees the match and what has been written so far, and returns what is written then. -/
abbrev Replacer (σ : Type) := σ → Match → Text → Res (σ × Text)

/-- The loop of `Regex::replace_all`.  `emptyOk` is false right after a match, where an empty match is skipped. -/
def replLoop {σ : Type} (re : Re) (rep : Replacer σ) : Nat → σ → Option Char → Text → Bool → Text → Res (σ × Text)
  | 0, _, _, _, _, _ => .error .fuel
  | fuel + 1, st, prev, rest, emptyOk, dest =>
    let advance := fun (p : σ × Text) =>
      match rest with
      | [] => .ok p
      | c :: cs => replLoop re rep fuel p.1 (some c) cs true (p.2 ++ [c])
    match matchAt re prev rest with
    | some (mt, s') =>
      if mt.text ≠ [] then
        match rep st mt dest with
        | .ok (st', dest') => replLoop re rep fuel st' s'.prev s'.rest false dest'
        | .error e => .error e
      else if emptyOk then
        match rep st mt dest with
        | .ok p => advance p
        | .error e => .error e
      else advance (st, dest)
    | none => advance (st, dest)

/-- `Regex::replace_all` with a stateful replacer.  (The `Cow` result only says whether anything matched.) -/
def replaceAllS {σ : Type} (re : Re) (rep : Replacer σ) (st : σ) (t : Text) : Res (σ × Text) :=
  replLoop re rep (t.length + 1) st none t true []

/-- `Regex::replace_all` with a stateless replacer that appends to what has been written. -/
def replaceAll (re : Re) (rep : Match → Res Text) (t : Text) : Res Text :=
  (replaceAllS re (fun (_ : Unit) mt dest => (rep mt).map fun x => ((), dest ++ x)) () t).map Prod.snd

end Re
end Adoc
