import Verif.Model.Span
/-!
# Web paths

Model of `parser/src/parser/path_resolver.rs`.
-/

namespace Adoc

/-- `str::split(c)` for a single character: always at least one piece. -/
def splitChar (c : Char) : Text → List Text
  | [] => [[]]
  | d :: ds =>
    if d = c then [] :: splitChar c ds
    else match splitChar c ds with
      | p :: ps => (d :: p) :: ps
      | [] => [[d]]

/-- `[_].join(sep)` for a one-character separator. -/
def joinChar (c : Char) : List Text → Text
  | [] => []
  | [p] => p
  | p :: q :: ps => p ++ c :: joinChar c (q :: ps)

/-- `str::replace(c, with)` for a single character. -/
def replaceChar (c : Char) (w : Text) (t : Text) : Text := t.flatMap fun d => if d = c then w else [d]

namespace Path

/-- `posixify` (parser/path_resolver.rs 42-48); `sep` is `file_separator`. -/
def posixify (sep : Char) (path : Text) : Text :=
  if sep = '\\' ∧ path.contains '\\' then replaceChar '\\' ['/'] path else path

/-- `is_web_root` (parser/path_resolver.rs 195-197). -/
def isWebRoot (path : Text) : Bool := startsWith path ['/']

/-- The character class inside `URI_SNIFF` (parser/path_resolver.rs 229-234). -/
def schemeChar [Uni] (c : Char) : Bool :=
  Uni.isAlphabetic c || Uni.isNumeric c || c == '.' || c == '+' || c == '-'

/-- Length in characters of the match of `URI_SNIFF` (parser/path_resolver.rs 221-242) at the start of the text.
The class does not contain the colon, so the greedy run cannot be cut short by backtracking. -/
def uriSniff [Uni] : Text → Option Nat
  | [] => none
  | c :: cs =>
    if Uni.isAlphabetic c then
      let n := Span.prefLen schemeChar cs
      if n = 0 then none
      else match cs.drop n with
        | ':' :: '/' :: '/' :: _ => some (1 + n + 3)
        | ':' :: '/' :: _ => some (1 + n + 2)
        | ':' :: _ => some (1 + n + 1)
        | _ => none
    else none

/-- `extract_uri_prefix` (parser/path_resolver.rs 207-218): (rest, prefix).  The check `s.contains(':')` is
implied by a match of `URI_SNIFF`. -/
def extractUriPrefix [Uni] (s : Text) : Text × Option Text :=
  if s.contains ':' then
    match uriSniff s with
    | some n => (s.drop n, some (s.take n))
    | none => (s, none)
  else (s, none)

/-- `partition_path` (parser/path_resolver.rs 124-179) for web paths; the other branch is `todo!()` and is never
called. -/
def partitionPath (sep : Char) (path : Text) : List Text × Option Text :=
  let posix := posixify sep path
  let root : Option Text :=
    if isWebRoot posix then some ['/']
    else if startsWith posix ['.', '/'] then some ['.', '/']
    else none
  let afterRoot := match root with
    | some r => posix.drop r.length
    | none => posix
  ((splitChar '/' afterRoot).filter (fun s => s != ['.']), root)

/-- The body of the loop of `web_path` (parser/path_resolver.rs 82-100).  `acc` holds `resolved_segments`
reversed. -/
def resolveStep (root : Option Text) (acc : List Text) (seg : Text) : List Text :=
  if seg = ['.', '.'] then
    match acc with
    | [] =>
      match root with
      | some r => if r ≠ ['.', '/'] then [] else [seg]
      | none => [seg]
    | last :: rest => if last = ['.', '.'] then seg :: last :: rest else rest
  else seg :: acc

/-- The loop of `web_path` (parser/path_resolver.rs 79-101). -/
def resolve (root : Option Text) (acc segs : List Text) : List Text :=
  (segs.foldl (resolveStep root) acc).reverse

/-- `join_path` (parser/path_resolver.rs 185-191). -/
def joinPath (segs : List Text) (root : Option Text) : Text := root.getD [] ++ joinChar '/' segs

/-- `web_path` (parser/path_resolver.rs 60-111). -/
def webPath [Uni] (sep : Char) (target : Text) (start : Option Text) : Text :=
  let target := posixify sep target
  let start := start.map (posixify sep)
  let (target, uriPrefix) : Text × Option Text :=
    match start with
    | none => (target, none)
    | some s =>
      if isWebRoot target then (target, none)
      else extractUriPrefix (s ++ (if endsWith s ['/'] then [] else ['/']) ++ target)
  let (segs, root) := partitionPath sep target
  uriPrefix.getD [] ++ replaceChar ' ' "%20".toList (joinPath (resolve root [] segs) root)

end Path
end Adoc
