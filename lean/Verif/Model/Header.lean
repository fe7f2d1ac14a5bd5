import Verif.Model.Attribute
/-!
# The document header

Model of `parser/src/document/author.rs`, `author_line.rs`, `revision_line.rs` and `header.rs`.  The header substitutions
are a parameter `hdr`, as in `Verif.Model.Attribute`; here they also get the attributes known so far.
-/

namespace Adoc
open Re

/-- The header substitutions, given the attributes: `SubstitutionGroup::Header.apply`. -/
abbrev HeaderSubs := AttrStore → Text → Res Text

/-! ## Authors -/

/-- `Author` (document/author.rs 20-26). -/
structure Author where
  name : Text
  firstname : Text
  middlename : Option Text
  lastname : Option Text
  email : Option Text
deriving DecidableEq, Repr

/-- `source.matches(c).count()`. -/
def countChar (c : Char) (t : Text) : Nat := t.count c

/-- The text is one attribute reference (document/author.rs 39-41 and 280-282). -/
def isSingleAttribute (t : Text) : Bool :=
  startsWith (trim t) ['{'] && endsWith (trim t) ['}'] && countChar '{' t == 1

/-- `replace_underscores_with_spaces` (document/author.rs 238-240). -/
def underscoresToSpaces (t : Text) : Text := replaceChar '_' [' '] t

/-- The first character of a name in `AUTHOR` (document/author.rs 249). -/
def nameStart [Uni] (c : Char) : Bool :=
  isAsciiAlnum c || c == '_' || Uni.isLetter c || Uni.isNumeric c || c == '&' || c == '#' || c == ';'

/-- The other characters of a name in `AUTHOR` (document/author.rs 249). -/
def nameRest [Uni] (c : Char) : Bool := nameStart c || c == '-' || c == '\'' || c == '.'

/-- One name of `AUTHOR` with its group (document/author.rs 249). -/
def nameRe [Uni] (n : Nat) : Re := cap n (cat [cls nameStart, star true (cls nameRest)])

/-- `AUTHOR` (document/author.rs 242-264). -/
def authorRe [Uni] : Re :=
  cat [bot, nameRe 1, opt (cat [plus (chr ' '), nameRe 2]), opt (cat [plus (chr ' '), nameRe 3]),
    opt (cat [plus (chr ' '), chr '<', cap 4 (plus (cls (· != '>'))), chr '>']), eot]

/-- `apply_author_subs` (document/author.rs 266-299). -/
def applyAuthorSubs [Uni] (r : Renderer) (store : AttrStore) (t : Text) : Res Text := do
  let x ← applyAttributes store t
  if !isSingleAttribute t && countChar '{' t > 1 &&
      ((x.contains '<' && x.contains '>') || (x.contains '&' && !containsSub x "&amp;".toList)) then
    applySpecialCharacters r x
  else .ok x

/-- A name that is kept as a whole (document/author.rs 48-55, 137-144, 164-171). -/
def Author.single (t : Text) : Author :=
  ⟨underscoresToSpaces t, underscoresToSpaces t, none, none, none⟩

/-- The author found by `AUTHOR` (document/author.rs 59-86 and 93-121): `subs` is applied to the parts. -/
def Author.ofCaptures (subs : Text → Res Text) (source : Text) (caps : Match) : Res Author := do
  let name := underscoresToSpaces (trim (source.takeWhile (· != '<')))
  let c1 ← caps.at! 1
  let first ← subs c1
  let middle ← (caps.get 2).mapM subs
  let last ← (caps.get 3).mapM subs
  let email ← (caps.get 4).mapM subs
  let first := underscoresToSpaces first
  let middle := middle.map underscoresToSpaces
  let last := last.map underscoresToSpaces
  if middle.isSome && last.isNone then .ok ⟨name, first, none, middle, email⟩
  else .ok ⟨name, first, middle, last, email⟩

/-- HTML encoding of a name with angle brackets (document/author.rs 126-135 and 153-162). -/
def encodeName [Uni] (r : Renderer) (t : Text) : Res Text :=
  if t.contains '<' && t.contains '>' then applySpecialCharacters r t else .ok t

/-- `Author::parse` (document/author.rs 29-173). -/
def Author.parse [Uni] (r : Renderer) (store : AttrStore) (source : Text) : Res (Option Author) :=
  let source := trim source
  if source = [] then .ok none
  else if isSingleAttribute source then (applyAuthorSubs r store source).map fun x => some (.single x)
  else match captures authorRe source with
    | some caps => (Author.ofCaptures (applyAuthorSubs r store) source caps).map some
    | none =>
      if source.contains '{' then do
        let x ← applyAuthorSubs r store source
        match captures authorRe x with
        | some caps => (Author.ofCaptures .ok x caps).map some
        | none => (encodeName r x).map fun x => some (.single x)
      else (encodeName r source).map fun x => some (.single x)

/-- `Author::initials` (document/author.rs 219-226, with `first_char_or_empty_string` 229-231). -/
def Author.initials (a : Author) : Text :=
  a.firstname.take 1 ++ (a.middlename.getD []).take 1 ++ (a.lastname.getD []).take 1

/-- `str::split` with a pattern of several characters; `skip` characters of a separator are still to be dropped, `cur`
is the current piece. -/
def splitStrGo (sep : Text) : Nat → Text → Text → List Text
  | _, cur, [] => [cur]
  | skip + 1, cur, _ :: cs => splitStrGo sep skip cur cs
  | 0, cur, c :: cs =>
    if startsWith (c :: cs) sep then cur :: splitStrGo sep (sep.length - 1) [] cs
    else splitStrGo sep 0 (cur ++ [c]) cs

/-- `str::split` with a pattern of several characters. -/
def splitStr (sep t : Text) : List Text := splitStrGo sep 0 [] t

/-- The name used by `set_nth_attribute` (document/author_line.rs 49-57). -/
def nthName (name : Text) (index : Nat) : Text :=
  if index = 0 then name else name ++ ['_'] ++ decimal (index + 1)

/-- `set_nth_attribute` (document/author_line.rs 49-57). -/
def setNthAttribute [Uni] (store : AttrStore) (name : Text) (index : Nat) (value : Text) : AttrStore :=
  store.setByValueFromHeader (nthName name index) value

/-- `set_nth_attribute` for a value that may be missing (document/author_line.rs 27-38). -/
def setNthOptional [Uni] (store : AttrStore) (name : Text) (index : Nat) : Option Text → AttrStore
  | some v => setNthAttribute store name index v
  | none => store

/-- The body of the loop over the authors (document/author_line.rs 23-37). -/
def setAuthor [Uni] (store : AttrStore) (index : Nat) (a : Author) : AttrStore :=
  let store := setNthAttribute store "author".toList index a.name
  let store := setNthAttribute store "authorinitials".toList index a.initials
  let store := setNthAttribute store "firstname".toList index a.firstname
  let store := setNthOptional store "middlename".toList index a.middlename
  let store := setNthOptional store "lastname".toList index a.lastname
  setNthOptional store "email".toList index a.email

/-- The loop over the authors (document/author_line.rs 22-38). -/
def setAuthors [Uni] : AttrStore → Nat → List Author → AttrStore
  | store, _, [] => store
  | store, index, a :: as => setAuthors (setAuthor store index a) (index + 1) as

/-- `filter_map(Author::parse)` (document/author_line.rs 16-20). -/
def parseAuthors [Uni] (r : Renderer) (store : AttrStore) : List Text → Res (List Author)
  | [] => .ok []
  | t :: ts => do
    let a ← Author.parse r store t
    let as ← parseAuthors r store ts
    .ok (a.toList ++ as)

/-- `AuthorLine` (document/author_line.rs 9-12). -/
structure AuthorLine where
  authors : List Author
  source : Span
deriving DecidableEq, Repr

/-- `AuthorLine::parse` (document/author_line.rs 15-41). -/
def AuthorLine.parse [Uni] (r : Renderer) (store : AttrStore) (source : Span) : Res (AuthorLine × AttrStore) := do
  let authors ← parseAuthors r store (splitStr "; ".toList source.data)
  .ok (⟨authors, source⟩, setAuthors store 0 authors)

/-! ## The revision line -/

/-- `STANDALONE_REVISION` (document/revision_line.rs 127-130). -/
def standaloneRevisionRe [Uni] : Re := cat [bot, chr 'v', cls Uni.isNd]

/-- `NON_NUMERIC_PREFIX` (document/revision_line.rs 132-135). -/
def nonNumericPrefixRe : Re := cat [bot, star true (cls fun c => !isAsciiDigit c), cap 1 (star true dot), eot]

/-- `strip_non_numeric_prefix` (document/revision_line.rs 120-125). -/
def stripNonNumericPrefix [Uni] (t : Text) : Text :=
  match (captures nonNumericPrefixRe t).bind (fun c => c.get 1) with
  | some x => x
  | none => t

/-- `str::split_once` with a character. -/
def splitOnce (c : Char) : Text → Option (Text × Text)
  | [] => none
  | x :: xs => if x = c then some ([], xs) else (splitOnce c xs).map fun p => (x :: p.1, p.2)

/-- The pieces of a revision line: number, date and remark as written (document/revision_line.rs 24-48). -/
def revisionParts [Uni] (t : Text) : Option Text × Text × Option Text :=
  let (left, remark) := match splitOnce ':' t with
    | some (l, r) => (l, some (trim r))
    | none => (t, none)
  match splitOnce ',' left with
  | some (rev, date) => (some (stripNonNumericPrefix (trim rev)), trim date, remark)
  | none =>
    if isMatch standaloneRevisionRe (trim left) then (some (stripNonNumericPrefix (trim left)), [], remark)
    else (none, trim left, remark)

/-- `RevisionLine` (document/revision_line.rs 15-20). -/
structure RevisionLine where
  revnumber : Option Text
  revdate : Text
  revremark : Option Text
  source : Span
deriving DecidableEq, Repr

/-- The attributes a revision line sets (document/revision_line.rs 50-58). -/
def setRevision [Uni] (store : AttrStore) (p : Option Text × Text × Option Text) : AttrStore :=
  let store := match p.1 with
    | some n => store.setByValueFromHeader "revnumber".toList n
    | none => store
  let store := store.setByValueFromHeader "revdate".toList p.2.1
  match p.2.2 with
  | some n => store.setByValueFromHeader "revremark".toList n
  | none => store

/-- `RevisionLine::parse` (document/revision_line.rs 23-66). -/
def RevisionLine.parse [Uni] (hdr : HeaderSubs) (store : AttrStore) (source : Span) : Res (RevisionLine × AttrStore) := do
  let p := revisionParts source.data
  let store := setRevision store p
  let number ← p.1.mapM (hdr store)
  let date ← hdr store p.2.1
  let remark ← p.2.2.mapM (hdr store)
  .ok (⟨number, date, remark, source⟩, store)

/-! ## The header -/

/-- `Header` (document/header.rs 16-24). -/
structure Header where
  titleSource : Option Span
  title : Option Text
  attributes : List Attribute
  authorLine : Option AuthorLine
  revisionLine : Option RevisionLine
  comments : List Span
  source : Span
deriving DecidableEq, Repr

/-- The variables of the loop of `Header::parse` (document/header.rs 33-39). -/
structure HState where
  titleSource : Option Span := none
  title : Option Text := none
  attributes : List Attribute := []
  authorLine : Option AuthorLine := none
  revisionLine : Option RevisionLine := none
  comments : List Span := []
  warnings : List Warning := []
  store : AttrStore
deriving DecidableEq, Repr

/-- `eq_ignore_ascii_case`. -/
def eqIgnoreAsciiCase (a b : Text) : Bool := a.map Char.toLower == b.map Char.toLower

/-- The attributes derived from an `author` entry (document/header.rs 61-74). -/
def setAuthorEntry [Uni] (store : AttrStore) (a : Author) : AttrStore :=
  let store := store.setByValueFromHeader "firstname".toList a.firstname
  let store := match a.middlename with
    | some v => store.setByValueFromHeader "middlename".toList v
    | none => store
  let store := match a.lastname with
    | some v => store.setByValueFromHeader "lastname".toList v
    | none => store
  let store := store.setByValueFromHeader "authorinitials".toList a.initials
  match a.email with
  | some v => store.setByValueFromHeader "email".toList v
  | none => store

/-- The special handling of an `author` entry (document/header.rs 58-75). -/
def authorEntry [Uni] (r : Renderer) (store : AttrStore) (attr : Attribute) : Res AttrStore :=
  if eqIgnoreAsciiCase attr.name.data "author".toList then
    match attr.valueSource with
    | some raw => do
      match ← Author.parse r store raw.data with
      | some a => .ok (setAuthorEntry store a)
      | none => .ok store
    | none => .ok store
  else .ok store

/-- The entry recognised on a line (document/header.rs 53-55). -/
def headerEntryAt (hdr : HeaderSubs) (store : AttrStore) (source : Span) (line : Text) : Res (Option (MI Attribute)) :=
  if startsWith line [':'] then Attribute.parse (hdr store) source else .ok none

/-- One iteration of the loop of `Header::parse` (document/header.rs 43-101): the new state and text, and whether the loop
goes on. -/
def headerStep [Uni] (hdr : HeaderSubs) (r : Renderer) (source : Span) (st : HState) : Res (HState × Span × Bool) :=
  let mi := source.takeNormalizedLine
  let line := mi.item
  if line.data = [] then
    if st.title.isSome then .ok (st, source, false) else .ok (st, mi.after, true)
  else if startsWith line.data ['/', '/'] && !startsWith line.data ['/', '/', '/'] then
    .ok ({ st with comments := st.comments ++ [line] }, mi.after, true)
  else do
    match ← headerEntryAt hdr st.store source line.data with
    | some attr => do
      let store ← authorEntry r st.store attr.item
      let (store, w) := store.setFromHeader attr.item
      .ok ({ st with store := store, warnings := st.warnings ++ w.toList, attributes := st.attributes ++ [attr.item] },
        attr.after, true)
    | none =>
      if st.title.isNone && startsWith line.data ['=', ' '] then do
        let titleSpan := (line.discard 2).discardWhitespace
        let title ← hdr st.store titleSpan.data
        .ok ({ st with store := st.store.setByValueFromHeader "doctitle".toList title, title := some title,
                       titleSource := some titleSpan }, mi.after, true)
      else if st.title.isSome && st.authorLine.isNone then do
        let (a, store) ← AuthorLine.parse r st.store line
        .ok ({ st with store := store, authorLine := some a }, mi.after, true)
      else if st.title.isSome && st.authorLine.isSome && st.revisionLine.isNone then do
        let (a, store) ← RevisionLine.parse hdr st.store line
        .ok ({ st with store := store, revisionLine := some a }, mi.after, true)
      else if st.title.isSome then
        .ok ({ st with warnings := st.warnings ++ [⟨line, .documentHeaderNotTerminated⟩] }, source, false)
      else .ok (st, source, false)

/-- The loop of `Header::parse` (document/header.rs 42-102).  Every iteration consumes text, so the length of the text
bounds their number (`C47_terminates`). -/
def headerLoop [Uni] (hdr : HeaderSubs) (r : Renderer) : Nat → Span → HState → Res (HState × Span)
  | 0, source, st => if source.data = [] then .ok (st, source) else .error .fuel
  | n + 1, source, st =>
    if source.data = [] then .ok (st, source)
    else do
      let (st, source, more) ← headerStep hdr r source st
      if more then headerLoop hdr r n source st else .ok (st, source)

/-- `Header::parse` (document/header.rs 27-124): the header and the text behind it, the warnings and the attributes. -/
def Header.parse [Uni] (hdr : HeaderSubs) (r : Renderer) (store : AttrStore) (source : Span) :
    Res (MI Header × List Warning × AttrStore) := do
  let original := source.discardEmptyLines
  let (st, rest) ← headerLoop hdr r source.data.length source { store := store }
  let src ← Res.ofOption (original.trimRemainder? rest)
  .ok (⟨⟨st.titleSource, st.title, st.attributes, st.authorLine, st.revisionLine, st.comments,
    src.trimTrailingWhitespace⟩, rest.discardEmptyLines⟩, st.warnings, st.store)

end Adoc
