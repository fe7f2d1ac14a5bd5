import Verif.Model.Header
import Verif.Spec.Attribute
import Verif.Spec.Path
import Verif.Spec.Preprocessor
import Verif.Spec.AttrStore
/-!
# Specification of the document header
-/

namespace Adoc.Spec

/-! ### Authors -/

/-- A character that may begin a name. -/
def NameStart [Uni] (c : Char) : Prop :=
  isAsciiAlnum c = true ∨ Uni.isLetter c = true ∨ Uni.isNumeric c = true ∨ c ∈ ['_', '&', '#', ';']

/-- A name: behind the first character also `-`, `'` and `.` may occur. -/
def NameWord [Uni] (w : Text) : Prop :=
  ∃ c cs, w = c :: cs ∧ NameStart c ∧ ∀ x ∈ cs, NameStart x ∨ x ∈ ['-', '\'', '.']

/-- What separates two names. -/
def Gap (s : Text) : Prop := s ≠ [] ∧ ∀ c ∈ s, c = ' '

/-- One to three names, and which of them is the first, middle and last name. -/
inductive AuthorNames [Uni] : Text → Text → Option Text → Option Text → Prop
  | one {a} : NameWord a → AuthorNames a a none none
  | two {a s b} : NameWord a → Gap s → NameWord b → AuthorNames (a ++ s ++ b) a none (some b)
  | three {a s b u c} : NameWord a → Gap s → NameWord b → Gap u → NameWord c →
      AuthorNames (a ++ s ++ b ++ u ++ c) a (some b) (some c)

/-- An author as written: `full` is the part with the names; the address follows in angle brackets. -/
inductive AuthorForm [Uni] : Text → Text → Text → Option Text → Option Text → Option Text → Prop
  | plain {n f m l} : AuthorNames n f m l → AuthorForm n n f m l none
  | mail {n s e f m l} : AuthorNames n f m l → Gap s → e ≠ [] → '>' ∉ e →
      AuthorForm (n ++ s ++ '<' :: e ++ ['>']) n f m l (some e)

/-- Underscores stand for spaces within a name. -/
def spaced (t : Text) : Text := t.map fun c => if c = '_' then ' ' else c

/-- The name of an attribute for the author with the given number (from 1 on). -/
def suffixed (base : Text) (n : Nat) : Text := if n = 1 then base else base ++ ['_'] ++ (toString n).toList

/-- The attributes that an author defines, with their values. -/
def authorAttrs (a : Author) : List (Text × Option Text) :=
  [("author".toList, some a.name), ("authorinitials".toList, some a.initials), ("firstname".toList, some a.firstname),
    ("middlename".toList, a.middlename), ("lastname".toList, a.lastname), ("email".toList, a.email)]

/-! ### The revision line -/

/-- `t` is split at the first `c`. -/
def SplitAt (c : Char) (t a b : Text) : Prop := t = a ++ c :: b ∧ c ∉ a

/-- `u` is `t` without white space at its ends. -/
def Trimmed (t u : Text) : Prop :=
  ∃ a b, t = a ++ u ++ b ∧ (∀ c ∈ a, isWhite c = true) ∧ (∀ c ∈ b, isWhite c = true) ∧
    (∀ c, u.head? = some c → isWhite c = false) ∧ (∀ c, u.getLast? = some c → isWhite c = false)

/-- `u` is `t` from the first (ASCII) digit on. -/
def FromDigit (t u : Text) : Prop :=
  ∃ a, t = a ++ u ∧ (∀ c ∈ a, isAsciiDigit c = false) ∧ (∀ c, u.head? = some c → isAsciiDigit c = true)

/-- The part of a revision line in front of the remark: number and date. -/
inductive RevisionLeft [Uni] : Text → Option Text → Text → Prop
  | both {t a b n' n d} : SplitAt ',' t a b → Trimmed a n' → FromDigit n' n → Trimmed b d → RevisionLeft t (some n) d
  | number {t c r n} : ',' ∉ t → Trimmed t ('v' :: c :: r) → Uni.isNd c = true → FromDigit (c :: r) n →
      RevisionLeft t (some n) []
  | date {t d} : ',' ∉ t → Trimmed t d → (∀ c r, d = 'v' :: c :: r → Uni.isNd c = false) → RevisionLeft t none d

/-- A revision line: number, date and remark. -/
inductive Revision [Uni] : Text → Option Text → Text → Option Text → Prop
  | remark {t a b n d r} : SplitAt ':' t a b → RevisionLeft a n d → Trimmed b r → Revision t n d (some r)
  | plain {t n d} : ':' ∉ t → RevisionLeft t n d → Revision t n d none

/-! ### The header -/

/-- How far the header has got: what has been seen of title, author line and revision line. -/
inductive Stage where
  | start | titled | authored | revised
deriving DecidableEq, Repr

/-- The lines of a header by their role. -/
inductive HLine where
  | blank
  | comment (text : Text)
  | entry (name : Text) (kind : EntryKind)
  | title (text : Text)
  | author (text : Text)
  | revision (text : Text)
deriving DecidableEq, Repr

/-- `l` is the first line of `t` without the spaces at its end; `rest` follows. -/
def HeadLine (t l rest : Text) : Prop := ∃ l0 sep, FirstLine t l0 sep rest ∧ StripSpaces l0 l

/-- A comment line: two slashes, but not three. -/
def IsComment (l : Text) : Prop := ∃ r, l = '/' :: '/' :: r ∧ r.head? ≠ some '/'

/-- An attribute entry (possibly on several lines) stands at the beginning of `t`; `rest` follows. -/
def HeaderEntry (t n : Text) (k : EntryKind) (rest : Text) : Prop :=
  ∃ c sep u, Extent t c sep rest ∧ StripSpaces c u ∧ Entry u n k

/-- A line that is neither empty, nor a comment, nor an attribute entry. -/
def PlainLine (t l rest : Text) : Prop :=
  HeadLine t l rest ∧ l ≠ [] ∧ ¬ IsComment l ∧ ∀ n k r, ¬ HeaderEntry t n k r

/-- One line of the header at the beginning of `t`: its role and what follows.  Empty lines are skipped in front of the
title only; comments and attribute entries may stand anywhere; title, author line and revision line come in this order. -/
inductive HeaderLine : Stage → Text → HLine → Stage → Text → Prop
  | blank {t rest} : HeadLine t [] rest → HeaderLine .start t .blank .start rest
  | comment {s t l rest} : HeadLine t l rest → IsComment l → HeaderLine s t (.comment l) s rest
  | entry {s t n k rest} : HeaderEntry t n k rest → HeaderLine s t (.entry n k) s rest
  | title {t sp x rest} : HeadLine t ('=' :: ' ' :: sp ++ x) rest → Blank sp →
      (∀ c, x.head? = some c → c ≠ ' ' ∧ c ≠ '\t') → HeaderLine .start t (.title x) .titled rest
  | author {t l rest} : PlainLine t l rest → HeaderLine .titled t (.author l) .authored rest
  | revision {t l rest} : PlainLine t l rest → HeaderLine .authored t (.revision l) .revised rest

/-- A header at the beginning of `t`: its lines, and the text `rest` behind them. -/
inductive HeaderReads : Stage → Text → List HLine → Stage → Text → Prop
  | stop {s t} : (t ≠ [] → ∀ l s' r, ¬ HeaderLine s t l s' r) → HeaderReads s t [] s t
  | line {s t l s1 r ls s2 rest} : t ≠ [] → HeaderLine s t l s1 r → HeaderReads s1 r ls s2 rest →
      HeaderReads s t (l :: ls) s2 rest

def HLine.title? : HLine → Option Text | .title x => some x | _ => none
def HLine.author? : HLine → Option Text | .author x => some x | _ => none
def HLine.revision? : HLine → Option Text | .revision x => some x | _ => none
def HLine.comment? : HLine → Option Text | .comment x => some x | _ => none
def HLine.entry? : HLine → Option (Text × Option Text)
  | .entry n (.value raw) => some (n, some raw)
  | .entry n _ => some (n, none)
  | _ => none

/-- `u` is `t` without the lines at its beginning that consist of spaces and tabs only. -/
inductive SkipEmpty : Text → Text → Prop
  | stop {t} : (∀ l sep rest, FirstLine t l sep rest → t ≠ [] → ¬ Blank l) → SkipEmpty t t
  | skip {t l sep rest u} : t ≠ [] → FirstLine t l sep rest → Blank l → SkipEmpty rest u → SkipEmpty t u

/-- The attributes derived from an `author` entry. -/
def authorEntryAttrs (a : Author) : List (Text × Option Text) :=
  [("firstname".toList, some a.firstname), ("middlename".toList, a.middlename), ("lastname".toList, a.lastname),
    ("authorinitials".toList, some a.initials), ("email".toList, a.email)]

/-- Setting several attributes from the header, in order; missing values are skipped. -/
def setAll [Uni] (s : AttrStore) : List (Text × Option Text) → AttrStore
  | [] => s
  | (n, some v) :: l => setAll (s.setByValueFromHeader n v) l
  | (_, none) :: l => setAll s l

/-- What an entry for `author` (in any case) does besides setting `author`. -/
inductive AuthorEffect [Uni] (r : Renderer) (s : AttrStore) : Text → EntryKind → AttrStore → Prop
  | other {n k} : n.map Char.toLower ≠ "author".toList → AuthorEffect r s n k s
  | noValue {n k} : (∀ raw, k ≠ .value raw) → AuthorEffect r s n k s
  | blank {n raw} : Author.parse r s raw = .ok none → AuthorEffect r s n (.value raw) s
  | author {n raw a} : n.map Char.toLower = "author".toList → Author.parse r s raw = .ok (some a) →
      AuthorEffect r s n (.value raw) (setAll s (authorEntryAttrs a))

/-- The attributes after one line of the header. -/
inductive LineEffect [Uni] (hdr : HeaderSubs) (r : Renderer) : AttrStore → HLine → AttrStore → Prop
  | blank {s} : LineEffect hdr r s .blank s
  | comment {s x} : LineEffect hdr r s (.comment x) s
  | entry {s s' n k v} : EntryValue (hdr s) k v → AuthorEffect r s n k s' →
      LineEffect hdr r s (.entry n k) (s'.setFromHeader ⟨Span.new n, none, v, Span.new []⟩).1
  | title {s x v} : hdr s x = .ok v → LineEffect hdr r s (.title x) (s.setByValueFromHeader "doctitle".toList v)
  | author {s l a s'} : AuthorLine.parse r s (Span.new l) = .ok (a, s') → LineEffect hdr r s (.author l) s'
  | revision {s l a s'} : RevisionLine.parse hdr s (Span.new l) = .ok (a, s') → LineEffect hdr r s (.revision l) s'

/-- The attributes after the header. -/
inductive HeaderEffect [Uni] (hdr : HeaderSubs) (r : Renderer) : AttrStore → List HLine → AttrStore → Prop
  | nil {s} : HeaderEffect hdr r s [] s
  | cons {s l s1 ls s2} : LineEffect hdr r s l s1 → HeaderEffect hdr r s1 ls s2 → HeaderEffect hdr r s (l :: ls) s2

/-- What a header shows: the title, the authors, the revision (number, date and remark), and the names and values of the
attribute entries. -/
structure Contents where
  title : Option Text := none
  authors : Option (List Author) := none
  revision : Option (Option Text × Text × Option Text) := none
  entries : List (Text × IVal) := []

/-- What the lines of two parts of a header show. -/
def Contents.append (a b : Contents) : Contents :=
  ⟨a.title.or b.title, a.authors.or b.authors, a.revision.or b.revision, a.entries ++ b.entries⟩

/-- What one line of the header shows, when `s` are the attributes in front of it. -/
inductive LineShows [Uni] (hdr : HeaderSubs) (r : Renderer) (s : AttrStore) : HLine → Contents → Prop
  | blank : LineShows hdr r s .blank {}
  | comment {x} : LineShows hdr r s (.comment x) {}
  | entry {n k v} : EntryValue (hdr s) k v → LineShows hdr r s (.entry n k) { entries := [(n, v)] }
  | title {x v} : hdr s x = .ok v → LineShows hdr r s (.title x) { title := some v }
  | author {l a s'} : AuthorLine.parse r s (Span.new l) = .ok (a, s') →
      LineShows hdr r s (.author l) { authors := some a.authors }
  | revision {l a s'} : RevisionLine.parse hdr s (Span.new l) = .ok (a, s') →
      LineShows hdr r s (.revision l) { revision := some (a.revnumber, a.revdate, a.revremark) }

/-- What the lines of a header show, when `s` are the attributes in front of them. -/
inductive HeaderShows [Uni] (hdr : HeaderSubs) (r : Renderer) : AttrStore → List HLine → Contents → Prop
  | nil {s} : HeaderShows hdr r s [] {}
  | cons {s l s1 c ls cs} : LineEffect hdr r s l s1 → LineShows hdr r s l c → HeaderShows hdr r s1 ls cs →
      HeaderShows hdr r s (l :: ls) (c.append cs)

/-- What a header shows. -/
def contentsOf (h : Header) : Contents :=
  ⟨h.title, h.authorLine.map (·.authors), h.revisionLine.map fun a => (a.revnumber, a.revdate, a.revremark),
    h.attributes.map fun a => (a.name.data, a.value)⟩

/-- The attributes that a line of the header defines without being an attribute entry for them. -/
def Derives : HLine → Text → Prop
  | .title _, n => n = "doctitle".toList
  | .author _, n => ∃ base ∈ ["author", "authorinitials", "firstname", "middlename", "lastname", "email"], ∃ i,
      n = suffixed base.toList (i + 1)
  | .revision _, n => n ∈ ["revnumber".toList, "revdate".toList, "revremark".toList]
  | .entry e (.value _), n => e.map Char.toLower = "author".toList ∧
      n ∈ ["firstname".toList, "middlename".toList, "lastname".toList, "authorinitials".toList, "email".toList]
  | _, _ => False

end Adoc.Spec
