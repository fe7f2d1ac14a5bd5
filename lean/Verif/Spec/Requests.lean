import Verif.Spec.Header
import Verif.Spec.Numbers
/-!
# Specification: the requests a document makes to change attributes, and which of them are refused
-/

namespace Adoc.Spec

/-- The requests to set attributes to the given values; without a value there is no request. -/
def asks (l : List (Text × Option Text)) : List Write :=
  l.filterMap fun p => p.2.map (.implicitHeader p.1)

/-- The requests behind one line of the header, when `s` are the attributes in front of it. -/
inductive LineAsks [Uni] (hdr : HeaderSubs) (r : Renderer) (s : AttrStore) : HLine → List Write → Prop
  | blank : LineAsks hdr r s .blank []
  | comment {x} : LineAsks hdr r s (.comment x) []
  /-- The title of the document. -/
  | title {x v} : hdr s x = .ok v → LineAsks hdr r s (.title x) (asks [("doctitle".toList, some v)])
  /-- An attribute entry. -/
  | entry {a k} : EntryValue (hdr s) k a.value →
      (a.name.data.map Char.toLower = "author".toList → ∀ raw, k = .value raw → Author.parse r s raw = .ok none) →
      LineAsks hdr r s (.entry a.name.data k) [.headerEntry a]
  /-- An attribute entry that names an author. -/
  | authorEntry {a raw x} : EntryValue (hdr s) (.value raw) a.value → a.name.data.map Char.toLower = "author".toList →
      Author.parse r s raw = .ok (some x) →
      LineAsks hdr r s (.entry a.name.data (.value raw)) (asks (authorEntryAttrs x) ++ [.headerEntry a])
  /-- The authors, each with their number. -/
  | author {l a s'} : AuthorLine.parse r s (Span.new l) = .ok (a, s') →
      LineAsks hdr r s (.author l) (a.authors.zipIdx.flatMap fun p =>
        asks ((authorAttrs p.1).map fun q => (suffixed q.1 (p.2 + 1), q.2)))
  /-- The revision, as it is written. -/
  | revision {l n d m} : Revision l n d m →
      LineAsks hdr r s (.revision l) (asks [("revnumber".toList, n), ("revdate".toList, some d), ("revremark".toList, m)])

/-- The requests behind the lines of a header. -/
inductive HeaderAsks [Uni] (hdr : HeaderSubs) (r : Renderer) : AttrStore → List HLine → List Write → Prop
  | nil {s} : HeaderAsks hdr r s [] []
  | cons {s l s1 ls ws ws'} : LineEffect hdr r s l s1 → LineAsks hdr r s l ws → HeaderAsks hdr r s1 ls ws' →
      HeaderAsks hdr r s (l :: ls) (ws ++ ws')

/-- The attribute entries among requests. -/
def entriesOf (ws : List Write) : List Attribute :=
  ws.filterMap fun
    | .headerEntry a => some a
    | .bodyEntry a => some a
    | _ => none

/-- The attribute entries among blocks. -/
def entriesAmong (bs : List Block) : List Attribute :=
  bs.filterMap fun b => match b.kind with
    | .docAttr a => some a
    | _ => none

/-- The report of a refused request. -/
def refusalOf [Uni] : Write → List Warning
  | .headerEntry a => [⟨a.source, .attributeValueIsLocked (entryKey a.name.data)⟩]
  | .bodyEntry a => [⟨a.source, .attributeValueIsLocked (entryKey a.name.data)⟩]
  | _ => []

/-- The reports of a history of requests: those of the refused ones, in order. -/
inductive Refusals [Uni] (start : Text → Option (IVal × ModCtx)) : List Write → List Warning → Prop
  | nil : Refusals start [] []
  | refused {ws w c l} : Refusals start ws l → Cell w.target (start w.target) ws c → Refused c w →
      Refusals start (ws ++ [w]) (l ++ refusalOf w)
  | accepted {ws w c l} : Refusals start ws l → Cell w.target (start w.target) ws c → ¬ Refused c w →
      Refusals start (ws ++ [w]) l

/-- The report is about an attribute that may not be changed. -/
def isRefusal (w : Warning) : Bool :=
  match w.warning with
  | .attributeValueIsLocked _ => true
  | _ => false

/-- A name that lines of the header define without an entry for it. -/
def DerivedName (n : Text) : Prop :=
  n ∈ ["doctitle".toList, "revnumber".toList, "revdate".toList, "revremark".toList] ∨
  ∃ base ∈ ["author", "authorinitials", "firstname", "middlename", "lastname", "email"], ∃ i, n = suffixed base.toList (i + 1)

end Adoc.Spec
