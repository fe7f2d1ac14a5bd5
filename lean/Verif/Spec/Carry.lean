import Verif.Spec.Requests
import Verif.Spec.History
/-!
# Specification: several documents parsed by one parser
-/

namespace Adoc.Spec

/-- A new parser with the given attributes. -/
def newParser (start : AttrStore) : ParserState := ⟨start, some .new, .default, 3⟩

/-- The parser was new, with the attributes `start`, and has parsed the documents `ds` since, in this order. -/
inductive HasParsed [Uni] (c : Config) (fuel : Nat) (start : AttrStore) : List Document → ParserState → Prop
  | new : HasParsed c fuel start [] (newParser start)
  | parse {ds p text d map p'} : HasParsed c fuel start ds p → c.parse fuel p text = .ok (d, map, p') →
      HasParsed c fuel start (ds ++ [d]) p'

/-- The attribute entries of a document: those of the header and those among the blocks, in document order. -/
def documentEntries (d : Document) : List Attribute := d.header.attributes ++ entriesAmong (preorderAll d.blocks)

/-- The document says nothing about attributes: it has no title, no author and revision lines, and no attribute entries. -/
structure Silent (d : Document) : Prop where
  title : d.header.titleSource = none
  author : d.header.authorLine = none
  revision : d.header.revisionLine = none
  entries : documentEntries d = []

end Adoc.Spec
