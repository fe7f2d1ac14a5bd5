import Verif.Spec.Document
import Verif.Spec.Catalog
/-!
# Specification: the ids of a document
-/

namespace Adoc.Spec

/-- The id of a block: its anchor, or else the id in its attribute list. -/
def blockId (b : Block) : Option Text := (b.fields.anchor.map Span.data).or (b.fields.attrlist.bind Attrlist.id)

/-- The id of a section: the id in its attribute list, or else its anchor, or else the one generated for it. -/
def sectionId? (b : Block) (generated : Option Text) : Option Text :=
  ((b.fields.attrlist.bind Attrlist.id).or (b.fields.anchor.map Span.data)).or generated

/-- The text for references to a section. -/
def sectionReftext (b : Block) (title : Content) : Text :=
  ((b.fields.attrlist.bind (·.namedAttribute "reftext".toList)).map ElemAttr.value).getD title.rendered

/-- What a block adds to the catalog.  (Breaks add nothing, even if they have an id.) -/
def ownRef (b : Block) : Option RefEntry :=
  match b.kind with
  | .simple .. | .raw .. | .media .. | .compound _ => (blockId b).map fun i => ⟨i, b.fields.title, .anchor⟩
  | .section _ title _ generated _ => (sectionId? b generated).map fun i => ⟨i, some (sectionReftext b title), .section⟩
  | _ => none

mutual

/-- What a block and the blocks in it add to the catalog: the inner blocks first. -/
def refs : Block → List RefEntry
  | .mk k s f cs => refsAll cs ++ (ownRef (.mk k s f cs)).toList

def refsAll : List Block → List RefEntry
  | [] => []
  | b :: bs => refs b ++ refsAll bs

end

/-- The entries with an id that no earlier entry has. -/
def firsts : List RefEntry → List RefEntry
  | [] => []
  | e :: es => e :: (firsts es).filter fun x => x.id ≠ e.id

/-- How often an id occurs. -/
def occurrences (es : List RefEntry) (id : Text) : Nat := (es.filter fun e => e.id = id).length

/-- How many warnings report the id as a duplicate. -/
def reported (ws : List Warning) (id : Text) : Nat := (ws.filter fun w => w.warning = .duplicateId id).length

end Adoc.Spec
