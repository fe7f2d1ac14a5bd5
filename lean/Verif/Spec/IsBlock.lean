import Verif.Model.IsBlock
import Verif.Spec.Document
import Verif.Spec.Refs
/-!
# Specification: what blocks tell about themselves
-/

namespace Adoc.Spec

/-- The contexts of the blocks with a given content model. -/
def contextsOf : ContentModel → List String
  | .compound => ["section", "preamble", "example", "open", "sidebar", "quote"]
  | .simple => ["paragraph"]
  | .verbatim => ["listing", "literal"]
  | .raw => ["comment", "pass"]
  | .empty => ["image", "video", "thematic_break", "page_break", "attribute"]
  | .table => []

/-- The contexts a style may name. -/
def builtInContexts : List String :=
  ["admonition", "audio", "colist", "dlist", "document", "example", "floating_title", "image", "list_item", "listing",
   "literal", "olist", "open", "page_break", "paragraph", "pass", "preamble", "quote", "section", "sidebar", "table",
   "table_cell", "thematic_break", "toc", "ulist", "verse", "video"]

/-- The block is a thematic break or a page break. -/
def IsBreak (b : Block) : Prop := ∃ t, b.kind = .brk t

/-- The block has two different ids: one in its anchor, another one in its attribute list. -/
def TwoIds (b : Block) : Prop :=
  ∃ a i, b.fields.anchor = some a ∧ b.fields.attrlist.bind Attrlist.id = some i ∧ a.data ≠ i

end Adoc.Spec
