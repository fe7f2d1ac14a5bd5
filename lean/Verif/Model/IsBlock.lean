import Verif.Model.Document
/-!
# What blocks tell about themselves

Model of the accessors of `IsBlock` (`parser/src/blocks/is_block.rs`) as `Block` implements them
(`parser/src/blocks/block.rs` 365-496), and of `parser/src/blocks/context.rs`.  (`title_source`, `title`, `anchor`,
`anchor_reftext` and `attrlist` are the fields of `Block.fields`, `nested_blocks` is `Block.children`.)
-/

namespace Adoc

/-- `is_built_in_context` (blocks/context.rs 1-32). -/
def isBuiltInContext (t : Text) : Bool :=
  t == "admonition".toList || t == "audio".toList || t == "colist".toList || t == "dlist".toList ||
  t == "document".toList || t == "example".toList || t == "floating_title".toList || t == "image".toList ||
  t == "list_item".toList || t == "listing".toList || t == "literal".toList || t == "olist".toList ||
  t == "open".toList || t == "page_break".toList || t == "paragraph".toList || t == "pass".toList ||
  t == "preamble".toList || t == "quote".toList || t == "section".toList || t == "sidebar".toList ||
  t == "table".toList || t == "table_cell".toList || t == "thematic_break".toList || t == "toc".toList ||
  t == "ulist".toList || t == "verse".toList || t == "video".toList

namespace Block

/-- `content_model` (blocks/block.rs 366-377, and the one of each variant: media.rs 167-169, raw_delimited.rs 168-170,
compound_delimited.rs 143-145, preamble.rs 39-41, break.rs 78-80, document/attribute.rs 111-113). -/
def contentModel (b : Block) : ContentModel :=
  match b.kind with
  | .simple .. => .simple
  | .media .. => .empty
  | .section .. => .compound
  | .raw _ m _ _ => m
  | .compound _ => .compound
  | .preamble => .compound
  | .brk _ => .empty
  | .docAttr _ => .empty

/-- `rendered_content` (blocks/block.rs 379-390; simple.rs 238-240, raw_delimited.rs 172-174; is_block.rs 35-37 for the
others). -/
def renderedContent (b : Block) : Option Text :=
  match b.kind with
  | .simple c _ => some c.rendered
  | .raw c _ _ _ => some c.rendered
  | _ => none

/-- `raw_context` (blocks/block.rs 392-403; simple.rs 242-244, media.rs 171-178, section.rs 211-213, raw_delimited.rs
176-178, compound_delimited.rs 147-149, preamble.rs 43-45, break.rs 82-88, document/attribute.rs 115-117). -/
def rawContext (b : Block) : Text :=
  match b.kind with
  | .simple .. => "paragraph".toList
  | .media .audio _ _ => "audio".toList
  | .media .image _ _ => "image".toList
  | .media .video _ _ => "video".toList
  | .section .. => "section".toList
  | .raw _ _ x _ => x
  | .compound x => x
  | .preamble => "preamble".toList
  | .brk .thematic => "thematic_break".toList
  | .brk .page => "page_break".toList
  | .docAttr _ => "attribute".toList

/-- `declared_style` (blocks/is_block.rs 100-104). -/
def declaredStyle (b : Block) : Option Text :=
  (b.fields.attrlist.bind (·.nthAttribute 1)).bind ElemAttr.blockStyle

/-- `resolved_context` (blocks/is_block.rs 58-66). -/
def resolvedContext (b : Block) : Text :=
  match b.declaredStyle with
  | some s => if isBuiltInContext s then s else b.rawContext
  | none => b.rawContext

/-- `id` of a `Block` (blocks/is_block.rs 146-150).  `Block` does not forward this call to the variant, so that for a
section it is not the `id` of `SectionBlock` (`Block.id`). -/
def enumId (b : Block) : Option Text := b.fields.id

/-- `roles` (blocks/is_block.rs 173-178). -/
def roles (b : Block) : List Text :=
  match b.fields.attrlist with
  | some a => a.roles
  | none => []

/-- `options` (blocks/is_block.rs 244-249). -/
def options (b : Block) : List Text :=
  match b.fields.attrlist with
  | some a => a.options
  | none => []

/-- `has_option` (blocks/is_block.rs 256-259). -/
def hasOption (b : Block) (name : Text) : Bool :=
  match b.fields.attrlist with
  | some a => a.hasOption name
  | none => false

/-- `substitution_group` (blocks/block.rs 483-494; raw_delimited.rs 200-202; is_block.rs 278-280 for the others). -/
def substitutionGroup (b : Block) : Group :=
  match b.kind with
  | .raw _ _ _ g => g
  | _ => .normal

end Block

/-- `nested_blocks` of a document (document/document.rs 162-164). -/
def Document.nestedBlocks (d : Document) : List Block := d.blocks

end Adoc
