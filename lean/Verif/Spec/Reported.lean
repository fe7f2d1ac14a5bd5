import Verif.Spec.Kinds
import Verif.Model.Block
/-!
# Specification of what a block reports about the lines above it
-/

namespace Adoc.Spec

/-- The metadata say what the lines say: the title is that of the title line, rendered; the anchor and its text for references are
those of the line with the anchor; the attributes are read from the line with the attribute list. -/
structure Relates [Uni] (render : Text → Res Text) (store : AttrStore) (is : List MetaItem) (f : Meta) : Prop where
  titleSource : f.titleSource.map Span.data = is.findSome? MetaItem.title?
  title : (is.findSome? MetaItem.title?).mapM render = .ok f.title
  anchor : f.anchor.map (fun a => (a.data, f.anchorReftext.map Span.data)) = is.findSome? MetaItem.anchor?
  reftext : f.anchorReftext.isSome = true → f.anchor.isSome = true
  attrs : f.attrlist.map (fun a => a.source.data) = is.findSome? MetaItem.attrs?
  read : ∀ a ∈ f.attrlist, ∃ ws, Attrlist.parse render store a.source .block = .ok (a, ws)

/-- The blocks that do not keep the text for references: images, videos and breaks. -/
def Forgets (b : Block) : Prop := (∃ ty target attrs, b.kind = .media ty target attrs) ∨ ∃ ty, b.kind = .brk ty

/-- The metadata of a block whose lines say what `f` says: all of it, except that some blocks do not keep the text for references,
and that a paragraph that consists of these lines alone keeps nothing else. -/
def Keeps (b : Block) (is : List MetaItem) (rest : List Text) (f : Meta) : Prop :=
  (¬ Forgets b ∧ b.fields = f) ∨ (Forgets b ∧ b.fields = { f with anchorReftext := none }) ∨
    (is ≠ [] ∧ NoParagraph rest ∧ (∃ content style, b.kind = .simple content style) ∧
      b.fields = { anchorReftext := f.anchorReftext })

end Adoc.Spec
