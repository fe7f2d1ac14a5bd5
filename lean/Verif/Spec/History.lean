import Verif.Spec.Document
import Verif.Model.Parser
/-!
# Specification: numbered appendices
-/

namespace Adoc.Spec

/-- A section whose number is that of an appendix or of a section in an appendix. -/
def NumberedAppendix (b : Block) : Prop :=
  ∃ level title ty id n, b.kind = .section level title ty id (some n) ∧ n.ty = .appendix

/-- No section in the document has the number of an appendix. -/
def NoNumberedAppendix (d : Document) : Prop := ∀ b, InDoc d b → ¬ NumberedAppendix b

/-- A parser that has parsed some texts since it was made, with documents that satisfy `P`. -/
inductive Used [Uni] (c : Config) (fuel : Nat) (P : Document → Prop) : ParserState → Prop
  | new {p} : p.num = .default → p.catalog = some .new → Used c fuel P p
  | parse {p p' text d map} : Used c fuel P p → c.parse fuel p text = .ok (d, map, p') → P d → Used c fuel P p'

/-- The same parser with the numbering of a new one. -/
def renewed (p : ParserState) : ParserState := { p with num := .default }

end Adoc.Spec
