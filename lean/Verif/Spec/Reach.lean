import Verif.Model.Document
import Verif.Spec.Stuck
/-!
# Specification: the places to which reading blocks comes

A place is what the parser has in hand when it looks for the next block: a rule that says when to stop, its state, and the
text that is left.
-/

namespace Adoc.Spec
open Adoc

variable [Uni]

/-- To read the block at `s` the parser has to read the blocks in `inside`: whatever goes wrong there goes wrong here. -/
def Enters (e : BlockEnv) (p : ParserState) (s : Span) (stop : Stop) (q : ParserState) (inside : Span) : Prop :=
  ∀ (nested : Nested) (x : Fail), nested stop q inside = .error x → parseBlock e nested p s = .error x

/-- The places to which reading comes from a place, if it does not stop there: the place behind the block that is found, and
the beginning of the text in the block that is being read. -/
inductive Comes (e : BlockEnv) : Stop → ParserState → Span → Stop → ParserState → Span → Prop
  | here {stop p s} : Comes e stop p s stop p s
  | behind {stop stop' st p p' q s t sw n mi ws} : s.data ≠ [] → stop.check e s = .ok (false, stop', sw) →
      parseBlock e (parseBlocksUntil e n) p s = .ok (some mi, ws, p') → Comes e stop' p' mi.after st q t →
      Comes e stop p s st q t
  | into {stop stop' st st' p q q' s t sw inside} : s.data ≠ [] → stop.check e s = .ok (false, stop', sw) →
      Enters e p s st' q' inside → Comes e st' q' inside.discardEmptyLines st q t → Comes e stop p s st q t

/-- There is text left, the parser is not to stop, and it finds no block. -/
structure StandsStill (e : BlockEnv) (stop : Stop) (p : ParserState) (s : Span) : Prop where
  text : s.data ≠ []
  goes : ∃ stop' sw, stop.check e s = .ok (false, stop', sw)
  stuck : ∃ m mw, BlockMetadata.parse e.subs p.store s = .ok (m, mw) ∧
    Stuck (m.fields.style = some "literal".toList) (lines s.data)

end Adoc.Spec
