import Verif.Spec.Span
import Verif.Spec.Metadata
import Verif.Spec.Numbers
import Verif.Spec.Heading
import Verif.Spec.Kinds
/-!
# Specification: what the warnings about blocks say
-/

namespace Adoc.Spec

/-- The lines of a text from the beginning of a block to the end of the line in which the block ends. -/
def BlockLines (doc : Text) (b : Block) (ls : List Text) : Prop :=
  ∃ pre post, At doc pre b.source ∧ doc = pre ++ b.source.data ++ post ∧
    ls = lines (b.source.data ++ post.takeWhile (· ≠ '\n'))

/-- A block between delimiters: its content is verbatim, or consists of blocks. -/
def Delimited (b : Block) : Prop :=
  match b.kind with
  | .raw _ _ _ _ | .compound _ => True
  | _ => False

/-- A block between delimiters begins, behind `n` lines of metadata, with the line `d`, and no further line of the block is
this line. -/
def Unclosed [Uni] (doc : Text) (b : Block) (n : Nat) (d : Text) : Prop :=
  Delimited b ∧ ∃ ls is rest, BlockLines doc b ls ∧ MetaItems [] ls is (d :: rest) ∧ is.length = n ∧ d ∉ rest

/-- The warnings about unterminated blocks are, in the same order, about the blocks which are not closed: there is one for
each of them, it shows the opening delimiter, and its line is the line of this delimiter. -/
inductive Reports [Uni] (doc : Text) : List Warning → List Block → Prop
  | nil : Reports doc [] []
  | other {w ws bs} : w.warning ≠ .unterminatedDelimitedBlock → Reports doc ws bs → Reports doc (w :: ws) bs
  | closed {b ws bs} : (¬ ∃ n d, Unclosed doc b n d) → Reports doc ws bs → Reports doc ws (b :: bs)
  | unclosed {w b n ws bs} : w.warning = .unterminatedDelimitedBlock → Unclosed doc b n w.source.data →
      w.source.line = b.source.line + n → Reports doc ws bs → Reports doc (w :: ws) (b :: bs)

/-- What a warning about blocks says is true of the text to which it points.  (The warnings about attribute lists, anchors,
attribute entries, duplicate ids and the header are specified elsewhere.) -/
def Warranted [Uni] (ar : Arith) (w : Warning) : Prop :=
  match w.warning with
  | .unterminatedDelimitedBlock => (∃ c, RawDelim c w.source.data) ∨ CompoundDelim w.source.data
  | .level0SectionHeadingNotSupported => Marks 1 w.source.data
  | .sectionHeadingLevelExceedsMaximum n => 6 ≤ n ∧ Marks (n + 1) w.source.data
  | .sectionHeadingLevelSkipped a b => ar = .checked → a + 1 < b ∧ b ≤ 5 ∧
      (w.source.data.all Span.isBlank = true ∨ (∃ c r, w.source.data = c :: r ∧ (c = '.' ∨ c = '[')) ∨
        ∃ title, Heading b title w.source.data)
  | .missingBlockAfterTitleOrAttributeList =>
      ∃ is rest, MetaItems [] (lines w.source.data) is rest ∧ (∃ i ∈ is, i.kind ≠ .anchor) ∧ NoParagraph rest
  | .invalidMacroName | .mediaMacroMissingTarget | .macroMissingAttributeList | .macroMissingDoubleColon => False
  | _ => True

end Adoc.Spec
