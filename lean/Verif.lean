import Verif.Props.Span
import Verif.Props.Catalog
import Verif.Props.AttrStore
import Verif.Props.Path
import Verif.Lemmas.Regex
import Verif.Props.Steps
import Verif.Props.SubGroup
import Verif.Props.Attrlist
import Verif.Props.Attribute
import Verif.Props.Preprocessor
import Verif.Props.Includes
import Verif.Props.Section
import Verif.Props.Strings
import Verif.Props.Author
import Verif.Props.Header
import Verif.Props.Metadata
import Verif.Props.Leaf
import Verif.Model.Document
import Verif.Lemmas.Run
import Verif.Props.Tree
import Verif.Props.Refs
import Verif.Props.History
import Verif.Props.Levels
import Verif.Props.Heading
import Verif.Props.Total
import Verif.Props.Look
import Verif.Props.Html
import Verif.Props.Macros
import Verif.Props.Pass
import Verif.Props.IsBlock
import Verif.Props.Kinds
import Verif.Props.Reported
import Verif.Lemmas.Outcome
import Verif.Lemmas.Harmless
import Verif.Props.NoPanic
import Verif.Props.Never
import Verif.Props.Typography
import Verif.Props.Numbers
import Verif.Props.Rendered
import Verif.Props.HeaderComplete
import Verif.Props.Prose
import Verif.Props.Outline
import Verif.Props.Written
import Verif.Props.Formatting
import Verif.Props.InlineMacros
import Verif.Props.Passthrough
import Verif.Props.Substitution
import Verif.Props.Source
import Verif.Props.Requests
import Verif.Props.Shown
import Verif.Props.References
import Verif.Spec.Carry
import Verif.Props.Carry
import Verif.Props.Pattern
import Verif.Props.BuiltIn
import Verif.Spec.LineEnds
import Verif.Lemmas.LineEnds
import Verif.Props.LineEnds
import Verif.Spec.SpaceEnds
import Verif.Lemmas.SpaceEnds
import Verif.Props.SpaceEnds
import Verif.Spec.Around
import Verif.Lemmas.Around
import Verif.Props.Around
import Verif.Spec.Comments
import Verif.Lemmas.Comments
import Verif.Props.Comments
import Verif.Lemmas.Append
import Verif.Props.Append
import Verif.Spec.Gaps
import Verif.Lemmas.Gaps
import Verif.Props.Gaps
import Verif.Props.Wrap
import Verif.Spec.Delimiters
import Verif.Lemmas.Delimiters
import Verif.Props.Delimiters
import Verif.Spec.Markup
import Verif.Lemmas.Markup
import Verif.Lemmas.MarkupSteps
import Verif.Lemmas.MarkupMacros
import Verif.Lemmas.MarkupGroup
import Verif.Lemmas.MarkupHeader
import Verif.Props.Markup
import Verif.Spec.SectionId
import Verif.Lemmas.SectionId
import Verif.Lemmas.Identified
import Verif.Props.SectionId
import Verif.Spec.Warnings
import Verif.Lemmas.Unterminated
import Verif.Lemmas.Warranted
import Verif.Props.Warnings
import Verif.Spec.Pasting
import Verif.Lemmas.Pasting
import Verif.Props.Pasting
import Verif.Spec.Kept
import Verif.Lemmas.Kept
import Verif.Props.Kept
import Verif.Lemmas.Forest
