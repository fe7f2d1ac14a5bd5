import Verif.Model.Span
/-! # Warnings (`parser/src/warnings.rs`) -/

namespace Adoc

/-- `WarningType` (warnings.rs 20-79). -/
inductive WarningType where
  | attributeValueMissingTerminatingQuote
  | documentHeaderNotTerminated
  | emptyAttributeValue
  | emptyShorthandItem
  | invalidMacroName
  | mediaMacroMissingTarget
  | macroMissingAttributeList
  | macroMissingDoubleColon
  | missingCommaAfterQuotedAttributeValue
  | unterminatedDelimitedBlock
  | missingBlockAfterTitleOrAttributeList
  | emptyBlockAnchorName
  | invalidBlockAnchorName
  | attributeValueIsLocked (name : Text)
  | duplicateId (id : Text)
  | level0SectionHeadingNotSupported
  | sectionHeadingLevelSkipped (expected found : Nat)
  | sectionHeadingLevelExceedsMaximum (found : Nat)
deriving DecidableEq, Repr

/-- `Warning` (warnings.rs 10-16). -/
structure Warning where
  source : Span
  warning : WarningType
deriving DecidableEq, Repr

end Adoc
