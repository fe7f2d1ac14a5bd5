import Verif.Spec.Preprocessor

/-! Pasting files into a document in place of the lines that include them. -/

namespace Adoc.Spec

/-- A line that no line behind it continues and that preprocessing leaves alone: no carriage return, and neither white
space nor a backslash at the end. -/
def SimpleLine (l : Text) : Prop := '\r' ∉ l ∧ ∀ r c, l = r ++ [c] → isWhite c = false ∧ c ≠ '\\'

/-- `Pasted files ls ms`: when every line of `ls` that includes a file is replaced by the lines of that file, in which files
are pasted likewise, the lines are `ms`.  `files` gives the text of each file by the name written in the line, which refers
to no attributes. -/
inductive Pasted (files : Text → Option Text) : List Text → List Text → Prop
  | nil : Pasted files [] []
  | line {l ls ms} : SimpleLine l → (∀ target attrs, ¬ IncludeLine l target attrs) → Pasted files ls ms →
      Pasted files (l :: ls) (l :: ms)
  | file {l name attrs text ls inner paste ms} : '\r' ∉ l → IncludeLine l name attrs → '{' ∉ name → files name = some text →
      LinesOf text inner → Pasted files inner paste → Pasted files ls ms → Pasted files (l :: ls) (paste ++ ms)

end Adoc.Spec
