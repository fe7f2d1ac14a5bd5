import Verif.Spec.Pass
/-!
# Specification: prose
-/

namespace Adoc.Spec

/-- Text in which nothing is substituted and which contains no passthrough. -/
structure Prose (t : Text) : Prop where
  inert : Inert t
  bracket : '[' ∉ t
  plus : '+' ∉ t
  dollar : '$' ∉ t

/-- A test for prose. -/
def isProse (t : Text) : Bool :=
  t.all (fun c => !['<', '>', '&', '*', '_', '`', '#', '^', '~', '{', '@', '\'', '[', '+', '$'].contains c) &&
    ["--", "...", "(C", "(R", "(T", "://"].all fun w => !containsSub t w.toList

end Adoc.Spec
