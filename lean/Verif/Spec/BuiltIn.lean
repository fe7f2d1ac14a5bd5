import Verif.Spec.Carry
/-!
# Specification: the attributes every parser knows from the start
-/

namespace Adoc.Spec

/-- The attributes that stand for characters, which no document can change. -/
def characterAttrs : List (Text × Text) :=
  [("empty".toList, []), ("sp".toList, [' ']), ("deg".toList, "&#176;".toList), ("plus".toList, "&#43;".toList)]

/-- The attributes that only the program and the header of a document can change. -/
def headerAttrs : List (Text × IVal) :=
  [("toc".toList, .unset), ("sectnumlevels".toList, .value ['3'])]

/-- The attributes a document can change anywhere. -/
def freeAttrs : List (Text × IVal) :=
  [("sectids".toList, .set), ("sectnums".toList, .unset), ("idprefix".toList, .value ['_']),
   ("idseparator".toList, .value ['_']), ("example-caption".toList, .value "Example".toList),
   ("iconsdir".toList, .value "./images/icons".toList)]

/-- What an attribute stands for that is set without a value. -/
def bareValue (name : Text) : IVal :=
  if name = "toc".toList then .value "auto".toList
  else if name = "sectnums".toList then .value "all".toList
  else if name = "example-caption".toList then .value "Example".toList
  else if name = "iconsdir".toList then .value "./images/icons".toList
  else .set

/-- The attributes a new parser knows, with their values. -/
def builtIns : List (Text × IVal) := characterAttrs.map (fun p => (p.1, .value p.2)) ++ headerAttrs ++ freeAttrs

/-- A request of the program. -/
def OfProgram : Write → Prop
  | .api _ _ _ => True
  | .apiBool _ _ _ => True
  | _ => False

end Adoc.Spec
