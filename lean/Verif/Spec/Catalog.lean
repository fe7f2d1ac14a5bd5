import Verif.Model.Catalog
/-!
# Specification of the catalog

The catalog is specified by the list of registrations that succeeded, oldest first.
-/

namespace Adoc.Spec

/-- A request to the catalog. -/
inductive CatOp where
  | register (id : Text) (reftext : Option Text) (ty : RefType)
  | generate (base : Text) (reftext : Option Text) (ty : RefType)

/-- What the caller sees. -/
inductive CatResult where
  | ok | duplicate | id (t : Text)
deriving DecidableEq

/-- The id is taken by a registration in the log. -/
def Taken (log : List RefEntry) (id : Text) : Prop := ∃ e ∈ log, e.id = id

/-- `base-N` with `N` in decimal. -/
def numbered (base : Text) (n : Nat) : Text := base ++ "-".toList ++ (toString n).toList

/-- The id that must be generated for `base`: `base` itself when free, otherwise `base-N` for the least free
`N ≥ 2`. -/
def GeneratedId (log : List RefEntry) (base id : Text) : Prop :=
  (¬ Taken log base ∧ id = base) ∨
  (Taken log base ∧ ∃ n, 2 ≤ n ∧ id = numbered base n ∧ ¬ Taken log id ∧
    ∀ m, 2 ≤ m → m < n → Taken log (numbered base m))

/-- One request: what it answers and which log it leaves. -/
inductive CatStep : List RefEntry → CatOp → CatResult → List RefEntry → Prop
  | registered {log id reftext ty} : ¬ Taken log id →
      CatStep log (.register id reftext ty) .ok (log ++ [⟨id, reftext, ty⟩])
  | rejected {log id reftext ty} : Taken log id →
      CatStep log (.register id reftext ty) .duplicate log
  | generated {log base reftext ty id} : GeneratedId log base id →
      CatStep log (.generate base reftext ty) (.id id) (log ++ [⟨id, reftext, ty⟩])

/-- A history of requests from the empty catalog. -/
inductive CatRun : List CatOp → List CatResult → List RefEntry → Prop
  | nil : CatRun [] [] []
  | snoc {ops rs log op r log'} : CatRun ops rs log → CatStep log op r log' →
      CatRun (ops ++ [op]) (rs ++ [r]) log'

/-- The first element of the log with the given id. -/
def firstById (log : List RefEntry) (id : Text) : Option RefEntry := log.find? (fun e => e.id = id)

/-- The id of the first element of the log that carries the given reference text. -/
def firstByReftext (log : List RefEntry) (t : Text) : Option Text :=
  (log.find? (fun e => e.reftext = some t)).map RefEntry.id

end Adoc.Spec
