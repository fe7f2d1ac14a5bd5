import Verif.Model.AMap
/-!
# The document catalog

Model of `parser/src/document/catalog.rs`.
-/

namespace Adoc

/-- `RefType` (document/catalog.rs 162-173). -/
inductive RefType where
  | anchor | section | bibliography
deriving DecidableEq, Repr

/-- `RefEntry` (document/catalog.rs 185-196). -/
structure RefEntry where
  id : Text
  reftext : Option Text
  refType : RefType
deriving DecidableEq, Repr

/-- `Catalog` (document/catalog.rs 12-18). -/
structure Catalog where
  refs : AMap RefEntry
  reftextToId : AMap Text
deriving DecidableEq, Repr

/-- Decimal notation of a number, as produced by `format!("{}", n)`. -/
def decimal (n : Nat) : Text := Nat.toDigits 10 n

namespace Catalog

/-- `Catalog::new` (document/catalog.rs 21-26). -/
def new : Catalog := ⟨AMap.empty, AMap.empty⟩

/-- The common tail of both registration functions (document/catalog.rs 49-61 and 96-110): insert the entry,
then record the reference text unless it is taken. -/
def insertEntry (c : Catalog) (id : Text) (reftext : Option Text) (ty : RefType) : Catalog :=
  { refs := c.refs.insert id { id := id, reftext := reftext, refType := ty }
    reftextToId := match reftext with
      | some t => c.reftextToId.orInsert t id
      | none => c.reftextToId }

/-- `register_ref` (document/catalog.rs 38-64); `none` = `Err(DuplicateIdError)`. -/
def registerRef (c : Catalog) (id : Text) (reftext : Option Text) (ty : RefType) : Option Catalog :=
  if c.refs.contains id then none else some (c.insertEntry id reftext ty)

/-- `contains_id` (document/catalog.rs 121-123). -/
def containsId (c : Catalog) (id : Text) : Bool := c.refs.contains id

/-- The `loop` of `generate_and_register_unique_id` (document/catalog.rs 86-93), with fuel.  The counter is an
`i32` in the code; the model uses natural numbers, so the overflow after 2^31 taken candidates is not modelled. -/
def findFree (c : Catalog) (base : Text) : Nat → Nat → Option Text
  | 0, _ => none
  | fuel + 1, counter =>
    let candidate := base ++ '-' :: decimal counter
    if !c.containsId candidate then some candidate else findFree c base fuel (counter + 1)

/-- The choice of the id in `generate_and_register_unique_id` (document/catalog.rs 82-94).  The fuel is one more
than the number of registered ids; `none` (fuel exhausted) is shown to be impossible (C05). -/
def uniqueId (c : Catalog) (base : Text) : Option Text :=
  if !c.containsId base then some base else findFree c base (c.refs.len + 1) 2

/-- `generate_and_register_unique_id` (document/catalog.rs 76-113); `none` = the loop never ends. -/
def generate (c : Catalog) (base : Text) (reftext : Option Text) (ty : RefType) : Option (Catalog × Text) :=
  (c.uniqueId base).map fun id => (c.insertEntry id reftext ty, id)

/-- `get_ref` (document/catalog.rs 116-118). -/
def getRef (c : Catalog) (id : Text) : Option RefEntry := c.refs.get id

/-- `resolve_id` (document/catalog.rs 126-128). -/
def resolveId (c : Catalog) (reftext : Text) : Option Text := c.reftextToId.get reftext

/-- `len` (document/catalog.rs 145-147). -/
def len (c : Catalog) : Nat := c.refs.len

/-- `is_empty` (document/catalog.rs 150-152). -/
def isEmpty (c : Catalog) : Bool := c.refs.entries.isEmpty

end Catalog
end Adoc
