import Verif.Model.Text
/-!
# Finite maps keyed by text

Model of `std::collections::HashMap<String, V>`.  The crate never iterates over its hash maps (apart from `Debug`
output), so the order of the entries is irrelevant; only `get`, `contains_key`, `insert`, `entry().or_insert` and
`len` are modelled.
-/

namespace Adoc

/-- A finite map as a list of entries with pairwise different keys. -/
structure AMap (V : Type) where
  entries : List (Text × V)
deriving DecidableEq, Repr

namespace AMap
variable {V : Type}

def empty : AMap V := ⟨[]⟩

def get (m : AMap V) (k : Text) : Option V := (m.entries.find? (fun e => e.1 == k)).map Prod.snd

def contains (m : AMap V) (k : Text) : Bool := (m.get k).isSome

/-- `HashMap::insert`: replaces the value of an existing key. -/
def insert (m : AMap V) (k : Text) (v : V) : AMap V := ⟨(k, v) :: m.entries.filter (fun e => !(e.1 == k))⟩

/-- `entry(k).or_insert(v)`. -/
def orInsert (m : AMap V) (k : Text) (v : V) : AMap V := if m.contains k then m else m.insert k v

def len (m : AMap V) : Nat := m.entries.length

end AMap
end Adoc
