import Verif.Model.Span
/-!
# Source map

Model of `parser/src/parser/source_map.rs`.
-/

namespace Adoc

/-- `SourceLine` (parser/source_map.rs 22). -/
structure SourceLine where
  file : Option Text
  line : Nat
deriving DecidableEq, Repr

/-- `SourceMap` (parser/source_map.rs 10). -/
abbrev SourceMap := List (Nat × SourceLine)

namespace SourceMap

/-- `append` (parser/source_map.rs 25-29). -/
def append (m : SourceMap) (preprocessedLine : Nat) (l : SourceLine) : SourceMap := m ++ [(preprocessedLine, l)]

/-- The halving loop of `slice::binary_search_by` of the Rust standard library. -/
def searchLoop (m : SourceMap) (key : Nat) (base size : Nat) : Nat :=
  if _h : size ≤ 1 then base
  else
    let half := size / 2
    let mid := base + half
    searchLoop m key (match m[mid]? with | some (k, _) => if k > key then base else mid | none => base) (size - half)
termination_by size
decreasing_by omega

/-- `slice::binary_search_by_key` of the standard library: `.inl i` for `Ok(i)`, `.inr i` for `Err(i)`. -/
def binarySearch (m : SourceMap) (key : Nat) : Sum Nat Nat :=
  if m.length = 0 then .inr 0
  else
    let base := searchLoop m key 0 m.length
    match m[base]? with
    | some (k, _) => if k = key then .inl base else .inr (base + (if k < key then 1 else 0))
    | none => .inr base

/-- `original_file_and_line` (parser/source_map.rs 34-43). -/
def originalFileAndLine (m : SourceMap) (key : Nat) : Option SourceLine :=
  match m.binarySearch key with
  | .inl i => m[i]?.map Prod.snd
  | .inr 0 => some ⟨none, key⟩
  | .inr (i + 1) => m[i]?.map fun e => ⟨e.2.file, e.2.line + key - e.1⟩

end SourceMap
end Adoc
