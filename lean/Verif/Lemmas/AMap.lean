import Verif.Model.AMap
/-! # Lemmas about finite maps -/

namespace Adoc.AMap
variable {V : Type}

/-- The keys of the entries are pairwise different. -/
def WF (m : AMap V) : Prop := (m.entries.map Prod.fst).Nodup

theorem empty_wf : (empty : AMap V).WF := by simp [WF, empty]

@[simp] theorem get_empty (k : Text) : (empty : AMap V).get k = none := rfl
@[simp] theorem contains_empty (k : Text) : (empty : AMap V).contains k = false := rfl

theorem get_insert_self (m : AMap V) (k : Text) (v : V) : (m.insert k v).get k = some v := by
  simp [get, insert]

theorem get_insert_ne (m : AMap V) {k k' : Text} (v : V) (h : k' ≠ k) :
    (m.insert k v).get k' = m.get k' := by
  unfold get insert
  have h1 : (k == k') = false := by simpa using fun e => h e.symm
  simp only [List.find?_cons, h1]
  congr 1
  rw [List.find?_filter]
  congr 1
  funext e
  by_cases he : e.1 = k'
  · simp [he, h]
  · simp [he]

theorem get_insert (m : AMap V) (k k' : Text) (v : V) :
    (m.insert k v).get k' = if k' = k then some v else m.get k' := by
  split
  · rename_i h; subst h; exact get_insert_self m _ v
  · rename_i h; exact get_insert_ne m v h

theorem contains_insert (m : AMap V) (k k' : Text) (v : V) :
    (m.insert k v).contains k' = (decide (k' = k) || m.contains k') := by
  unfold contains
  rw [get_insert]
  by_cases h : k' = k <;> simp [h]

theorem contains_iff (m : AMap V) (k : Text) : m.contains k = true ↔ ∃ v, m.get k = some v := by
  unfold contains; rw [Option.isSome_iff_exists]

theorem get_none_iff (m : AMap V) (k : Text) : m.get k = none ↔ k ∉ m.entries.map Prod.fst := by
  unfold get
  rw [Option.map_eq_none_iff, List.find?_eq_none]
  constructor
  · intro h hk
    obtain ⟨e, he, rfl⟩ := List.mem_map.mp hk
    exact h e he (by simp)
  · intro h e he hk
    exact h (List.mem_map.mpr ⟨e, he, by simpa using hk⟩)

theorem contains_false_iff (m : AMap V) (k : Text) : m.contains k = false ↔ k ∉ m.entries.map Prod.fst := by
  rw [← get_none_iff]; unfold contains; simp

theorem insert_wf {m : AMap V} (hm : m.WF) (k : Text) (v : V) : (m.insert k v).WF := by
  unfold WF insert at *
  simp only [List.map_cons, List.nodup_cons]
  refine ⟨?_, ?_⟩
  · intro h
    obtain ⟨e, he, hk⟩ := List.mem_map.mp h
    rw [List.mem_filter] at he
    simp [hk] at he
  · exact List.Sublist.nodup (List.Sublist.map _ List.filter_sublist) hm

theorem len_insert_new {m : AMap V} {k : Text} (v : V) (h : m.contains k = false) :
    (m.insert k v).len = m.len + 1 := by
  unfold len insert
  rw [contains_false_iff] at h
  have : m.entries.filter (fun e => !(e.1 == k)) = m.entries := by
    rw [List.filter_eq_self]
    intro e he
    have : e.1 ≠ k := fun hk => h (List.mem_map.mpr ⟨e, he, hk⟩)
    simpa using this
  simp [this]

theorem get_orInsert (m : AMap V) (k k' : Text) (v : V) :
    (m.orInsert k v).get k' = match m.get k' with
      | some w => some w
      | none => if k' = k then some v else none := by
  unfold orInsert
  split
  · rename_i h
    obtain ⟨w, hw⟩ := (contains_iff m k).mp h
    cases hg : m.get k' with
    | some _ => rfl
    | none =>
      simp only
      split
      · rename_i e; subst e; rw [hw] at hg; cases hg
      · rfl
  · rename_i h
    rw [get_insert]
    split
    · rename_i e
      subst e
      cases hg : m.get k' with
      | some w => exact absurd ((contains_iff m k').mpr ⟨w, hg⟩) h
      | none => rfl
    · cases hg : m.get k' <;> rfl

end Adoc.AMap
