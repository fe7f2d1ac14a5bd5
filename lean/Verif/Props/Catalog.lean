import Verif.Spec.Catalog
import Verif.Lemmas.AMap
/-!
# C04, C05, C06: the document catalog
-/

namespace Adoc.Props
open Adoc Adoc.Spec

/-- One request executed by the model; `none` = the call does not return. -/
def catExec (c : Catalog) : CatOp → Option (Catalog × CatResult)
  | .register id reftext ty =>
    match c.registerRef id reftext ty with
    | some c' => some (c', .ok)
    | none => some (c, .duplicate)
  | .generate base reftext ty => (c.generate base reftext ty).map fun p => (p.1, .id p.2)

/-- A history of requests executed by the model. -/
def catRun : List CatOp → Option (Catalog × List CatResult) :=
  fun ops => ops.foldlM (fun s op => (catExec s.1 op).map fun p => (p.1, s.2 ++ [p.2])) (Catalog.new, [])

/-- Everything an observer of the catalog can see agrees with the log. -/
structure Agrees (c : Catalog) (log : List RefEntry) : Prop where
  get : ∀ id, c.getRef id = firstById log id
  contains : ∀ id, c.containsId id = true ↔ Taken log id
  resolve : ∀ t, c.resolveId t = firstByReftext log t
  len : c.len = log.length
  empty : c.isEmpty = true ↔ log = []
  distinct : (log.map RefEntry.id).Nodup

/-! ### Helper lemmas -/

private theorem taken_iff (log : List RefEntry) (id : Text) : Taken log id ↔ id ∈ log.map RefEntry.id := by
  simp [Taken]

private theorem agrees_insert {c : Catalog} {log : List RefEntry} (h : Agrees c log) (id : Text)
    (reftext : Option Text) (ty : RefType) (hn : ¬ Taken log id) :
    Agrees (c.insertEntry id reftext ty) (log ++ [⟨id, reftext, ty⟩]) := by
  have hc : c.refs.contains id = false := by
    cases hx : c.refs.contains id with
    | false => rfl
    | true => exact absurd ((h.contains id).mp hx) hn
  have hget : ∀ id', (c.insertEntry id reftext ty).getRef id' = firstById (log ++ [⟨id, reftext, ty⟩]) id' := by
    intro id'
    show (c.refs.insert id _).get id' = _
    rw [AMap.get_insert]
    unfold firstById
    rw [List.find?_append]
    have := h.get id'
    unfold Catalog.getRef firstById at this
    split
    · rename_i e; subst e
      rw [AMap.contains_false_iff, ← AMap.get_none_iff] at hc
      rw [← this, hc]; simp
    · rename_i e
      rw [this]
      have : (decide (id = id')) = false := by simpa using fun x => e x.symm
      simp [this]
  refine ⟨hget, ?_, ?_, ?_, ?_, ?_⟩
  · intro id'
    show (c.refs.insert id _).contains id' = true ↔ _
    rw [AMap.contains_insert]
    have := h.contains id'
    unfold Catalog.containsId at this
    simp only [Bool.or_eq_true, decide_eq_true_eq, this, taken_iff, List.map_append, List.mem_append,
      List.map_cons, List.map_nil, List.mem_singleton]
    exact Or.comm
  · intro t
    have hr := h.resolve t
    unfold Catalog.resolveId firstByReftext at *
    rw [List.find?_append]
    unfold Catalog.insertEntry
    cases reftext with
    | none =>
      simp only
      rw [hr]
      cases List.find? (fun e => decide (e.reftext = some t)) log <;> simp
    | some x =>
      simp only
      rw [AMap.get_orInsert, hr]
      cases List.find? (fun e => decide (e.reftext = some t)) log with
      | some e => simp
      | none =>
        by_cases hx : x = t
        · simp [hx]
        · have : ¬ t = x := fun e => hx e.symm
          simp [hx, this]
  · show (c.refs.insert id _).len = _
    rw [AMap.len_insert_new _ hc]
    have := h.len
    unfold Catalog.len at this
    simp [this]
  · simp [Catalog.insertEntry, Catalog.isEmpty, AMap.insert]
  · rw [List.map_append, List.nodup_append]
    refine ⟨h.distinct, by simp, ?_⟩
    intro a ha b hb
    simp at hb
    subst hb
    intro e; subst e
    exact hn ((taken_iff _ _).mpr ha)

theorem decimal_inj {a b : Nat} (h : decimal a = decimal b) : a = b := by
  have := congrArg (fun l => Nat.ofDigitChars 10 l 0) h
  simpa [decimal, Nat.ofDigitChars_ten_toDigits] using this

theorem decimal_eq_toString (n : Nat) : decimal n = (toString n).toList := by
  show _ = (Nat.repr n).toList
  rw [Nat.toList_repr]; rfl

theorem numbered_eq (base : Text) (n : Nat) : base ++ '-' :: decimal n = numbered base n := by
  rw [numbered, decimal_eq_toString]; simp

theorem numbered_inj {base : Text} {a b : Nat} (h : numbered base a = numbered base b) : a = b := by
  rw [← numbered_eq, ← numbered_eq] at h
  have := List.append_cancel_left h
  simp at this
  exact decimal_inj this

theorem findFree_spec (c : Catalog) (base : Text) (fuel k : Nat) (id : Text)
    (h : c.findFree base fuel k = some id) :
    ∃ n, k ≤ n ∧ id = numbered base n ∧ c.containsId id = false ∧
      ∀ m, k ≤ m → m < n → c.containsId (numbered base m) = true := by
  induction fuel generalizing k with
  | zero => simp [Catalog.findFree] at h
  | succ f ih =>
    rw [Catalog.findFree] at h
    simp only [numbered_eq] at h
    split at h
    · rename_i hf
      have h := Option.some.inj h
      subst h
      exact ⟨k, Nat.le_refl _, rfl, by simpa using hf, fun m h1 h2 => by omega⟩
    · rename_i hf
      obtain ⟨n, h1, h2, h3, h4⟩ := ih (k + 1) h
      refine ⟨n, by omega, h2, h3, fun m hm1 hm2 => ?_⟩
      by_cases hmk : m = k
      · subst hmk; simpa using hf
      · exact h4 m (by omega) hm2

theorem findFree_none (c : Catalog) (base : Text) (fuel k : Nat)
    (h : c.findFree base fuel k = none) : ∀ m, k ≤ m → m < k + fuel → c.containsId (numbered base m) = true := by
  induction fuel generalizing k with
  | zero => intro m h1 h2; omega
  | succ f ih =>
    rw [Catalog.findFree] at h
    simp only [numbered_eq] at h
    split at h
    · simp at h
    · rename_i hf
      intro m h1 h2
      by_cases hmk : m = k
      · subst hmk; simpa using hf
      · exact ih (k + 1) h m (by omega) (by omega)

/-- Pigeonhole: `n` different values inside a list of length less than `n` are impossible. -/
theorem pigeon {α : Type} [DecidableEq α] (f : Nat → α) (hf : ∀ a b, f a = f b → a = b) :
    ∀ (n k : Nat) (l : List α), (∀ m, k ≤ m → m < k + n → f m ∈ l) → n ≤ l.length := by
  intro n
  induction n with
  | zero => intros; omega
  | succ n ih =>
    intro k l h
    have hk := h k (Nat.le_refl _) (by omega)
    have := ih (k + 1) (l.erase (f k)) (by
      intro m h1 h2
      have hm := h m (by omega) (by omega)
      rw [List.mem_erase_of_ne]
      · exact hm
      · intro e; have := hf _ _ e; omega)
    rw [List.length_erase_of_mem hk] at this
    have := List.length_pos_of_mem hk
    omega

private theorem uniqueId_spec {c : Catalog} {log : List RefEntry} (h : Agrees c log) (base : Text) :
    ∃ id, c.uniqueId base = some id ∧ GeneratedId log base id := by
  unfold Catalog.uniqueId
  split
  · rename_i hf
    refine ⟨base, rfl, Or.inl ⟨?_, rfl⟩⟩
    rw [← h.contains]; simpa using hf
  · rename_i hf
    have hb : Taken log base := by rw [← h.contains]; simpa using hf
    cases hr : c.findFree base (c.refs.len + 1) 2 with
    | none =>
      exfalso
      have h1 := findFree_none c base _ _ hr
      have := pigeon (numbered base) (fun a b e => numbered_inj e) (c.refs.len + 1) 2
        (log.map RefEntry.id) (fun m a b => (taken_iff _ _).mp ((h.contains _).mp (h1 m a b)))
      have hl := h.len
      unfold Catalog.len at hl
      simp at this
      omega
    | some id =>
      obtain ⟨n, h1, h2, h3, h4⟩ := findFree_spec c base _ _ _ hr
      refine ⟨id, rfl, Or.inr ⟨hb, n, h1, h2, ?_, fun m a b => (h.contains _).mp (h4 m a b)⟩⟩
      rw [← h.contains, h3]; simp

private theorem generated_free {log : List RefEntry} {base id : Text} (h : GeneratedId log base id) :
    ¬ Taken log id := by
  rcases h with ⟨h, rfl⟩ | ⟨_, n, _, _, h, _⟩ <;> exact h

private theorem exec_spec {c : Catalog} {log : List RefEntry} (h : Agrees c log) (op : CatOp) :
    ∃ c' r log', catExec c op = some (c', r) ∧ CatStep log op r log' ∧ Agrees c' log' := by
  cases op with
  | register id reftext ty =>
    simp only [catExec, Catalog.registerRef]
    by_cases hc : c.refs.contains id = true
    · rw [if_pos hc]
      exact ⟨c, .duplicate, log, rfl, .rejected ((h.contains id).mp hc), h⟩
    · rw [if_neg hc]
      have hn : ¬ Taken log id := fun ht => hc ((h.contains id).mpr ht)
      exact ⟨_, .ok, _, rfl, .registered hn, agrees_insert h _ _ _ hn⟩
  | generate base reftext ty =>
    obtain ⟨id, h1, h2⟩ := uniqueId_spec h base
    refine ⟨_, .id id, _, ?_, .generated h2, agrees_insert h id reftext ty (generated_free h2)⟩
    simp [catExec, Catalog.generate, h1]

/-! ### Theorems -/

/-- C04/C05/C06 together: for every history of requests every call returns, the answers are the ones the
specification allows, and all observers agree with the log of successful registrations. -/
theorem C04_catalog_refines (ops : List CatOp) :
    ∃ c rs log, catRun ops = some (c, rs) ∧ CatRun ops rs log ∧ Agrees c log := by
  have key : ∀ ops' : List CatOp, ∃ c rs log, catRun ops'.reverse = some (c, rs) ∧ CatRun ops'.reverse rs log ∧
      Agrees c log := by
    intro ops'
    induction ops' with
    | nil =>
      refine ⟨Catalog.new, [], [], rfl, .nil, ⟨fun _ => rfl, ?_, fun _ => rfl, rfl, ?_, ?_⟩⟩
      · intro id; simp [Taken, Catalog.containsId, Catalog.new]
      · simp [Catalog.isEmpty, Catalog.new, AMap.empty]
      · simp
    | cons op ops' ih =>
      obtain ⟨c, rs, log, h1, h2, h3⟩ := ih
      obtain ⟨c', r, log', e1, e2, e3⟩ := exec_spec h3 op
      refine ⟨c', rs ++ [r], log', ?_, ?_, e3⟩
      · rw [List.reverse_cons]
        unfold catRun at *
        rw [List.foldlM_append, h1]
        simp [e1]
      · rw [List.reverse_cons]; exact .snoc h2 e2
  have := key ops.reverse
  rwa [List.reverse_reverse] at this

/-- C04. An accepted registration adds exactly that entry: it can be looked up, all other ids are unchanged and
the size grows by one.  A registration is refused exactly when the id is in use. -/
theorem C04_register (c : Catalog) (id : Text) (reftext : Option Text) (ty : RefType) :
    (c.registerRef id reftext ty = none ↔ c.containsId id = true) ∧
    ∀ c', c.registerRef id reftext ty = some c' →
      c'.getRef id = some ⟨id, reftext, ty⟩ ∧ (∀ id', id' ≠ id → c'.getRef id' = c.getRef id') ∧
      c'.len = c.len + 1 := by
  constructor
  · unfold Catalog.registerRef Catalog.containsId
    split <;> simp_all
  · intro c' h
    unfold Catalog.registerRef at h
    split at h
    · simp at h
    · rename_i hc
      have h := Option.some.inj h
      subst h
      refine ⟨AMap.get_insert_self _ _ _, fun id' hne => AMap.get_insert_ne _ _ hne, ?_⟩
      exact AMap.len_insert_new _ (by simpa using hc)

/-- C04. Whatever is requested later, an entry once in the catalog stays as it is. -/
theorem C04_stable (c c' : Catalog) (op : CatOp) (r : CatResult) (id : Text) (e : RefEntry)
    (hx : catExec c op = some (c', r)) (h : c.getRef id = some e) : c'.getRef id = some e := by
  have hins : ∀ id' rt ty, c.containsId id' = false → (c.insertEntry id' rt ty).getRef id = some e := by
    intro id' rt ty hf
    show (c.refs.insert id' _).get id = _
    rw [AMap.get_insert]
    split
    · rename_i e'
      subst e'
      have := (AMap.contains_iff c.refs id).mpr ⟨e, h⟩
      unfold Catalog.containsId at hf
      rw [this] at hf; cases hf
    · exact h
  cases op with
  | register id' rt ty =>
    simp only [catExec, Catalog.registerRef] at hx
    split at hx
    · rename_i c'' hc
      simp at hx
      split at hc
      · simp at hc
      · rename_i hf
        have hc := Option.some.inj hc
        rw [← hx.1, ← hc]
        exact hins _ _ _ (by simpa [Catalog.containsId] using hf)
    · simp at hx; rw [← hx.1]; exact h
  | generate base rt ty =>
    simp only [catExec, Catalog.generate] at hx
    cases hu : c.uniqueId base with
    | none => rw [hu] at hx; simp at hx
    | some id' =>
      rw [hu] at hx
      simp at hx
      rw [← hx.1]
      apply hins
      unfold Catalog.uniqueId at hu
      split at hu
      · rename_i hf
        have hu := Option.some.inj hu
        subst hu; simpa using hf
      · obtain ⟨_, _, _, h3, _⟩ := findFree_spec c base _ _ _ hu
        exact h3

/-- C05. From every catalog reached by any history, id generation returns; the id it returns is the required one;
it is registered afterwards. -/
theorem C05_generate (ops : List CatOp) (c : Catalog) (rs : List CatResult) (hrun : catRun ops = some (c, rs))
    (base : Text) (reftext : Option Text) (ty : RefType) :
    ∃ c' id log, c.generate base reftext ty = some (c', id) ∧ CatRun ops rs log ∧
      GeneratedId log base id ∧ c.containsId id = false ∧
      c'.getRef id = some ⟨id, reftext, ty⟩ ∧ ∀ id', id' ≠ id → c'.getRef id' = c.getRef id' := by
  obtain ⟨c0, rs0, log, h1, h2, h3⟩ := C04_catalog_refines ops
  rw [hrun] at h1
  simp at h1
  obtain ⟨rfl, rfl⟩ := h1
  obtain ⟨id, h4, h5⟩ := uniqueId_spec h3 base
  refine ⟨c.insertEntry id reftext ty, id, log, by simp [Catalog.generate, h4], h2, h5, ?_,
    AMap.get_insert_self _ _ _, fun id' hne => AMap.get_insert_ne _ _ hne⟩
  cases hx : c.containsId id with
  | false => rfl
  | true => exact absurd ((h3.contains id).mp hx) (generated_free h5)

/-- C06. After any history a reference text resolves to the id of the earliest successful registration that
carried it, and to nothing if there is none; the resolved id is in the catalog, with an entry carrying the text. -/
theorem C06_resolve (ops : List CatOp) (c : Catalog) (rs : List CatResult) (hrun : catRun ops = some (c, rs))
    (t : Text) :
    ∃ log, CatRun ops rs log ∧ c.resolveId t = firstByReftext log t ∧
      (∀ id, c.resolveId t = some id → ∃ e, c.getRef id = some e ∧ e.reftext = some t ∧ e.id = id) := by
  obtain ⟨c0, rs0, log, h1, h2, h3⟩ := C04_catalog_refines ops
  rw [hrun] at h1
  simp at h1
  obtain ⟨rfl, rfl⟩ := h1
  refine ⟨log, h2, h3.resolve t, ?_⟩
  intro id hid
  rw [h3.resolve, firstByReftext] at hid
  cases hf : log.find? (fun e => e.reftext = some t) with
  | none => rw [hf] at hid; simp at hid
  | some e =>
    rw [hf] at hid
    simp at hid
    have hm := List.mem_of_find?_eq_some hf
    have ht := List.find?_some hf
    simp at ht
    refine ⟨e, ?_, ht, hid⟩
    rw [h3.get, firstById]
    -- ids in the log are distinct, so the first entry with this id is `e`
    have hd := h3.distinct
    clear hf h2 h3
    induction log with
    | nil => simp at hm
    | cons a l ih =>
      rw [List.find?_cons]
      simp at hd
      rcases List.mem_cons.mp hm with rfl | hm'
      · simp [hid]
      · have : decide (a.id = id) = false := by
          simp
          intro e1
          exact hd.1 e hm' (by rw [hid, e1])
        rw [this]
        exact ih hm' hd.2

/-- Non-vacuity: a history with a duplicate, a clash of generated ids and a shared reference text. -/
example : (catRun [.register "a".toList (some "X".toList) .anchor, .register "a".toList none .anchor,
      .generate "a".toList (some "X".toList) .section, .generate "a".toList none .section]).map
      (fun p => (p.2, p.1.resolveId "X".toList, p.1.len)) =
    some ([.ok, .duplicate, .id "a-2".toList, .id "a-3".toList], some "a".toList, 3) := by decide

end Adoc.Props
