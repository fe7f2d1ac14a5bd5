import Verif.Lemmas.SubGroup
/-!
# C37: custom substitution lists
-/

namespace Adoc.Props
open Adoc Adoc.Spec

set_option linter.unusedSectionVars false

variable [Uni]

/-- The steps a list of items denotes.  A leading modifier starts from the steps of the given group. -/
def denoted (startFrom : Option Group) (its : List SubItem) : List Step :=
  its.foldl SubItem.run
    (match startFrom, its with
      | some g, i :: _ => if i.modifies then g.steps else []
      | _, _ => [])

private theorem custom_loop (sf : Option Group) (l : List (Text × SubItem)) (h : ∀ p ∈ l, Denotes (trim p.1) p.2) :
    customLoop sf 0 (l.map Prod.fst) [] = some (denoted sf (l.map Prod.snd)) := by
  cases l with
  | nil => rw [List.map_nil, customLoop]; cases sf <;> rfl
  | cons p l =>
    rw [customLoop_eq]
    simp only [List.map_cons, itemOf_iff.mpr (h p (by simp))]
    rw [customLoop_tail sf l (0 + 1) _ (by omega) (fun q hq => h q (by simp [hq]))]
    cases sf with
    | none => rfl
    | some g => simp [denoted]

private theorem split_items {ts : List Text} (hne : ts ≠ []) (hc : ∀ t ∈ ts, ',' ∉ t) :
    splitChar ',' (List.intercalate [','] ts) = ts := by
  rw [← joinChar_intercalate, splitChar_joinChar hne hc]

private theorem single_item {t : Text} (h : ',' ∉ t) : List.intercalate [','] [t] = t := by simp

private theorem whole {ts : List Text} (hne : ts ≠ []) (hc : ∀ t ∈ ts, ',' ∉ t) {w : Text} (hw : ',' ∉ w)
    (h : trim (List.intercalate [','] ts) = w) : ∃ t, ts = [t] ∧ trim t = trim w := by
  have h1 := split_trim (List.intercalate [','] ts)
  rw [h, split_items hne hc, splitChar_single hw] at h1
  cases ts with
  | nil => cases h1
  | cons t ts =>
    cases ts with
    | nil =>
      simp only [List.map_cons, List.map_nil, List.cons.injEq, and_true] at h1
      exact ⟨t, rfl, h1.symm⟩
    | cons => simp at h1

/-- A comma-separated list of recognised items (with any white space around them) yields exactly the steps it denotes:
plain and `+x` items add at the end, `x+` in front, `-x` removes, `n` and `v` start again. -/
theorem C37_denotation (startFrom : Option Group) (items : List (Text × SubItem)) (hne : items ≠ [])
    (hcomma : ∀ p ∈ items, ',' ∉ p.1) (hden : ∀ p ∈ items, Denotes (trim p.1) p.2) :
    ∃ g, Group.fromCustomString startFrom (List.intercalate [','] (items.map Prod.fst)) = some g ∧
      g.steps = denoted startFrom (items.map Prod.snd) := by
  have hne' : items.map Prod.fst ≠ [] := by simpa using hne
  have hcomma' : ∀ t ∈ items.map Prod.fst, ',' ∉ t := by
    intro t ht
    obtain ⟨p, hp, rfl⟩ := List.mem_map.mp ht
    exact hcomma p hp
  have one : ∀ w : Text, ',' ∉ w → trim (List.intercalate [','] (items.map Prod.fst)) = w →
      ∃ p, items = [p] ∧ Denotes (trim w) p.2 := by
    intro w hw h
    obtain ⟨t, h1, h2⟩ := whole hne' hcomma' hw h
    cases items with
    | nil => exact absurd rfl hne
    | cons p ps =>
      simp only [List.map_cons, List.cons.injEq, List.map_eq_nil_iff] at h1
      refine ⟨p, by rw [h1.2], ?_⟩
      have := hden p (by simp)
      rw [← h2, ← h1.1]; exact this
  unfold Group.fromCustomString
  simp only
  split
  · rename_i h
    obtain ⟨p, _, h2⟩ := one _ (by decide) h
    exfalso
    have := itemOf_iff.mpr h2
    rw [show itemOf (trim "none".toList) = none by decide +kernel] at this
    cases this
  · split
    · rename_i h
      refine ⟨.normal, rfl, ?_⟩
      have : ∃ p, items = [p] ∧ p.2 = .reset normalSteps := by
        rcases h with h | h
        · obtain ⟨p, h1, h2⟩ := one _ (by decide) h
          have := itemOf_iff.mpr h2
          rw [show itemOf (trim "n".toList) = some (.reset normalSteps) from rfl] at this
          exact ⟨p, h1, (Option.some.inj this).symm⟩
        · obtain ⟨p, h1, h2⟩ := one _ (by decide) h
          have := itemOf_iff.mpr h2
          rw [show itemOf (trim "normal".toList) = some (.reset normalSteps) from rfl] at this
          exact ⟨p, h1, (Option.some.inj this).symm⟩
      obtain ⟨p, rfl, hp⟩ := this
      simp only [List.map_cons, List.map_nil, hp]
      cases startFrom <;> rfl
    · split
      · rename_i h
        refine ⟨.verbatim, rfl, ?_⟩
        have : ∃ p, items = [p] ∧ p.2 = .reset [.specialCharacters] := by
          rcases h with h | h
          · obtain ⟨p, h1, h2⟩ := one _ (by decide) h
            have := itemOf_iff.mpr h2
            rw [show itemOf (trim "v".toList) = some (.reset [.specialCharacters]) from rfl] at this
            exact ⟨p, h1, (Option.some.inj this).symm⟩
          · obtain ⟨p, h1, h2⟩ := one _ (by decide) h
            have := itemOf_iff.mpr h2
            rw [show itemOf (trim "verbatim".toList) = some (.reset [.specialCharacters]) from rfl] at this
            exact ⟨p, h1, (Option.some.inj this).symm⟩
        obtain ⟨p, rfl, hp⟩ := this
        simp only [List.map_cons, List.map_nil, hp]
        cases startFrom <;> rfl
      · refine ⟨.custom (denoted startFrom (items.map Prod.snd)), ?_, rfl⟩
        have h1 : customLoop startFrom 0 (splitChar ',' (trim (List.intercalate [','] (items.map Prod.fst)))) [] =
            customLoop startFrom 0 (items.map Prod.fst) [] := by
          apply customLoop_congr
          rw [split_trim, split_items hne' hcomma']
        rw [h1, custom_loop startFrom items hden]
        rfl

/-- `none` alone asks for no steps at all. -/
theorem C37_none_alone (startFrom : Option Group) (t : Text) (h : trim t = "none".toList) :
    Group.fromCustomString startFrom t = some .none := by
  unfold Group.fromCustomString
  simp only
  rw [if_pos h]

/-- One unrecognised item, wherever it stands, invalidates the whole list. -/
theorem C37_unknown_rejected (startFrom : Option Group) (ts : List Text) (hcomma : ∀ t ∈ ts, ',' ∉ t)
    (hnone : trim (List.intercalate [','] ts) ≠ "none".toList)
    (hbad : ∃ t ∈ ts, ∀ i, ¬ Denotes (trim t) i) :
    Group.fromCustomString startFrom (List.intercalate [','] ts) = none := by
  have hne : ts ≠ [] := by rintro rfl; obtain ⟨t, ht, _⟩ := hbad; cases ht
  have one : ∀ w : Text, ',' ∉ w → (∃ i, Denotes (trim w) i) → trim (List.intercalate [','] ts) ≠ w := by
    rintro w hw ⟨i, hi⟩ h
    obtain ⟨t, h1, h2⟩ := whole hne hcomma hw h
    obtain ⟨t', ht', hb⟩ := hbad
    subst h1
    simp only [List.mem_singleton] at ht'
    subst ht'
    rw [h2] at hb
    exact hb i hi
  unfold Group.fromCustomString
  simp only
  rw [if_neg hnone, if_neg, if_neg]
  · have h1 : customLoop startFrom 0 (splitChar ',' (trim (List.intercalate [','] ts))) [] =
        customLoop startFrom 0 ts [] := by
      apply customLoop_congr
      rw [split_trim, split_items hne hcomma]
    rw [h1, customLoop_unknown startFrom ts 0 [] hbad]
    rfl
  · rintro (h | h)
    · exact one _ (by decide) ⟨_, .verbatim (Or.inl rfl)⟩ h
    · exact one _ (by decide) ⟨_, .verbatim (Or.inr rfl)⟩ h
  · rintro (h | h)
    · exact one _ (by decide) ⟨_, .normal (Or.inl rfl)⟩ h
    · exact one _ (by decide) ⟨_, .normal (Or.inr rfl)⟩ h

private theorem run_mem (x : Step) (i : SubItem) (l : List Step) :
    x ∈ i.run l ↔ (i.effect x).getD (decide (x ∈ l)) = true := by
  cases i with
  | reset l' => simp [SubItem.run, SubItem.effect]
  | add m s =>
    simp only [SubItem.run, SubItem.effect, List.mem_append, List.mem_singleton]
    by_cases h : s = x
    · simp [h]
    · have : x ≠ s := fun e => h e.symm
      simp [h, this]
  | addFront s =>
    simp only [SubItem.run, SubItem.effect, List.mem_cons]
    by_cases h : s = x
    · simp [h]
    · have : x ≠ s := fun e => h e.symm
      simp [h, this]
  | remove s =>
    simp only [SubItem.run, SubItem.effect, List.mem_filter]
    by_cases h : s = x
    · simp [h]
    · have : x ≠ s := fun e => h e.symm
      simp [h, this]

/-- A step is in the result exactly when the last item that concerns it puts it in; steps no item concerns are kept
from the start. -/
theorem C37_membership (x : Step) (its : List SubItem) (base : List Step) :
    x ∈ its.foldl SubItem.run base ↔ ((its.filterMap (SubItem.effect x)).getLast?).getD (decide (x ∈ base)) = true := by
  induction its generalizing base with
  | nil => simp
  | cons i its ih =>
    rw [List.foldl_cons, ih, List.filterMap_cons]
    have hm := run_mem x i base
    cases he : i.effect x with
    | none =>
      rw [he] at hm
      simp only [Option.getD_none, decide_eq_true_eq] at hm
      simp only [hm]
    | some b =>
      rw [he] at hm
      simp only [Option.getD_some] at hm
      cases hl : List.filterMap (SubItem.effect x) its with
      | nil => simp [hm]
      | cons c cs => rw [List.getLast?_cons_cons, List.getLast?_cons]; rfl

/-- Names only, no modifiers: the steps in the order in which they are requested. -/
theorem C37_request_order (startFrom : Option Group) (steps : List Step) :
    denoted startFrom (steps.map (SubItem.add false)) = steps := by
  have h : ∀ base : List Step, (steps.map (SubItem.add false)).foldl SubItem.run base = base ++ steps := by
    induction steps with
    | nil => simp
    | cons s ss ih => intro base; simp [ih, SubItem.run]
  unfold denoted
  rw [h]
  cases startFrom <;> cases steps <;> simp [SubItem.modifies]

/-- The step an item adds. -/
def added : SubItem → Option Step
  | .add _ s => some s
  | .addFront s => some s
  | _ => none

/-- No step occurs twice, provided no item adds a step that is already there.  (Partial: the code does not check this,
see `C37_duplicates`.) -/
theorem C37_nodup_partial (its : List SubItem) (base : List Step) (hb : base.Nodup)
    (hreset : ∀ l, SubItem.reset l ∈ its → l.Nodup)
    (hadd : ∀ pre i post s, its = pre ++ i :: post → added i = some s → s ∉ pre.foldl SubItem.run base) :
    (its.foldl SubItem.run base).Nodup := by
  induction its using snocInd with
  | nil => exact hb
  | snoc its i ih =>
    rw [List.foldl_append]
    have ih' := ih (fun l hl => hreset l (by simp [hl])) (by
      intro pre j post s h hs
      exact hadd pre j (post ++ [i]) s (by rw [h]; simp) hs)
    have hi := fun s => hadd its i [] s rfl
    simp only [List.foldl_cons, List.foldl_nil]
    cases i with
    | reset l => exact hreset l (by simp)
    | add m s =>
      show (_ ++ [s]).Nodup
      rw [List.nodup_append]
      refine ⟨ih', by simp, ?_⟩
      intro a ha b hb
      simp only [List.mem_singleton] at hb
      subst hb
      rintro rfl
      exact hi a rfl ha
    | addFront s => exact List.nodup_cons.mpr ⟨hi s rfl, ih'⟩
    | remove s => exact ih'.filter _

/-- How often each step is applied: once more for every item that adds it behind the last one that removes it or starts
again. -/
theorem C37_times (x : Step) (its : List SubItem) (base : List Step) :
    (its.foldl SubItem.run base).count x = its.foldl (SubItem.times x) (base.count x) := by
  induction its generalizing base with
  | nil => rfl
  | cons i its ih =>
    rw [List.foldl_cons, ih, List.foldl_cons]
    congr 1
    cases i with
    | reset l => rfl
    | add m s =>
      simp only [SubItem.run, SubItem.times, List.count_append, List.count_singleton, beq_iff_eq]
      split <;> rfl
    | addFront s =>
      simp only [SubItem.run, SubItem.times, List.count_cons, beq_iff_eq]
      split <;> rfl
    | remove s =>
      simp only [SubItem.run, SubItem.times]
      by_cases h : s = x
      · subst h
        rw [if_pos rfl, List.count_eq_zero]
        simp
      · rw [if_neg h, List.count_filter]
        simpa using fun e => h e.symm

/-- No step occurs twice exactly if each comes to at most one. -/
theorem C37_nodup_iff (its : List SubItem) (base : List Step) :
    (its.foldl SubItem.run base).Nodup ↔ ∀ x, its.foldl (SubItem.times x) (base.count x) ≤ 1 := by
  rw [List.nodup_iff_count]
  constructor
  · intro h x; rw [← C37_times]; exact h x
  · intro h x; rw [C37_times]; exact h x

example : [SubItem.add false .quotes, .remove .quotes, .addFront .quotes, .add true .quotes].foldl (SubItem.times .quotes) 5 = 2 := by
  decide

/-- Finding: the same step can be requested twice and is then applied twice. -/
theorem C37_duplicates :
    Group.fromCustomString none "q,q".toList = some (.custom [.quotes, .quotes]) ∧
    Group.fromCustomString (some .normal) "+quotes".toList =
      some (.custom [.specialCharacters, .quotes, .attributeReferences, .characterReplacements, .macros,
        .postReplacement, .quotes]) := by decide +kernel

example : Group.fromCustomString (some .verbatim) " attributes+, -c ,+macros".toList =
    some (.custom [.attributeReferences, .macros]) := by decide +kernel

/-- The hypotheses of `C37_denotation` are met by the items of the example above. -/
example : ∀ p ∈ [(" attributes+".toList, SubItem.addFront .attributeReferences), (" -c ".toList, .remove .specialCharacters),
    ("+macros".toList, .add true .macros)], ',' ∉ p.1 ∧ Denotes (trim p.1) p.2 := by
  intro p hp
  simp only [List.mem_cons, List.not_mem_nil, or_false] at hp
  rcases hp with rfl | rfl | rfl
  · exact ⟨by decide, .prepend (n := "attributes") (by simp [stepNames])⟩
  · exact ⟨by decide, .subtract (n := "c") (by simp [stepNames])⟩
  · exact ⟨by decide, .append (n := "macros") (by simp [stepNames])⟩

example : Group.fromCustomString none "q,nosuch".toList = none ∧ Group.fromCustomString none "q,none".toList = none := by
  decide +kernel

end Adoc.Props
