import Verif.Spec.Path
import Verif.Lemmas.Line
/-! # Lemmas about web paths -/

namespace Adoc

theorem splitChar_ne_nil (c : Char) (t : Text) : splitChar c t ≠ [] := by
  induction t with
  | nil => simp [splitChar]
  | cons d ds ih =>
    rw [splitChar]
    split
    · simp
    · split <;> simp

theorem splitChar_no (c : Char) (t : Text) : ∀ s ∈ splitChar c t, c ∉ s := by
  induction t with
  | nil => simp [splitChar]
  | cons d ds ih =>
    rw [splitChar]
    split
    · intro s hs
      rcases List.mem_cons.mp hs with rfl | hs
      · simp
      · exact ih s hs
    · rename_i hd
      split
      · rename_i p ps hp
        rw [hp] at ih
        intro s hs
        rcases List.mem_cons.mp hs with rfl | hs
        · have := ih p (by simp)
          intro hc
          rcases List.mem_cons.mp hc with rfl | hc
          · exact hd rfl
          · exact this hc
        · exact ih s (by simp [hs])
      · intro s hs
        simp at hs; subst hs
        simp; exact fun e => hd e.symm

theorem splitChar_append {c : Char} {p : Text} (hp : c ∉ p) (t : Text) :
    splitChar c (p ++ c :: t) = p :: splitChar c t := by
  induction p with
  | nil => simp [splitChar]
  | cons d ds ih =>
    have hd : ¬ d = c := fun e => hp (by simp [e])
    rw [List.cons_append, splitChar, if_neg hd, ih (fun h => hp (by simp [h]))]

theorem splitChar_single {c : Char} {p : Text} (hp : c ∉ p) : splitChar c p = [p] := by
  induction p with
  | nil => simp [splitChar]
  | cons d ds ih =>
    have hd : ¬ d = c := fun e => hp (by simp [e])
    rw [splitChar, if_neg hd, ih (fun h => hp (by simp [h]))]

theorem splitChar_joinChar {c : Char} {segs : List Text} (hne : segs ≠ []) (h : ∀ s ∈ segs, c ∉ s) :
    splitChar c (joinChar c segs) = segs := by
  induction segs with
  | nil => exact absurd rfl hne
  | cons p ps ih =>
    cases ps with
    | nil => exact splitChar_single (h p (by simp))
    | cons q qs =>
      rw [joinChar, splitChar_append (h p (by simp)), ih (by simp) (fun s hs => h s (by simp [hs]))]

theorem joinChar_eq (c : Char) (segs : List Text) : joinChar c segs = (List.intersperse [c] segs).flatten := by
  induction segs with
  | nil => rfl
  | cons p ps ih =>
    cases ps with
    | nil => simp [joinChar]
    | cons q qs => rw [joinChar, ih]; simp

theorem replaceChar_append (c : Char) (w a b : Text) :
    replaceChar c w (a ++ b) = replaceChar c w a ++ replaceChar c w b := by
  simp [replaceChar]

theorem replaceChar_cons_ne {c d : Char} (w t : Text) (h : d ≠ c) :
    replaceChar c w (d :: t) = d :: replaceChar c w t := by
  simp [replaceChar, h]

theorem replaceChar_join (c d : Char) (w : Text) (h : d ≠ c) (segs : List Text) :
    replaceChar c w (joinChar d segs) = joinChar d (segs.map (replaceChar c w)) := by
  induction segs with
  | nil => rfl
  | cons p ps ih =>
    cases ps with
    | nil => rfl
    | cons q qs =>
      rw [joinChar, replaceChar_append, replaceChar_cons_ne _ _ h, ih]; rfl

theorem replaceChar_id {c : Char} {w t : Text} (h : c ∉ t) : replaceChar c w t = t := by
  induction t with
  | nil => rfl
  | cons d ds ih =>
    rw [replaceChar_cons_ne _ _ (fun e => h (by simp [e])), ih (fun hh => h (by simp [hh]))]

theorem mem_replaceChar {c d : Char} {w t : Text} (h : d ∈ replaceChar c w t) : d ∈ w ∨ (d ∈ t ∧ d ≠ c) := by
  unfold replaceChar at h
  obtain ⟨e, he, hd⟩ := List.mem_flatMap.mp h
  split at hd
  · exact Or.inl hd
  · rename_i hne
    simp at hd; subst hd; exact Or.inr ⟨he, hne⟩

namespace Path

/-- Escaping of spaces. -/
abbrev esc (t : Text) : Text := replaceChar ' ' "%20".toList t

theorem esc_space (t : Text) : ' ' ∉ esc t := by
  intro h
  rcases mem_replaceChar h with h | ⟨_, h⟩
  · exact absurd h (by decide)
  · exact h rfl

theorem esc_no_slash {t : Text} (h : '/' ∉ t) : '/' ∉ esc t := by
  intro hh
  rcases mem_replaceChar hh with hh | ⟨hh, _⟩
  · exact absurd hh (by decide)
  · exact h hh

theorem esc_no_bs {t : Text} (h : '\\' ∉ t) : '\\' ∉ esc t := by
  intro hh
  rcases mem_replaceChar hh with hh | ⟨hh, _⟩
  · exact absurd hh (by decide)
  · exact h hh

/-- Escaping does not produce a text without percent sign out of another one. -/
theorem esc_eq {t u : Text} (hu : '%' ∉ u) (h : esc t = u) : t = u := by
  induction t generalizing u with
  | nil => exact h
  | cons d ds ih =>
    by_cases hd : d = ' '
    · subst hd
      exfalso; apply hu; rw [← h]; simp [esc, replaceChar]
    · rw [esc, replaceChar_cons_ne _ _ hd] at h
      subst h
      rw [ih (u := replaceChar ' ' "%20".toList ds) (fun hh => hu (List.mem_cons_of_mem _ hh)) rfl]
      congr 1
      exact (replaceChar_id (esc_space ds)).symm

theorem esc_dot {t : Text} : esc t = ['.'] ↔ t = ['.'] :=
  ⟨fun h => esc_eq (by decide) h, fun h => by subst h; decide⟩
theorem esc_dotdot {t : Text} : esc t = ['.', '.'] ↔ t = ['.', '.'] :=
  ⟨fun h => esc_eq (by decide) h, fun h => by subst h; decide⟩
theorem esc_nil {t : Text} : esc t = [] ↔ t = [] :=
  ⟨fun h => esc_eq (by decide) h, fun h => by subst h; decide⟩

theorem posixify_no_bs {t : Text} {sep : Char} (h : '\\' ∉ t) : posixify sep t = t := by
  unfold posixify
  rw [if_neg]
  rintro ⟨_, hc⟩
  exact h (by simpa using hc)

theorem posixify_idem (sep : Char) (t : Text) : posixify sep (posixify sep t) = posixify sep t := by
  by_cases h : sep = '\\' ∧ t.contains '\\'
  · have : posixify sep t = replaceChar '\\' ['/'] t := by unfold posixify; rw [if_pos h]
    apply posixify_no_bs
    rw [this]
    intro hh
    rcases mem_replaceChar hh with hh | ⟨_, hh⟩
    · exact absurd hh (by decide)
    · exact hh rfl
  · have : posixify sep t = t := by unfold posixify; rw [if_neg h]
    rw [this, this]

/-- Either `posixify` does nothing at all, or its result has no backslash. -/
theorem posixify_cases (sep : Char) (t : Text) : (sep ≠ '\\' ∧ posixify sep t = t) ∨ '\\' ∉ posixify sep t := by
  by_cases h : sep = '\\'
  · right
    unfold posixify
    by_cases hc : t.contains '\\' = true
    · rw [if_pos ⟨h, hc⟩]
      intro hh
      rcases mem_replaceChar hh with hh | ⟨_, hh⟩
      · exact absurd hh (by decide)
      · exact hh rfl
    · rw [if_neg (fun hh => hc hh.2)]; simpa using hc
  · left
    refine ⟨h, ?_⟩
    unfold posixify
    rw [if_neg (fun hh => h hh.1)]

/-- Invariant of the segment loop. -/
structure Good (rooted : Bool) (segs : List Text) : Prop where
  lead : ∃ k rest, segs = List.replicate k ['.', '.'] ++ rest ∧ ['.', '.'] ∉ rest
  root : rooted = true → ['.', '.'] ∉ segs
  nodot : ['.'] ∉ segs
  noslash : ∀ s ∈ segs, '/' ∉ s

theorem resolve_cons (root : Option Text) (acc : List Text) (seg : Text) (segs : List Text) :
    resolve root acc (seg :: segs) = resolve root (resolveStep root acc seg) segs := rfl

theorem resolve_good (root : Option Text) (segs : List Text) :
    ∀ acc : List Text, Good (decide (root = some ['/'])) acc.reverse → (root = none ∨ root = some ['.', '/'] ∨ root = some ['/']) →
      ['.'] ∉ segs → (∀ s ∈ segs, '/' ∉ s) → Good (decide (root = some ['/'])) (resolve root acc segs) := by
  induction segs with
  | nil => intro acc h _ _ _; exact h
  | cons seg segs ih =>
    intro acc h hr hnd hns
    have hnd' : ['.'] ∉ segs := fun hh => hnd (by simp [hh])
    have hns' : ∀ s ∈ segs, '/' ∉ s := fun s hs => hns s (by simp [hs])
    have hseg : ['.'] ≠ seg := fun e => hnd (by simp [e])
    rw [resolve_cons, resolveStep.eq_def]
    split
    · rename_i hdd
      subst hdd
      cases acc with
      | nil =>
        have push : Good (decide (root = some ['/'])) [['.', '.']] ∨ root = some ['/'] := by
          rcases hr with rfl | rfl | rfl
          · left; exact ⟨⟨1, [], by simp, by simp⟩, by simp, by simp, by simp⟩
          · left; exact ⟨⟨1, [], by simp, by simp⟩, by simp, by simp, by simp⟩
          · right; rfl
        rcases hr with rfl | rfl | rfl
        · simp only
          rcases push with p | p
          · exact ih _ p (by simp) hnd' hns'
          · cases p
        · simp only
          rw [if_neg (by simp)]
          rcases push with p | p
          · exact ih _ p (by simp) hnd' hns'
          · simp at p
        · simp only
          rw [if_pos (by decide)]
          exact ih _ h (by simp) hnd' hns'
      | cons last rest =>
        simp only
        split
        · rename_i hl
          subst hl
          apply ih _ _ hr hnd' hns'
          obtain ⟨k, r, e, hne⟩ := h.lead
          -- the last segment is `..`, so everything is
          have hr0 : r = [] := by
            rcases List.eq_nil_or_concat r with hr0 | ⟨r', x, hr'⟩
            · exact hr0
            · exfalso
              rw [hr', List.concat_eq_append, List.reverse_cons, ← List.append_assoc] at e
              have := (List.append_inj' e rfl).2
              simp at this
              apply hne
              rw [hr', List.concat_eq_append, ← this]; simp
          subst hr0
          refine ⟨⟨k + 1, [], ?_, by simp⟩, ?_, ?_, ?_⟩
          · rw [List.reverse_cons, e]; simp [List.replicate_succ']
          · intro hroot; exact absurd (by simp) (h.root hroot)
          · rw [List.reverse_cons]
            simp only [List.mem_append, not_or]
            exact ⟨h.nodot, by simp⟩
          · intro s hs
            rw [List.reverse_cons] at hs
            rcases List.mem_append.mp hs with hs | hs
            · exact h.noslash s hs
            · simp at hs; subst hs; simp
        · rename_i hl
          apply ih _ _ hr hnd' hns'
          obtain ⟨k, r, e, hne⟩ := h.lead
          rw [List.reverse_cons] at e
          rcases List.eq_nil_or_concat r with hr0 | ⟨r', x, hr'⟩
          · exfalso
            subst hr0
            rw [List.append_nil] at e
            have : last ∈ List.replicate k ['.', '.'] := by rw [← e]; simp
            exact hl (List.eq_of_mem_replicate this)
          · rw [hr', List.concat_eq_append, ← List.append_assoc] at e
            have e' := (List.append_inj' e rfl).1
            refine ⟨⟨k, r', e', fun hh => hne (by rw [hr']; simp [hh])⟩, ?_, ?_, ?_⟩
            · intro hroot hh; exact h.root hroot (by rw [List.reverse_cons]; simp [hh])
            · intro hh; exact h.nodot (by rw [List.reverse_cons]; simp [hh])
            · intro s hs; exact h.noslash s (by rw [List.reverse_cons]; simp [hs])
    · rename_i hdd
      apply ih _ _ hr hnd' hns'
      obtain ⟨k, r, e, hne⟩ := h.lead
      refine ⟨⟨k, r ++ [seg], by rw [List.reverse_cons, e, List.append_assoc], ?_⟩, ?_, ?_, ?_⟩
      · simp only [List.mem_append, List.mem_singleton, not_or]
        exact ⟨hne, fun e => hdd e.symm⟩
      · intro hroot
        rw [List.reverse_cons]
        simp only [List.mem_append, List.mem_singleton, not_or]
        exact ⟨h.root hroot, fun e => hdd e.symm⟩
      · rw [List.reverse_cons]
        simp only [List.mem_append, List.mem_singleton, not_or]
        exact ⟨h.nodot, hseg⟩
      · intro s hs
        rw [List.reverse_cons] at hs
        rcases List.mem_append.mp hs with hs | hs
        · exact h.noslash s hs
        · simp at hs; subst hs; exact hns s (by simp)

/-- A list that is already clean is not changed by the loop. -/
theorem resolve_id (root : Option Text) (segs : List Text) (h : ['.', '.'] ∉ segs) (acc : List Text) :
    resolve root acc segs = acc.reverse ++ segs := by
  induction segs generalizing acc with
  | nil => simp [resolve]
  | cons s ss ih =>
    rw [resolve_cons, resolveStep.eq_def, if_neg (fun e => h (by simp [e])), ih (fun hh => h (by simp [hh]))]
    simp

theorem resolve_lead (root : Option Text) (hroot : root = none ∨ root = some ['.', '/']) (k : Nat)
    (rest : List Text) (h : ['.', '.'] ∉ rest) :
    resolve root [] (List.replicate k ['.', '.'] ++ rest) = List.replicate k ['.', '.'] ++ rest := by
  have : ∀ j, resolve root (List.replicate j ['.', '.']) (List.replicate k ['.', '.'] ++ rest) =
      List.replicate (j + k) ['.', '.'] ++ rest := by
    induction k with
    | zero => intro j; simp; rw [resolve_id _ _ h]; simp
    | succ k ih =>
      intro j
      rw [List.replicate_succ, List.cons_append, resolve_cons, resolveStep.eq_def, if_pos rfl]
      have hstep : resolve root (['.', '.'] :: List.replicate j ['.', '.']) (List.replicate k ['.', '.'] ++ rest)
          = List.replicate (j + (k + 1)) ['.', '.'] ++ rest := by
        have := ih (j + 1)
        rw [List.replicate_succ] at this
        rw [this]; congr 2; omega
      cases j with
      | zero =>
        simp only [List.replicate_zero]
        rw [List.replicate_zero] at hstep
        rcases hroot with rfl | rfl
        · exact hstep
        · simp only; rw [if_neg (by simp)]; exact hstep
      | succ j =>
        rw [List.replicate_succ] at hstep ⊢
        simp only
        rw [if_pos trivial]
        exact hstep
  have := this 0
  simpa using this

/-- The root component and the segments, with what is known about them. -/
theorem partition_spec (sep : Char) (t : Text) :
    ∃ root after segs, partitionPath sep t = (segs, root) ∧
      (root = some ['/'] ∧ posixify sep t = '/' :: after ∨
       root = some ['.', '/'] ∧ posixify sep t = '.' :: '/' :: after ∨
       root = none ∧ posixify sep t = after ∧ after.head? ≠ some '/' ∧ ¬ ∃ r, after = '.' :: '/' :: r) ∧
      segs = (splitChar '/' after).filter (fun s => s != ['.']) := by
  unfold partitionPath
  generalize posixify sep t = p
  simp only
  by_cases h1 : isWebRoot p = true
  · obtain ⟨r, hr⟩ := startsWith_iff.mp h1
    rw [if_pos h1]
    subst hr
    exact ⟨some ['/'], r, _, rfl, Or.inl ⟨rfl, rfl⟩, rfl⟩
  · by_cases h2 : startsWith p ['.', '/'] = true
    · obtain ⟨r, hr⟩ := startsWith_iff.mp h2
      rw [if_neg h1, if_pos h2]
      subst hr
      exact ⟨some ['.', '/'], r, _, rfl, Or.inr (Or.inl ⟨rfl, rfl⟩), rfl⟩
    · rw [if_neg h1, if_neg h2]
      refine ⟨none, p, _, rfl, Or.inr (Or.inr ⟨rfl, rfl, ?_, ?_⟩), rfl⟩
      · intro hh
        apply h1
        cases p with
        | nil => simp at hh
        | cons c cs => simp at hh; subst hh; exact startsWith_iff.mpr ⟨cs, rfl⟩
      · rintro ⟨r, rfl⟩
        exact h2 (startsWith_iff.mpr ⟨r, rfl⟩)

theorem segs_props {after : Text} {segs : List Text}
    (h : segs = (splitChar '/' after).filter (fun s => s != ['.'])) :
    ['.'] ∉ segs ∧ ∀ s ∈ segs, '/' ∉ s := by
  subst h
  constructor
  · simp
  · intro s hs
    exact splitChar_no '/' after s (List.mem_filter.mp hs).1

theorem Good.nil (b : Bool) : Good b [] := ⟨⟨0, [], by simp, by simp⟩, by simp, by simp, by simp⟩

theorem Good.map_esc {b : Bool} {segs : List Text} (h : Good b segs) : Good b (segs.map esc) := by
  have key : ∀ l : List Text, ['.', '.'] ∉ l → ['.', '.'] ∉ l.map esc := by
    intro l hl hh
    obtain ⟨s, hs, he⟩ := List.mem_map.mp hh
    exact hl ((esc_dotdot.mp he) ▸ hs)
  obtain ⟨k, rest, e, hne⟩ := h.lead
  refine ⟨⟨k, rest.map esc, ?_, key _ hne⟩, fun hr => key _ (h.root hr), ?_, ?_⟩
  · rw [e, List.map_append, List.map_replicate]
    congr 1
  · intro hh
    obtain ⟨s, hs, he⟩ := List.mem_map.mp hh
    exact h.nodot ((esc_dot.mp he) ▸ hs)
  · intro s hs
    obtain ⟨u, hu, rfl⟩ := List.mem_map.mp hs
    exact esc_no_slash (h.noslash u hu)

theorem reduce_dots (r : Bool) (a l c : List Text) (h : Spec.Reduce r (a ++ l.filter (fun s => s != ['.'])) c) :
    Spec.Reduce r (a ++ l) c := by
  induction l generalizing a with
  | nil => simpa using h
  | cons x xs ih =>
    by_cases hx : x = ['.']
    · subst hx
      have := ih a (by simpa using h)
      have := Spec.Reduce.dot (a := a) (b := xs) this
      simpa using this
    · have hf : (x :: xs).filter (fun s => s != ['.']) = x :: xs.filter (fun s => s != ['.']) := by
        rw [List.filter_cons_of_pos]; simpa using hx
      rw [hf] at h
      have := ih (a ++ [x]) (by simpa using h)
      simpa using this

theorem resolve_reduce (root : Option Text) (hr : root = none ∨ root = some ['.', '/'] ∨ root = some ['/'])
    (segs : List Text) (hd : ['.'] ∉ segs) :
    ∀ acc : List Text, ['.'] ∉ acc →
      Spec.Reduce (decide (root = some ['/'])) (acc.reverse ++ segs) (resolve root acc segs) := by
  induction segs with
  | nil => intro acc _; simp [resolve]; exact .refl
  | cons seg segs ih =>
    intro acc hacc
    have hd' : ['.'] ∉ segs := fun h => hd (by simp [h])
    rw [resolve_cons, resolveStep.eq_def]
    have push : Spec.Reduce (decide (root = some ['/'])) (acc.reverse ++ seg :: segs)
        (resolve root (seg :: acc) segs) := by
      have := ih hd' (seg :: acc) (by
        intro h
        rcases List.mem_cons.mp h with h | h
        · exact hd (by simp [h])
        · exact hacc h)
      simpa using this
    split
    · rename_i hs
      subst hs
      cases acc with
      | nil =>
        rcases hr with rfl | rfl | rfl
        · exact push
        · simp only; rw [if_neg (by simp)]; exact push
        · simp only; rw [if_pos (by decide)]
          exact .top rfl (ih hd' [] (by simp))
      | cons last rest =>
        simp only
        split
        · exact push
        · rename_i hl
          have := ih hd' rest (fun h => hacc (by simp [h]))
          have := Spec.Reduce.up (a := rest.reverse) (s := last) (b := segs) hl
            (fun e => hacc (by simp [e])) this
          simpa using this
    · exact push

end Path
end Adoc
