import Verif.Lemmas.PassBack
import Verif.Lemmas.Preprocessor
/-!
# Substitutions that panic, and substitutions that never end
-/

namespace Adoc
open Adoc.Spec Re
variable [Uni]

theorem shown_total (e : Env) (p : Passthrough) (x : Text) : ∃ y, shownRes e p x = .ok y := by
  unfold shownRes
  obtain ⟨tx, subs, ty, al⟩ := p
  cases ty with
  | none => exact ⟨_, rfl⟩
  | some ty =>
    cases al with
    | none => exact ⟨_, rfl⟩
    | some a =>
      obtain ⟨l, hl⟩ := inlineAttrlist_total e.store a
      simp only
      rw [hl]
      exact ⟨_, rfl⟩

theorem panics_sound (e : Env) : ∀ f,
    (∀ g al t, Group.apply f e g al t = .error .panic → SubstPanics e g al t) ∧
    (∀ ps t, restorePassthroughs f e ps t = .error .panic → BackPanics e ps t) := by
  intro f
  induction f with
  | zero => exact ⟨fun _ _ _ h => (by rw [Group.apply] at h; cases h), fun _ _ h => (by rw [restorePassthroughs] at h; cases h)⟩
  | succ f ih =>
    obtain ⟨ih1, ih2⟩ := ih
    constructor
    · intro g al t h
      rw [Group.apply] at h
      by_cases hg : TakesOut g
      · rw [if_pos (takesOut_iff.mpr hg)] at h
        obtain ⟨ps, u, ex, hx⟩ := extract_all t
        rw [ex] at h
        replace h : ((applySteps e al g.steps u).bind fun v => if ps = [] then Except.ok v else restorePassthroughs f e ps v) =
          .error .panic := h
        cases hv : applySteps e al g.steps u with
        | error er => rw [hv] at h; cases h; exact .steps hg hx hv
        | ok v =>
          rw [hv] at h
          replace h : (if ps = [] then Except.ok v else restorePassthroughs f e ps v) = .error .panic := h
          by_cases hp : ps = []
          · rw [if_pos hp] at h
            cases h
          · rw [if_neg hp] at h
            exact .back hg hx hp hv (ih2 _ _ h)
      · rw [if_neg fun hb => hg (takesOut_iff.mp hb)] at h
        exact .plain hg h
    · intro ps t h
      rw [restore_eq] at h
      have loop : ∀ k pv t em dest, restoreLoop f e ps k pv t em dest = .error .panic → BackPanics e ps t := by
        intro k
        induction k with
        | zero => intro pv t em dest h; unfold restoreLoop at h; rw [replLoop] at h; cases h
        | succ k ihk =>
          intro pv t em dest h
          rcases restoreLoop_step (f := f) (e := e) (ps := ps) (k := k) (pv := pv) (t := t) (em := em) (dest := dest) with
            ⟨piece, n, r, rfl, hp, _, pv', he⟩ | ⟨hn, he⟩
          · rw [he] at h
            cases hg : ps[n]? with
            | none =>
              have : restoreOne f e ps n = .ok ("(INTERNAL ERROR: Unresolved passthrough index ".toList ++ decimal n ++ [')']) := by
                unfold restoreOne; rw [hg]
              rw [this] at h
              exact .unknown hp hg (ihk _ _ _ _ h)
            | some p =>
              have h1 : restoreOne f e ps n = (Group.apply f e p.subs none p.text).bind fun x => (shownRes e p x).bind fun y =>
                  if y.contains passStart then restorePassthroughs f e ps y else .ok y := by unfold restoreOne; rw [hg]
              cases h3 : Group.apply f e p.subs none p.text with
              | error er =>
                rw [h3] at h1
                replace h1 : restoreOne f e ps n = .error er := h1
                rw [h1] at h
                cases h
                exact .here hp hg (ih1 _ _ _ h3)
              | ok x =>
                obtain ⟨y, hy⟩ := shown_total e p x
                rw [h3] at h1
                replace h1 : restoreOne f e ps n = (shownRes e p x).bind fun y =>
                  if y.contains passStart then restorePassthroughs f e ps y else .ok y := h1
                rw [hy] at h1
                replace h1 : restoreOne f e ps n = if y.contains passStart then restorePassthroughs f e ps y else .ok y := h1
                have hs := (subst_sound e f).1 _ _ _ _ h3
                cases h4 : (if y.contains passStart then restorePassthroughs f e ps y else .ok y) with
                | error er =>
                  rw [h1, h4] at h
                  cases h
                  refine .within hp hg hs (shown_iff.mp hy) ?_
                  split at h4
                  · exact ih2 _ _ h4
                  · cases h4
                | ok z =>
                  rw [h1, h4] at h
                  refine .behind (z := z) hp hg hs (shown_iff.mp hy) ?_ (ihk _ _ _ _ h)
                  split at h4
                  · exact (subst_sound e f).2 _ _ _ h4
                  · rename_i hm
                    cases h4
                    exact restored_plain fun h => hm (List.contains_iff_mem.mpr h)
          · rw [he] at h
            cases t with
            | nil => cases h
            | cons c t => exact .miss hn (ihk _ _ _ _ h)
      cases hl : restoreLoop f e ps (t.length + 1) none t true [] with
      | error er =>
        rw [hl] at h
        cases h
        exact loop _ _ _ _ _ hl
      | ok res => rw [hl] at h; cases h

theorem backPanics_mark {e : Env} {ps : List Passthrough} {t : Text} (h : BackPanics e ps t) : markStart ∈ t := by
  induction t with
  | nil =>
    generalize hz : ([] : Text) = z at h
    cases h with
    | miss => cases hz
    | unknown hp => obtain ⟨ds, rfl, _⟩ := hp; simp at hz
    | here hp => obtain ⟨ds, rfl, _⟩ := hp; simp at hz
    | within hp => obtain ⟨ds, rfl, _⟩ := hp; simp at hz
    | behind hp => obtain ⟨ds, rfl, _⟩ := hp; simp at hz
  | cons c t ih =>
    generalize hz : c :: t = z at h
    cases h with
    | miss _ h => cases hz; exact List.mem_cons_of_mem _ (ih h)
    | unknown hp => obtain ⟨ds, rfl, _⟩ := hp; cases hz; simp
    | here hp => obtain ⟨ds, rfl, _⟩ := hp; cases hz; simp
    | within hp => obtain ⟨ds, rfl, _⟩ := hp; cases hz; simp
    | behind hp => obtain ⟨ds, rfl, _⟩ := hp; cases hz; simp

/-- Putting the passthroughs back panics with enough fuel. -/
def LoopsPanic (e : Env) (ps : List Passthrough) (t : Text) : Prop :=
  ∃ f0, ∀ f ≥ f0, ∀ k > t.length, ∀ pv em dest, restoreLoop f e ps k pv t em dest = .error .panic

theorem loopsTo_of [LawfulUni] {e : Env} {ps : List Passthrough} {t out : Text} (h : Restored e ps t out) : LoopsTo e ps t out := by
  refine RestoredBy.rec (motive_1 := fun g al t out _ => ∃ f0, ∀ f ≥ f0, Group.apply f e g al t = .ok out)
    (motive_2 := fun ps t out _ => LoopsTo e ps t out) ?_ ?_ ?_ ?_ ?_ ?_ ?_ h
  · intro g al t out hg h
    exact apply_plain hg h
  · intro g al t u out hg hx h
    exact apply_none hg hx h
  · intro g al t ps u v out hg hx hp h _ ih
    exact apply_some hg hx hp h ih
  · intro ps
    exact loopsTo_done
  · intro ps c t out hn _ ih
    exact loopsTo_miss hn ih
  · intro ps piece n t out hp hg _ ih
    exact loopsTo_one (f1 := 0) hp (fun f _ => by unfold restoreOne; rw [hg]) ih
  · intro ps piece n p x y z t out hp hg _ hy hr _ ih1 ih2 ih3
    exact loopsTo_known hp hg ih1 hy hr ih2 ih3

/-- What is put in the place of a placeholder, with enough fuel. -/
theorem restoreOne_known [LawfulUni] {e : Env} {ps : List Passthrough} {x y z : Text} {n : Nat} {p : Passthrough}
    (hg : ps[n]? = some p) (hx : Substituted e p.subs none p.text x)
    (hy : ShownAs e p x y) (hr : Restored e ps y z) : ∃ f0, ∀ f ≥ f0, restoreOne f e ps n = .ok z := by
  obtain ⟨f1, hx⟩ := substituted_complete hx
  obtain ⟨f2, hz⟩ := loopsTo_of hr
  refine ⟨max f1 (f2 + 1), fun f hf => ?_⟩
  unfold restoreOne
  rw [hg]
  simp only
  rw [hx f (Nat.le_trans (Nat.le_max_left ..) hf)]
  show ((shownRes e p x).bind fun y => if y.contains passStart then restorePassthroughs f e ps y else .ok y) = .ok z
  rw [shown_iff.mpr hy]
  show (if y.contains passStart then restorePassthroughs f e ps y else .ok y) = .ok z
  by_cases hm : y.contains passStart = true
  · rw [if_pos hm]
    have hf2 : f2 + 1 ≤ f := Nat.le_trans (Nat.le_max_right ..) hf
    obtain ⟨f', rfl⟩ : ∃ f', f = f' + 1 := ⟨f - 1, by omega⟩
    exact restore_of_loop (hz f' (by omega))
  · rw [if_neg hm, restored_plain_eq hr fun h => hm (List.contains_iff_mem.mpr h)]

theorem loopsPanic_miss {e : Env} {ps : List Passthrough} {c : Char} {t : Text}
    (hn : ∀ piece behind n, c :: t = piece ++ behind → ¬ PlaceholderAt piece n) (h : LoopsPanic e ps t) :
    LoopsPanic e ps (c :: t) := by
  obtain ⟨f0, h⟩ := h
  refine ⟨f0, fun f hf k hk pv em dest => ?_⟩
  obtain ⟨k, rfl⟩ : ∃ k', k = k' + 1 := ⟨k - 1, by simp at hk; omega⟩
  rcases restoreLoop_step (f := f) (e := e) (ps := ps) (k := k) (pv := pv) (t := c :: t) (em := em) (dest := dest) with
    ⟨piece, n, r, he, hp, hne, pv', _⟩ | ⟨_, he⟩
  · exact absurd hp (hn _ _ _ he)
  · rw [he]
    simp only
    exact h f hf k (by simpa using hk) _ _ _

theorem loopsPanic_behind [LawfulUni] {e : Env} {ps : List Passthrough} {piece t x : Text} {n f1 : Nat} (hp : PlaceholderAt piece n)
    (hx : ∀ f ≥ f1, restoreOne f e ps n = .ok x) (h : LoopsPanic e ps t) : LoopsPanic e ps (piece ++ t) := by
  obtain ⟨f0, h⟩ := h
  refine ⟨max f0 f1, fun f hf k hk pv em dest => ?_⟩
  obtain ⟨k, rfl⟩ : ∃ k', k = k' + 1 := ⟨k - 1, by omega⟩
  rcases restoreLoop_step (f := f) (e := e) (ps := ps) (k := k) (pv := pv) (t := piece ++ t) (em := em) (dest := dest) with
    ⟨piece', n', r, he, hp', hne, pv', h2⟩ | ⟨hn, _⟩
  · obtain ⟨rfl, rfl, rfl⟩ := placeholderAt_det hp hp' he
    rw [h2, hx f (Nat.le_trans (Nat.le_max_right ..) hf)]
    simp only
    have := List.length_pos_iff.mpr hne
    rw [List.length_append] at hk
    exact h f (Nat.le_trans (Nat.le_max_left ..) hf) k (by omega) _ _ _
  · exact absurd hp (hn _ _ _ rfl)

theorem loopsPanic_here [LawfulUni] {e : Env} {ps : List Passthrough} {piece t : Text} {n f1 : Nat} (hp : PlaceholderAt piece n)
    (hx : ∀ f ≥ f1, restoreOne f e ps n = .error .panic) : LoopsPanic e ps (piece ++ t) := by
  refine ⟨f1, fun f hf k hk pv em dest => ?_⟩
  obtain ⟨k, rfl⟩ : ∃ k', k = k' + 1 := ⟨k - 1, by omega⟩
  rcases restoreLoop_step (f := f) (e := e) (ps := ps) (k := k) (pv := pv) (t := piece ++ t) (em := em) (dest := dest) with
    ⟨piece', n', r, he, hp', hne, pv', h2⟩ | ⟨hn, _⟩
  · obtain ⟨rfl, rfl, rfl⟩ := placeholderAt_det hp hp' he
    rw [h2, hx f hf]
  · exact absurd hp (hn _ _ _ rfl)

theorem restore_of_panic {e : Env} {ps : List Passthrough} {t : Text} {f : Nat}
    (h : ∀ k > t.length, ∀ pv em dest, restoreLoop f e ps k pv t em dest = .error .panic) :
    restorePassthroughs (f + 1) e ps t = .error .panic := by
  rw [restore_eq, h _ (Nat.lt_succ_self _)]
  rfl

theorem panics_complete [LawfulUni] {e : Env} {g : Group} {al : Option Attrlist} {t : Text} (h : SubstPanics e g al t) :
    ∃ f0, ∀ f ≥ f0, Group.apply f e g al t = .error .panic := by
  refine PanicsBy.rec (motive_1 := fun g al t _ => ∃ f0, ∀ f ≥ f0, Group.apply f e g al t = .error .panic)
    (motive_2 := fun ps t _ => LoopsPanic e ps t) ?_ ?_ ?_ ?_ ?_ ?_ ?_ ?_ h
  · intro g al t hg h
    refine ⟨1, fun f hf => ?_⟩
    obtain ⟨f, rfl⟩ : ∃ f', f = f' + 1 := ⟨f - 1, by omega⟩
    rw [Group.apply, if_neg fun hb => hg (takesOut_iff.mp hb), h]
  · intro g al t ps u hg hx h
    refine ⟨1, fun f hf => ?_⟩
    obtain ⟨f, rfl⟩ : ∃ f', f = f' + 1 := ⟨f - 1, by omega⟩
    rw [Group.apply, if_pos (takesOut_iff.mpr hg), extract_iff.mpr hx]
    show ((applySteps e al g.steps u).bind fun v => if ps = [] then Except.ok v else _) = _
    rw [h]
    rfl
  · intro g al t ps u v hg hx hp h _ ih
    obtain ⟨f0, hr⟩ := ih
    refine ⟨f0 + 2, fun f hf => ?_⟩
    obtain ⟨f, rfl⟩ : ∃ f', f = f' + 1 + 1 := ⟨f - 2, by omega⟩
    rw [Group.apply, if_pos (takesOut_iff.mpr hg), extract_iff.mpr hx]
    show ((applySteps e al g.steps u).bind fun v => if ps = [] then Except.ok v else restorePassthroughs (f + 1) e ps v) = _
    rw [h]
    show (if ps = [] then Except.ok v else restorePassthroughs (f + 1) e ps v) = _
    rw [if_neg hp]
    exact restore_of_panic (hr f (by omega))
  · intro ps c t hn _ ih
    exact loopsPanic_miss hn ih
  · intro ps piece n t hp hg _ ih
    exact loopsPanic_behind (f1 := 0) hp (fun f _ => by unfold restoreOne; rw [hg]) ih
  · intro ps piece n p t hp hg _ ih
    obtain ⟨f1, h1⟩ := ih
    refine loopsPanic_here (f1 := f1) hp fun f hf => ?_
    unfold restoreOne
    rw [hg]
    simp only
    rw [h1 f hf]
    rfl
  · intro ps piece n p x y t hp hg hx hy hb ih
    obtain ⟨f1, h1⟩ := substituted_complete hx
    obtain ⟨f2, h2⟩ := ih
    refine loopsPanic_here (f1 := max f1 (f2 + 1)) hp fun f hf => ?_
    unfold restoreOne
    rw [hg]
    simp only
    rw [h1 f (Nat.le_trans (Nat.le_max_left ..) hf)]
    show ((shownRes e p x).bind fun y => if y.contains passStart then restorePassthroughs f e ps y else .ok y) = _
    rw [shown_iff.mpr hy]
    show (if y.contains passStart then restorePassthroughs f e ps y else .ok y) = _
    have hm : y.contains passStart = true := List.contains_iff_mem.mpr (backPanics_mark hb)
    rw [if_pos hm]
    have hf2 : f2 + 1 ≤ f := Nat.le_trans (Nat.le_max_right ..) hf
    obtain ⟨f', rfl⟩ : ∃ f', f = f' + 1 := ⟨f - 1, by omega⟩
    exact restore_of_panic (h2 f' (by omega))
  · intro ps piece n p x y z t hp hg hx hy hr _ ih
    obtain ⟨f1, h1⟩ := restoreOne_known hg hx hy hr
    exact loopsPanic_behind hp h1 ih

theorem panics_iff [LawfulUni] {e : Env} {g : Group} {al : Option Attrlist} {t : Text} :
    (∃ f0, ∀ f ≥ f0, Group.apply f e g al t = .error .panic) ↔ SubstPanics e g al t := by
  constructor
  · rintro ⟨f0, h⟩
    exact (panics_sound e f0).1 _ _ _ (h f0 (Nat.le_refl _))
  · exact panics_complete

/-- No result with any fuel: neither a text nor a panic. -/
theorem endless_iff [LawfulUni] {e : Env} {g : Group} {al : Option Attrlist} {t : Text} :
    (∀ f, Group.apply f e g al t = .error .fuel) ↔ (∀ out, ¬ Substituted e g al t out) ∧ ¬ SubstPanics e g al t := by
  constructor
  · intro h
    refine ⟨fun out hs => ?_, fun hp => ?_⟩
    · obtain ⟨f, hf⟩ := substituted_complete hs
      have := hf f (Nat.le_refl _)
      rw [h f] at this
      cases this
    · obtain ⟨f, hf⟩ := panics_complete hp
      have := hf f (Nat.le_refl _)
      rw [h f] at this
      cases this
  · rintro ⟨h1, h2⟩ f
    cases hx : Group.apply f e g al t with
    | ok out => exact absurd ((subst_sound e f).1 _ _ _ _ hx) (h1 out)
    | error er =>
      cases er with
      | fuel => rfl
      | panic => exact absurd ((panics_sound e f).1 _ _ _ hx) h2

end Adoc
