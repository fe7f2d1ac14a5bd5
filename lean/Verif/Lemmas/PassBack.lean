import Verif.Lemmas.PassShort
/-!
# The way back from the placeholders to the passthroughs
-/

namespace Adoc
open Adoc.Spec Re
variable [Uni]

/-! ### What is taken out -/

theorem extract_all (t : Text) : ∃ ps out, extractPassthroughs t = .ok (ps, out) ∧ Extracted t ps out := by
  have h1 : ∃ ps u, (if containsSub t "++".toList || containsSub t "$$".toList || containsSub t "ss:".toList then
      replaceAllS inlinePassMacroRe passMacroReplacer [] t else .ok ([], t)) = .ok (ps, u) ∧ LongOut 0 t ps u := by
    by_cases h : (containsSub t "++".toList || containsSub t "$$".toList || containsSub t "ss:".toList) = true
    · rw [if_pos h]
      exact long_all t
    · rw [if_neg h]
      refine ⟨[], t, rfl, longOut_none (fun a u b x e hx => h ?_) 0⟩
      have occ : ∀ {w : Text}, Occurs w u → Occurs w t := by
        rintro w ⟨p, q, rfl⟩
        exact ⟨a ++ p, q ++ b, by rw [e]; simp⟩
      rw [Bool.or_eq_true, Bool.or_eq_true, containsSub_iff, containsSub_iff, containsSub_iff, or_assoc]
      rcases longAt_sniff hx with h | h | h
      · exact .inl (occ h)
      · exact .inr (.inl (occ h))
      · exact .inr (.inr (occ h))
  obtain ⟨ps, u, e1, h1⟩ := h1
  have heq : extractPassthroughs t = if u.contains '+' || containsSub u "-]".toList then
      replaceAllS inlinePassRe (inlinePassReplacer (u.length + 1)) ps u else .ok (ps, u) := by
    unfold extractPassthroughs
    by_cases h : (containsSub t "++".toList || containsSub t "$$".toList || containsSub t "ss:".toList) = true
    · rw [if_pos h] at e1 ⊢
      rw [e1]
      rfl
    · rw [if_neg h] at e1 ⊢
      cases e1
      rfl
  rw [heq]
  by_cases h : (u.contains '+' || containsSub u "-]".toList) = true
  · rw [if_pos h]
    obtain ⟨ps', out, e2, h2⟩ := short_all ps u
    exact ⟨_, out, e2, ps, u, ps', h1, h2, rfl⟩
  · rw [if_neg h]
    refine ⟨ps, u, rfl, ps, u, [], h1, shortOut_none (fun a v b x e hx => h ?_) _ _, by simp⟩
    rw [Bool.or_eq_true, containsSub_iff, List.contains_iff_mem]
    rcases shortAt_sniff hx with h | ⟨p, q, rfl⟩
    · exact .inl (by rw [e]; simp [h])
    · exact .inr ⟨a ++ p, q ++ b, by rw [e]; simp⟩

theorem extracted_det {t out out' : Text} {ps ps' : List Passthrough} (h : Extracted t ps out) (h' : Extracted t ps' out') :
    ps = ps' ∧ out = out' := by
  obtain ⟨p1, u, p2, h1, h2, rfl⟩ := h
  obtain ⟨p1', u', p2', h1', h2', rfl⟩ := h'
  obtain ⟨rfl, rfl⟩ := longOut_det h1 h1'
  obtain ⟨rfl, rfl⟩ := shortOut_det h2 h2'
  exact ⟨rfl, rfl⟩

theorem extract_iff {t out : Text} {ps : List Passthrough} : extractPassthroughs t = .ok (ps, out) ↔ Extracted t ps out := by
  obtain ⟨ps', out', e, h⟩ := extract_all t
  constructor
  · intro h'
    rw [e] at h'
    cases h'
    exact h
  · intro h'
    obtain ⟨rfl, rfl⟩ := extracted_det h h'
    exact e

/-! ### Placeholders -/

omit [Uni] in
theorem numbered_iff {ds : Text} {n : Nat} : Numbered ds n ↔ n = parseIndex ds := by
  unfold Numbered parseIndex
  simp only
  have : (∀ c ∈ ds, '0'.toNat ≤ c.toNat ∧ c.toNat ≤ '9'.toNat) ↔ ds.all isAsciiDigit = true := by
    simp [isAsciiDigit, List.all_eq_true]
  by_cases h : ds.all isAsciiDigit = true
  · rw [if_pos h]
    simp only [this, h, true_and]
    rfl
  · rw [if_neg h]
    rw [if_neg fun hh => h (this.mp hh.1)]

theorem m_index {pv : Option Char} {t : Text} {z : RS} (h : m passWithIndexRe some ⟨pv, t, []⟩ = some z) :
    ∃ ds, ds ≠ [] ∧ (∀ c ∈ ds, Uni.isNd c = true) ∧ t = (markStart :: ds ++ [markEnd]) ++ z.rest ∧ z.caps = [(1, ds)] := by
  unfold passWithIndexRe at h
  simp only [cat] at h
  rw [m_seq] at h
  obtain ⟨r1, e1, h⟩ := m_chr_some h
  rw [m_seq] at h
  obtain ⟨ds, r2, e2, hne, hc, h⟩ := m_plusCls h
  obtain ⟨r3, e3, h⟩ := m_chr_some h
  simp only at e1 e2 e3
  subst e3 e2
  cases h
  exact ⟨ds, hne, hc, by rw [e1]; simp; exact ⟨rfl, rfl⟩, rfl⟩

theorem index_rel {ds : Text} (hne : ds ≠ []) (hc : ∀ c ∈ ds, Uni.isNd c = true) (pv : Option Char) (r : Text) :
    ∃ s, Rel passWithIndexRe ⟨pv, (markStart :: ds ++ [markEnd]) ++ r, []⟩ s := by
  cases ds with
  | nil => exact absurd rfl hne
  | cons c ds =>
    have : (markStart :: (c :: ds) ++ [markEnd]) ++ r = passStart :: c :: (ds ++ passEnd :: r) := by simp; exact ⟨rfl, rfl⟩
    rw [this]
    exact ⟨_, rel_seq_iff.mpr ⟨_, rel_chr_iff.mpr ⟨_, rfl, rfl⟩, rel_seq_iff.mpr ⟨_, rel_cap_iff.mpr ⟨⟨_, _, _⟩, c :: ds,
      rel_seq_iff.mpr ⟨_, rel_cls_iff.mpr ⟨c, _, rfl, hc c (by simp), rfl⟩,
        rel_star_cls_iff.mpr ⟨ds, _, rfl, fun d hd => hc d (by simp [hd]), rfl⟩⟩, rfl, rfl⟩, rel_chr_iff.mpr ⟨_, rfl, rfl⟩⟩⟩⟩

theorem placeholderAt_det [LawfulUni] {u u' b b' : Text} {n n' : Nat} (h : PlaceholderAt u n) (h' : PlaceholderAt u' n')
    (e : u ++ b = u' ++ b') : u = u' ∧ b = b' ∧ n = n' := by
  obtain ⟨ds, rfl, _, hc, hn⟩ := h
  obtain ⟨ds', rfl, _, hc', hn'⟩ := h'
  have hE : Uni.isNd markEnd = false := by rw [LawfulUni.nd _ (by decide)]; decide
  have hm : ∀ {l : Text}, (∀ c ∈ l, Uni.isNd c = true) → markEnd ∉ l := by
    intro l hl hm
    rw [hl _ hm] at hE
    cases hE
  have e' : ds ++ markEnd :: b = ds' ++ markEnd :: b' := by simpa using e
  obtain rfl := until_inj (hm hc) (hm hc') e'
  rw [numbered_iff] at hn hn'
  exact ⟨rfl, by simpa using e', hn.trans hn'.symm⟩

/-! ### The replacer -/

/-- The rendering of a passthrough. -/
def shownRes (e : Env) (p : Passthrough) (x : Text) : Res Text :=
  match p.type, p.attrlist with
  | none, _ => .ok x
  | some ty, none => .ok (e.r.quoted ty .unconstrained none none x)
  | some ty, some a => (inlineAttrlist e.store a).map fun l => e.r.quoted ty .unconstrained (some l) l.id x

/-- What is put in the place of a placeholder. -/
def restoreOne (fuel : Nat) (e : Env) (ps : List Passthrough) (n : Nat) : Res Text :=
  match ps[n]? with
  | none => .ok ("(INTERNAL ERROR: Unresolved passthrough index ".toList ++ decimal n ++ [')'])
  | some p => (Group.apply fuel e p.subs none p.text).bind fun x => (shownRes e p x).bind fun y =>
    if y.contains passStart then restorePassthroughs fuel e ps y else .ok y

/-- The loop that replaces the placeholders. -/
def restoreLoop (fuel : Nat) (e : Env) (ps : List Passthrough) (k : Nat) (pv : Option Char) (t : Text) (em : Bool) (dest : Text) :
    Res (Unit × Text) :=
  replLoop passWithIndexRe (fun (_ : Unit) mt dest =>
    ((do let digits ← mt.at! 1; restoreOne fuel e ps (parseIndex digits)) : Res Text).map fun x => ((), dest ++ x)) k () pv t em dest

theorem restore_eq (fuel : Nat) (e : Env) (ps : List Passthrough) (t : Text) :
    restorePassthroughs (fuel + 1) e ps t = (restoreLoop fuel e ps (t.length + 1) none t true []).map Prod.snd := by
  rw [restorePassthroughs, restoreLoop, replaceAll, replaceAllS]
  congr 2
  funext _ mt dest
  congr 1
  cases mt.at! 1 with
  | error er => rfl
  | ok digits =>
    show (match ps[parseIndex digits]? with
      | none => _
      | some p => _) = restoreOne fuel e ps (parseIndex digits)
    unfold restoreOne
    cases ps[parseIndex digits]? with
    | none => rfl
    | some p =>
      simp only
      cases Group.apply fuel e p.subs none p.text with
      | error er => rfl
      | ok x =>
        obtain ⟨tx, subs, ty, al⟩ := p
        cases ty with
        | none => rfl
        | some ty =>
          cases al with
          | none => rfl
          | some a =>
            unfold shownRes
            simp only
            cases inlineAttrlist e.store a with
            | error er => rfl
            | ok l => rfl

/-- The rendering of a passthrough. -/
theorem shown_iff {e : Env} {p : Passthrough} {x y : Text} : shownRes e p x = .ok y ↔ ShownAs e p x y := by
  unfold ShownAs shownRes
  obtain ⟨tx, subs, ty, al⟩ := p
  cases ty with
  | none => simp [eq_comm]
  | some ty =>
    cases al with
    | none => simp [eq_comm]
    | some a =>
      simp only
      cases h : inlineAttrlist e.store a with
      | error f => simp [Except.map]
      | ok l => simp [Except.map, eq_comm]

/-- One step of the loop. -/
theorem restoreLoop_step {f : Nat} {e : Env} {ps : List Passthrough} {k : Nat} {pv : Option Char} {t : Text} {em : Bool} {dest : Text} :
    (∃ piece n r, t = piece ++ r ∧ PlaceholderAt piece n ∧ piece ≠ [] ∧
      ∃ pv', restoreLoop f e ps (k + 1) pv t em dest = (match restoreOne f e ps n with
        | .ok x => restoreLoop f e ps k pv' r false (dest ++ x)
        | .error er => .error er)) ∨
    ((∀ piece behind n, t = piece ++ behind → ¬ PlaceholderAt piece n) ∧
      restoreLoop f e ps (k + 1) pv t em dest = match t with
        | [] => .ok ((), dest)
        | c :: cs => restoreLoop f e ps k (some c) cs true (dest ++ [c])) := by
  unfold restoreLoop
  rw [replLoop]
  rcases matchAt_cases passWithIndexRe pv t with ⟨hn, hr⟩ | ⟨z, hz, hm⟩
  · refine .inr ⟨?_, ?_⟩
    · rintro piece behind n rfl ⟨ds, rfl, hne, hc, -⟩
      obtain ⟨s, hs⟩ := index_rel hne hc pv behind
      exact hr s hs
    · rw [hn]
      cases t <;> rfl
  · obtain ⟨ds, hne, hc, e1, hcaps⟩ := m_index hz
    have ht : t.take (t.length - z.rest.length) = markStart :: ds ++ [markEnd] := by
      have := take_used (markStart :: ds ++ [markEnd]) z.rest
      rw [← e1] at this
      exact this
    refine .inl ⟨markStart :: ds ++ [markEnd], parseIndex ds, z.rest, e1, ⟨ds, rfl, hne, hc, numbered_iff.mpr rfl⟩, by simp, z.prev, ?_⟩
    rw [hm, ht]
    simp only
    rw [if_pos (by simp), hcaps]
    have hat : (do let digits ← (⟨markStart :: ds ++ [markEnd], [(1, ds)]⟩ : Match).at! 1; restoreOne f e ps (parseIndex digits) : Res Text) =
        restoreOne f e ps (parseIndex ds) := rfl
    rw [hat]
    cases restoreOne f e ps (parseIndex ds) <;> rfl

/-! ### From the program to the specification -/

theorem takesOut_iff {g : Group} : (g.steps.contains .macros || g = .header) = true ↔ TakesOut g := by
  unfold TakesOut
  simp

theorem restored_plain {e : Env} {ps : List Passthrough} {t : Text} (h : markStart ∉ t) : Restored e ps t t := by
  induction t with
  | nil => exact .done
  | cons c t ih =>
    refine .miss ?_ (ih fun hm => h (by simp [hm]))
    rintro piece behind n eq ⟨ds, rfl, _⟩
    cases eq
    exact h (by simp)

theorem subst_sound (e : Env) : ∀ f,
    (∀ g al t out, Group.apply f e g al t = .ok out → Substituted e g al t out) ∧
    (∀ ps t out, restorePassthroughs f e ps t = .ok out → Restored e ps t out) := by
  intro f
  induction f with
  | zero => exact ⟨fun _ _ _ _ h => (by rw [Group.apply] at h; cases h), fun _ _ _ h => (by rw [restorePassthroughs] at h; cases h)⟩
  | succ f ih =>
    obtain ⟨ih1, ih2⟩ := ih
    constructor
    · intro g al t out h
      rw [Group.apply] at h
      by_cases hg : TakesOut g
      · rw [if_pos (takesOut_iff.mpr hg)] at h
        obtain ⟨ps, u, ex, hx⟩ := extract_all t
        rw [ex] at h
        replace h : ((applySteps e al g.steps u).bind fun v => if ps = [] then Except.ok v else restorePassthroughs f e ps v) = .ok out := h
        cases hv : applySteps e al g.steps u with
        | error er => rw [hv] at h; cases h
        | ok v =>
          rw [hv] at h
          replace h : (if ps = [] then Except.ok v else restorePassthroughs f e ps v) = .ok out := h
          by_cases hp : ps = []
          · rw [if_pos hp] at h
            cases h
            subst hp
            exact .none hg hx hv
          · rw [if_neg hp] at h
            exact .some hg hx hp hv (ih2 _ _ _ h)
      · rw [if_neg fun hb => hg (takesOut_iff.mp hb)] at h
        exact .plain hg h
    · intro ps t out h
      rw [restore_eq] at h
      have loop : ∀ k pv t em dest res, restoreLoop f e ps k pv t em dest = .ok res →
          ∃ out, res.2 = dest ++ out ∧ Restored e ps t out := by
        intro k
        induction k with
        | zero => intro pv t em dest res h; unfold restoreLoop at h; rw [replLoop] at h; cases h
        | succ k ihk =>
          intro pv t em dest res h
          rcases restoreLoop_step (f := f) (e := e) (ps := ps) (k := k) (pv := pv) (t := t) (em := em) (dest := dest) with
            ⟨piece, n, r, rfl, hp, _, pv', he⟩ | ⟨hn, he⟩
          · rw [he] at h
            cases h1 : restoreOne f e ps n with
            | error er => rw [h1] at h; cases h
            | ok x =>
              rw [h1] at h
              obtain ⟨out, e2, h2⟩ := ihk _ _ _ _ _ h
              refine ⟨x ++ out, by rw [e2]; simp, ?_⟩
              unfold restoreOne at h1
              cases hg : ps[n]? with
              | none =>
                rw [hg] at h1
                cases h1
                exact .unknown hp hg h2
              | some p =>
                rw [hg] at h1
                simp only at h1
                cases h3 : Group.apply f e p.subs none p.text with
                | error er => rw [h3] at h1; cases h1
                | ok x1 =>
                  rw [h3] at h1
                  replace h1 : ((shownRes e p x1).bind fun y =>
                      if y.contains passStart then restorePassthroughs f e ps y else .ok y) = .ok x := h1
                  cases h4 : shownRes e p x1 with
                  | error er => rw [h4] at h1; cases h1
                  | ok y =>
                    rw [h4] at h1
                    replace h1 : (if y.contains passStart then restorePassthroughs f e ps y else .ok y) = .ok x := h1
                    refine .known hp hg (ih1 _ _ _ _ h3) (shown_iff.mp h4) ?_ h2
                    by_cases hy : y.contains passStart = true
                    · rw [if_pos hy] at h1
                      exact ih2 _ _ _ h1
                    · rw [if_neg hy] at h1
                      cases h1
                      exact restored_plain fun hm => hy (List.contains_iff_mem.mpr hm)
          · rw [he] at h
            cases t with
            | nil =>
              cases h
              exact ⟨[], by simp, .done⟩
            | cons c t =>
              obtain ⟨out, e2, h2⟩ := ihk _ _ _ _ _ h
              exact ⟨c :: out, by rw [e2]; simp, .miss hn h2⟩
      cases hl : restoreLoop f e ps (t.length + 1) none t true [] with
      | error er => rw [hl] at h; cases h
      | ok res =>
        rw [hl] at h
        obtain ⟨o, e1, h1⟩ := loop _ _ _ _ _ _ hl
        have : res.2 = out := by cases h; rfl
        rw [this] at e1
        rw [e1]
        exact h1

/-! ### From the specification to the program -/

theorem restored_plain_eq [LawfulUni] {e : Env} {ps : List Passthrough} {t out : Text} (h : Restored e ps t out) (ht : markStart ∉ t) :
    out = t := by
  induction t generalizing out with
  | nil =>
    generalize hz : ([] : Text) = z at h
    cases h with
    | done => rfl
    | miss => cases hz
    | unknown hp => obtain ⟨ds, rfl, _⟩ := hp; simp at hz
    | known hp => obtain ⟨ds, rfl, _⟩ := hp; simp at hz
  | cons c t ih =>
    generalize hz : c :: t = z at h
    cases h with
    | done => cases hz
    | miss hn h =>
      cases hz
      rw [ih h fun hm => ht (by simp [hm])]
    | unknown hp => obtain ⟨ds, rfl, _⟩ := hp; cases hz; exact absurd (by simp) ht
    | known hp => obtain ⟨ds, rfl, _⟩ := hp; cases hz; exact absurd (by simp) ht

/-- The passthroughs are put back with enough fuel. -/
def LoopsTo (e : Env) (ps : List Passthrough) (t out : Text) : Prop :=
  ∃ f0, ∀ f ≥ f0, ∀ k > t.length, ∀ pv em dest, restoreLoop f e ps k pv t em dest = .ok ((), dest ++ out)

theorem restore_of_loop {e : Env} {ps : List Passthrough} {t out : Text} {f : Nat}
    (h : ∀ k > t.length, ∀ pv em dest, restoreLoop f e ps k pv t em dest = .ok ((), dest ++ out)) :
    restorePassthroughs (f + 1) e ps t = .ok out := by
  rw [restore_eq, h _ (Nat.lt_succ_self _)]
  rfl

theorem loopsTo_done {e : Env} {ps : List Passthrough} : LoopsTo e ps [] [] := by
  refine ⟨0, fun f _ k hk pv em dest => ?_⟩
  obtain ⟨k, rfl⟩ : ∃ k', k = k' + 1 := ⟨k - 1, by simp at hk; omega⟩
  rcases restoreLoop_step (f := f) (e := e) (ps := ps) (k := k) (pv := pv) (t := []) (em := em) (dest := dest) with
    ⟨piece, n, r, he, hp, hne, pv', _⟩ | ⟨_, he⟩
  · exact absurd (List.append_eq_nil_iff.mp he.symm).1 hne
  · rw [he]; simp

theorem loopsTo_miss {e : Env} {ps : List Passthrough} {c : Char} {t out : Text}
    (hn : ∀ piece behind n, c :: t = piece ++ behind → ¬ PlaceholderAt piece n) (h : LoopsTo e ps t out) :
    LoopsTo e ps (c :: t) (c :: out) := by
  obtain ⟨f0, h⟩ := h
  refine ⟨f0, fun f hf k hk pv em dest => ?_⟩
  obtain ⟨k, rfl⟩ : ∃ k', k = k' + 1 := ⟨k - 1, by simp at hk; omega⟩
  rcases restoreLoop_step (f := f) (e := e) (ps := ps) (k := k) (pv := pv) (t := c :: t) (em := em) (dest := dest) with
    ⟨piece, n, r, he, hp, hne, pv', _⟩ | ⟨_, he⟩
  · exact absurd hp (hn _ _ _ he)
  · rw [he]
    simp only
    rw [h f hf k (by simpa using hk)]
    simp

theorem loopsTo_one [LawfulUni] {e : Env} {ps : List Passthrough} {piece t x out : Text} {n f1 : Nat} (hp : PlaceholderAt piece n)
    (hx : ∀ f ≥ f1, restoreOne f e ps n = .ok x) (h : LoopsTo e ps t out) : LoopsTo e ps (piece ++ t) (x ++ out) := by
  obtain ⟨f0, h⟩ := h
  refine ⟨max f0 f1, fun f hf k hk pv em dest => ?_⟩
  obtain ⟨k, rfl⟩ : ∃ k', k = k' + 1 := ⟨k - 1, by omega⟩
  rcases restoreLoop_step (f := f) (e := e) (ps := ps) (k := k) (pv := pv) (t := piece ++ t) (em := em) (dest := dest) with
    ⟨piece', n', r, he, hp', hne, pv', h2⟩ | ⟨hn, _⟩
  · obtain ⟨rfl, rfl, rfl⟩ := placeholderAt_det hp hp' he
    rw [h2, hx f (Nat.le_trans (Nat.le_max_right ..) hf)]
    simp only
    have := List.length_pos_iff.mpr hne
    rw [List.length_append] at hk
    rw [h f (Nat.le_trans (Nat.le_max_left ..) hf) k (by omega)]
    simp
  · exact absurd hp (hn _ _ _ rfl)

theorem loopsTo_known [LawfulUni] {e : Env} {ps : List Passthrough} {piece t x y z out : Text} {n : Nat} {p : Passthrough}
    (hp : PlaceholderAt piece n) (hg : ps[n]? = some p) (hx : ∃ f0, ∀ f ≥ f0, Group.apply f e p.subs none p.text = .ok x)
    (hy : ShownAs e p x y) (hr : Restored e ps y z) (hz : LoopsTo e ps y z) (h : LoopsTo e ps t out) :
    LoopsTo e ps (piece ++ t) (z ++ out) := by
  obtain ⟨f1, hx⟩ := hx
  obtain ⟨f2, hz⟩ := hz
  refine loopsTo_one (f1 := max f1 (f2 + 1)) hp ?_ h
  intro f hf
  unfold restoreOne
  rw [hg]
  simp only
  rw [hx f (Nat.le_trans (Nat.le_max_left ..) hf)]
  show ((shownRes e p x).bind fun y => if y.contains passStart then restorePassthroughs f e ps y else .ok y) = .ok z
  rw [shown_iff.mpr hy]
  show (if y.contains passStart then restorePassthroughs f e ps y else .ok y) = .ok z
  by_cases hm : y.contains passStart = true
  · rw [if_pos hm]
    have hf2 : f2 + 1 ≤ f := Nat.le_trans (Nat.le_max_right ..) hf
    obtain ⟨f', rfl⟩ : ∃ f', f = f' + 1 := ⟨f - 1, by omega⟩
    exact restore_of_loop (hz f' (by omega))
  · rw [if_neg hm, restored_plain_eq hr fun h => hm (List.contains_iff_mem.mpr h)]

theorem apply_plain {e : Env} {g : Group} {al : Option Attrlist} {t out : Text} (hg : ¬ TakesOut g)
    (h : applySteps e al g.steps t = .ok out) : ∃ f0, ∀ f ≥ f0, Group.apply f e g al t = .ok out := by
  refine ⟨1, fun f hf => ?_⟩
  obtain ⟨f, rfl⟩ : ∃ f', f = f' + 1 := ⟨f - 1, by omega⟩
  rw [Group.apply, if_neg fun hb => hg (takesOut_iff.mp hb), h]

theorem apply_none {e : Env} {g : Group} {al : Option Attrlist} {t u out : Text} (hg : TakesOut g) (hx : Extracted t [] u)
    (h : applySteps e al g.steps u = .ok out) : ∃ f0, ∀ f ≥ f0, Group.apply f e g al t = .ok out := by
  refine ⟨1, fun f hf => ?_⟩
  obtain ⟨f, rfl⟩ : ∃ f', f = f' + 1 := ⟨f - 1, by omega⟩
  rw [Group.apply, if_pos (takesOut_iff.mpr hg), extract_iff.mpr hx]
  show ((applySteps e al g.steps u).bind fun v => if ([] : List Passthrough) = [] then Except.ok v else _) = _
  rw [h]
  rfl

theorem apply_some {e : Env} {g : Group} {al : Option Attrlist} {t u v out : Text} {ps : List Passthrough} (hg : TakesOut g)
    (hx : Extracted t ps u) (hp : ps ≠ []) (h : applySteps e al g.steps u = .ok v) (hr : LoopsTo e ps v out) :
    ∃ f0, ∀ f ≥ f0, Group.apply f e g al t = .ok out := by
  obtain ⟨f0, hr⟩ := hr
  refine ⟨f0 + 2, fun f hf => ?_⟩
  obtain ⟨f, rfl⟩ : ∃ f', f = f' + 1 + 1 := ⟨f - 2, by omega⟩
  rw [Group.apply, if_pos (takesOut_iff.mpr hg), extract_iff.mpr hx]
  show ((applySteps e al g.steps u).bind fun v => if ps = [] then Except.ok v else restorePassthroughs (f + 1) e ps v) = _
  rw [h]
  show (if ps = [] then Except.ok v else restorePassthroughs (f + 1) e ps v) = _
  rw [if_neg hp]
  exact restore_of_loop (hr f (by omega))

theorem substituted_complete [LawfulUni] {e : Env} {g : Group} {al : Option Attrlist} {t out : Text} (h : Substituted e g al t out) :
    ∃ f0, ∀ f ≥ f0, Group.apply f e g al t = .ok out := by
  refine SubstitutedBy.rec (motive_1 := fun g al t out _ => ∃ f0, ∀ f ≥ f0, Group.apply f e g al t = .ok out)
    (motive_2 := fun ps t out _ => LoopsTo e ps t out) ?_ ?_ ?_ ?_ ?_ ?_ ?_ h
  · intro g al t out hg h
    exact apply_plain hg h
  · intro g al t u out hg hx h
    exact apply_none hg hx h
  · intro g al t ps u v out hg hx hp h _ ih
    exact apply_some hg hx hp h ih
  · intro ps
    exact loopsTo_done
  · intro ps c t out hn _ ih
    exact loopsTo_miss hn ih
  · intro ps piece n t out hp hg _ ih
    exact loopsTo_one (f1 := 0) hp (fun f _ => by unfold restoreOne; rw [hg]) ih
  · intro ps piece n p x y z t out hp hg _ hy hr _ ih1 ih2 ih3
    exact loopsTo_known hp hg ih1 hy hr ih2 ih3

theorem substituted_iff [LawfulUni] {e : Env} {g : Group} {al : Option Attrlist} {t out : Text} :
    (∃ f0, ∀ f ≥ f0, Group.apply f e g al t = .ok out) ↔ Substituted e g al t out := by
  constructor
  · rintro ⟨f0, h⟩
    exact (subst_sound e f0).1 _ _ _ _ (h f0 (Nat.le_refl _))
  · exact substituted_complete

theorem substituted_det [LawfulUni] {e : Env} {g : Group} {al : Option Attrlist} {t out out' : Text} (h : Substituted e g al t out)
    (h' : Substituted e g al t out') : out = out' := by
  obtain ⟨f, hf⟩ := substituted_complete h
  obtain ⟨f', hf'⟩ := substituted_complete h'
  have h1 := hf (max f f') (Nat.le_max_left ..)
  rw [hf' (max f f') (Nat.le_max_right ..)] at h1
  cases h1
  rfl

end Adoc
