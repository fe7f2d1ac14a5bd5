import Verif.Lemmas.MarkupMacros
import Verif.Lemmas.PassBack
import Verif.Lemmas.AuthorLine
/-!
# Text that cannot write tags: passthroughs and groups
-/

namespace Adoc
open Spec Re

variable [Uni]

/-- A passthrough without `<` and `>`. -/
structure PlainPass (p : Passthrough) : Prop where
  text : Tagless p.text
  attrlist : ∀ a, p.attrlist = some a → Tagless a

omit [Uni] in
theorem plain_decimal (n : Nat) : Tagless (decimal n) := by
  intro c hc
  have h1 : c.isDigit = true := Nat.isDigit_of_mem_toDigits (by omega) (by omega) hc
  constructor <;> (rintro rfl; revert h1; decide)

omit [Uni] in
theorem plain_replicate {n : Nat} {c : Char} (h : c ≠ '<' ∧ c ≠ '>') : Tagless (List.replicate n c) := by
  intro x hx
  rw [(List.mem_replicate.mp hx).2]
  exact h

omit [Uni] in
theorem plain_push {ps : List Passthrough} {p : Passthrough} {dest : Text} (hps : ∀ p ∈ ps, PlainPass p) (hp : PlainPass p)
    (hd : Tagless dest) : (∀ q ∈ (passPush ps p dest).1, PlainPass q) ∧ Tagless (passPush ps p dest).2 := by
  refine ⟨fun q hq => ?_, plain_append hd (plain_cons (by decide) (plain_append (plain_decimal _) (plain_lit (by decide))))⟩
  rcases List.mem_append.mp hq with hq | hq
  · exact hps q hq
  · rw [List.mem_singleton.mp hq]; exact hp

omit [Uni] in
theorem oldBehavior_plain {a : Text} (h : Tagless a) : Tagless (oldBehavior a).1 := by
  unfold oldBehavior
  split
  · exact plain_nil
  · split
    · exact plain_take h
    · exact h

omit [Uni] in
theorem getD_plain {o : Option Text} (h : ∀ x, o = some x → Tagless x) : Tagless (o.getD []) := by
  cases o with
  | none => exact plain_nil
  | some x => exact h x rfl

omit [Uni] in
theorem or_plain {o o' : Option Text} (h : ∀ x, o = some x → Tagless x) (h' : ∀ x, o' = some x → Tagless x) :
    ∀ x, o.or o' = some x → Tagless x := by
  intro x hx
  cases o with
  | none => exact h' x hx
  | some y => exact h x hx

omit [Uni] in
theorem quotedText_plain {ps ps' : List Passthrough} {mt : Match} {qi : Nat} {dest dest' : Text}
    (hps : ∀ p ∈ ps, PlainPass p) (hm : PlainMatch mt) (hd : Tagless dest) (h : handleQuotedText ps mt qi dest = .ok (ps', dest')) :
    (∀ p ∈ ps', PlainPass p) ∧ Tagless dest' := by
  have hb : Tagless (((mt.get 4).or ((mt.get 7).or (mt.get 10))).getD []) :=
    getD_plain (or_plain (hm _) (or_plain (hm _) (hm _)))
  have hq : Tagless (((mt.get 5).or ((mt.get 8).or (mt.get 11))).getD []) :=
    getD_plain (or_plain (hm _) (or_plain (hm _) (hm _)))
  have hbody : Tagless ((mt.get qi).getD []) := getD_plain (hm _)
  have hl : ∀ {c : Char}, c ≠ '<' ∧ c ≠ '>' → Tagless [c] := fun h => plain_cons h plain_nil
  unfold handleQuotedText at h
  dsimp only at h
  cases h2 : mt.get 2 with
  | some a =>
    rw [h2] at h
    have ha := hm _ _ h2
    obtain ⟨c1, hc1, h⟩ := ok_of_bind h
    have hc1 := hm.at hc1
    rcases ok_of_ite h with ⟨_, h⟩ | ⟨_, h⟩
    · obtain ⟨d, hd1, h⟩ := ok_of_bind h
      obtain ⟨q, hq1, h⟩ := ok_of_bind h
      cases h
      have hd1 := hm.at hd1
      have hq1 := hm.at hq1
      refine ⟨hps, ?_⟩
      refine plain_append (plain_append (plain_append (plain_append (plain_append (plain_append (plain_append (plain_append hd hc1)
        (hl (by decide))) ha) (hl (by decide))) (plain_replicate (by decide))) hd1) hq1) hd1
    · rcases ok_of_ite h with ⟨_, h⟩ | ⟨_, h⟩
      · cases h
        exact plain_push hps ⟨hbody, nofun⟩ (plain_append (plain_append (plain_append hd (hl (by decide))) ha) (hl (by decide)))
      · have ho := oldBehavior_plain ha
        rcases ok_of_ite h with ⟨_, h⟩ | ⟨_, h⟩
        · rcases ok_of_ite h with ⟨_, h⟩ | ⟨_, h⟩
          · cases h
            exact plain_push hps ⟨hbody, fun x hx => by cases hx; exact ho⟩ hd
          · cases h
            exact plain_push hps ⟨hbody, fun x hx => by cases hx; exact ho⟩ hd
        · cases h
          exact plain_push hps ⟨hbody, fun x hx => by cases hx; exact ha⟩ hd
  | none =>
    rw [h2] at h
    rcases ok_of_ite h with ⟨_, h⟩ | ⟨_, h⟩
    · cases h
      exact ⟨hps, plain_append (plain_append (plain_append (plain_append hd (plain_replicate (by decide))) hb) hq) hb⟩
    · cases h
      exact plain_push hps ⟨hbody, nofun⟩ hd

omit [Uni] in
theorem passMacro_plain {ps ps' : List Passthrough} {mt : Match} {dest dest' : Text}
    (hps : ∀ p ∈ ps, PlainPass p) (hm : PlainMatch mt) (hd : Tagless dest) (h : passMacroReplacer ps mt dest = .ok (ps', dest')) :
    (∀ p ∈ ps', PlainPass p) ∧ Tagless dest' := by
  unfold passMacroReplacer at h
  rcases ok_of_ite h with ⟨_, h⟩ | ⟨_, h⟩
  · exact quotedText_plain hps hm hd h
  rcases ok_of_ite h with ⟨_, h⟩ | ⟨_, h⟩
  · exact quotedText_plain hps hm hd h
  rcases ok_of_ite h with ⟨_, h⟩ | ⟨_, h⟩
  · exact quotedText_plain hps hm hd h
  obtain ⟨body, hb, h⟩ := ok_of_bind h
  have hb := hm.at hb
  rcases ok_of_ite h with ⟨_, h⟩ | ⟨_, h⟩
  · cases h
    exact ⟨hps, plain_append (plain_append (plain_append (plain_append (plain_append hd (plain_lit (t := "pass:".toList) (by decide)))
      (getD_plain (hm _))) (plain_lit (by decide))) hb) (plain_lit (by decide))⟩
  · cases h
    exact plain_push hps ⟨plain_replaceStr hb (plain_lit (by decide)), nofun⟩ hd

theorem inlinePass_plain : ∀ (fuel : Nat) (ps : List Passthrough) (mt : Match) (dest : Text) (ps' : List Passthrough) (dest' : Text),
    (∀ p ∈ ps, PlainPass p) → PlainMatch mt → Tagless dest → inlinePassReplacer fuel ps mt dest = .ok (ps', dest') →
    (∀ p ∈ ps', PlainPass p) ∧ Tagless dest' := by
  intro fuel
  induction fuel with
  | zero => intro _ _ _ _ _ _ _ _ h; cases h
  | succ fuel ih =>
    intro ps mt dest ps' dest' hps hm hd h
    have hl : ∀ {c : Char}, c ≠ '<' ∧ c ≠ '>' → Tagless [c] := fun h => plain_cons h plain_nil
    have hq : Tagless (((mt.get 2).or ((mt.get 5).or (mt.get 7))).getD []) :=
      getD_plain (or_plain (hm _) (or_plain (hm _) (hm _)))
    have hmark : ((if (mt.get 2).isSome = true then '`' else '+') : Char) ≠ '<' ∧
        ((if (mt.get 2).isSome = true then '`' else '+') : Char) ≠ '>' := by
      split <;> decide
    rw [inlinePassReplacer] at h
    rcases ok_of_ite h with ⟨_, h⟩ | ⟨_, h⟩
    · have ht := hm.text
      cases hc : mt.text with
      | nil => rw [hc] at h; cases h
      | cons c rem =>
        rw [hc] at h ht
        rcases ok_of_ite h with ⟨_, h⟩ | ⟨_, h⟩
        · cases h
        · obtain ⟨⟨ps1, new⟩, hn, h⟩ := ok_of_bind h
          cases h
          obtain ⟨h1, h2⟩ := replLoop_plain (I := fun ps => ∀ p ∈ ps, PlainPass p) (fun st mt d st' d' => ih st mt d st' d') _ _ _ _ _ _ _ _
            hps (plain_tail ht) plain_nil hn
          exact ⟨h1, plain_append (plain_append hd (hl (ht c (List.mem_cons_self ..)))) h2⟩
    · dsimp only at h
      have ho := or_plain (hm 1) (hm 3)
      revert ho h
      generalize (mt.get 1).or (mt.get 3) = o
      intro h ho
      cases o with
      | some a =>
        have ha := ho a rfl
        rcases ok_of_ite h with ⟨_, h⟩ | ⟨_, h⟩
        · cases h
          exact ⟨hps, plain_append (plain_append (plain_append (plain_append (plain_append (plain_append (plain_append hd
            (hl (by decide))) ha) (hl (by decide))) (plain_replicate (by decide))) (hl hmark)) hq) (hl hmark)⟩
        · cases h
          exact plain_push hps ⟨hq, fun x hx => by cases hx; exact oldBehavior_plain ha⟩ hd
      | none =>
        rcases ok_of_ite h with ⟨_, h⟩ | ⟨_, h⟩
        · cases h
          exact ⟨hps, plain_append (plain_append (plain_append (plain_append hd (plain_replicate (by decide))) (hl hmark)) hq) (hl hmark)⟩
        · cases h
          exact plain_push hps ⟨hq, nofun⟩ hd

theorem extractPassthroughs_plain {t out : Text} {ps : List Passthrough} (ht : Tagless t) (h : extractPassthroughs t = .ok (ps, out)) :
    (∀ p ∈ ps, PlainPass p) ∧ Tagless out := by
  have second : ∀ ps1 t1, (∀ p ∈ ps1, PlainPass p) → Tagless t1 → (if t1.contains '+' || containsSub t1 "-]".toList then
      replaceAllS inlinePassRe (inlinePassReplacer (t1.length + 1)) ps1 t1 else .ok (ps1, t1)) = .ok (ps, out) →
      (∀ p ∈ ps, PlainPass p) ∧ Tagless out := by
    intro ps1 t1 h1 h2 h
    rcases ok_of_ite h with ⟨_, h⟩ | ⟨_, h⟩
    · exact replLoop_plain (I := fun ps => ∀ p ∈ ps, PlainPass p) (fun st mt d st' d' => inlinePass_plain _ st mt d st' d') _ _ _ _ _ _ _ _
        h1 h2 plain_nil h
    · cases h; exact ⟨h1, h2⟩
  unfold extractPassthroughs at h
  rcases ok_of_ite h with ⟨_, h⟩ | ⟨_, h⟩
  · obtain ⟨⟨ps1, t1⟩, h1, h⟩ := ok_of_bind h
    obtain ⟨h1, h2⟩ := replLoop_plain (I := fun ps => ∀ p ∈ ps, PlainPass p) (fun st mt d st' d' a b c e => passMacro_plain a b c e) _ _ _ _ _ _ _ _
        (fun x hx => by cases hx) ht plain_nil h1
    exact second _ _ h1 h2 h
  · exact second _ _ (fun x hx => by cases hx) ht h

/-- Putting passthroughs back brings no `<` or `>` if what becomes of the passthroughs does not. -/
theorem restore_plain {e : Env} (hr : AddsNone e.r) (hs : PlainStore e.store) {ps : List Passthrough}
    (ha : ∀ p ∈ ps, ∀ a, p.attrlist = some a → Tagless a) : ∀ (fuel : Nat),
    (∀ f, f < fuel → ∀ p ∈ ps, ∀ x, Group.apply f e p.subs none p.text = .ok x → Tagless x) →
    ∀ (t out : Text), Tagless t → restorePassthroughs fuel e ps t = .ok out → Tagless out := by
  intro fuel
  induction fuel with
  | zero => intro _ t out _ h; rw [restorePassthroughs] at h; cases h
  | succ fuel ih =>
    intro hp t out ht h
    rw [restorePassthroughs] at h
    refine replaceAll_plain ht (fun mt x hm hx => ?_) h
    obtain ⟨digits, hd, hx⟩ := ok_of_bind hx
    dsimp only at hx
    cases hi : ps[parseIndex digits]? with
    | none =>
      rw [hi] at hx
      cases hx
      exact plain_append (plain_append (plain_lit (t := "(INTERNAL ERROR: Unresolved passthrough index ".toList) (by decide))
        (plain_decimal _)) (plain_lit (by decide))
    | some p =>
      rw [hi] at hx
      have hmem : p ∈ ps := List.mem_of_getElem? hi
      obtain ⟨y, hy, hx⟩ := ok_of_bind hx
      have hy := hp fuel (Nat.lt_succ_self _) p hmem y hy
      have fin : ∀ z, Tagless z → (if z.contains passStart then restorePassthroughs fuel e ps z else .ok z) = .ok x → Tagless x := by
        intro z hz h
        rcases ok_of_ite h with ⟨_, h⟩ | ⟨_, h⟩
        · exact ih (fun f hf => hp f (Nat.lt_succ_of_lt hf)) z x hz h
        · cases h; exact hz
      cases hty : p.type with
      | none => rw [hty] at hx; exact fin y hy hx
      | some ty =>
        rw [hty] at hx
        cases hal : p.attrlist with
        | none =>
          rw [hal] at hx
          exact fin _ (hr.quoted ty .unconstrained none none y nofun nofun hy) hx
        | some a =>
          rw [hal] at hx
          dsimp only at hx
          cases hpa : inlineAttrlist e.store a with
          | error f => rw [hpa] at hx; cases hx
          | ok al =>
            rw [hpa] at hx
            have hpl := inlineAttrlist_plain hs (ha p hmem a hal) hpa
            exact fin _ (hr.quoted ty .unconstrained (some al) al.id y (fun a ha => by cases ha; exact hpl) (fun i hi => id_plain hpl hi) hy) hx

/-- A text without `<` and `>` remains so. -/
theorem applyGroup_plain {e : Env} (hr : AddsNone e.r) (hs : PlainStore e.store) : ∀ (n fuel : Nat), fuel ≤ n → ∀ (g : Group) (al : Option Attrlist)
    (t out : Text), Tagless t → Group.apply fuel e g al t = .ok out → Tagless out := by
  intro n
  induction n with
  | zero =>
    intro fuel hf g al t out _ h
    rw [Nat.le_zero.mp hf, Group.apply] at h
    cases h
  | succ n ih =>
    intro fuel hf g al t out ht h
    cases fuel with
    | zero => rw [Group.apply] at h; cases h
    | succ fuel =>
      rw [Group.apply] at h
      rcases ok_of_ite h with ⟨_, h⟩ | ⟨_, h⟩
      · obtain ⟨⟨ps, u⟩, hu, h⟩ := ok_of_bind h
        obtain ⟨v, hv, h⟩ := ok_of_bind h
        obtain ⟨hps, hu⟩ := extractPassthroughs_plain ht hu
        have hv := steps_plain hr hs _ _ _ hu hv
        rcases ok_of_ite h with ⟨_, h⟩ | ⟨_, h⟩
        · cases h; exact hv
        · exact restore_plain hr hs (fun p hp => (hps p hp).attrlist) fuel
            (fun f hf' p hp x hx => ih f (by omega) _ _ _ _ (hps p hp).text hx) _ _ hv h
      · exact steps_plain hr hs _ _ _ ht h

/-- A text in which nothing gets around the replacement of special characters has no `<` and no `>` in the end. -/
theorem apply_escaped {e : Env} (hr : AddsNone e.r) (hs : PlainStore e.store) {g : Group} {t : Text} (hE : Escaped g t) :
    ∀ (fuel : Nat) (al : Option Attrlist) (out : Text), Group.apply fuel e g al t = .ok out → Tagless out := by
  induction hE with
  | plain ht => intro fuel al out h; exact applyGroup_plain hr hs fuel fuel (Nat.le_refl _) _ al _ out ht h
  | @direct g t hg hm hh =>
    intro fuel al out h
    cases fuel with
    | zero => rw [Group.apply] at h; cases h
    | succ fuel =>
      rw [Group.apply, if_neg (by simp [hm, hh])] at h
      exact steps_escaping hr hs hg h
  | @around g t ps o hg hx ha _ ih =>
    intro fuel al out h
    cases fuel with
    | zero => rw [Group.apply] at h; cases h
    | succ fuel =>
      rw [Group.apply] at h
      rcases ok_of_ite h with ⟨_, h⟩ | ⟨_, h⟩
      · obtain ⟨⟨ps', u⟩, hu, h⟩ := ok_of_bind h
        obtain ⟨rfl, rfl⟩ := extracted_det hx (extract_iff.mp hu)
        obtain ⟨v, hv, h⟩ := ok_of_bind h
        have hv := steps_escaping hr hs hg hv
        rcases ok_of_ite h with ⟨_, h⟩ | ⟨_, h⟩
        · cases h; exact hv
        · exact restore_plain hr hs ha fuel (fun f _ p hp x hx => ih p hp f none x hx) _ _ hv h
      · exact steps_escaping hr hs hg h

end Adoc
