import Verif.Spec.Markup
import Verif.Lemmas.Captures
import Verif.Lemmas.Drawn
import Verif.Lemmas.Attrlist
import Verif.Lemmas.Text
/-!
# No step of the substitutions writes `<` or `>`
-/

namespace Adoc
open Re Spec

/-! ### Tagless texts -/

theorem plain_of_mem {t u : Text} (h : Tagless t) (hu : ∀ c ∈ u, c ∈ t) : Tagless u := fun c hc => h c (hu c hc)

theorem plain_nil : Tagless [] := fun _ h => nomatch h

theorem plain_append {a b : Text} (ha : Tagless a) (hb : Tagless b) : Tagless (a ++ b) := by
  intro c hc
  rcases List.mem_append.mp hc with h | h
  · exact ha c h
  · exact hb c h

theorem plain_cons {c : Char} {b : Text} (hc : c ≠ '<' ∧ c ≠ '>') (hb : Tagless b) : Tagless (c :: b) := by
  intro x hx
  rcases List.mem_cons.mp hx with rfl | h
  · exact hc
  · exact hb x h

theorem plain_left {a b : Text} (h : Tagless (a ++ b)) : Tagless a := plain_of_mem h fun _ hc => List.mem_append_left _ hc
theorem plain_right {a b : Text} (h : Tagless (a ++ b)) : Tagless b := plain_of_mem h fun _ hc => List.mem_append_right _ hc
theorem plain_tail {a : Text} (h : Tagless a) : Tagless a.tail := plain_of_mem h fun _ hc => List.mem_of_mem_tail hc
theorem plain_drop {a : Text} {n : Nat} (h : Tagless a) : Tagless (a.drop n) := plain_of_mem h fun _ hc => List.mem_of_mem_drop hc
theorem plain_take {a : Text} {n : Nat} (h : Tagless a) : Tagless (a.take n) := plain_of_mem h fun _ hc => List.mem_of_mem_take hc
theorem plain_dropLast {a : Text} (h : Tagless a) : Tagless a.dropLast := plain_of_mem h fun _ hc => List.dropLast_subset _ hc

theorem plain_getD {o : Option Text} (h : ∀ x, o = some x → Tagless x) : Tagless (o.getD []) := by
  cases o with
  | none => exact plain_nil
  | some x => exact h x rfl

/-- For literals. -/
theorem plain_lit {t : Text} (h : t.all (fun c => c != '<' && c != '>') = true) : Tagless t := by
  intro c hc
  have := List.all_eq_true.mp h c hc
  simp only [Bool.and_eq_true, bne_iff_ne, ne_eq] at this
  exact this

theorem plain_replaceStr {t n w : Text} (h : Tagless t) (hw : Tagless w) : Tagless (replaceStr t n w) := by
  intro c hc
  rcases replaceStrGo_mem hc with hc | hc
  · exact h c hc
  · exact hw c hc

theorem plain_replaceChar {d : Char} {t w : Text} (h : Tagless t) (hw : Tagless w) : Tagless (replaceChar d w t) := by
  intro c hc
  unfold replaceChar at hc
  obtain ⟨x, hx, hc⟩ := List.mem_flatMap.mp hc
  split at hc
  · exact hw c hc
  · rw [List.mem_singleton.mp hc]; exact h x hx

theorem plain_splitB {t a b : Text} {n : Nat} (h : Tagless t) (hs : splitB t n = some (a, b)) : Tagless a ∧ Tagless b := by
  have := (splitB_sound hs).1
  subst this
  exact ⟨plain_left h, plain_right h⟩

theorem plain_sliceB {t a b : Text} {m n : Nat} (h : Tagless t) (hs : sliceB t m n = some (a, b)) : Tagless b := by
  unfold sliceB at hs
  split at hs
  · split at hs
    · next pre rest h1 =>
      split at hs
      · next mid r h2 =>
        cases hs
        exact (plain_splitB (plain_splitB h h1).2 h2).1
      · cases hs
    · cases hs
  · cases hs

/-! ### Replacing -/

/-- All groups of a match are plain. -/
def PlainMatch (mt : Match) : Prop := ∀ n x, mt.get n = some x → Tagless x

theorem PlainMatch.text {mt : Match} (h : PlainMatch mt) : Tagless mt.text := h 0 _ rfl

theorem PlainMatch.at {mt : Match} (h : PlainMatch mt) {n : Nat} {x : Text} (hx : mt.at! n = .ok x) : Tagless x := by
  unfold Match.at! at hx
  cases hg : mt.get n with
  | none => rw [hg] at hx; cases hx
  | some y => rw [hg] at hx; cases hx; exact h n _ hg

theorem Re.Rel.caps_mem {r : Re} {s s' : RS} [Uni] (h : Rel r s s') :
    ∀ n v, (n, v) ∈ s'.caps → (n, v) ∈ s.caps ∨ ∀ c ∈ v, c ∈ s.rest := by
  have sub : ∀ {a b : RS}, (∃ u, a.rest = u ++ b.rest ∧ b.prev = prevAfter a.prev u) → ∀ c ∈ b.rest, c ∈ a.rest := by
    rintro a b ⟨u, hu, _⟩ c hc
    rw [hu]; exact List.mem_append_right _ hc
  induction h with
  | seq h1 h2 ih1 ih2 =>
    intro n v hv
    rcases ih2 n v hv with h | h
    · exact ih1 n v h
    · exact .inr fun c hc => sub h1.consumes c (h c hc)
  | altL _ ih => exact ih
  | altR _ ih => exact ih
  | starStep h1 _ h2 ih1 ih2 =>
    intro n v hv
    rcases ih2 n v hv with h | h
    · exact ih1 n v h
    · exact .inr fun c hc => sub h1.consumes c (h c hc)
  | @cap k r s s' h ih =>
    intro n v hv
    simp only [List.mem_cons, Prod.mk.injEq] at hv
    rcases hv with ⟨rfl, rfl⟩ | hv
    · exact .inr fun c hc => List.mem_of_mem_take hc
    · exact ih n v hv
  | _ => exact fun n v hv => .inl hv

variable [Uni]

theorem matchAt_plain {re : Re} {pv : Option Char} {t : Text} {mt : Match} {s : RS} (h : matchAt re pv t = some (mt, s))
    (ht : Tagless t) : PlainMatch mt ∧ Tagless s.rest := by
  obtain ⟨hr, he, _, hc⟩ := matchAt_sound h
  rw [he] at ht
  refine ⟨fun n x hx => ?_, plain_right ht⟩
  by_cases hn : n = 0
  · subst hn
    cases hx
    exact plain_left ht
  · rcases hr.caps_mem n x (by rw [← hc]; exact mem_of_get hn hx) with h | h
    · cases h
    · rw [← he] at ht
      exact plain_of_mem ht h

theorem replLoop_plain {σ : Type} {re : Re} {rep : Replacer σ} {I : σ → Prop}
    (hrep : ∀ st mt dest st' dest', I st → PlainMatch mt → Tagless dest → rep st mt dest = .ok (st', dest') → I st' ∧ Tagless dest') :
    ∀ (fuel : Nat) (st : σ) (pv : Option Char) (t : Text) (e : Bool) (dest : Text) (st' : σ) (out : Text), I st → Tagless t →
      Tagless dest → replLoop re rep fuel st pv t e dest = .ok (st', out) → I st' ∧ Tagless out := by
  intro fuel
  induction fuel with
  | zero => intro _ _ _ _ _ _ _ _ _ _ h; cases h
  | succ fuel ih =>
    intro st pv t e dest st' out hst ht hd h
    have adv : ∀ (p : σ × Text), I p.1 → Tagless p.2 → (match (generalizing := false) t with
      | [] => .ok p
      | c :: cs => replLoop re rep fuel p.1 (some c) cs true (p.2 ++ [c])) = Except.ok (ε := Fail) (st', out) → I st' ∧ Tagless out := by
      intro p hp1 hp2 h
      cases t with
      | nil => cases h; exact ⟨hp1, hp2⟩
      | cons c cs =>
        exact ih _ _ _ _ _ _ _ hp1 (plain_of_mem ht fun x hx => List.mem_cons_of_mem _ hx)
          (plain_append hp2 (plain_cons (ht c (by simp)) plain_nil)) h
    rw [replLoop] at h
    cases hm : matchAt re pv t with
    | none => rw [hm] at h; exact adv (st, dest) hst hd h
    | some r =>
      obtain ⟨mt, s'⟩ := r
      rw [hm] at h
      obtain ⟨hp, hrest⟩ := matchAt_plain hm ht
      dsimp only at h
      split at h
      · cases hr : rep st mt dest with
        | error er => rw [hr] at h; cases h
        | ok p =>
          rw [hr] at h
          obtain ⟨h1, h2⟩ := hrep _ _ _ _ _ hst hp hd hr
          exact ih _ _ _ _ _ _ _ h1 hrest h2 h
      · split at h
        · cases hr : rep st mt dest with
          | error er => rw [hr] at h; cases h
          | ok p =>
            rw [hr] at h
            obtain ⟨h1, h2⟩ := hrep _ _ _ _ _ hst hp hd hr
            exact adv p h1 h2 h
        · exact adv (st, dest) hst hd h

theorem replaceAll_plain {re : Re} {rep : Match → Res Text} {t out : Text} (ht : Tagless t)
    (hrep : ∀ mt x, PlainMatch mt → rep mt = .ok x → Tagless x) (h : replaceAll re rep t = .ok out) : Tagless out := by
  unfold replaceAll replaceAllS at h
  cases hl : replLoop re (fun (_ : Unit) mt dest => (rep mt).map fun x => ((), dest ++ x)) (t.length + 1) () none t true [] with
  | error er => rw [hl] at h; cases h
  | ok p =>
    rw [hl] at h
    cases h
    refine (replLoop_plain (I := fun _ => True) ?_ _ _ _ _ _ _ _ _ trivial ht plain_nil hl).2
    intro st mt dest st' dest' _ hm hd h
    refine ⟨trivial, ?_⟩
    cases hr : rep mt with
    | error er => rw [hr] at h; cases h
    | ok x => rw [hr] at h; cases h; exact plain_append hd (hrep _ _ hm hr)

theorem lookLoop_plain {re : Re} {rep : LookReplacer} (hrep : ∀ mt a x l, PlainMatch mt → rep mt a = .ok (x, l) → Tagless x) :
    ∀ (fuel : Nat) (hay : Text) (pos : Nat) (pv : Option Char) (t : Text) (e : Bool) (last : Nat) (new out : Text), Tagless hay →
      Tagless t → Tagless new → lookLoop re rep fuel hay pos pv t e last new = .ok (some out) → Tagless out := by
  intro fuel
  induction fuel with
  | zero => intro _ _ _ _ _ _ _ _ _ _ _ h; cases h
  | succ fuel ih =>
    intro hay pos pv t e last new out hh ht hn h
    have adv : ∀ (last : Nat) (new : Text), Tagless new → (match (generalizing := false) t with
      | [] =>
        match splitB hay last with
        | some (_, tl) => Except.ok (ε := Fail) (some (new ++ tl))
        | none => .error .panic
      | c :: cs => lookLoop re rep fuel hay (pos + c.utf8Size) (some c) cs true last new) = .ok (some out) → Tagless out := by
      intro last new hn h
      cases t with
      | nil =>
        dsimp only at h
        cases hs : splitB hay last with
        | none => rw [hs] at h; cases h
        | some p => rw [hs] at h; cases h; exact plain_append hn (plain_splitB hh hs).2
      | cons c cs => exact ih _ _ _ _ _ _ _ _ hh (plain_of_mem ht fun x hx => List.mem_cons_of_mem _ hx) hn h
    rw [lookLoop] at h
    cases hm : matchAt re pv t with
    | none => rw [hm] at h; exact adv last new hn h
    | some r =>
      obtain ⟨mt, s'⟩ := r
      rw [hm] at h
      obtain ⟨hp, hrest⟩ := matchAt_plain hm ht
      dsimp only at h
      split at h
      · cases hs : sliceB hay last pos with
        | none => rw [hs] at h; cases h
        | some p =>
          obtain ⟨a, mid⟩ := p
          rw [hs] at h
          dsimp only at h
          cases hr : rep mt s'.rest with
          | error er => rw [hr] at h; cases h
          | ok q =>
            obtain ⟨x, l⟩ := q
            rw [hr] at h
            have hx := plain_append (plain_append hn (plain_sliceB hh hs)) (hrep _ _ _ _ hp hr)
            cases l with
            | continue_ =>
              dsimp only at h
              split at h
              · exact ih _ _ _ _ _ _ _ _ hh hrest hx h
              · exact adv _ _ hx h
            | skipAheadAndRetry n =>
              dsimp only at h
              split at h
              · cases h
              · cases hs2 : splitB hay (pos + n) with
                | none => rw [hs2] at h; cases h
                | some p =>
                  obtain ⟨a2, hay'⟩ := p
                  rw [hs2] at h
                  dsimp only at h
                  split at h
                  · cases h
                  · have := (plain_splitB hh hs2).2
                    exact ih _ _ _ _ _ _ _ _ this this hx h
      · exact adv last new hn h

theorem look_plain {re : Re} {rep : LookReplacer} (hrep : ∀ mt a x l, PlainMatch mt → rep mt a = .ok (x, l) → Tagless x)
    {t out : Text} (ht : Tagless t) (h : replaceWithLookahead re t rep = .ok (some out)) : Tagless out := by
  unfold replaceWithLookahead at h
  split at h
  · cases h
  · exact lookLoop_plain hrep _ _ _ _ _ _ _ _ _ ht ht plain_nil h

/-! ### Attributes -/

omit [Uni] in
theorem Spec.PlainStore.attributeValue {s : AttrStore} (h : PlainStore s) {n v : Text} (hv : s.attributeValue n = .value v) :
    Tagless v := by
  unfold AttrStore.attributeValue at hv
  split at hv
  · cases hv
  · next av ha =>
    split at hv
    · split at hv
      · next d hd => cases hv; exact h.default _ _ hd
      · cases hv
    · exact h.value _ _ ha _ hv

theorem applyAttributes_plain {s : AttrStore} (hs : PlainStore s) {t out : Text} (ht : Tagless t)
    (h : applyAttributes s t = .ok out) : Tagless out := by
  unfold applyAttributes at h
  split at h
  · cases h; exact ht
  · refine replaceAll_plain ht (fun mt x hm hx => ?_) h
    unfold attributeReplacer at hx
    cases h1 : mt.at! 1 with
    | error er => rw [h1] at hx; cases hx
    | ok name =>
      rw [h1] at hx
      simp only [bind, Except.bind] at hx
      split at hx
      · cases hx; exact hm.text
      · split at hx
        · cases hx; exact plain_tail hm.text
        · split at hx
          · next v hv => cases hx; exact hs.attributeValue hv
          · cases hx; exact plain_nil

omit [Uni] in
theorem elem_plain {nrm : Text → Res Text} (hn : ∀ v x, Tagless v → nrm v = .ok x → Tagless x) {t : Text} {sh : Bool}
    {ctx : AttrlistCtx} {a : ElemAttr} {after : Text} {ws : List WarningType} (ht : Tagless t)
    (h : ElemAttr.parse nrm t sh ctx = .ok (a, after, ws)) :
    Tagless a.value ∧ (∀ n, a.name = some n → Tagless n) ∧ Tagless after := by
  unfold ElemAttr.parse at h
  simp only [bind, Except.bind] at h
  have hb := attrNamePart_body t
  generalize attrNamePart (Span.new t) = np at h hb
  generalize np.2.takeWhitespaceWithNewline.after = body at h hb
  have hv := (attrValuePart_raw (s := body) rfl).1
  generalize attrValuePart body = vp at h hv
  have hname : (∀ n, np.1 = some n → Tagless n) ∧ Tagless body.data := by
    cases hn : np.1 with
    | some n =>
      rw [hn] at hb
      obtain ⟨w1, w2, e, _⟩ := hb
      rw [e] at ht
      exact ⟨fun m hm => by cases hm; exact plain_of_mem ht fun c hc => by simp [hc],
        plain_of_mem ht fun c hc => by simp [hc]⟩
    | none =>
      rw [hn] at hb
      obtain ⟨_, w, e, _⟩ := hb
      rw [e] at ht
      exact ⟨nofun, plain_right ht⟩
  have hraw : Tagless vp.1.item.data ∧ Tagless vp.1.after.data := by
    unfold RawValue at hv
    have hbd := hname.2
    split at hv
    · obtain ⟨q, _, e, _⟩ := hv
      rw [e] at hbd
      exact ⟨plain_of_mem hbd fun c hc => by simp [hc], plain_of_mem hbd fun c hc => by simp [hc]⟩
    · obtain ⟨_, sp, e, _⟩ := hv
      rw [e] at hbd
      exact ⟨plain_of_mem hbd fun c hc => by simp [hc], plain_of_mem hbd fun c hc => by simp [hc]⟩
  cases hu : attrUnquote nrm ctx body.data.head? vp.1.item.data with
  | error e => rw [hu] at h; cases h
  | ok v =>
    rw [hu] at h
    simp only [Except.ok.injEq, Prod.mk.injEq] at h
    obtain ⟨rfl, rfl, rfl⟩ := h
    refine ⟨?_, hname.1, hraw.2⟩
    unfold attrUnquote at hu
    split at hu
    · next q hq =>
      split at hu
      · have hp : Tagless (replaceStr vp.1.item.data ['\\', q] [q]) :=
          plain_replaceStr hraw.1 (plain_cons (hname.2 q (List.mem_of_mem_head? hq)) plain_nil)
        simp only at hu
        split at hu
        · exact hn _ _ hp hu
        · cases hu; exact hp
      · cases hu; exact hraw.1
    · cases hu; exact hraw.1

omit [Uni] in
theorem separator_plain {after : Text} (h : Tagless after) : ∀ next d, Attrlist.separator after = .inl (next, d) → Tagless next := by
  intro next d hs
  unfold Attrlist.separator at hs
  have hd : ∀ {t : Text}, Tagless t → Tagless (t.dropWhile Span.isBlank) := fun ht =>
    plain_of_mem ht fun c hc => (List.dropWhile_suffix _).subset hc
  split at hs
  · next r he =>
    have hr : Tagless r := by
      have := hd h
      rw [he] at this
      exact plain_of_mem this fun c hc => List.mem_cons_of_mem _ hc
    split at hs
    · next r' he' =>
      have := hd hr
      rw [he'] at this
      cases hs
      exact plain_of_mem this fun c hc => List.mem_cons_of_mem _ hc
    · cases hs
      exact hd hr
  · cases hs

omit [Uni] in
theorem loop_plain {nrm : Text → Res Text} (hn : ∀ v x, Tagless v → nrm v = .ok x → Tagless x) {source : Span} {ctx : AttrlistCtx} :
    ∀ (n : Nat) (rest : Text) (sh : Bool) (attrs : List ElemAttr) (ws : List Warning) (res : List ElemAttr × List Warning × Text),
      Tagless rest → (∀ x ∈ attrs, Tagless x.value ∧ ∀ n, x.name = some n → Tagless n) →
      Attrlist.loop nrm source ctx n rest sh attrs ws = .ok res → ∀ x ∈ res.1, Tagless x.value ∧ ∀ n, x.name = some n → Tagless n := by
  intro n
  induction n with
  | zero => intro _ _ _ _ _ _ _ h; cases h
  | succ n ih =>
    intro rest sh attrs ws res hr ha h
    rw [Attrlist.loop] at h
    cases hp : ElemAttr.parse nrm rest sh ctx with
    | error er => rw [hp] at h; cases h
    | ok q =>
      obtain ⟨attr, after, wts⟩ := q
      rw [hp] at h
      simp only [bind, Except.bind] at h
      obtain ⟨h1, h2, h3⟩ := elem_plain hn hr hp
      split at h
      · cases h; exact ha
      · have hattrs : ∀ x ∈ (if attr.name = none ∨ attr.value ≠ "None".toList then attrs ++ [attr] else attrs),
            Tagless x.value ∧ ∀ n, x.name = some n → Tagless n := by
          intro x hx
          split at hx
          · rcases List.mem_append.mp hx with hx | hx
            · exact ha x hx
            · rw [List.mem_singleton.mp hx]; exact ⟨h1, h2⟩
          · exact ha x hx
        split at h
        · next next d hs => exact ih _ _ _ _ _ (separator_plain h3 _ _ hs) hattrs h
        · cases h; exact hattrs

theorem attrlistText_plain {nrm : Text → Res Text} (hn : ∀ v x, Tagless v → nrm v = .ok x → Tagless x) {s : AttrStore}
    (hs : PlainStore s) {source : Span} {ctx : AttrlistCtx} {a : Attrlist} {ws : List Warning} (hp : Tagless source.data)
    (h : Attrlist.parse nrm s source ctx = .ok (a, ws)) : PlainAttrs a := by
  have key : ∀ text, Tagless text → (if startsWith text ['['] && endsWith text [']'] then
        .ok (⟨[], some (text.tail.dropLast), source⟩, [])
      else (Attrlist.loop nrm source ctx (text.length + 1) text true [] []).bind fun q =>
        .ok (⟨q.1, none, source⟩, if q.2.2 ≠ [] then q.2.1 ++ [⟨source, .missingCommaAfterQuotedAttributeValue⟩] else q.2.1)) =
      Except.ok (ε := Fail) (a, ws) → PlainAttrs a := by
    intro text ht h
    split at h
    · cases h
      exact ⟨nofun, nofun, fun n hn => by cases hn; exact plain_dropLast (plain_tail ht), hp⟩
    · cases hl : Attrlist.loop nrm source ctx (text.length + 1) text true [] [] with
      | error er => rw [hl] at h; cases h
      | ok q =>
        rw [hl] at h
        cases h
        have := loop_plain hn _ _ _ _ _ _ ht (fun x hx => by cases hx) hl
        exact ⟨fun x hx => (this x hx).1, fun x hx => (this x hx).2, nofun, hp⟩
  unfold Attrlist.parse at h
  by_cases hc : (source.data.contains '{' && source.data.contains '}') = true
  · rw [if_pos hc] at h
    cases ha : applyAttributes s source.data with
    | error er => rw [ha] at h; cases h
    | ok text => rw [ha] at h; exact key text (applyAttributes_plain hs hp ha) h
  · rw [if_neg hc] at h
    exact key _ hp h

theorem inlineAttrlist_plain {s : AttrStore} (hs : PlainStore s) {t : Text} {a : Attrlist} (ht : Tagless t)
    (h : inlineAttrlist s t = .ok a) : PlainAttrs a := by
  unfold inlineAttrlist at h
  cases hp : Attrlist.parse (fun _ => .error .panic) s (Span.new t) .inline with
  | error er => rw [hp] at h; cases h
  | ok q => rw [hp] at h; cases h; exact attrlistText_plain (nrm := fun _ => .error .panic) nofun hs ht hp

end Adoc
