import Verif.Lemmas.Markup
import Verif.Props.Steps
/-!
# The substitutions of a text write no tags of their own
-/

namespace Adoc
open Re Spec

/-! ### Reading attribute lists -/

theorem slices_mem {v : Text} : ∀ {l : List Nat} {x : Text}, x ∈ ElemAttr.slices v l → ∀ c ∈ x, c ∈ v := by
  intro l
  induction l with
  | nil => intro x h; cases h
  | cons a l ih =>
    intro x h c hc
    cases l with
    | nil =>
      rw [ElemAttr.slices, List.mem_singleton] at h
      subst h
      exact List.mem_of_mem_drop hc
    | cons b l =>
      rw [ElemAttr.slices] at h
      rcases List.mem_cons.mp h with rfl | h
      · exact List.mem_of_mem_drop (List.mem_of_mem_take hc)
      · exact ih h c hc

theorem shorthandItems_plain {a : ElemAttr} (h : Tagless a.value) : ∀ x ∈ a.shorthandItems, Tagless x := by
  intro x hx
  unfold ElemAttr.shorthandItems at hx
  obtain ⟨y, hy, rfl⟩ := List.mem_map.mp (List.mem_filter.mp hx).1
  exact plain_of_mem h fun c hc => slices_mem (List.mem_filter.mp hy).1 c (trimEndP_mem hc)

theorem elemId_plain {a : ElemAttr} (h : Tagless a.value) {i : Text} (hi : a.id = some i) : Tagless i := by
  unfold ElemAttr.id at hi
  cases hf : a.shorthandItems.find? (fun v => startsWith v ['#']) with
  | none => rw [hf] at hi; cases hi
  | some v => rw [hf] at hi; cases hi; exact plain_tail (shorthandItems_plain h v (List.mem_of_find?_eq_some hf))

theorem named_mem {a : Attrlist} {n : Text} {x : ElemAttr} (h : a.namedAttribute n = some x) : x ∈ a.attributes :=
  List.mem_of_find?_eq_some h

theorem nth_mem {a : Attrlist} {n : Nat} {x : ElemAttr} (h : a.nthAttribute n = some x) : x ∈ a.attributes := by
  unfold Attrlist.nthAttribute at h
  split at h
  · cases h
  · exact (List.mem_filter.mp (List.mem_of_getElem? h)).1

theorem nthPlain {a : Attrlist} (h : PlainAttrs a) {n : Nat} {x : ElemAttr} (hx : a.nthAttribute n = some x) : Tagless x.value :=
  h.value _ (nth_mem hx)

theorem namedPlain {a : Attrlist} (h : PlainAttrs a) {n : Text} {x : ElemAttr} (hx : a.namedAttribute n = some x) : Tagless x.value :=
  h.value _ (named_mem hx)

theorem namedOrPositional_plain {a : Attrlist} (h : PlainAttrs a) {s : Text} {n : Nat} {x : ElemAttr}
    (hx : a.namedOrPositional s n = some x) : Tagless x.value := by
  unfold Attrlist.namedOrPositional at hx
  cases hn : a.namedAttribute s with
  | none => rw [hn] at hx; exact nthPlain h hx
  | some y => rw [hn] at hx; cases hx; exact namedPlain h hn

theorem map_value_plain {o : Option ElemAttr} (h : ∀ x, o = some x → Tagless x.value) : ∀ w, o.map ElemAttr.value = some w → Tagless w := by
  intro w hw
  cases o with
  | none => cases hw
  | some x => cases hw; exact h x rfl

theorem id_plain {a : Attrlist} (h : PlainAttrs a) {i : Text} (hi : a.id = some i) : Tagless i := by
  unfold Attrlist.id at hi
  cases ha : a.anchor with
  | some x => rw [ha] at hi; cases hi; exact h.anchor _ ha
  | none =>
    rw [ha] at hi
    cases h1 : (a.nthAttribute 1).bind ElemAttr.id with
    | some x =>
      rw [h1] at hi
      cases hi
      cases h2 : a.nthAttribute 1 with
      | none => rw [h2] at h1; cases h1
      | some y => rw [h2] at h1; exact elemId_plain (nthPlain h h2) h1
    | none =>
      rw [h1] at hi
      exact map_value_plain (fun x hx => namedPlain h hx) _ hi

/-! ### Quotes -/

variable [Uni]

theorem specialText_plain {r : Renderer} (hr : ∀ s, Tagless (r.special s)) {t out : Text} (h : applySpecialCharacters r t = .ok out) :
    Tagless out := by
  rw [Props.C29_every_renderer] at h
  cases h
  intro c hc
  obtain ⟨x, _, hx⟩ := List.mem_flatMap.mp hc
  split at hx
  · exact hr _ c hx
  · split at hx
    · exact hr _ c hx
    · split at hx
      · exact hr _ c hx
      · rw [List.mem_singleton.mp hx]
        constructor <;> assumption

theorem special_plain {r : Renderer} (hr : AddsNone r) {t out : Text} (h : applySpecialCharacters r t = .ok out) : Tagless out :=
  specialText_plain hr.special h

theorem quoteAttrs_plain {e : Env} (hs : PlainStore e.store) {ty ty' : QuoteType} {o : Option Text} (ho : ∀ x, o = some x → Tagless x)
    {al : Option Attrlist} (h : quoteAttrs e ty o = .ok (al, ty')) :
    (∀ a, al = some a → PlainAttrs a) ∧ ∀ i, al.bind Attrlist.id = some i → Tagless i := by
  cases o with
  | none => cases h; exact ⟨nofun, nofun⟩
  | some x =>
    unfold quoteAttrs at h
    dsimp only at h
    cases hi : inlineAttrlist e.store x with
    | error er => rw [hi] at h; cases h
    | ok a =>
      rw [hi] at h
      cases h
      have := inlineAttrlist_plain hs (ho x rfl) hi
      exact ⟨fun b hb => by cases hb; exact this, fun i hi => id_plain this hi⟩

theorem quoteReplacer_plain {e : Env} (hr : AddsNone e.r) (hs : PlainStore e.store) {ty : QuoteType} {sc : QuoteScope} {mt : Match}
    {a x : Text} {l : Look} (hm : PlainMatch mt) (h : quoteReplacer e ty sc mt a = .ok (x, l)) : Tagless x := by
  unfold quoteReplacer at h
  simp only [bind, Except.bind] at h
  split at h
  · split at h
    · next y hy => cases h; exact plain_sliceB hm.text hy
    · cases h
  · split at h
    · split at h
      · rename_i attrs ha _
        cases h3 : mt.at! 3 with
        | error er => rw [h3] at h; cases h
        | ok body =>
          rw [h3] at h
          cases h
          refine plain_append (plain_append (plain_cons (by decide) (hm _ _ ha)) (plain_lit (by decide))) ?_
          exact hr.quoted _ _ _ _ _ nofun nofun (hm.at h3)
      · cases h; exact plain_tail hm.text
    · cases sc with
      | constrained =>
        dsimp only at h
        cases hq : quoteAttrs e ty (mt.get 2) with
        | error er => rw [hq] at h; cases h
        | ok p =>
          obtain ⟨al, ty'⟩ := p
          rw [hq] at h
          dsimp only at h
          cases h3 : mt.at! 3 with
          | error er => rw [h3] at h; cases h
          | ok body =>
            rw [h3] at h
            cases h
            obtain ⟨h1, h2⟩ := quoteAttrs_plain hs (fun x hx => hm _ _ hx) hq
            exact plain_append (plain_getD fun x hx => hm _ _ hx) (hr.quoted _ _ _ _ _ h1 h2 (hm.at h3))
      | unconstrained =>
        dsimp only at h
        cases hq : quoteAttrs e ty (mt.get 1) with
        | error er => rw [hq] at h; cases h
        | ok p =>
          obtain ⟨al, ty'⟩ := p
          rw [hq] at h
          dsimp only at h
          cases h3 : mt.at! 2 with
          | error er => rw [h3] at h; cases h
          | ok body =>
            rw [h3] at h
            cases h
            obtain ⟨h1, h2⟩ := quoteAttrs_plain hs (fun x hx => hm _ _ hx) hq
            exact hr.quoted _ _ _ _ _ h1 h2 (hm.at h3)

theorem quoteSubs_plain {e : Env} (hr : AddsNone e.r) (hs : PlainStore e.store) : ∀ (qs : List QuoteSub) (t out : Text), Tagless t →
    applyQuoteSubs e qs t = .ok out → Tagless out := by
  intro qs
  induction qs with
  | nil => intro t out ht h; cases h; exact ht
  | cons q qs ih =>
    intro t out ht h
    rw [applyQuoteSubs] at h
    cases hl : replaceWithLookahead q.pattern t (quoteReplacer e q.type q.scope) with
    | error er => rw [hl] at h; cases h
    | ok o =>
      rw [hl] at h
      refine ih (o.getD t) out ?_ h
      cases o with
      | none => exact ht
      | some x => exact look_plain (fun mt a x l hm hx => quoteReplacer_plain hr hs hm hx) ht hl

theorem quotes_plain {e : Env} (hr : AddsNone e.r) (hs : PlainStore e.store) {t out : Text} (ht : Tagless t)
    (h : applyQuotes e t = .ok out) : Tagless out := by
  unfold applyQuotes at h
  split at h
  · cases h; exact ht
  · exact quoteSubs_plain hr hs _ _ _ ht h

/-! ### Character replacements -/

omit [Uni] in
theorem charReplacer_plain {r : Renderer} (hr : AddsNone r) {ty : CharRepl} {mt : Match} {x : Text} (hm : PlainMatch mt)
    (h : charReplacer r ty mt = .ok x) : Tagless x := by
  unfold charReplacer at h
  split at h
  · cases h; exact plain_replaceChar hm.text plain_nil
  · split at h
    · cases h1 : mt.at! 1 with
      | error er => rw [h1] at h; cases h
      | ok b => rw [h1] at h; cases h; exact plain_append (hm.at h1) (hr.charRepl _ nofun)
    · cases h
      exact plain_append (plain_append (plain_getD fun x hx => hm _ _ hx) (hr.charRepl _ nofun)) (plain_getD fun x hx => hm _ _ hx)
    · cases h1 : mt.at! 1 with
      | error er => rw [h1] at h; cases h
      | ok b => rw [h1] at h; cases h; exact hr.charRepl _ fun n hn => by cases hn; exact hm.at h1
    · next hne =>
      cases h
      exact hr.charRepl _ fun n hn => absurd hn (hne n)

theorem replacements_plain {r : Renderer} (hr : AddsNone r) : ∀ (l : List (CharRepl × Re)) (t out : Text), Tagless t →
    applyReplacements r l t = .ok out → Tagless out := by
  intro l
  induction l with
  | nil => intro t out ht h; cases h; exact ht
  | cons p l ih =>
    intro t out ht h
    rw [applyReplacements] at h
    cases hl : replaceAll p.2 (charReplacer r p.1) t with
    | error er => rw [hl] at h; cases h
    | ok o =>
      rw [hl] at h
      exact ih o out (replaceAll_plain ht (fun mt x hm hx => charReplacer_plain hr hm hx) hl) h

theorem charReplacements_plain {r : Renderer} (hr : AddsNone r) {t out : Text} (ht : Tagless t)
    (h : applyCharacterReplacements r t = .ok out) : Tagless out := by
  unfold applyCharacterReplacements at h
  split at h
  · cases h; exact ht
  · exact replacements_plain hr _ _ _ ht h

/-! ### Post replacements -/

omit [Uni] in
theorem joinChar_mem {d : Char} : ∀ {ls : List Text} {c : Char}, c ∈ joinChar d ls → (∃ l ∈ ls, c ∈ l) ∨ c = d := by
  intro ls
  induction ls with
  | nil => intro c h; cases h
  | cons a ls ih =>
    intro c h
    cases ls with
    | nil => exact .inl ⟨a, by simp, h⟩
    | cons b ls =>
      rw [joinChar] at h
      rcases List.mem_append.mp h with h | h
      · exact .inl ⟨a, by simp, h⟩
      · rcases List.mem_cons.mp h with h | h
        · exact .inr h
        · rcases ih h with ⟨l, hl, hc⟩ | h
          · exact .inl ⟨l, List.mem_cons_of_mem _ hl, hc⟩
          · exact .inr h

omit [Uni] in
theorem hardBreakLine_plain {r : Renderer} (hr : AddsNone r) {l : Text} (hl : Tagless l) : Tagless (hardBreakLine r l) := by
  unfold hardBreakLine
  refine plain_append ?_ hr.lineBreak
  split
  · exact plain_take hl
  · exact hl

theorem post_plain {e : Env} (hr : AddsNone e.r) {al : Option Attrlist} {t out : Text} (ht : Tagless t)
    (h : applyPostReplacements e al t = .ok out) : Tagless out := by
  unfold applyPostReplacements at h
  have key : ∀ {P : Prop} [Decidable P] {A B : Res Text}, (if P then A else B) = .ok out → A = .ok out ∨ B = .ok out := by
    intro P _ A B h
    split at h
    · exact .inl h
    · exact .inr h
  rcases key h with h | h
  · dsimp only at h
    split at h
    · cases h; exact ht
    · cases h
      intro c hc
      rcases joinChar_mem hc with ⟨l, hl, hc⟩ | hc
      · rcases List.mem_append.mp hl with hl | hl
        · obtain ⟨y, hy, rfl⟩ := List.mem_map.mp hl
          exact hardBreakLine_plain hr (plain_of_mem ht (strLines_mem (List.dropLast_subset _ hy))) c hc
        · rw [List.mem_singleton.mp hl] at hc
          exact plain_getD (fun x hx => plain_of_mem ht (strLines_mem (List.mem_of_getLast? hx))) c hc
      · rw [hc]; decide
  · split at h
    · cases h; exact ht
    · refine replaceAll_plain ht (fun mt x hm hx => ?_) h
      unfold postReplacer at hx
      cases h1 : mt.at! 1 with
      | error er => rw [h1] at hx; cases hx
      | ok b => rw [h1] at hx; cases hx; exact plain_append (hm.at h1) hr.lineBreak

end Adoc
