import Verif.Props.Attrlist
import Verif.Spec.Shorthand
/-!
# Attribute lists that consist of shorthand
-/

namespace Adoc
open Adoc.Spec Adoc.Props

/-- What the characters of shorthand are not. -/
theorem shorthand_chars {style : Text} {items : List (Char × Text)} (h : Shorthand style items) :
    ∀ c ∈ style ++ items.flatMap itemText,
      isWhite c = false ∧ c ≠ ',' ∧ c ≠ '=' ∧ c ≠ '{' ∧ c ≠ '"' ∧ c ≠ '\'' ∧ c ≠ '[' := by
  obtain ⟨h1, h2, _⟩ := h
  intro c hc
  rcases List.mem_append.mp hc with hc | hc
  · exact (h1 c hc).2
  · obtain ⟨i, hi, hc⟩ := List.mem_flatMap.mp hc
    obtain ⟨hd, _, hw⟩ := h2 i hi
    rcases List.mem_cons.mp hc with hc | hc
    · subst hc
      rcases hd with h | h | h <;> (rw [h]; decide)
    · exact (hw c hc).2

/-- A quoted attribute has no brace. -/
theorem plain_no_brace {e : Option Text × Text} (hpe : Plain e) : '{' ∉ compose1 e := by
  intro hm
  unfold compose1 at hm
  simp only [List.mem_append, List.mem_cons] at hm
  rcases hm with (hm | hm) | hm
  · cases hn : e.1 with
    | none => rw [hn] at hm; cases hm
    | some n =>
      rw [hn] at hm
      obtain ⟨⟨c, cs, rfl, hc, hcs⟩, _⟩ := hpe.1 n hn
      simp only [List.mem_append, List.mem_cons] at hm
      have k1 : ¬ (Letter '{' ∨ Digit '{') := by
        rintro ((⟨h, h'⟩ | ⟨h, h'⟩) | ⟨h, h'⟩) <;> revert h h' <;> decide
      rcases hm with (hm | hm) | hm
      · rw [← hm] at hc; exact k1 hc
      · rcases hcs _ hm with h | h
        · exact k1 h
        · cases h
      · rcases hm with hm | hm <;> cases hm
  · rcases hm with hm | hm
    · cases hm
    · exact hpe.2.2.2.2 hm
  · rcases hm with hm | hm <;> cases hm

theorem shorthand_ne_nil {style : Text} {items : List (Char × Text)} (hsh : Shorthand style items) :
    style ++ items.flatMap itemText ≠ [] := by
  rcases hsh with ⟨_, _, h | h⟩
  · intro e; exact h (List.append_eq_nil_iff.mp e).1
  · intro e
    cases items with
    | nil => exact h rfl
    | cons i is => simp [itemText] at e

/-- Shorthand is an element of a list, whatever follows behind a comma. -/
theorem shorthand_elemAt {v : Text} (hne : v ≠ [])
    (hch : ∀ c ∈ v, isWhite c = false ∧ c ≠ ',' ∧ c ≠ '=' ∧ c ≠ '{' ∧ c ≠ '"' ∧ c ≠ '\'' ∧ c ≠ '[')
    (nrm : Text → Res Text) (ctx : AttrlistCtx) {after : Text} (ha : after = [] ∨ ∃ r, after = ',' :: r) :
    ElemAt nrm ctx true (v ++ after) ⟨none, v, (parseShorthandItems v).1⟩ (parseShorthandItems v).2 after := by
  have hws : ∀ c ∈ v, ¬ WsChar c := by
    rintro c hc (h | h | h) <;> (subst h; exact absurd (hch _ hc).1 (by decide))
  have hhead : ∀ c r, v ++ after = c :: r → c ∈ v := by
    intro c r e
    cases v with
    | nil => exact absurd rfl hne
    | cons x xs =>
      rw [List.cons_append, List.cons.injEq] at e
      rw [← e.1]; simp
  have hq : ∀ c r, v ++ after = c :: r → ¬ Quote c := by
    rintro c r e (h | h) <;> subst h
    · exact (hch _ (hhead _ _ e)).2.2.2.2.2.1 rfl
    · exact (hch _ (hhead _ _ e)).2.2.2.2.1 rfl
  have hstart : startsQuote (v ++ after) = false := by
    cases hd : v ++ after with
    | nil => rfl
    | cons c r =>
      have := hq c r hd
      simp only [startsQuote, Bool.or_eq_false_iff, beq_eq_false_iff_ne]
      exact ⟨fun e => this (Or.inl e), fun e => this (Or.inr e)⟩
  refine ⟨v ++ after, v, false, ⟨?_, [], rfl, (by intro c hc; cases hc), ?_⟩, ⟨?_, [], by simp, ?_, ?_, ?_, ha⟩, ⟨?_, ?_⟩, ?_⟩
  · rintro n b ⟨w1, w2, e, ⟨x, xs, rfl, hx, hxs⟩, hw1, _⟩
    have hcomma : ',' ∉ (x :: xs) ++ w1 := by
      intro hm
      simp only [List.cons_append, List.mem_cons, List.mem_append] at hm
      rcases hm with hm | hm | hm
      · subst hm; revert hx; unfold Letter Digit; decide
      · have := hxs _ hm; revert this; unfold Letter Digit; decide
      · have := hw1 _ hm; revert this; unfold WsChar; decide
    rw [← List.append_assoc] at e
    rcases List.append_eq_append_iff.mp e with ⟨a', e1, e2⟩ | ⟨c', e1, e2⟩
    · cases a' with
      | nil =>
        rcases ha with rfl | ⟨r, rfl⟩
        · cases e2
        · cases e2
      | cons y ys =>
        rcases ha with rfl | ⟨r, rfl⟩
        · cases e2
        · cases e2
          exact hcomma (by rw [e1]; simp)
    · cases c' with
      | nil =>
        rcases ha with rfl | ⟨r, rfl⟩
        · cases e2
        · cases e2
      | cons y ys =>
        rw [List.cons_append, List.cons.injEq] at e2
        exact (hch '=' (by rw [e1, ← e2.1]; simp)).2.2.1 rfl
  · intro c r e; exact hws c (hhead c r e)
  · rintro r a ⟨q, hq', e, _⟩
    exact hq q _ e hq'
  · simp only [List.append_nil]
    exact fun hm => (hch _ hm).2.1 rfl
  · intro c hc; cases hc
  · rintro ⟨r, e⟩
    exact hws ' ' (by rw [e]; simp) (Or.inl rfl)
  · intro q r e hq'
    exact absurd hq' (hq q r e)
  · intro _; rfl
  · refine ⟨fun _ => rfl, fun hn => absurd ⟨rfl, rfl, rfl⟩ hn, [], _, rfl, ?_, fun _ => rfl, fun hn => absurd ⟨rfl, rfl, rfl⟩ hn⟩
    rw [if_neg]
    rw [hstart]; simp

/-- The elements of a list that begins with shorthand. -/
theorem shorthand_elements [Uni] {v : Text} (hne : v ≠ [])
    (hch : ∀ c ∈ v, isWhite c = false ∧ c ≠ ',' ∧ c ≠ '=' ∧ c ≠ '{' ∧ c ≠ '"' ∧ c ≠ '\'' ∧ c ≠ '[')
    (nrm : Text → Res Text) (ctx : AttrlistCtx) (es : List (Option Text × Text)) (hp : ∀ e ∈ es, Plain e) :
    ∃ lastAt, Elements nrm ctx true (List.intercalate [','] (v :: es.map compose1))
      (⟨none, v, (parseShorthandItems v).1⟩ :: es.map fun e => ⟨e.1, e.2, []⟩) (parseShorthandItems v).2 lastAt [] := by
  cases es with
  | nil =>
    have := shorthand_elemAt hne hch nrm ctx (after := []) (Or.inl rfl)
    rw [List.append_nil] at this
    exact ⟨_, by simpa using Elements.last this (by intro b r _ h; simp at h)⟩
  | cons e' es =>
    obtain ⟨l, hl⟩ := compose_elements nrm ctx (e' :: es) false (by simp) hp
    refine ⟨l, ?_⟩
    have h1 := shorthand_elemAt hne hch nrm ctx (after := [','] ++ List.intercalate [','] ((e' :: es).map compose1)) (Or.inr ⟨_, rfl⟩)
    have htext : List.intercalate [','] (v :: (e' :: es).map compose1) =
        v ++ ([','] ++ List.intercalate [','] ((e' :: es).map compose1)) := by simp [List.intercalate_cons_cons]
    rw [htext]
    have key := Elements.more (doubled := false) h1 ⟨[], [], (by intro c hc; cases hc), (by intro c hc; cases hc), by simp⟩ (by
      intro _ c r hc
      have hhead : ∀ x r', compose1 e' ++ r' = c :: x → c ≠ ' ' ∧ c ≠ '\t' ∧ c ≠ ',' := by
        intro x r' hx
        unfold compose1 at hx
        cases hn : e'.1 with
        | none =>
          rw [hn] at hx
          simp only [List.nil_append, List.cons_append, List.cons.injEq] at hx
          rw [← hx.1]; decide
        | some n =>
          rw [hn] at hx
          obtain ⟨⟨d, ds, rfl, hd, _⟩, _⟩ := (hp e' (by simp)).1 n hn
          simp only [List.cons_append, List.cons.injEq] at hx
          rw [← hx.1]
          have key : ∀ z : Char, ¬ (Letter z ∨ Digit z) → d ≠ z := fun z hz e => hz (e ▸ hd)
          refine ⟨key _ ?_, key _ ?_, key _ ?_⟩ <;>
          · rintro ((⟨h, h'⟩ | ⟨h, h'⟩) | ⟨h, h'⟩) <;> revert h h' <;> decide
      cases es with
      | nil => exact hhead r [] (by simpa using hc)
      | cons e'' es =>
        refine hhead r ([','] ++ List.intercalate [','] ((e'' :: es).map compose1)) ?_
        rw [← hc]; simp [List.intercalate_cons_cons]) hl
    simpa using key

/-- A list that begins with shorthand, and goes on with attributes in quotes, is read as it is composed. -/
theorem shorthand_list [Uni] {style : Text} {items : List (Char × Text)} (hsh : Shorthand style items)
    (es : List (Option Text × Text)) (hp : ∀ e ∈ es, Plain e)
    (nrm : Text → Res Text) (store : AttrStore) (ctx : AttrlistCtx) (source : Span) {v : Text}
    (hv : v = style ++ items.flatMap itemText) (hs : source.data = List.intercalate [','] (v :: es.map compose1)) :
    Attrlist.parse nrm store source ctx =
      .ok (⟨⟨none, v, (parseShorthandItems v).1⟩ :: es.map (fun e => ⟨e.1, e.2, []⟩), none, source⟩,
        (parseShorthandItems v).2.map (fun w => ⟨source, w⟩)) := by
  have hch := shorthand_chars hsh
  have hne := shorthand_ne_nil hsh
  rw [← hv] at hch hne
  have hnb : '{' ∉ source.data := by
    rw [hs]
    intro hm
    rcases mem_intercalate hm with ⟨l, hl, hm'⟩ | h
    · rcases List.mem_cons.mp hl with rfl | hl
      · exact (hch _ hm').2.2.2.1 rfl
      · obtain ⟨e, he, rfl⟩ := List.mem_map.mp hl
        exact plain_no_brace (hp e he) hm'
    · cases h
  obtain ⟨lastAt, hel⟩ := shorthand_elements hne hch nrm ctx es hp
  rw [← hs] at hel
  have hnob : ∀ a, source.data ≠ '[' :: a ++ [']'] := by
    intro a ha
    rw [hs] at ha
    obtain ⟨c, r, rfl⟩ := List.exists_cons_of_ne_nil hne
    have : ∃ y, List.intercalate [','] ((c :: r) :: es.map compose1) = c :: y := by
      cases es with
      | nil => exact ⟨r, by simp⟩
      | cons e es => exact ⟨_, by rw [List.map_cons, List.intercalate_cons_cons, List.cons_append, List.cons_append]⟩
    obtain ⟨y, hy⟩ := this
    rw [hy, List.cons_append, List.cons.injEq] at ha
    exact (hch c (by simp)).2.2.2.2.2.2 ha.1
  obtain ⟨⟨al, ws⟩, h⟩ := C33_complete (nrm := nrm) (store := store) (source := source) (ctx := ctx) (expands_no_brace hnb)
    (Or.inr ⟨_, _, _, _, hel⟩)
  rw [h]
  obtain ⟨t, hexp, hsrc, _, h2⟩ := C33_elements h
  have ht : t = source.data := Expands.det hexp (expands_no_brace hnb)
  subst ht
  obtain ⟨hanch, as, wts, l, after, hE, missing, m1, m2, m3, m4⟩ := h2 hnob
  obtain ⟨rfl, rfl, rfl, rfl⟩ := elements_unique hE hel
  have hnot : ¬ OnlyEmpty ((⟨none, v, (parseShorthandItems v).1⟩ : ElemAttr) :: es.map fun e => ⟨e.1, e.2, []⟩) [] := by
    rintro ⟨_, _, a, ha, hn, hv'⟩
    rcases List.mem_cons.mp (List.mem_of_getLast? ha) with rfl | hm
    · exact hne hv'
    · obtain ⟨e, he, rfl⟩ := List.mem_map.mp hm
      exact (hp e he).2.1 hn hv'
  have hmiss := (m2 hnot).2
  have hnm : ¬ missing := fun hm => (hmiss.mp hm) (by intro c hc; cases hc)
  have hws := m4 hnm
  have hattr := (m2 hnot).1
  have hfil : ((⟨none, v, (parseShorthandItems v).1⟩ : ElemAttr) :: es.map fun e => ⟨e.1, e.2, []⟩).filter Recorded =
      ⟨none, v, (parseShorthandItems v).1⟩ :: es.map fun e => ⟨e.1, e.2, []⟩ := by
    rw [List.filter_eq_self]
    intro a ha
    rw [← recorded_iff]
    rcases List.mem_cons.mp ha with rfl | ha
    · exact Or.inl rfl
    · obtain ⟨e, he, rfl⟩ := List.mem_map.mp ha
      cases hn : e.1 with
      | none => exact Or.inl rfl
      | some n => exact Or.inr ((hp e he).1 n hn).2
  rw [hfil] at hattr
  obtain ⟨aa, an, as'⟩ := al
  simp only at hanch hattr hsrc
  subst hanch hattr hsrc
  rw [hws]

end Adoc
