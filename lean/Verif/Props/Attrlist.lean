import Verif.Spec.Drawn
import Verif.Lemmas.Shorthand
import Verif.Props.Steps
/-!
# C33, C34, C35: attribute lists
-/

namespace Adoc.Props
open Adoc Adoc.Spec Span

set_option linter.unusedSectionVars false

variable [Uni]

/-! ### C33 -/

private theorem no_ref {s : AttrStore} {t : Text} (h : ¬ (t.contains '{' && t.contains '}') = true) :
    applyAttributes s t = .ok t := by
  apply C30_unknown_kept
  intro pre name post ht _
  exfalso
  apply h
  simp [ht]

private def core (nrm : Text → Res Text) (source : Span) (ctx : AttrlistCtx) (text : Text) :
    Res (Attrlist × List Warning) := do
  if startsWith text ['['] && endsWith text [']'] then
    .ok (⟨[], some (text.tail.dropLast), source⟩, [])
  else
    let (attrs, ws, r) ← Attrlist.loop nrm source ctx (text.length + 1) text true [] []
    .ok (⟨attrs, none, source⟩,
      if r ≠ [] then ws ++ [⟨source, .missingCommaAfterQuotedAttributeValue⟩] else ws)

private theorem parse_core {nrm : Text → Res Text} {store : AttrStore} {source : Span} {ctx : AttrlistCtx} {t : Text}
    (ht : applyAttributes store source.data = .ok t) : Attrlist.parse nrm store source ctx = core nrm source ctx t := by
  unfold Attrlist.parse
  by_cases hb : (source.data.contains '{' && source.data.contains '}') = true
  · rw [if_pos hb, ht]; rfl
  · rw [if_neg hb]
    rw [no_ref hb] at ht
    cases ht; rfl

/-- Parsing an attribute list returns: it can only fail when the substitution applied to a single-quoted value of a block
attribute list fails; that value is made of characters of the list. -/
theorem C33_terminates {nrm : Text → Res Text} {store : AttrStore} {source : Span} {ctx : AttrlistCtx} {e : Fail}
    (h : Attrlist.parse nrm store source ctx = .error e) :
    ctx = .block ∧ ∃ v, Drawn source.data v ∧ nrm v = .error e := by
  obtain ⟨t, ht⟩ := applyAttributes_total store source.data
  rw [parse_core ht] at h
  unfold core at h
  simp only [bind, Except.bind] at h
  split at h
  · cases h
  · split at h
    · rename_i e' he
      cases h
      obtain ⟨h1, v, h2, h3⟩ := loop_error _ (Nat.lt_succ_self _) he
      refine ⟨h1, v, fun hb c hc => Or.inl ?_, h3⟩
      rw [no_ref (by simp [hb])] at ht
      cases ht
      exact h2 c hc
    · cases h

/-- Inline attribute lists never apply substitutions to values, so they always parse. -/
theorem C33_inline_total (nrm : Text → Res Text) (store : AttrStore) (source : Span) :
    ∃ r, Attrlist.parse nrm store source .inline = .ok r := by
  cases h : Attrlist.parse nrm store source .inline with
  | ok r => exact ⟨r, rfl⟩
  | error e => have := (C33_terminates h).1; cases this

/-- The parsed list consists of the elements of the (attribute-substituted) text, in order.  Elements are separated by
commas; whatever follows the last element without a comma is reported. -/
theorem C33_elements {nrm : Text → Res Text} {store : AttrStore} {source : Span} {ctx : AttrlistCtx} {al : Attrlist}
    {ws : List Warning} (h : Attrlist.parse nrm store source ctx = .ok (al, ws)) :
    ∃ t, Expands (fun n => store.hasAttribute n = true) (refValue store) source.data t ∧ al.source = source ∧
      (∀ a, t = '[' :: a ++ [']'] → al.anchor = some a ∧ al.attributes = [] ∧ ws = []) ∧
      ((∀ a, t ≠ '[' :: a ++ [']']) → al.anchor = none ∧
        ∃ as wts lastAt after, Elements nrm ctx true t as wts lastAt after ∧ ∃ missing : Prop,
          (OnlyEmpty as after → al.attributes = [] ∧ (missing ↔ lastAt ≠ [])) ∧
          (¬ OnlyEmpty as after → al.attributes = as.filter Recorded ∧ (missing ↔ ¬ Blank after)) ∧
          (missing → ws = (wts ++ [WarningType.missingCommaAfterQuotedAttributeValue]).map (fun w => ⟨source, w⟩)) ∧
          (¬ missing → ws = wts.map (fun w => ⟨source, w⟩))) := by
  obtain ⟨t, ht, hexp⟩ := C30_expands store source.data
  rw [parse_core ht] at h
  unfold core at h
  simp only [bind, Except.bind] at h
  refine ⟨t, hexp, ?_⟩
  have hbr : (startsWith t ['['] && endsWith t [']']) = true ↔ ∃ a, t = '[' :: a ++ [']'] := by
    rw [Bool.and_eq_true, startsWith_iff, endsWith_iff]
    constructor
    · rintro ⟨⟨r, rfl⟩, x, hx⟩
      cases x with
      | nil => simp at hx
      | cons y ys =>
        simp only [List.cons_append, List.cons.injEq] at hx
        exact ⟨ys, by simp [hx.2]⟩
    · rintro ⟨a, rfl⟩
      exact ⟨⟨a ++ [']'], rfl⟩, '[' :: a, rfl⟩
  by_cases hb : (startsWith t ['['] && endsWith t [']']) = true
  · rw [if_pos hb] at h
    simp only [Except.ok.injEq, Prod.mk.injEq] at h
    obtain ⟨rfl, rfl⟩ := h
    refine ⟨rfl, ?_, ?_⟩
    · rintro a rfl; simp
    · intro hno
      obtain ⟨a, ha⟩ := hbr.mp hb
      exact absurd ha (hno a)
  · rw [if_neg hb] at h
    split at h
    · cases h
    · rename_i p hp
      obtain ⟨attrs, ws', r⟩ := p
      simp only [Except.ok.injEq, Prod.mk.injEq] at h
      obtain ⟨rfl, rfl⟩ := h
      refine ⟨rfl, fun a ha => absurd (hbr.mpr ⟨a, ha⟩) hb, fun _ => ⟨rfl, ?_⟩⟩
      obtain ⟨as, wts, lastAt, after, h1, h2, h3, h4⟩ := loop_elements _ hp
      refine ⟨as, wts, lastAt, after, h1, r ≠ [], ?_, ?_, ?_, ?_⟩
      · intro ho
        obtain ⟨e1, e2⟩ := h3 ⟨rfl, ho⟩
        exact ⟨e1, by rw [e2]⟩
      · intro ho
        obtain ⟨e1, e2⟩ := h4 (fun x => ho x.2)
        refine ⟨by simpa using e1, ?_⟩
        rw [e2, ne_eq, dropWhile_nil_iff]
        exact not_congr (forall_congr' fun c => forall_congr' fun _ => isBlank_iff c)
      · intro hm; rw [if_pos hm, h2]; simp
      · intro hm; rw [if_neg hm, h2]; simp

/-- Every text that has such a decomposition parses. -/
theorem C33_complete {nrm : Text → Res Text} {store : AttrStore} {source : Span} {ctx : AttrlistCtx} {t : Text}
    (ht : Expands (fun n => store.hasAttribute n = true) (refValue store) source.data t)
    (h : (∃ a, t = '[' :: a ++ [']']) ∨ ∃ as wts l f, Elements nrm ctx true t as wts l f) :
    ∃ r, Attrlist.parse nrm store source ctx = .ok r := by
  obtain ⟨t', ht', hexp⟩ := C30_expands store source.data
  obtain rfl := Expands.det ht hexp
  rw [parse_core ht']
  unfold core
  split
  · exact ⟨_, rfl⟩
  · rename_i hno
    rcases h with ⟨a, rfl⟩ | ⟨as, wts, l, f, h⟩
    · exfalso
      apply hno
      rw [Bool.and_eq_true, startsWith_iff, endsWith_iff]
      exact ⟨⟨a ++ [']'], rfl⟩, '[' :: a, rfl⟩
    · obtain ⟨r, hr⟩ := loop_ok (source := source) h (t.length + 1) [] [] (Nat.lt_succ_self _)
      rw [hr]
      exact ⟨_, rfl⟩

/-- The decomposition is unique, so the specification determines the result. -/
theorem C33_elements_unique {nrm : Text → Res Text} {ctx : AttrlistCtx} {sh : Bool} {t : Text} {as1 as2 : List ElemAttr}
    {ws1 ws2 : List WarningType} {l1 l2 f1 f2 : Text} (h1 : Elements nrm ctx sh t as1 ws1 l1 f1)
    (h2 : Elements nrm ctx sh t as2 ws2 l2 f2) : as1 = as2 ∧ ws1 = ws2 ∧ l1 = l2 ∧ f1 = f2 := elements_unique h1 h2

/-- Each element comes from its own region: its name and value are those of that piece of text alone. -/
theorem C33_element_local {nrm : Text → Res Text} {ctx : AttrlistCtx} {t : Text} {n : Option Text} {v after : Text}
    {c : Bool} (h : Reads nrm ctx t n v c after) : ∃ region, t = region ++ after ∧ Reads nrm ctx region n v c [] := by
  obtain ⟨region, rfl⟩ := reads_prefix h
  exact ⟨region, rfl, reads_local h⟩

/-- Inside an element nothing of the next one is read: a value ends before a comma unless it is quoted. -/
theorem C33_unquoted_no_comma {nrm : Text → Res Text} {ctx : AttrlistCtx} {t : Text} {n : Option Text} {v after : Text}
    (h : Reads nrm ctx t n v false after) : after = [] ∨ ∃ r, after = ',' :: r := by
  obtain ⟨_, _, _, h2, _⟩ := h
  unfold RawValue at h2
  simp only [Bool.false_eq_true, if_false] at h2
  obtain ⟨_, _, _, _, _, _, h⟩ := h2
  exact h

/-- The text of an element written with double quotes. -/
def compose1 (e : Option Text × Text) : Text :=
  (match e.1 with | some n => n ++ ['='] | none => []) ++ '"' :: e.2 ++ ['"']

/-- Elements that can be written with double quotes without escapes. -/
def Plain (e : Option Text × Text) : Prop :=
  (∀ n, e.1 = some n → AttrName n ∧ e.2 ≠ "None".toList) ∧ (e.1 = none → e.2 ≠ []) ∧
    '"' ∉ e.2 ∧ '\\' ∉ e.2 ∧ '{' ∉ e.2

private theorem unescape_id (q : Char) {t : Text} (h : '\\' ∉ t) : unescape q t = t := by
  induction t using unescape.induct (q := q) with
  | case1 => rfl
  | case2 c => rfl
  | case3 c d r hc ih => exact absurd (by simp [hc.1]) h
  | case4 c d r hc ih => rw [unescape, if_neg hc, ih (fun hm => h (by simp [hm]))]

private theorem plain_elemAt (nrm : Text → Res Text) (ctx : AttrlistCtx) (sh : Bool) {e : Option Text × Text}
    (h : Plain e) (after : Text) : ElemAt nrm ctx sh (compose1 e ++ after) ⟨e.1, e.2, []⟩ [] after := by
  obtain ⟨h1, _, h3, h4, _⟩ := h
  have hq : QuotedForm ('"' :: e.2 ++ ['"'] ++ after) e.2 after := by
    refine ⟨'"', Or.inr rfl, by simp, ?_, ?_⟩
    · intro a b hab; exact absurd (by rw [hab]; simp) h3
    · rintro ⟨r, hr⟩; exact h4 (by rw [hr]; simp)
  refine ⟨'"' :: e.2 ++ ['"'] ++ after, e.2, true, ?_, ?_, ?_, ?_, ?_, [], [], rfl, ?_, ?_, ?_⟩
  · cases hn : e.1 with
    | some n =>
      refine ⟨[], [], ?_, (h1 n hn).1, (by intro c hc; cases hc), (by intro c hc; cases hc), '"', _, rfl, ?_, by decide⟩
      · simp [compose1, hn]
      · rintro (h | h | h) <;> cases h
    | none =>
      refine ⟨?_, [], by simp [compose1, hn], (by intro c hc; cases hc), ?_⟩
      · rintro n b ⟨w1, w2, e', ⟨c, cs, rfl, hc, _⟩, _⟩
        simp only [compose1, hn, List.nil_append, List.cons_append, List.cons.injEq] at e'
        rw [← e'.1] at hc
        rcases hc with (⟨h, _⟩ | ⟨h, _⟩) | ⟨h, _⟩ <;> revert h <;> decide
      · intro c cs hc
        simp only [List.cons_append, List.cons.injEq] at hc
        rw [← hc.1]; rintro (h | h | h) <;> cases h
  · unfold RawValue; rw [if_pos rfl]; exact hq
  · refine ⟨?_, fun hno => absurd (Or.inr rfl) (hno '"' _ rfl)⟩
    intro q r hqr _
    simp only [List.cons_append, List.cons.injEq] at hqr
    rw [← hqr.1, if_neg (by rintro ⟨h, _⟩; cases h), unescape_id _ h4]
  · rintro ⟨_, _, h⟩; cases h
  · intro _; rfl
  · simp
  · rintro ⟨_, _, h⟩; cases h
  · intro _; rfl

theorem mem_intercalate {sep : Char} {c : Char} {ls : List Text} (h : c ∈ List.intercalate [sep] ls) :
    (∃ l ∈ ls, c ∈ l) ∨ c = sep := by
  induction ls with
  | nil => simp [List.intercalate] at h
  | cons x xs ih =>
    cases xs with
    | nil => simp at h; exact Or.inl ⟨x, by simp, h⟩
    | cons y ys =>
      rw [List.intercalate_cons_cons, List.mem_append, List.mem_append] at h
      rcases h with (h | h) | h
      · exact Or.inl ⟨x, by simp, h⟩
      · exact Or.inr (by simpa using h)
      · rcases ih h with ⟨l, hl, hc⟩ | h
        · exact Or.inl ⟨l, by simp [hl], hc⟩
        · exact Or.inr h

/-- A composed list is a list of the elements it is composed of. -/
theorem compose_elements (nrm : Text → Res Text) (ctx : AttrlistCtx) (es : List (Option Text × Text)) :
    ∀ sh, es ≠ [] → (∀ e ∈ es, Plain e) →
    ∃ lastAt, Elements nrm ctx sh (List.intercalate [','] (es.map compose1)) (es.map fun e => ⟨e.1, e.2, []⟩) []
      lastAt [] := by
  induction es with
  | nil => intro _ h; exact absurd rfl h
  | cons e es ih =>
    intro sh _ hp
    cases es with
    | nil =>
      have := plain_elemAt nrm ctx sh (hp e (by simp)) []
      rw [List.append_nil] at this
      exact ⟨_, by simpa using Elements.last this (by intro b r _ h; simp at h)⟩
    | cons e' es =>
      obtain ⟨l, hl⟩ := ih (sh && e.1.isSome) (by simp) (fun x hx => hp x (by simp [hx]))
      refine ⟨l, ?_⟩
      have h1 := plain_elemAt nrm ctx sh (hp e (by simp))
        ([','] ++ List.intercalate [','] ((e' :: es).map compose1))
      have htext : List.intercalate [','] ((e :: e' :: es).map compose1) =
          compose1 e ++ ([','] ++ List.intercalate [','] ((e' :: es).map compose1)) := by simp [List.intercalate_cons_cons]
      rw [htext]
      refine Elements.more (doubled := false) h1 ⟨[], [], (by intro c hc; cases hc), (by intro c hc; cases hc), by simp⟩ ?_ hl
      intro _ c r hc
      have hhead : ∀ x r', compose1 e' ++ r' = c :: x → c ≠ ' ' ∧ c ≠ '\t' ∧ c ≠ ',' := by
        intro x r' hx
        unfold compose1 at hx
        cases hn : e'.1 with
        | none =>
          rw [hn] at hx
          simp only [List.nil_append, List.cons_append, List.cons.injEq] at hx
          rw [← hx.1]; decide
        | some n =>
          rw [hn] at hx
          obtain ⟨⟨d, ds, rfl, hd, _⟩, _⟩ := (hp e' (by simp)).1 n hn
          simp only [List.cons_append, List.cons.injEq] at hx
          rw [← hx.1]
          have key : ∀ z : Char, ¬ (Letter z ∨ Digit z) → d ≠ z := fun z hz e => hz (e ▸ hd)
          refine ⟨key _ ?_, key _ ?_, key _ ?_⟩ <;>
          · rintro ((⟨h, h'⟩ | ⟨h, h'⟩) | ⟨h, h'⟩) <;> revert h h' <;> decide
      cases es with
      | nil => exact hhead r [] (by simpa using hc)
      | cons e'' es =>
        refine hhead r ([','] ++ List.intercalate [','] ((e'' :: es).map compose1)) ?_
        rw [← hc]; simp [List.intercalate_cons_cons]

/-- Round trip: a list composed from names and values parses to exactly these names and values, without warnings. -/
theorem C33_roundtrip (nrm : Text → Res Text) (store : AttrStore) (ctx : AttrlistCtx) (source : Span)
    (es : List (Option Text × Text)) (hne : es ≠ []) (hp : ∀ e ∈ es, Plain e)
    (hs : source.data = List.intercalate [','] (es.map compose1)) :
    Attrlist.parse nrm store source ctx = .ok (⟨es.map fun e => ⟨e.1, e.2, []⟩, none, source⟩, []) := by
  have hnb : '{' ∉ source.data := by
    rw [hs]
    intro hm
    rcases mem_intercalate hm with ⟨l, hl, hm⟩ | h
    · obtain ⟨e, he, rfl⟩ := List.mem_map.mp hl
      have hpe := hp e he
      unfold compose1 at hm
      simp only [List.mem_append, List.mem_cons] at hm
      rcases hm with (hm | hm) | hm
      · cases hn : e.1 with
        | none => rw [hn] at hm; cases hm
        | some n =>
          rw [hn] at hm
          obtain ⟨⟨c, cs, rfl, hc, hcs⟩, _⟩ := hpe.1 n hn
          simp only [List.mem_append, List.mem_cons] at hm
          have k1 : ¬ (Letter '{' ∨ Digit '{') := by
            rintro ((⟨h, h'⟩ | ⟨h, h'⟩) | ⟨h, h'⟩) <;> revert h h' <;> decide
          rcases hm with (hm | hm) | hm
          · rw [← hm] at hc; exact k1 hc
          · rcases hcs _ hm with h | h
            · exact k1 h
            · cases h
          · rcases hm with hm | hm <;> cases hm
      · rcases hm with hm | hm
        · cases hm
        · exact hpe.2.2.2.2 hm
      · rcases hm with hm | hm <;> cases hm
    · cases h
  obtain ⟨lastAt, hel⟩ := compose_elements nrm ctx es true hne hp
  have hnob : ∀ a, List.intercalate [','] (es.map compose1) ≠ '[' :: a ++ [']'] := by
    intro a ha
    cases es with
    | nil => exact hne rfl
    | cons e es =>
      have hfirst : ∃ r, List.intercalate [','] ((e :: es).map compose1) = compose1 e ++ r := by
        cases es with
        | nil => exact ⟨[], by simp⟩
        | cons e' es => exact ⟨_, by rw [List.map_cons, List.map_cons, List.intercalate_cons_cons, List.append_assoc]⟩
      obtain ⟨r, hr⟩ := hfirst
      rw [hr] at ha
      unfold compose1 at ha
      cases hn : e.1 with
      | none =>
        rw [hn] at ha
        simp only [List.nil_append, List.cons_append, List.cons.injEq] at ha
        exact absurd ha.1 (by decide)
      | some n =>
        rw [hn] at ha
        obtain ⟨⟨c, cs, rfl, hc, _⟩, _⟩ := (hp e (by simp)).1 n hn
        simp only [List.cons_append, List.cons.injEq] at ha
        rw [ha.1] at hc
        rcases hc with (⟨h, h'⟩ | ⟨h, h'⟩) | ⟨h, h'⟩ <;> revert h h' <;> decide
  obtain ⟨⟨al, ws⟩, h⟩ := C33_complete (nrm := nrm) (store := store) (source := source) (hs ▸ expands_no_brace hnb)
    (Or.inr ⟨_, _, _, _, hel⟩)
  rw [h]
  obtain ⟨t, hexp, hsrc, _, h2⟩ := C33_elements h
  have ht : t = source.data := Expands.det hexp (expands_no_brace hnb)
  rw [hs] at ht
  subst ht
  obtain ⟨hanch, as, wts, l, after, hE, missing, m1, m2, m3, m4⟩ := h2 hnob
  obtain ⟨rfl, rfl, rfl, rfl⟩ := elements_unique hE hel
  have hnot : ¬ OnlyEmpty (es.map fun e => (⟨e.1, e.2, []⟩ : ElemAttr)) [] := by
    rintro ⟨_, _, a, ha, hn, hv⟩
    rw [List.getLast?_map] at ha
    cases hl : es.getLast? with
    | none => rw [hl] at ha; cases ha
    | some e =>
      rw [hl] at ha
      cases ha
      exact (hp e (List.mem_of_getLast? hl)).2.1 hn hv
  have hmiss := (m2 hnot).2
  have hnm : ¬ missing := fun hm => (hmiss.mp hm) (by intro c hc; cases hc)
  have hws := m4 hnm
  have hattr := (m2 hnot).1
  have hfil : (es.map fun e => (⟨e.1, e.2, []⟩ : ElemAttr)).filter Recorded = es.map fun e => ⟨e.1, e.2, []⟩ := by
    rw [List.filter_eq_self]
    intro a ha
    obtain ⟨e, he, rfl⟩ := List.mem_map.mp ha
    rw [← recorded_iff]
    cases hn : e.1 with
    | none => exact Or.inl rfl
    | some n => exact Or.inr ((hp e he).1 n hn).2
  rw [hfil] at hattr
  obtain ⟨aa, an, as'⟩ := al
  simp only at hanch hattr hsrc
  subst hanch hattr hsrc
  rw [hws]; rfl

example : letI := asciiUni
    Attrlist.parse (fun t => .ok t) AttrStore.default (Span.new "style#id.r%o , k = 'v\\'w' ,, \"x,y\" z".toList) .block =
      .ok (⟨[⟨none, "style#id.r%o".toList, [0, 5, 8, 10]⟩, ⟨some "k".toList, "v'w".toList, []⟩,
        ⟨none, "x,y".toList, []⟩], none, Span.new "style#id.r%o , k = 'v\\'w' ,, \"x,y\" z".toList⟩,
        [⟨Span.new "style#id.r%o , k = 'v\\'w' ,, \"x,y\" z".toList, .emptyAttributeValue⟩,
         ⟨Span.new "style#id.r%o , k = 'v\\'w' ,, \"x,y\" z".toList, .missingCommaAfterQuotedAttributeValue⟩]) := by
  decide +kernel

example : Plain (some "k".toList, "v, w".toList) ∧ Plain (none, "x".toList) := by
  refine ⟨⟨?_, by decide, by decide⟩, ⟨(by intro n h; cases h), by decide, by decide⟩⟩
  intro n h
  cases h
  exact ⟨⟨'k', [], rfl, Or.inl (Or.inl (by decide)), by intro d hd; cases hd⟩, by decide⟩

/-- Finding: a list holding just an empty quoted value, or just a space, is reported as lacking a comma although
nothing follows it. -/
theorem C33_spurious_missing_comma : letI := asciiUni
    (Attrlist.parse (fun t => .ok t) AttrStore.default (Span.new "\"\"".toList) .inline =
      .ok (⟨[], none, Span.new "\"\"".toList⟩, [⟨Span.new "\"\"".toList, .missingCommaAfterQuotedAttributeValue⟩])) ∧
    (Attrlist.parse (fun t => .ok t) AttrStore.default (Span.new " ".toList) .inline =
      .ok (⟨[], none, Span.new " ".toList⟩, [⟨Span.new " ".toList, .missingCommaAfterQuotedAttributeValue⟩])) := by
  decide +kernel

/-- Finding: an empty second position is not counted (`b` becomes the second positional attribute), two of them count
as one. -/
theorem C33_empty_positions : letI := asciiUni
    (∃ al ws, Attrlist.parse (fun t => .ok t) AttrStore.default (Span.new "a,,b".toList) .inline = .ok (al, ws) ∧
      al.attributes.map ElemAttr.value = ["a".toList, "b".toList]) ∧
    (∃ al ws, Attrlist.parse (fun t => .ok t) AttrStore.default (Span.new "a,,,b".toList) .inline = .ok (al, ws) ∧
      al.attributes.map ElemAttr.value = ["a".toList, [], "b".toList]) :=
  ⟨⟨_, _, rfl, by decide +kernel⟩, ⟨_, _, rfl, by decide +kernel⟩⟩

/-! ### C34 -/

/-- `named_attribute` returns the first attribute with the name. -/
theorem C34_named (al : Attrlist) (name : Text) (a : ElemAttr) :
    al.namedAttribute name = some a ↔ ∃ pre post, al.attributes = pre ++ a :: post ∧ a.name = some name ∧
      ∀ b ∈ pre, b.name ≠ some name := by
  unfold Attrlist.namedAttribute
  rw [List.find?_eq_some_iff_append]
  constructor
  · rintro ⟨h1, pre, post, h2, h3⟩
    exact ⟨pre, post, h2, by simpa using h1, fun b hb => by simpa using h3 b hb⟩
  · rintro ⟨pre, post, h2, h1, h3⟩
    exact ⟨by simpa using h1, pre, post, h2, fun b hb => by simpa using h3 b hb⟩

theorem C34_named_none (al : Attrlist) (name : Text) :
    al.namedAttribute name = none ↔ ∀ b ∈ al.attributes, b.name ≠ some name := by
  unfold Attrlist.namedAttribute
  rw [List.find?_eq_none]
  simp

private theorem filter_getElem {l : List ElemAttr} {k : Nat} {a : ElemAttr} :
    (l.filter (fun x => x.name == none))[k]? = some a ↔ ∃ pre post, l = pre ++ a :: post ∧ a.name = none ∧
      (pre.filter (fun x => x.name == none)).length = k := by
  induction l generalizing k with
  | nil => simp
  | cons x xs ih =>
    by_cases hx : x.name = none
    · rw [List.filter_cons_of_pos (by simpa using hx)]
      cases k with
      | zero =>
        simp only [List.getElem?_cons_zero, Option.some.injEq]
        constructor
        · rintro rfl; exact ⟨[], xs, rfl, hx, rfl⟩
        · rintro ⟨pre, post, h1, h2, h3⟩
          cases pre with
          | nil => simp at h1; exact h1.1
          | cons y ys =>
            simp only [List.cons_append, List.cons.injEq] at h1
            obtain ⟨rfl, _⟩ := h1
            rw [List.filter_cons_of_pos (by simpa using hx)] at h3
            simp at h3
      | succ k =>
        rw [List.getElem?_cons_succ, ih]
        constructor
        · rintro ⟨pre, post, rfl, h2, h3⟩
          exact ⟨x :: pre, post, rfl, h2, by rw [List.filter_cons_of_pos (by simpa using hx), List.length_cons, h3]⟩
        · rintro ⟨pre, post, h1, h2, h3⟩
          cases pre with
          | nil => simp at h3
          | cons y ys =>
            simp only [List.cons_append, List.cons.injEq] at h1
            obtain ⟨rfl, rfl⟩ := h1
            rw [List.filter_cons_of_pos (by simpa using hx)] at h3
            exact ⟨ys, post, rfl, h2, by simpa using h3⟩
    · rw [List.filter_cons_of_neg (by simpa using hx), ih]
      constructor
      · rintro ⟨pre, post, rfl, h2, h3⟩
        exact ⟨x :: pre, post, rfl, h2, by rw [List.filter_cons_of_neg (by simpa using hx)]; exact h3⟩
      · rintro ⟨pre, post, h1, h2, h3⟩
        cases pre with
        | nil =>
          simp only [List.nil_append, List.cons.injEq] at h1
          rw [← h1.1] at h2; exact absurd h2 hx
        | cons y ys =>
          simp only [List.cons_append, List.cons.injEq] at h1
          obtain ⟨rfl, rfl⟩ := h1
          rw [List.filter_cons_of_neg (by simpa using hx)] at h3
          exact ⟨ys, post, rfl, h2, h3⟩

/-- `nth_attribute(n)` is the unnamed attribute with `n - 1` unnamed ones before it; there is none at position 0. -/
theorem C34_nth (al : Attrlist) (n : Nat) (a : ElemAttr) :
    al.nthAttribute n = some a ↔ ∃ pre post, al.attributes = pre ++ a :: post ∧ a.name = none ∧
      (pre.filter (fun x => x.name == none)).length + 1 = n := by
  unfold Attrlist.nthAttribute
  split
  · rename_i h
    subst h
    constructor
    · intro h; cases h
    · rintro ⟨_, _, _, _, h⟩; omega
  · rw [filter_getElem]
    constructor
    · rintro ⟨pre, post, h1, h2, h3⟩; exact ⟨pre, post, h1, h2, by omega⟩
    · rintro ⟨pre, post, h1, h2, h3⟩; exact ⟨pre, post, h1, h2, by omega⟩

/-- `named_or_positional_attribute` prefers the name. -/
theorem C34_named_or_positional (al : Attrlist) (name : Text) (n : Nat) :
    (∀ a, al.namedAttribute name = some a → al.namedOrPositional name n = some a) ∧
    (al.namedAttribute name = none → al.namedOrPositional name n = al.nthAttribute n) := by
  unfold Attrlist.namedOrPositional
  exact ⟨fun a h => by rw [h]; rfl, fun h => by rw [h]; rfl⟩

/-- The id is the anchor, else the shorthand id of the first positional attribute, else the attribute `id`. -/
theorem C34_id (al : Attrlist) :
    (∀ x, al.anchor = some x → al.id = some x) ∧
    (∀ p x, al.anchor = none → al.nthAttribute 1 = some p → p.id = some x → al.id = some x) ∧
    (∀ a, al.anchor = none → (∀ p, al.nthAttribute 1 = some p → p.id = none) →
      al.namedAttribute "id".toList = some a → al.id = some a.value) ∧
    (al.anchor = none → (∀ p, al.nthAttribute 1 = some p → p.id = none) →
      al.namedAttribute "id".toList = none → al.id = none) := by
  unfold Attrlist.id
  refine ⟨?_, ?_, ?_, ?_⟩
  · intro x h; rw [h]; rfl
  · intro p x h1 h2 h3; rw [h1, h2]; simp [h3]
  · intro a h1 h2 h3
    have : (al.nthAttribute 1).bind ElemAttr.id = none := by
      cases hp : al.nthAttribute 1 with
      | none => rfl
      | some p => exact h2 p hp
    rw [h1, this, h3]; rfl
  · intro h1 h2 h3
    have : (al.nthAttribute 1).bind ElemAttr.id = none := by
      cases hp : al.nthAttribute 1 with
      | none => rfl
      | some p => exact h2 p hp
    rw [h1, this, h3]; rfl

/-- `x` is one of the non-empty pieces between the separators. -/
def PieceOf (sep : Char) (t x : Text) : Prop :=
  x ≠ [] ∧ sep ∉ x ∧ ∃ a b, t = a ++ x ++ b ∧ (a = [] ∨ EndsIn a sep) ∧ (b = [] ∨ ∃ r, b = sep :: r)

private theorem mem_split {sep : Char} {t x : Text} : x ∈ splitChar sep t ↔
    sep ∉ x ∧ ∃ a b, t = a ++ x ++ b ∧ (a = [] ∨ EndsIn a sep) ∧ (b = [] ∨ ∃ r, b = sep :: r) := by
  have key : ∀ n (t : Text), t.length ≤ n → (x ∈ splitChar sep t ↔
      sep ∉ x ∧ ∃ a b, t = a ++ x ++ b ∧ (a = [] ∨ EndsIn a sep) ∧ (b = [] ∨ ∃ r, b = sep :: r)) := by
    intro n
    induction n with
    | zero =>
      intro t hl
      have : t = [] := List.length_eq_zero_iff.mp (by omega)
      subst this
      simp only [splitChar, List.mem_singleton]
      constructor
      · rintro rfl; exact ⟨by simp, [], [], rfl, Or.inl rfl, Or.inl rfl⟩
      · rintro ⟨_, a, b, h, _⟩; simp at h; exact h.2.1
    | succ n ih =>
      intro t hl
      by_cases hm : sep ∈ t
      · obtain ⟨p, q, rfl, hp⟩ : ∃ p q, t = p ++ sep :: q ∧ sep ∉ p := by
          have := List.append_of_mem hm
          refine ⟨t.takeWhile (· ≠ sep), (t.dropWhile (· ≠ sep)).tail, ?_, ?_⟩
          · cases hd : t.dropWhile (· ≠ sep) with
            | nil =>
              have := dropWhile_nil_iff.mp hd sep hm
              simp at this
            | cons c cs =>
              have hc := List.head?_dropWhile_not (p := (· ≠ sep)) t
              rw [hd] at hc
              have hc : c = sep := by simpa using hc
              have := List.takeWhile_append_dropWhile (p := fun c => decide (c ≠ sep)) (l := t)
              rw [hd, hc] at this
              exact this.symm
          · intro hm; have := mem_takeWhile hm; simp at this
        rw [splitChar_append hp, List.mem_cons, ih q (by simp at hl; omega)]
        constructor
        · rintro (rfl | ⟨h1, a, b, rfl, h2, h3⟩)
          · exact ⟨hp, [], _, by simp, Or.inl rfl, Or.inr ⟨q, rfl⟩⟩
          · refine ⟨h1, p ++ sep :: a, b, by simp, Or.inr ?_, h3⟩
            rcases h2 with rfl | ⟨r, rfl⟩
            · exact ⟨p, rfl⟩
            · exact ⟨p ++ sep :: r, by simp⟩
        · rintro ⟨h1, a, b, h, h2, h3⟩
          rcases h2 with rfl | ⟨r, rfl⟩
          · left
            rw [List.nil_append] at h
            rcases List.append_eq_append_iff.mp h with ⟨c, hc, hd⟩ | ⟨c, hc, hd⟩
            · cases c with
              | nil => simpa using hc
              | cons z zs =>
                simp only [List.cons_append, List.cons.injEq] at hd
                exact absurd (by rw [hc, ← hd.1]; simp) h1
            · cases c with
              | nil => simpa using hc.symm
              | cons z zs =>
                exfalso
                rcases h3 with rfl | ⟨r, rfl⟩
                · cases hd
                · simp only [List.cons_append, List.cons.injEq] at hd
                  exact hp (by rw [hc, ← hd.1]; simp)
          · right
            rw [List.append_assoc, List.append_assoc, List.singleton_append] at h
            rcases List.append_eq_append_iff.mp h with ⟨c, hc, hd⟩ | ⟨c, hc, hd⟩
            · cases c with
              | nil =>
                simp only [List.nil_append, List.cons.injEq, true_and] at hd
                exact ⟨h1, [], b, by simpa using hd, Or.inl rfl, h3⟩
              | cons z zs =>
                simp only [List.cons_append, List.cons.injEq] at hd
                obtain ⟨rfl, hd⟩ := hd
                refine ⟨h1, zs ++ [sep], b, by rw [hd]; simp, Or.inr ⟨zs, rfl⟩, h3⟩
            · cases c with
              | nil =>
                simp only [List.nil_append, List.cons.injEq, true_and] at hd
                exact ⟨h1, [], b, by simpa using hd.symm, Or.inl rfl, h3⟩
              | cons z zs =>
                simp only [List.cons_append, List.cons.injEq] at hd
                exact absurd (by rw [hc, ← hd.1]; simp) hp
      · rw [splitChar_single hm, List.mem_singleton]
        constructor
        · rintro rfl; exact ⟨hm, [], [], by simp, Or.inl rfl, Or.inl rfl⟩
        · rintro ⟨_, a, b, rfl, h2, h3⟩
          rcases h2 with rfl | ⟨r, rfl⟩
          · rcases h3 with rfl | ⟨r, rfl⟩
            · simp
            · exact absurd (by simp) hm
          · exact absurd (by simp) hm
  exact key t.length t (Nat.le_refl _)

private theorem mem_pieces {sep : Char} {t x : Text} : x ∈ Attrlist.splitPieces sep t ↔ PieceOf sep t x := by
  rw [splitPieces_eq, List.mem_filter, mem_split]
  unfold PieceOf
  constructor
  · rintro ⟨h1, h2⟩
    exact ⟨by rintro rfl; simp at h2, h1⟩
  · rintro ⟨h1, h2⟩
    exact ⟨h2, by cases x <;> simp_all⟩

/-- `has_option(x)`: `x` is a shorthand option of the first positional attribute or a comma-separated piece of `opts`
or `options`. -/
theorem C34_has_option (al : Attrlist) (x : Text) : al.hasOption x = true ↔
    (∃ p, al.nthAttribute 1 = some p ∧ x ∈ p.options) ∨
    (∃ a, (al.namedAttribute "opts".toList = some a ∨ al.namedAttribute "options".toList = some a) ∧
      PieceOf ',' a.value x) := by
  unfold Attrlist.hasOption Attrlist.options
  rw [List.contains_iff_mem, List.mem_append, List.mem_append, or_assoc]
  apply or_congr
  · cases h : al.nthAttribute 1 with
    | none => simp
    | some p => simp
  · constructor
    · rintro (h | h)
      · cases ha : al.namedAttribute "opts".toList with
        | none => rw [ha] at h; cases h
        | some a => rw [ha] at h; exact ⟨a, Or.inl rfl, mem_pieces.mp h⟩
      · cases ha : al.namedAttribute "options".toList with
        | none => rw [ha] at h; cases h
        | some a => rw [ha] at h; exact ⟨a, Or.inr rfl, mem_pieces.mp h⟩
    · rintro ⟨a, h | h, hp⟩
      · left; rw [h]; exact mem_pieces.mpr hp
      · right; rw [h]; exact mem_pieces.mpr hp

/-- `x` is a role exactly when it is a shorthand role of the first positional attribute or a space-separated piece of
`role`. -/
theorem C34_roles (al : Attrlist) (x : Text) : x ∈ al.roles ↔
    (∃ p, al.nthAttribute 1 = some p ∧ x ∈ p.roles) ∨
    (∃ a, al.namedAttribute "role".toList = some a ∧ PieceOf ' ' a.value x) := by
  unfold Attrlist.roles
  rw [List.mem_append]
  apply or_congr
  · cases h : al.nthAttribute 1 with
    | none => simp
    | some p => simp
  · cases ha : al.namedAttribute "role".toList with
    | none => simp
    | some a => simp [mem_pieces]

/-- Pieces joined by single separators are read back as they are, in order. -/
theorem C34_pieces_roundtrip (al : Attrlist) (ps : List Text) (a : ElemAttr) (hp : ∀ p, al.nthAttribute 1 = some p → p.roles = [])
    (ha : al.namedAttribute "role".toList = some a) (hps : ∀ p ∈ ps, p ≠ [] ∧ ' ' ∉ p)
    (hv : a.value = List.intercalate [' '] ps) : al.roles = ps := by
  unfold Attrlist.roles
  rw [ha]
  have : ∀ y : List Text, (match al.nthAttribute 1 with | some x => x.roles | none => []) ++ y = y := by
    intro y
    cases h : al.nthAttribute 1 with
    | none => rfl
    | some p => simp [hp p h]
  refine (this _).trans ?_
  show Attrlist.splitPieces ' ' a.value = ps
  rw [splitPieces_eq, hv]
  cases ps with
  | nil => rfl
  | cons p ps =>
    rw [← joinChar_intercalate, splitChar_joinChar (by simp) (fun s hs => (hps s hs).2), List.filter_eq_self]
    intro q hq
    have := (hps q hq).1
    cases q with
    | nil => exact absurd rfl this
    | cons => rfl

/-- An example list. -/
private def exList : Attrlist :=
  ⟨[⟨some "role".toList, " a  b".toList, []⟩, ⟨none, "s%x".toList, [0, 1]⟩, ⟨none, "t".toList, []⟩,
    ⟨some "opts".toList, "y,,z".toList, []⟩, ⟨some "role".toList, "c".toList, []⟩], none, Span.new []⟩

example : exList.roles = ["a".toList, "b".toList] ∧ exList.options = ["x".toList, "y".toList, "z".toList] ∧
    (exList.nthAttribute 2).map ElemAttr.value = some "t".toList ∧
    (exList.namedOrPositional "u".toList 2).map ElemAttr.value = some "t".toList := by decide +kernel

/-! ### C35 -/

/-- Every value decomposes in exactly one way: here the existence. -/
theorem C35_decomposition (v : Text) : ∃ (style : Text) (items : List (Char × Text)),
    v = style ++ items.flatMap itemText ∧ (∀ c ∈ style, ¬ Delim c) ∧ ∀ i ∈ items, Delim i.1 ∧ ∀ c ∈ i.2, ¬ Delim c :=
  decompose v

/-- The shorthand items of a value are the parts of that decomposition: the style without leading blanks, then the
non-empty items, each without trailing white space.  One warning is issued per empty item. -/
theorem C35_shorthand_items (name : Option Text) (style : Text) (items : List (Char × Text))
    (hs : ∀ c ∈ style, ¬ Delim c) (hi : ∀ i ∈ items, Delim i.1 ∧ ∀ c ∈ i.2, ¬ Delim c) :
    let v := style ++ items.flatMap itemText
    (⟨name, v, (parseShorthandItems v).1⟩ : ElemAttr).shorthandItems =
      [trimEnd (style.dropWhile isBlank)].filter (fun s => !s.isEmpty) ++
        (items.filter (fun i => !i.2.isEmpty)).map (fun i => trimEnd (itemText i)) ∧
    (parseShorthandItems v).2 = (items.filter (fun i => i.2.isEmpty)).map (fun _ => .emptyShorthandItem) := by
  intro v
  have hv : parseShorthandItems v = _ := parseShorthandItems_eq style items hs hi
  refine ⟨?_, by rw [hv]⟩
  unfold ElemAttr.shorthandItems
  simp only
  rw [hv]
  simp only
  rw [show v = style ++ itemsText items from rfl, slices_all]
  rw [List.filter_append, List.map_append, List.filter_append]
  congr 1
  · by_cases h : style = []
    · subst h; rfl
    · rw [if_neg h, List.filter_cons_of_pos]
      · rfl
      · have hno : ∀ d, Delim d → style.dropWhile isBlank ≠ [d] := by
          intro d hd he
          have hm : d ∈ style.dropWhile isBlank := by rw [he]; simp
          have := List.takeWhile_append_dropWhile (p := isBlank) (l := style)
          exact hs d (by rw [← this]; exact List.mem_append_right _ hm) hd
        have h1 := hno '#' (Or.inl rfl)
        have h2 := hno '.' (Or.inr (Or.inl rfl))
        have h3 := hno '%' (Or.inr (Or.inr rfl))
        simp [h1, h2, h3]
  · clear hv v hs
    induction items with
    | nil => rfl
    | cons i is ih =>
      have ih := ih (fun j hj => hi j (by simp [hj]))
      obtain ⟨hd, ht⟩ := hi i (by simp)
      obtain ⟨d, t⟩ := i
      rw [List.map_cons]
      cases t with
      | nil =>
        rw [List.filter_cons_of_neg (by rcases hd with h | h | h <;> (simp only at h; subst h; decide)), List.filter_cons_of_neg (by simp), ih]
      | cons c cs =>
        rw [List.filter_cons_of_pos (by simp [itemText]), List.filter_cons_of_pos (by simp), List.map_cons, List.map_cons,
          List.filter_cons_of_pos, ih]
        have hw : isWhite d = false := by
          rcases hd with h | h | h <;> (simp only at h; subst h; decide)
        have : trimEnd (itemText (d, c :: cs)) ≠ [] := by
          intro he
          have := trimEndP_nil_iff.mp he
          simp [itemText, hw] at this
        cases h : trimEnd (itemText (d, c :: cs)) with
        | nil => exact absurd h this
        | cons => rfl

/-- The ids, roles or options of a decomposition. -/
def partsOf (d : Char) (items : List (Char × Text)) : List Text := (items.filter (fun i => i.1 == d)).map (fun i => i.2)

private theorem trimEnd_self {t : Text} (h : ∀ c r, t = r ++ [c] → isWhite c = false) : trimEnd t = t :=
  trimEndP_eq_self h

/-- Round trip: composing a shorthand value from a style and non-empty ids, roles and options, and parsing it, gives back
the parts: style, the first id, all roles and all options in order; no warning. -/
theorem C35_roundtrip (style : Text) (items : List (Char × Text)) (hs : ∀ c ∈ style, ¬ Delim c)
    (hi : ∀ i ∈ items, Delim i.1 ∧ ∀ c ∈ i.2, ¬ Delim c)
    (hstyle : (∀ c r, style = c :: r → c ≠ ' ' ∧ c ≠ '\t') ∧ ∀ c r, style = r ++ [c] → isWhite c = false)
    (hitems : ∀ i ∈ items, i.2 ≠ [] ∧ ∀ c r, i.2 = r ++ [c] → isWhite c = false) :
    let v := style ++ items.flatMap itemText
    let a : ElemAttr := ⟨none, v, (parseShorthandItems v).1⟩
    a.blockStyle = (if style = [] then none else some style) ∧ a.id = (partsOf '#' items).head? ∧
      a.roles = partsOf '.' items ∧ a.options = partsOf '%' items ∧ (parseShorthandItems v).2 = [] := by
  intro v a
  obtain ⟨h1, h2⟩ := C35_shorthand_items none style items hs hi
  have hit : (items.filter (fun i => !i.2.isEmpty)).map (fun i => trimEnd (itemText i)) = items.map itemText := by
    rw [List.filter_eq_self.mpr]
    · apply List.map_congr_left
      intro i hi'
      obtain ⟨h3, h4⟩ := hitems i hi'
      apply trimEnd_self
      intro c r hc
      cases r with
      | nil =>
        simp only [itemText, List.nil_append, List.cons.injEq] at hc
        exact absurd hc.2 h3
      | cons x xs =>
        simp only [itemText, List.cons_append, List.cons.injEq] at hc
        exact h4 c xs hc.2
    · intro i hi'
      have := (hitems i hi').1
      cases h : i.2 with
      | nil => exact absurd h this
      | cons => rfl
  have hst : [trimEnd (style.dropWhile isBlank)].filter (fun s => !s.isEmpty) = if style = [] then [] else [style] := by
    have hd : style.dropWhile isBlank = style := by
      cases style with
      | nil => rfl
      | cons c r =>
        have := hstyle.1 c r rfl
        rw [List.dropWhile_cons, if_neg]
        simp [isBlank, this.1, this.2]
    rw [hd, trimEnd_self hstyle.2]
    cases style <;> simp
  rw [hit, hst] at h1
  have hitem : a.shorthandItems = (if style = [] then [] else [style]) ++ items.map itemText := h1
  have hstart : ∀ d, Delim d → ∀ s ∈ (if style = [] then [] else [style]), startsWith s [d] = false := by
    intro d hd s hs'
    split at hs'
    · cases hs'
    · rename_i hne
      rw [List.mem_singleton] at hs'
      subst hs'
      cases hsw : startsWith s [d] with
      | false => rfl
      | true =>
        obtain ⟨r, rfl⟩ := startsWith_iff.mp hsw
        exact absurd hd (hs d (by simp))
  have hfilter : ∀ d, Delim d → (a.shorthandItems.filter (fun v => startsWith v [d])).map List.tail = partsOf d items := by
    intro d hd
    rw [hitem, List.filter_append, List.filter_eq_nil_iff.mpr (by
      intro s hs'; rw [hstart d hd s hs']; decide), List.nil_append]
    unfold partsOf
    rw [List.filter_map, List.map_map]
    have : (fun v => startsWith v [d]) ∘ itemText = fun i : Char × Text => i.1 == d := by
      funext i
      simp only [Function.comp, startsWith, itemText, List.isPrefixOf, Bool.and_true]
      rw [Bool.eq_iff_iff, beq_iff_eq, beq_iff_eq]
      exact eq_comm
    rw [this]
    rfl
  refine ⟨?_, ?_, hfilter '.' (Or.inr (Or.inl rfl)), hfilter '%' (Or.inr (Or.inr rfl)), ?_⟩
  · unfold ElemAttr.blockStyle
    rw [hitem]
    by_cases h : style = []
    · rw [if_pos h, if_pos h, List.nil_append]
      cases items with
      | nil => rfl
      | cons i is =>
        have hd := (hi i (by simp)).1
        simp only [List.map_cons, List.head?_cons]
        rw [if_pos]
        simp [itemText, delim_iff.mpr hd]
    · rw [if_neg h, if_neg h]
      simp only [List.singleton_append, List.head?_cons]
      rw [if_neg]
      simp only [List.any_eq_true, not_exists, not_and]
      intro c hc
      rw [delim_iff]; exact hs c hc
  · rw [← hfilter '#' (Or.inl rfl)]
    unfold ElemAttr.id
    rw [List.head?_map, List.head?_filter]
  · rw [h2, List.filter_eq_nil_iff.mpr, List.map_nil]
    intro i hi'
    have := (hitems i hi').1
    cases h : i.2 with
    | nil => exact absurd h this
    | cons => simp

/-- The slices taken for the items are always within the value: the recorded positions do not decrease and stay inside. -/
theorem C35_slices_in_range (v : Text) : (parseShorthandItems v).1.Pairwise (· ≤ ·) ∧
    ∀ p ∈ (parseShorthandItems v).1, p ≤ v.length := by
  obtain ⟨style, items, rfl, hs, hi⟩ := decompose v
  rw [parseShorthandItems_eq style items hs hi]
  simp only
  have key : ∀ (items : List (Char × Text)) (p : Nat), (itemPos p items).Pairwise (· ≤ ·) ∧
      ∀ q ∈ itemPos p items, p ≤ q ∧ q < p + (itemsText items).length := by
    intro items
    induction items with
    | nil => intro p; simp [itemPos]
    | cons i is ih =>
      intro p
      obtain ⟨h1, h2⟩ := ih (p + (i.2.length + 1))
      have hlen : (itemsText (i :: is)).length = (i.2.length + 1) + (itemsText is).length := by
        simp [itemsText, itemText]; omega
      rw [itemPos, List.pairwise_cons]
      refine ⟨⟨fun q hq => ?_, h1⟩, fun q hq => ?_⟩
      · have := (h2 q hq).1; omega
      · rcases List.mem_cons.mp hq with rfl | hq
        · omega
        · have := h2 q hq; omega
  obtain ⟨h1, h2⟩ := key items style.length
  have hlen : (style ++ itemsText items).length = style.length + (itemsText items).length := List.length_append
  rw [hlen]
  have hle : (style.takeWhile isBlank).length ≤ style.length := by
    have := congrArg List.length (List.takeWhile_append_dropWhile (p := isBlank) (l := style))
    rw [List.length_append] at this; omega
  by_cases h : style = []
  · rw [if_pos h, List.nil_append]
    exact ⟨h1, fun p hp => by have := h2 p hp; omega⟩
  · rw [if_neg h, List.singleton_append, List.pairwise_cons]
    refine ⟨⟨fun q hq => ?_, h1⟩, fun q hq => ?_⟩
    · have := (h2 q hq).1; omega
    · rcases List.mem_cons.mp hq with rfl | hq
      · omega
      · have := h2 q hq; omega

example : parseShorthandItems " s #i.r%%o".toList = ([1, 3, 5, 7, 8], [.emptyShorthandItem]) ∧
    (⟨none, " s #i.r%%o".toList, (parseShorthandItems " s #i.r%%o".toList).1⟩ : ElemAttr).id = some "i".toList := by
  decide +kernel

/-- Finding: an id consisting of a blank is not reported as empty; the id is the empty text. -/
theorem C35_blank_id : parseShorthandItems "# .r".toList = ([0, 2], []) ∧
    (⟨none, "# .r".toList, (parseShorthandItems "# .r".toList).1⟩ : ElemAttr).id = some [] := by decide +kernel

end Adoc.Props
