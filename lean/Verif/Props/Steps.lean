import Verif.Spec.Post
import Verif.Lemmas.HardBreak
/-!
# C29, C30, C42: special characters, attribute references, hard line breaks
-/

namespace Adoc.Props
open Adoc Adoc.Spec Re

set_option linter.unusedSectionVars false

variable [Uni]

/-! ### C29 -/

/-- Every renderer gets exactly the special characters, in place; everything else is kept. -/
theorem C29_every_renderer (r : Renderer) (t : Text) :
    applySpecialCharacters r t = .ok (t.flatMap fun c =>
      if c = '<' then r.special .lt else if c = '>' then r.special .gt
      else if c = '&' then r.special .ampersand else [c]) :=
  applySpecialCharacters_eq r t

/-- With the HTML renderer every special character becomes its entity and every other character is kept. -/
theorem C29_entities (t : Text) : applySpecialCharacters Html.renderer t = .ok (t.flatMap entity) :=
  applySpecialCharacters_eq _ t

private theorem entity_ne (c : Char) : '<' ∉ entity c ∧ '>' ∉ entity c := by
  unfold entity
  split
  · decide
  · split
    · decide
    · split
      · decide
      · rename_i h1 h2 _
        simp only [List.mem_singleton]
        exact ⟨fun e => h1 e.symm, fun e => h2 e.symm⟩

/-- The output contains neither `<` nor `>`. -/
theorem C29_no_markup {t out : Text} (h : applySpecialCharacters Html.renderer t = .ok out) :
    '<' ∉ out ∧ '>' ∉ out := by
  rw [C29_entities] at h
  cases h
  constructor
  · intro hm
    obtain ⟨c, _, hc⟩ := List.mem_flatMap.mp hm
    exact (entity_ne c).1 hc
  · intro hm
    obtain ⟨c, _, hc⟩ := List.mem_flatMap.mp hm
    exact (entity_ne c).2 hc

/-- Every `&` of the output starts one of the three entities. -/
theorem C29_ampersands {t out pre post : Text} (h : applySpecialCharacters Html.renderer t = .ok out)
    (ho : out = pre ++ '&' :: post) :
    "lt;".toList <+: post ∨ "gt;".toList <+: post ∨ "amp;".toList <+: post := by
  rw [C29_entities] at h
  simp only [Except.ok.injEq] at h
  rw [← h] at ho
  clear h
  induction t generalizing pre with
  | nil => simp at ho
  | cons c cs ih =>
    rw [List.flatMap_cons] at ho
    have key : ∀ w : Text, entity c = '&' :: w → '&' ∉ w →
        (∀ q, (w ++ q) = post → "lt;".toList <+: post ∨ "gt;".toList <+: post ∨ "amp;".toList <+: post) →
        "lt;".toList <+: post ∨ "gt;".toList <+: post ∨ "amp;".toList <+: post := by
      intro w hw hnw hq
      rw [hw] at ho
      cases pre with
      | nil =>
        simp only [List.cons_append, List.nil_append, List.cons.injEq, true_and] at ho
        exact hq _ ho
      | cons p ps =>
        simp only [List.cons_append, List.cons.injEq] at ho
        rcases List.append_eq_append_iff.mp ho.2 with ⟨a, h1, h2⟩ | ⟨a, h1, h2⟩
        · exact ih h2
        · cases a with
          | nil => simp only [List.nil_append] at h2; exact ih (pre := []) h2.symm
          | cons x xs =>
            simp only [List.cons_append, List.cons.injEq] at h2
            obtain ⟨rfl, h2⟩ := h2
            exact absurd (by rw [h1]; simp) hnw
    by_cases h1 : c = '<'
    · subst h1
      exact key "lt;".toList rfl (by decide) (fun q hq => Or.inl ⟨q, hq⟩)
    · by_cases h2 : c = '>'
      · subst h2
        exact key "gt;".toList rfl (by decide) (fun q hq => Or.inr (Or.inl ⟨q, hq⟩))
      · by_cases h3 : c = '&'
        · subst h3
          exact key "amp;".toList rfl (by decide) (fun q hq => Or.inr (Or.inr ⟨q, hq⟩))
        · have : entity c = [c] := by simp [entity, h1, h2, h3]
          rw [this] at ho
          cases pre with
          | nil =>
            simp only [List.cons_append, List.nil_append, List.cons.injEq] at ho
            exact absurd ho.1 h3
          | cons p ps =>
            simp only [List.cons_append, List.nil_append, List.cons.injEq] at ho
            exact ih ho.2

private theorem decode_other (c : Char) (hc : c ≠ '&') (t : Text) : decode (c :: t) = c :: decode t := by
  rw [decode]
  · intro r h _; exact hc h
  · intro r h _; exact hc h
  · intro r h _; exact hc h

/-- Decoding the entities gives back the original text, so no two texts render alike. -/
theorem C29_reversible {t out : Text} (h : applySpecialCharacters Html.renderer t = .ok out) : decode out = t := by
  rw [C29_entities] at h
  simp only [Except.ok.injEq] at h
  subst h
  induction t with
  | nil => rfl
  | cons c cs ih =>
    rw [List.flatMap_cons]
    by_cases h1 : c = '<'
    · subst h1
      show decode ('&' :: 'l' :: 't' :: ';' :: cs.flatMap entity) = _
      rw [decode, ih]
    · by_cases h2 : c = '>'
      · subst h2
        show decode ('&' :: 'g' :: 't' :: ';' :: cs.flatMap entity) = _
        rw [decode, ih]
      · by_cases h3 : c = '&'
        · subst h3
          show decode ('&' :: 'a' :: 'm' :: 'p' :: ';' :: cs.flatMap entity) = _
          rw [decode, ih]
        · have : entity c = [c] := by simp [entity, h1, h2, h3]
          rw [this, List.singleton_append, decode_other c h3, ih]

/-- Text without special characters is unchanged, whatever the renderer. -/
theorem C29_plain (r : Renderer) {t : Text} (h : '<' ∉ t ∧ '>' ∉ t ∧ '&' ∉ t) : applySpecialCharacters r t = .ok t := by
  rw [C29_every_renderer, flatMap_single]
  intro c hc
  have h1 : c ≠ '<' := fun e => h.1 (e ▸ hc)
  have h2 : c ≠ '>' := fun e => h.2.1 (e ▸ hc)
  have h3 : c ≠ '&' := fun e => h.2.2 (e ▸ hc)
  simp [h1, h2, h3]

example : letI := asciiUni
    applySpecialCharacters Html.renderer "a<b & &lt;".toList = .ok "a&lt;b &amp; &amp;lt;".toList := by decide +kernel

/-! ### C30 -/



/-- Substituting attribute references never fails, and the result is the left-to-right expansion. -/
theorem C30_expands (s : AttrStore) (t : Text) :
    ∃ out, applyAttributes s t = .ok out ∧ Expands (fun n => s.hasAttribute n = true) (refValue s) t out := by
  obtain ⟨out, h⟩ := applyAttributes_total s t
  exact ⟨out, h, applyAttributes_expands h⟩

/-- The expansion is unique, so the specification determines the result. -/
theorem C30_unique {known : Text → Prop} {value : Text → Text} {t a b : Text} (ha : Expands known value t a)
    (hb : Expands known value t b) : a = b := Expands.det ha hb

/-- A value is not scanned again: whatever it contains, it appears literally. -/
theorem C30_once (s : AttrStore) {name pre post v : Text} (hn : RefName name) (hk : s.hasAttribute name = true)
    (hv : s.attributeValue name = .value v) (hpre : '{' ∉ pre ∧ pre.getLast? ≠ some '\\') (hpost : '{' ∉ post) :
    applyAttributes s (pre ++ '{' :: name ++ '}' :: post) = .ok (pre ++ v ++ post) := by
  obtain ⟨out, h1, h2⟩ := C30_expands s (pre ++ '{' :: name ++ '}' :: post)
  rw [h1]
  congr 1
  refine Expands.det h2 ?_
  have hb : BeginsRef ('{' :: name ++ '}' :: post) name post := ⟨hn, rfl⟩
  have base : Expands (fun n => s.hasAttribute n = true) (refValue s) ('{' :: name ++ '}' :: post) (v ++ post) := by
    have := Expands.known (known := fun n => s.hasAttribute n = true) (value := refValue s) hb hk (expands_no_brace hpost)
    unfold refValue at this
    rw [hv] at this
    exact this
  clear h1 h2 hk hv
  rw [List.append_assoc, List.append_assoc]
  induction pre with
  | nil => exact base
  | cons c cs ih =>
    have hc : c ≠ '{' := fun e => hpre.1 (by simp [e])
    refine Expands.other ?_ ?_ (ih ⟨fun h => hpre.1 (by simp [h]), ?_⟩)
    · rintro ⟨_, _, _, h⟩
      simp only [List.cons_append, List.cons.injEq] at h
      exact hc h.1
    · rintro ⟨rfl, n, r, _, h⟩
      cases cs with
      | nil => exact hpre.2 rfl
      | cons d ds =>
        have hd : d = '{' := (List.cons.inj (show d :: (ds ++ ('{' :: name ++ '}' :: post)) = '{' :: (n ++ '}' :: r) from h)).1
        exact hpre.1 (by simp [hd])
    · cases cs with
      | nil => simp
      | cons d ds => have := hpre.2; simpa [List.getLast?_cons_cons] using this

/-- References to attributes nobody defined, and text without references, are left alone. -/
theorem C30_unknown_kept (s : AttrStore) {t : Text} (h : ∀ pre name post, t = pre ++ '{' :: name ++ '}' :: post →
    RefName name → s.hasAttribute name = false) : applyAttributes s t = .ok t := by
  obtain ⟨out, h1, h2⟩ := C30_expands s t
  rw [h1]
  congr 1
  refine Expands.det h2 ?_
  clear h1 h2
  have key : ∀ n (t : Text), t.length ≤ n → (∀ pre name post, t = pre ++ '{' :: name ++ '}' :: post →
      RefName name → s.hasAttribute name = false) →
      Expands (fun n => s.hasAttribute n = true) (refValue s) t t := by
    intro n
    induction n with
    | zero => intro t hl _; cases t with | nil => exact .nil | cons => simp at hl
    | succ n ih =>
      intro t hl h
      cases t with
      | nil => exact .nil
      | cons c cs =>
        have suf : ∀ p (q : Text), c :: cs = p ++ q → q.length ≤ n →
            Expands (fun n => s.hasAttribute n = true) (refValue s) q q := by
          intro p q hpq hlen
          refine ih q hlen ?_
          intro pre name post hq hn
          exact h (p ++ pre) name post (by rw [hpq, hq]; simp) hn
        by_cases h1 : ∃ name rest, BeginsRef (c :: cs) name rest
        · obtain ⟨name, rest, hb⟩ := h1
          have hk := h [] name rest (by simpa using hb.2) hb.1
          have := Expands.unknown (known := fun n => s.hasAttribute n = true) (value := refValue s) hb (by simp [hk])
            (suf ('{' :: name ++ ['}']) rest (by rw [hb.2]; simp) (by
              have := congrArg List.length hb.2
              simp at this hl; omega))
          have e := hb.2
          rw [e] at this ⊢
          exact this
        · by_cases h2 : c = '\\' ∧ ∃ name rest, BeginsRef cs name rest
          · obtain ⟨rfl, name, rest, hb⟩ := h2
            have hk := h ['\\'] name rest (by rw [hb.2]; simp) hb.1
            have := Expands.unknownEscaped (known := fun n => s.hasAttribute n = true) (value := refValue s) hb (by simp [hk])
              (suf ('\\' :: '{' :: name ++ ['}']) rest (by rw [hb.2]; simp) (by
                have := congrArg List.length hb.2
                simp at this hl; omega))
            have e := hb.2
            subst e
            exact this
          · exact .other h1 h2 (suf [c] cs rfl (by simpa using hl))
  exact key _ t (Nat.le_refl _) h

/-- A store for the examples: `a` is `{a}`. -/
private def exStore : AttrStore := ⟨⟨[("a".toList, ⟨.anywhere, .value "{a}".toList⟩)]⟩, ⟨[]⟩⟩

example : letI := asciiUni
    applyAttributes exStore "x {a} \\{a} {b} \\{b} {a".toList = .ok "x {a} {a} {b} \\{b} {a".toList := by decide +kernel

example : RefName "a".toList ∧ exStore.hasAttribute "a".toList = true ∧ exStore.attributeValue "a".toList = .value "{a}".toList ∧
    ('{' ∉ "x ".toList ∧ "x ".toList.getLast? ≠ some '\\') ∧ '{' ∉ " y".toList :=
  ⟨⟨'a', [], rfl, Or.inl rfl, by simp⟩, by decide⟩

/-! ### C42 -/

private theorem endsWith_suffix {l : Text} : (endsWith l [' ', '+'] = true) = ([' ', '+'] <:+ l) := by
  simp [endsWith]

private theorem breakLine_marked (br : Text) : breakLine br = marked br := by
  funext l
  unfold breakLine marked
  simp only [endsWith_suffix]

theorem post_eq (e : Env) (al : Option Attrlist) (t : Text) :
    (HardBreaks e al → applyPostReplacements e al t = (if (!t.contains '\n') = true then .ok t else
      let lines := strLines t
      .ok (joinChar '\n' (lines.dropLast.map (hardBreakLine e.r) ++ [lines.getLast?.getD []])))) ∧
    (¬ HardBreaks e al → applyPostReplacements e al t = (if (!(t.contains '+' && t.contains '\n')) = true then .ok t else
      replaceAll hardLineBreakRe (postReplacer e.r) t)) := by
  unfold applyPostReplacements HardBreaks
  cases al with
  | none =>
    constructor
    · rintro (h | ⟨_, h, _⟩)
      · rw [if_pos (Or.inl h)]
      · cases h
    · intro h
      rw [if_neg]
      rintro (h' | h')
      · exact h (Or.inl h')
      · cases h'
  | some a =>
    constructor
    · rintro (h | ⟨_, h, h'⟩)
      · rw [if_pos (Or.inl h)]
      · cases h
        rw [if_pos (Or.inr h')]
    · intro h
      rw [if_neg]
      rintro (h' | h')
      · exact h (Or.inl h')
      · exact h (Or.inr ⟨a, rfl, h'⟩)

/-- Without the option: in a text of several lines exactly the lines ending in ` +` get a break. -/
theorem C42_marked_lines (e : Env) (al : Option Attrlist) (hno : ¬ HardBreaks e al) (ls : List Text)
    (h2 : 2 ≤ ls.length) (hls : ∀ l ∈ ls, '\n' ∉ l) :
    applyPostReplacements e al (List.intercalate ['\n'] ls) =
      .ok (List.intercalate ['\n'] (ls.map (marked e.r.lineBreak))) := by
  have hne : ls ≠ [] := by rintro rfl; simp at h2
  rw [(post_eq e al _).2 hno]
  split
  · rename_i hp
    have hnl : (List.intercalate ['\n'] ls).contains '\n' = true := by
      rw [List.contains_iff_mem]; exact intercalate_mem.mpr (Or.inr ⟨rfl, h2⟩)
    have hplus : '+' ∉ List.intercalate ['\n'] ls := by
      rw [hnl] at hp
      simpa using hp
    rw [List.map_congr_left (g := id)]
    · simp
    · intro l hl
      unfold marked
      rw [if_neg]; · rfl
      rintro ⟨p, hp⟩
      exact hplus (intercalate_mem.mpr (Or.inl ⟨l, hl, by rw [← hp]; simp⟩))
  · rw [postReplace_ok, breakFrom_lines _ hne hls, breakLine_marked]

/-- A text of one line is unchanged, with or without the option. -/
theorem C42_single_line (e : Env) (al : Option Attrlist) (t : Text) (h : '\n' ∉ t) :
    applyPostReplacements e al t = .ok t := by
  have hc : t.contains '\n' = false := by
    cases hc : t.contains '\n' with
    | false => rfl
    | true => exact absurd (List.contains_iff_mem.mp hc) h
  by_cases hh : HardBreaks e al
  · rw [(post_eq e al t).1 hh, hc, if_pos (by rfl)]
  · rw [(post_eq e al t).2 hh, hc, if_pos (by rw [Bool.and_false]; rfl)]

/-- With the option every line but the last ends with a break, and a marker at the end of such a line is dropped.
Partial: the text must not end with a newline and no line but the last may end with a carriage return (see
`C42_final_newline_lost` and `C42_carriage_return_lost`). -/
theorem C42_hardbreaks_partial (e : Env) (al : Option Attrlist) (hh : HardBreaks e al) (ls : List Text) (last : Text)
    (hls : ∀ l ∈ ls ++ [last], '\n' ∉ l) (hlast : last ≠ []) (hcr : ∀ l ∈ ls, l.getLast? ≠ some '\r') :
    applyPostReplacements e al (List.intercalate ['\n'] (ls ++ [last])) =
      .ok (List.intercalate ['\n'] (ls.map (fun l => unmarked l ++ e.r.lineBreak) ++ [last])) := by
  rw [(post_eq e al _).1 hh]
  have hsl : strLines (List.intercalate ['\n'] (ls ++ [last])) = ls ++ [last] := by
    unfold strLines
    rw [intercalate_split (by simp) hls]
    simp only [List.getLast?_concat, List.dropLast_concat]
    have hmap : ls.map chompCr = ls := by
      rw [List.map_congr_left (g := id)]
      · simp
      · intro l hl
        unfold chompCr
        rw [if_neg]; · rfl
        intro he
        obtain ⟨r, hr⟩ := endsWith_iff.mp he
        exact hcr l hl (by rw [hr]; simp)
    cases last with
    | nil => exact absurd rfl hlast
    | cons c cs => simp [hmap]
  split
  · rename_i hnl
    cases ls with
    | nil => simp
    | cons l ls =>
      exfalso
      have : '\n' ∈ List.intercalate ['\n'] (l :: ls ++ [last]) :=
        intercalate_mem.mpr (Or.inr ⟨rfl, by simp⟩)
      have := List.contains_iff_mem.mpr this
      rw [this] at hnl
      cases hnl
  · simp only [hsl, List.dropLast_concat, List.getLast?_concat, Option.getD_some]
    rw [joinChar_intercalate]
    congr 3
    apply List.map_congr_left
    intro l _
    unfold hardBreakLine unmarked
    simp only [endsWith_suffix]

private theorem chompCr_noCr (l : Text) : chompCr l = noCr l := by
  unfold chompCr noCr
  have : (endsWith l ['\r'] = true) = (['\r'] <:+ l) := by simp [endsWith]
  simp only [this, List.dropLast_eq_take]

private theorem strLines_lines (ls : List Text) (last : Text) (hls : ∀ l ∈ ls ++ [last], '\n' ∉ l) :
    strLines (List.intercalate ['\n'] (ls ++ [last])) = ls.map noCr ++ (if last = [] then [] else [last]) := by
  unfold strLines
  rw [intercalate_split (by simp) hls]
  simp only [List.getLast?_concat, List.dropLast_concat]
  have : chompCr = noCr := funext chompCr_noCr
  cases last <;> simp [this]

private theorem post_lines (e : Env) (al : Option Attrlist) (hh : HardBreaks e al) (ls : List Text) (last : Text)
    (h1 : ls ≠ []) (hls : ∀ l ∈ ls ++ [last], '\n' ∉ l) :
    applyPostReplacements e al (List.intercalate ['\n'] (ls ++ [last])) =
      (let lines := ls.map noCr ++ (if last = [] then [] else [last])
       .ok (List.intercalate ['\n'] (lines.dropLast.map (fun l => unmarked l ++ e.r.lineBreak) ++ [lines.getLast?.getD []]))) := by
  rw [(post_eq e al _).1 hh, if_neg, strLines_lines ls last hls]
  · simp only
    rw [joinChar_intercalate]
    have : hardBreakLine e.r = fun l => unmarked l ++ e.r.lineBreak := by
      funext l
      unfold hardBreakLine unmarked
      simp only [endsWith_suffix]
    rw [this]
  · cases ls with
    | nil => exact absurd rfl h1
    | cons l ls =>
      have : '\n' ∈ List.intercalate ['\n'] (l :: ls ++ [last]) :=
        intercalate_mem.mpr (Or.inr ⟨rfl, by simp⟩)
      have := List.contains_iff_mem.mpr this
      rw [this]
      simp

/-- With the option, what becomes of every text of several lines that does not end with a newline: each line but the last
loses a carriage return at its end, then a marker, and gets a break; the last line is kept. -/
theorem C42_hardbreaks_exact (e : Env) (al : Option Attrlist) (hh : HardBreaks e al) (ls : List Text) (last : Text)
    (h1 : ls ≠ []) (hls : ∀ l ∈ ls ++ [last], '\n' ∉ l) (hlast : last ≠ []) :
    applyPostReplacements e al (List.intercalate ['\n'] (ls ++ [last])) =
      .ok (List.intercalate ['\n'] (ls.map (fun l => unmarked (noCr l) ++ e.r.lineBreak) ++ [last])) := by
  rw [post_lines e al hh ls last h1 hls]
  simp [hlast, Function.comp_def]

theorem intercalate_concat {ls : List Text} (h : ls ≠ []) (l : Text) :
    List.intercalate ['\n'] (ls ++ [l]) = List.intercalate ['\n'] ls ++ '\n' :: l := by
  induction ls with
  | nil => exact absurd rfl h
  | cons x xs ih =>
    cases xs with
    | nil => simp [List.intercalate, List.intersperse]
    | cons y ys =>
      have := ih (by simp)
      simp only [List.intercalate, List.cons_append, List.intersperse, List.flatten_cons] at this ⊢
      rw [this]
      simp

/-- With the option, what becomes of every text that ends with a newline: the newline is dropped, and the line in front of
it counts as the last, without a carriage return. -/
theorem C42_hardbreaks_newline (e : Env) (al : Option Attrlist) (hh : HardBreaks e al) (ls : List Text) (last : Text)
    (hls : ∀ l ∈ ls ++ [last], '\n' ∉ l) :
    applyPostReplacements e al (List.intercalate ['\n'] (ls ++ [last]) ++ ['\n']) =
      .ok (List.intercalate ['\n'] (ls.map (fun l => unmarked (noCr l) ++ e.r.lineBreak) ++ [noCr last])) := by
  have e0 : List.intercalate ['\n'] (ls ++ [last]) ++ ['\n'] = List.intercalate ['\n'] ((ls ++ [last]) ++ [[]]) := by
    rw [intercalate_concat (ls := ls ++ [last]) (by simp) []]
  rw [e0, post_lines e al hh (ls ++ [last]) [] (by simp) (by
    intro l hl
    rcases List.mem_append.mp hl with h | h
    · exact hls l h
    · rw [List.mem_singleton.mp h]; simp)]
  simp [Function.comp_def]

private theorem unmarked_noCr (l : Text) : (unmarked (noCr l)).length ≤ (unmarked l).length ∧
    (['\r'] <:+ l → (unmarked (noCr l)).length < (unmarked l).length) := by
  by_cases h : ['\r'] <:+ l
  · have h2 : ¬ [' ', '+'] <:+ l := by
      rintro ⟨p, hp⟩
      obtain ⟨q, hq⟩ := h
      have := congrArg List.getLast? (hp.trans hq.symm)
      simp at this
    have h3 : 0 < l.length := by
      obtain ⟨q, hq⟩ := h
      rw [← hq]; simp
    have : (unmarked (noCr l)).length < (unmarked l).length := by
      have e1 : unmarked l = l := by unfold unmarked; rw [if_neg h2]
      have e2 : (unmarked (noCr l)).length ≤ (noCr l).length := by
        unfold unmarked
        split <;> simp
      have e3 : (noCr l).length < l.length := by
        unfold noCr
        rw [if_pos h]
        simp
        omega
      rw [e1]
      omega
    exact ⟨Nat.le_of_lt this, fun _ => this⟩
  · have : noCr l = l := by unfold noCr; rw [if_neg h]
    rw [this]
    exact ⟨Nat.le_refl _, fun h' => absurd h' h⟩

private theorem intercalate_length (ls : List Text) :
    (List.intercalate ['\n'] ls).length = (ls.map List.length).sum + (ls.length - 1) := by
  induction ls with
  | nil => rfl
  | cons x xs ih =>
    cases xs with
    | nil => simp [List.intercalate, List.intersperse]
    | cons y ys =>
      simp only [List.intercalate, List.intersperse, List.flatten_cons, List.length_append, List.map_cons, List.sum_cons,
        List.length_cons] at ih ⊢
      rw [ih]
      simp
      omega

private theorem sum_noCr (br : Text) (ls : List Text) :
    ((ls.map (fun l => unmarked (noCr l) ++ br)).map List.length).sum ≤ ((ls.map (fun l => unmarked l ++ br)).map List.length).sum ∧
    ((∃ l ∈ ls, ['\r'] <:+ l) → ((ls.map (fun l => unmarked (noCr l) ++ br)).map List.length).sum <
      ((ls.map (fun l => unmarked l ++ br)).map List.length).sum) := by
  induction ls with
  | nil => simp
  | cons x xs ih =>
    have hx := unmarked_noCr x
    simp only [List.map_cons, List.sum_cons, List.length_append]
    refine ⟨by omega, ?_⟩
    rintro ⟨l, hl, hcr⟩
    rcases List.mem_cons.mp hl with rfl | hl
    · have := hx.2 hcr; omega
    · have := ih.2 ⟨l, hl, hcr⟩; omega

/-- With the option, the claim (every line but the last ends with a break instead of a marker, and the text is otherwise
unchanged) holds of a text of several lines exactly if the text does not end with a newline and no line but the last
ends with a carriage return. -/
theorem C42_hardbreaks_iff (e : Env) (al : Option Attrlist) (hh : HardBreaks e al) (ls : List Text) (last : Text)
    (h1 : ls ≠ []) (hls : ∀ l ∈ ls ++ [last], '\n' ∉ l) :
    applyPostReplacements e al (List.intercalate ['\n'] (ls ++ [last])) =
      .ok (List.intercalate ['\n'] (ls.map (fun l => unmarked l ++ e.r.lineBreak) ++ [last])) ↔
    last ≠ [] ∧ ∀ l ∈ ls, ¬ ['\r'] <:+ l := by
  constructor
  · intro h
    by_cases hlast : last = []
    · exfalso
      subst hlast
      obtain ⟨ls, l, rfl⟩ : ∃ a b, ls = a ++ [b] := ⟨ls.dropLast, ls.getLast h1, (List.dropLast_concat_getLast h1).symm⟩
      have hl : ∀ x ∈ ls ++ [l], '\n' ∉ x := fun x hx => hls x (List.mem_append_left _ hx)
      have := C42_hardbreaks_newline e al hh ls l hl
      rw [intercalate_concat (by simp)] at h
      rw [this] at h
      have h := Except.ok.inj h
      rw [intercalate_concat (ls := (ls ++ [l]).map (fun l => unmarked l ++ e.r.lineBreak)) (by simp) []] at h
      cases hn : noCr l with
      | nil =>
        have hlen := congrArg List.length h
        rw [hn] at hlen
        simp only [List.map_append, List.map_cons, List.map_nil] at hlen
        simp only [intercalate_length, List.map_append, List.sum_append, List.length_append, List.map_cons, List.map_nil,
          List.sum_cons, List.sum_nil, List.length_cons, List.length_nil] at hlen
        have := (sum_noCr e.r.lineBreak ls).1
        simp only [List.map_map, Function.comp_def, List.length_append, List.length_map] at this hlen
        omega
      | cons c cs =>
        have hl2 := congrArg List.getLast? h
        rw [hn, List.getLast?_concat] at hl2
        have h3 : (List.intercalate ['\n'] (List.map (fun l => unmarked (noCr l) ++ e.r.lineBreak) ls ++ [c :: cs])).getLast? =
            (c :: cs).getLast? := by
          by_cases hls0 : ls = []
          · subst hls0; simp [List.intercalate, List.intersperse]
          · rw [intercalate_concat (by simpa using hls0)]
            rw [List.getLast?_append, List.getLast?_cons_cons]
            cases hx : (c :: cs).getLast? with
            | none => simp at hx
            | some y => simp
        rw [h3] at hl2
        have h4 : '\n' ∈ c :: cs := by
          apply List.mem_of_getLast? 
          rw [hl2]
        have h5 : '\n' ∉ l := hl l (by simp)
        apply h5
        rw [← hn] at h4
        unfold noCr at h4
        split at h4
        · exact List.mem_of_mem_take h4
        · exact h4
    · refine ⟨hlast, ?_⟩
      intro l hl hcr
      rw [C42_hardbreaks_exact e al hh ls last h1 hls hlast] at h
      have hlen := congrArg List.length (Except.ok.inj h)
      have := (sum_noCr e.r.lineBreak ls).2 ⟨l, hl, hcr⟩
      simp only [intercalate_length, List.map_append, List.sum_append, List.length_append, List.length_map, List.map_cons,
        List.map_nil] at hlen
      omega
  · rintro ⟨hlast, hcr⟩
    rw [C42_hardbreaks_exact e al hh ls last h1 hls hlast]
    congr 3
    apply List.map_congr_left
    intro l hl
    have : noCr l = l := by unfold noCr; rw [if_neg (hcr l hl)]
    rw [this]

/-- The example environment: the option is set for the document. -/
private def exEnv (on : Bool) : Env :=
  letI := asciiUni
  { store := ⟨⟨[("hardbreaks-option".toList, ⟨.anywhere, if on then .set else .unset⟩)]⟩, ⟨[]⟩⟩, sep := '/',
    r := Html.renderer }

/-- The step drops a final newline (finding): the last line of `a\nb\n` is `b`, not the empty line. -/
theorem C42_final_newline_lost : letI := asciiUni
    applyPostReplacements (exEnv true) none "a\nb\n".toList = .ok "a<br>\nb".toList := by decide +kernel

example : letI := asciiUni
    HardBreaks (exEnv true) none ∧ noCr "a +\r".toList = "a +".toList ∧ unmarked "a +".toList = "a".toList ∧
    applyPostReplacements (exEnv true) none "a +\r\nb\r\n".toList = .ok "a<br>\nb".toList :=
  ⟨Or.inl (by decide +kernel), by decide, by decide, by decide +kernel⟩

/-- The step turns CRLF into LF (finding). -/
theorem C42_carriage_return_lost : letI := asciiUni
    applyPostReplacements (exEnv true) none "a\r\nb".toList = .ok "a<br>\nb".toList := by decide +kernel

example : letI := asciiUni
    HardBreaks (exEnv true) none ∧
    applyPostReplacements (exEnv true) none "a +\nb\nc +".toList = .ok "a<br>\nb<br>\nc +".toList :=
  ⟨Or.inl (by decide +kernel), by decide +kernel⟩

example : letI := asciiUni
    ¬ HardBreaks (exEnv false) none ∧
    applyPostReplacements (exEnv false) none "a +\nb+\n +\nc +".toList = .ok "a<br>\nb+\n<br>\nc<br>".toList :=
  ⟨fun hh => hh.elim (by decide +kernel) (fun ⟨_, h, _⟩ => by cases h), by decide +kernel⟩

end Adoc.Props
