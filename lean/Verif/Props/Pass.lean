import Verif.Lemmas.Pass
import Verif.Props.Html
import Verif.Props.Steps
/-!
# C31: passthrough text survives substitution
-/

namespace Adoc.Props
open Adoc Adoc.Spec Adoc.Re
variable [Uni]

/-- The text written with the given pieces: some text, a passthrough, and so on, and a last text. -/
def textOf (pieces : List (Text × PassKind × Text)) (last : Text) : Text :=
  interleave (pieces.map fun p => (p.1, written p.2.1 p.2.2)) last

/-- What is to be seen of the passthrough with number `i`. -/
def shownAt (r : Renderer) (pieces : List (Text × PassKind × Text)) (i : Nat) : Text :=
  match pieces[i]? with
  | some (_, k, b) => k.shown r b
  | none => []

/-- The passthroughs are taken out: in front of each the text is left as it was, and a placeholder takes its place. -/
theorem C31_extract {pieces : List (Text × PassKind × Text)} {last : Text}
    (hp : ∀ p ∈ pieces, NoPass p.1 ∧ p.2.1.Body p.2.2) (hl : NoPass last) :
    ∃ ps, ps.length = pieces.length ∧
      extractPassthroughs (textOf pieces last) = .ok (ps, interleave (withPlaceholders 0 (pieces.map Prod.fst)) last) ∧
      ∀ (fuel : Nat) (e : Env) (i : Nat) (p : Passthrough), ps[i]? = some p →
        p.type = none ∧ Group.apply (fuel + 1) e p.subs none p.text = .ok (shownAt e.r pieces i) := by
  refine ⟨_, by simp, extract_pieces hp hl, ?_⟩
  intro fuel e i p hi
  rw [List.getElem?_map] at hi
  cases hq : pieces[i]? with
  | none => rw [hq] at hi; cases hi
  | some q =>
    rw [hq] at hi
    cases hi
    unfold shownAt
    rw [hq]
    exact ⟨rfl, passEntry_apply fuel e _ _⟩

/-- **Passthrough text survives substitution**: whatever the steps make of the text between the passthroughs, as long as
the result still is text with placeholders, moved or repeated as may be, in the final result every placeholder has become
what is to be seen of its passthrough, and everything else is what the steps made of it.

Missing: the forms `+x+`, `[attributes]++x++` and `pass:subs[x]`, brackets, backslashes and single marks in the text
between; and the passthroughs that contain the character U+0096, for which the claim is false (findings below). -/
theorem C31_protected_partial [LawfulUni] (e : Env) (g : Group) (al : Option Attrlist) (fuel : Nat)
    (hg : g.steps.contains .macros = true ∨ g = .header)
    {pieces : List (Text × PassKind × Text)} {last : Text}
    (hp : ∀ p ∈ pieces, NoPass p.1 ∧ p.2.1.Body p.2.2) (hl : NoPass last) (hn : pieces.length < 2 ^ 64)
    (hs : ∀ p ∈ pieces, markStart ∉ p.2.1.shown e.r p.2.2)
    {parts : List (Text × Nat)} {last' : Text}
    (hsteps : applySteps e al g.steps (interleave (withPlaceholders 0 (pieces.map Prod.fst)) last) =
      .ok (interleave (parts.map fun p => (p.1, placeholder p.2)) last'))
    (hi : ∀ p ∈ parts, p.2 < pieces.length) (hp' : ∀ p ∈ parts, markStart ∉ p.1) (hl' : markStart ∉ last') :
    Group.apply (fuel + 3) e g al (textOf pieces last) =
      .ok (interleave (parts.map fun p => (p.1, shownAt e.r pieces p.2)) last') := by
  have hr := restore_pieces fuel hn hi hp' hl' hs
  have hc : (g.steps.contains .macros || decide (g = .header)) = true := by
    simpa using hg
  rw [Group.apply]
  simp only [hc, if_true]
  have hx : extractPassthroughs (textOf pieces last) = _ := extract_pieces hp hl
  simp only [bind, Except.bind, hx, hsteps]
  have hsh : (fun p : Text × Nat => (p.1, ((pieces[p.2]?).map fun q => q.2.1.shown e.r q.2.2).getD [])) =
      fun p => (p.1, shownAt e.r pieces p.2) := by
    funext p
    unfold shownAt
    cases pieces[p.2]? <;> rfl
  rw [hsh] at hr
  split
  · rename_i h0
    have h0 : pieces = [] := by simpa using h0
    cases parts with
    | nil => rfl
    | cons p ps =>
      have := hi p (by simp)
      rw [h0] at this
      cases this
  · exact hr

/-! ### Groups for which the condition on the steps is met -/

omit [Uni] in
theorem withPlaceholders_eq (us : List Text) (i : Nat) :
    withPlaceholders i us = (us.zipIdx i).map fun p => (p.1, placeholder p.2) := by
  induction us generalizing i with
  | nil => rfl
  | cons u us ih => rw [withPlaceholders, List.zipIdx_cons, List.map_cons, ih]

omit [Uni] in
theorem zipIdx_shown (r : Renderer) (f : Text → Text) (pieces : List (Text × PassKind × Text)) :
    (((pieces.map fun p => f p.1).zipIdx 0).map fun p => (p.1, shownAt r pieces p.2)) =
      pieces.map fun p => (f p.1, p.2.1.shown r p.2.2) := by
  apply List.ext_getElem
  · simp
  · intro i h1 h2
    have hi : i < pieces.length := by simpa using h2
    simp only [List.getElem_map, List.getElem_zipIdx, Nat.zero_add]
    unfold shownAt
    rw [List.getElem?_eq_getElem hi]

/-- As `C31_protected_partial`, for steps that treat the texts between the placeholders one by one. -/
theorem protected_one_by_one [LawfulUni] (e : Env) (g : Group) (al : Option Attrlist) (fuel : Nat)
    (hg : g.steps.contains .macros = true ∨ g = .header)
    {pieces : List (Text × PassKind × Text)} {last : Text}
    (hp : ∀ p ∈ pieces, NoPass p.1 ∧ p.2.1.Body p.2.2) (hl : NoPass last) (hn : pieces.length < 2 ^ 64)
    (hs : ∀ p ∈ pieces, markStart ∉ p.2.1.shown e.r p.2.2) (f : Text → Text)
    (hsteps : applySteps e al g.steps (interleave (withPlaceholders 0 (pieces.map Prod.fst)) last) =
      .ok (interleave (withPlaceholders 0 (pieces.map fun p => f p.1)) (f last)))
    (hp' : ∀ p ∈ pieces, markStart ∉ f p.1) (hl' : markStart ∉ f last) :
    Group.apply (fuel + 3) e g al (textOf pieces last) =
      .ok (interleave (pieces.map fun p => (f p.1, p.2.1.shown e.r p.2.2)) (f last)) := by
  rw [withPlaceholders_eq (pieces.map fun p => f p.1)] at hsteps
  rw [C31_protected_partial e g al fuel hg hp hl hn hs hsteps ?_ ?_ hl', zipIdx_shown]
  · rintro ⟨u, i⟩ h
    have := List.snd_lt_of_mem_zipIdx h
    simpa using this
  · rintro ⟨u, i⟩ h
    have h := List.fst_mem_of_mem_zipIdx h
    obtain ⟨p, hp1, hp2⟩ := List.mem_map.mp h
    simp only at hp2 ⊢
    rw [← hp2]
    exact hp' p hp1

theorem flatMap_placeholders {f : Char → Text} (hf : ∀ i, ∀ c ∈ placeholder i, f c = [c]) (us : List Text) (last : Text) :
    ∀ i, (interleave (withPlaceholders i us) last).flatMap f =
      interleave (withPlaceholders i (us.map fun u => u.flatMap f)) (last.flatMap f) := by
  induction us with
  | nil => intro i; simp [withPlaceholders, interleave]
  | cons u us ih =>
    intro i
    rw [List.map_cons, withPlaceholders, withPlaceholders, interleave_cons, interleave_cons, List.flatMap_append,
      List.flatMap_append, ih, flatMap_single (hf i)]

omit [Uni] in
theorem special_placeholder (r : Renderer) (i : Nat) (c : Char) (hc : c ∈ placeholder i) :
    (if c = '<' then r.special .lt else if c = '>' then r.special .gt else if c = '&' then r.special .ampersand else [c]) =
      [c] := by
  have h : ∀ d, d = '<' ∨ d = '>' ∨ d = '&' → c ≠ d := by
    rintro d hd rfl
    rcases hd with rfl | rfl | rfl <;> exact not_mem_placeholder (by decide) (by decide) (by decide) i hc
  rw [if_neg (h _ (by simp)), if_neg (h _ (by simp)), if_neg (h _ (by simp))]

omit [Uni] in
theorem specialsShown_mem {r : Renderer} {c : Char} (hr : ∀ x, c ∉ r.special x) {t : Text} (h : c ∉ t) :
    c ∉ specialsShown r t := by
  intro hc
  unfold specialsShown at hc
  obtain ⟨d, hd, hc⟩ := List.mem_flatMap.mp hc
  split at hc
  · exact hr _ hc
  · split at hc
    · exact hr _ hc
    · split at hc
      · exact hr _ hc
      · rw [List.mem_singleton] at hc
        exact h (hc ▸ hd)

/-- **In a header value** (author and the like): the special characters between the passthroughs are replaced; the bodies
of `+++` and `pass:[]` come out exactly as they are, those of `++` and `$$` with their special characters replaced. -/
theorem C31_header [LawfulUni] (e : Env) (al : Option Attrlist) (fuel : Nat)
    (hr : ∀ x, markStart ∉ e.r.special x ∧ '{' ∉ e.r.special x)
    {pieces : List (Text × PassKind × Text)} {last : Text}
    (hp : ∀ p ∈ pieces, NoPass p.1 ∧ '{' ∉ p.1 ∧ markStart ∉ p.1 ∧ p.2.1.Body p.2.2 ∧ markStart ∉ p.2.2)
    (hl : NoPass last ∧ '{' ∉ last ∧ markStart ∉ last) (hn : pieces.length < 2 ^ 64) :
    Group.apply (fuel + 3) e .header al (textOf pieces last) =
      .ok (interleave (pieces.map fun p => (specialsShown e.r p.1, p.2.1.shown e.r p.2.2)) (specialsShown e.r last)) := by
  refine protected_one_by_one e .header al fuel (.inr rfl) (fun p h => ⟨(hp p h).1, (hp p h).2.2.2.1⟩) hl.1 hn ?_
    (specialsShown e.r) ?_ ?_ ?_
  · intro p h
    obtain ⟨-, -, -, -, h5⟩ := hp p h
    obtain ⟨u, k, b⟩ := p
    cases k with
    | triple => exact h5
    | passMacro => exact h5
    | double => exact specialsShown_mem (fun x => (hr x).1) h5
    | dollars => exact specialsShown_mem (fun x => (hr x).1) h5
  · have h1 : applySpecialCharacters e.r (interleave (withPlaceholders 0 (pieces.map Prod.fst)) last) =
        .ok (interleave (withPlaceholders 0 (pieces.map fun p => specialsShown e.r p.1)) (specialsShown e.r last)) := by
      rw [applySpecialCharacters_eq, flatMap_placeholders (special_placeholder e.r), List.map_map]
      rfl
    have h2 : applyAttributes e.store
        (interleave (withPlaceholders 0 (pieces.map fun p => specialsShown e.r p.1)) (specialsShown e.r last)) =
        .ok (interleave (withPlaceholders 0 (pieces.map fun p => specialsShown e.r p.1)) (specialsShown e.r last)) := by
      refine C30_unknown_kept _ fun pre name post h => ?_
      exfalso
      have hno : '{' ∉ interleave (withPlaceholders 0 (pieces.map fun p => specialsShown e.r p.1)) (specialsShown e.r last) := by
        refine mem_marked (specialsShown_mem (fun x => (hr x).2) hl.2.1) ?_
          (not_mem_placeholder (by decide) (by decide) (by decide)) 0
        intro u hu
        obtain ⟨p, h1, rfl⟩ := List.mem_map.mp hu
        exact specialsShown_mem (fun x => (hr x).2) (hp p h1).2.1
      rw [h] at hno
      exact hno (by simp)
    simp only [Group.steps, applySteps, Step.apply, bind, Except.bind, h1, h2]
  · intro p h
    exact specialsShown_mem (fun x => (hr x).1) (hp p h).2.2.1
  · exact specialsShown_mem (fun x => (hr x).1) hl.2.2

/-! Texts without anything to substitute -/

omit [Uni] in
theorem occurs_split {w a b m : Text} (hm : m ≠ []) (hw : ∀ c ∈ m, c ∉ w) (h : Occurs w (a ++ (m ++ b))) :
    Occurs w a ∨ Occurs w b := by
  obtain ⟨x, y, e⟩ := h
  by_cases h0 : w = []
  · subst h0
    exact .inl ⟨[], a, rfl⟩
  by_cases h1 : x.length + w.length ≤ a.length
  · left
    have p1 : x ++ w <+: a ++ (m ++ b) := ⟨y, e.symm⟩
    obtain ⟨z, hz⟩ := List.prefix_of_prefix_length_le p1 ⟨m ++ b, rfl⟩ (by simpa using h1)
    exact ⟨x, z, hz.symm⟩
  by_cases h2 : a.length + m.length ≤ x.length
  · right
    have p1 : a ++ m <+: x ++ w ++ y := ⟨b, by rw [← e]; simp⟩
    have p2 : x <+: x ++ w ++ y := ⟨w ++ y, by simp⟩
    obtain ⟨z, hz⟩ := List.prefix_of_prefix_length_le p1 p2 (by simpa using h2)
    refine ⟨z, y, ?_⟩
    rw [← hz] at e
    simpa using e
  · exfalso
    have hml := List.length_pos_iff.mpr hm
    have hwl := List.length_pos_iff.mpr h0
    have hj : ∃ j, a.length ≤ j ∧ j < a.length + m.length ∧ x.length ≤ j ∧ j < x.length + w.length := by
      by_cases hax : a.length ≤ x.length
      · exact ⟨x.length, by omega, by omega, by omega, by omega⟩
      · exact ⟨a.length, by omega, by omega, by omega, by omega⟩
    obtain ⟨j, j1, j2, j3, j4⟩ := hj
    have g1 : (a ++ (m ++ b))[j]? = m[j - a.length]? := by
      rw [List.getElem?_append_right j1, List.getElem?_append_left (by omega)]
    have g2 : (x ++ w ++ y)[j]? = w[j - x.length]? := by
      rw [List.getElem?_append_left (by simp; omega), List.getElem?_append_right j3]
    rw [e, g2, List.getElem?_eq_getElem (by omega), List.getElem?_eq_getElem (by omega)] at g1
    have g1 := Option.some.inj g1
    exact hw _ (List.getElem_mem (show j - a.length < m.length by omega)) (g1 ▸ List.getElem_mem _)

omit [Uni] in
theorem occurs_marked {w : Text} (hw : ∀ i, ∀ c ∈ placeholder i, c ∉ w) {us : List Text} {last : Text}
    (hu : ∀ u ∈ us, ¬ Occurs w u) (hl : ¬ Occurs w last) : ∀ i, ¬ Occurs w (interleave (withPlaceholders i us) last) := by
  induction us with
  | nil => intro i; simpa [withPlaceholders, interleave] using hl
  | cons u us ih =>
    intro i h
    rw [withPlaceholders, interleave_cons] at h
    rcases occurs_split (by simp [placeholder]) (hw i) h with h | h
    · exact hu u (by simp) h
    · exact ih (fun v hv => hu v (by simp [hv])) _ h

theorem isMatch_none {re : Re} (t : Text) (h : ∀ a b, t = a ++ b → ∀ pv, matchAt re pv b = none) : isMatch re t = false := by
  have : ∀ (t : Text) (pv : Option Char), (∀ a b, t = a ++ b → ∀ pv, matchAt re pv b = none) → search re pv t = none := by
    intro t
    induction t with
    | nil => intro pv h; rw [search, h [] [] rfl]; rfl
    | cons c cs ih =>
      intro pv h
      rw [search, h [] (c :: cs) rfl, ih (some c) (fun a b e => h (c :: a) b (by rw [e]; rfl))]
      rfl
  unfold isMatch
  rw [this t none h]
  rfl

/-- No step does anything to a text that has nothing to substitute. -/
theorem steps_inert (e : Env) (al : Option Attrlist) {t : Text} (h : Inert t)
    (h1 : '[' ∉ t) (h2 : '+' ∉ t) (hb : '\n' ∈ t → ¬ HardBreaks e al) {steps : List Step} (hs : Step.callouts ∉ steps) :
    applySteps e al steps t = .ok t := by
  have hc : ∀ c ∈ ['<', '>', '&', '*', '_', '`', '#', '^', '~', '{', '@', '\''], c ∉ t := h.chars
  have hw := h.words
  simp only [List.forall_mem_cons, List.not_mem_nil, false_imp_iff, implies_true, and_true] at hc hw
  have s1 : applySpecialCharacters e.r t = .ok t := C29_plain e.r ⟨hc.1, hc.2.1, hc.2.2.1⟩
  have s2 : applyQuotes e t = .ok t := by
    unfold applyQuotes
    rw [if_pos]
    unfold quotedTextSniff
    simp only [Bool.not_eq_true', List.any_eq_false]
    intro c hct
    simp only [Bool.or_eq_true, beq_iff_eq, not_or]
    refine ⟨⟨⟨⟨⟨?_, ?_⟩, ?_⟩, ?_⟩, ?_⟩, ?_⟩ <;> rintro rfl <;> simp_all
  have s3 : applyAttributes e.store t = .ok t := by
    refine C30_unknown_kept _ fun pre name post h => ?_
    exfalso
    exact hc.2.2.2.2.2.2.2.2.2.1 (by rw [h]; simp)
  have s4 : applyCharacterReplacements e.r t = .ok t := by
    unfold applyCharacterReplacements
    rw [if_pos]
    rw [Bool.not_eq_true']
    refine isMatch_none t fun a b e pv => matchAt_none.mpr fun s hr => ?_
    unfold replaceableTextSniffRe at hr
    simp only [oneOf] at hr
    rcases rel_alt_iff.mp hr with hr | hr
    · obtain ⟨c, y, e2, hcc, -⟩ := rel_cls_iff.mp hr
      simp only at e2
      have hm : c ∈ t := by rw [e, e2]; simp
      simp only [Bool.or_eq_true, beq_iff_eq] at hcc
      rcases hcc with rfl | rfl
      · exact hc.2.2.1 hm
      · exact hc.2.2.2.2.2.2.2.2.2.2.2 hm
    rcases rel_alt_iff.mp hr with hr | hr
    · obtain ⟨y, e2, -⟩ := rel_lit_iff.mp hr
      simp only at e2
      exact hw.1 ⟨a, y, by rw [e, e2]; simp⟩
    rcases rel_alt_iff.mp hr with hr | hr
    · obtain ⟨y, e2, -⟩ := rel_lit_iff.mp hr
      simp only at e2
      exact hw.2.1 ⟨a, y, by rw [e, e2]; simp⟩
    · simp only [cat] at hr
      obtain ⟨x1, r1, hr⟩ := rel_seq_iff.mp hr
      obtain ⟨x2, r2, hr⟩ := rel_seq_iff.mp hr
      obtain ⟨y1, e1, rfl⟩ := rel_chr_iff.mp r1
      obtain ⟨c, y2, e2, hcc, -⟩ := rel_cls_iff.mp r2
      simp only at e1 e2
      simp only [Bool.or_eq_true, beq_iff_eq] at hcc
      rcases hcc with (rfl | rfl) | rfl
      · exact hw.2.2.1 ⟨a, y2, by rw [e, e1, e2]; simp⟩
      · exact hw.2.2.2.1 ⟨a, y2, by rw [e, e1, e2]; simp⟩
      · exact hw.2.2.2.2.1 ⟨a, y2, by rw [e, e1, e2]; simp⟩
  have s5 : applyMacros e t = .ok t := by
    have b1 : t.contains '[' = false := by simpa using h1
    have b2 : t.contains '@' = false := by simpa using hc.2.2.2.2.2.2.2.2.2.2.1
    have b3 : containsSub t "://".toList = false := by
      cases hx : containsSub t "://".toList with
      | false => rfl
      | true => exact absurd (containsSub_iff.mp hx) hw.2.2.2.2.2
    unfold applyMacros
    simp only [b1, b2, b3, Bool.false_and, Bool.and_false, Bool.false_or, Bool.false_eq_true, if_false, bind, Except.bind]
  have s6 : applyPostReplacements e al t = .ok t := by
    by_cases hn : '\n' ∈ t
    · rw [(post_eq e al t).2 (hb hn), if_pos]
      have : t.contains '+' = false := by simpa using h2
      rw [this]
      rfl
    · have : t.contains '\n' = false := by simpa using hn
      by_cases hh : HardBreaks e al
      · rw [(post_eq e al t).1 hh, if_pos (by rw [this]; rfl)]
      · rw [(post_eq e al t).2 hh, if_pos (by rw [this, Bool.and_false]; rfl)]
  induction steps with
  | nil => rfl
  | cons x xs ih =>
    have hx : x.apply e al t = .ok t := by
      cases x with
      | specialCharacters => exact s1
      | quotes => exact s2
      | attributeReferences => exact s3
      | characterReplacements => exact s4
      | macros => exact s5
      | postReplacement => exact s6
      | callouts => exact absurd (by simp) hs
    simp only [applySteps, bind, Except.bind, hx]
    exact ih fun h => hs (List.mem_cons_of_mem _ h)

/-- The normal steps do nothing to a text that has nothing to substitute. -/
theorem normalSteps_inert (e : Env) (al : Option Attrlist) (hb : ¬ HardBreaks e al) {t : Text} (h : Inert t)
    (h1 : '[' ∉ t) (h2 : '+' ∉ t) : applySteps e al normalSteps t = .ok t :=
  steps_inert e al h h1 h2 (fun _ => hb) (by decide)

omit [Uni] in
theorem inert_marked {us : List Text} {last : Text} (hu : ∀ u ∈ us, Inert u) (hl : Inert last) :
    Inert (interleave (withPlaceholders 0 us) last) := by
  constructor
  · intro c hc
    refine mem_marked (hl.chars c hc) (fun u h => (hu u h).chars c hc) ?_ 0
    intro i
    simp only [List.mem_cons, List.not_mem_nil, or_false] at hc
    rcases hc with rfl | rfl | rfl | rfl | rfl | rfl | rfl | rfl | rfl | rfl | rfl | rfl <;>
      exact not_mem_placeholder (by decide) (by decide) (by decide) i
  · intro w hw
    refine occurs_marked ?_ (fun u h => (hu u h).words w hw) (hl.words w hw) 0
    intro i c hc hcw
    have hno : ∀ c ∈ w.toList, c ≠ markStart ∧ c.isDigit = false ∧ c ≠ markEnd := by
      simp only [List.mem_cons, List.not_mem_nil, or_false] at hw
      rcases hw with rfl | rfl | rfl | rfl | rfl | rfl <;> decide
    obtain ⟨n1, n2, n3⟩ := hno c hcw
    exact not_mem_placeholder n1 n2 n3 i hc

/-- **In ordinary text** (any group with the normal steps): when there is nothing to substitute between the passthroughs,
everything stays as it was, and of the passthroughs the bodies remain; those of `++` and `$$` with their special
characters replaced.  Nothing is asked of the bodies: they may be full of quotes, references and macros. -/
theorem C31_normal [LawfulUni] (e : Env) (al : Option Attrlist) (fuel : Nat) (hb : ¬ HardBreaks e al)
    (hr : ∀ x, markStart ∉ e.r.special x) (g : Group) (hg : g.steps = normalSteps)
    {pieces : List (Text × PassKind × Text)} {last : Text}
    (hp : ∀ p ∈ pieces, NoPass p.1 ∧ Inert p.1 ∧ markStart ∉ p.1 ∧ p.2.1.Body p.2.2 ∧ markStart ∉ p.2.2)
    (hl : NoPass last ∧ Inert last ∧ markStart ∉ last) (hn : pieces.length < 2 ^ 64) :
    Group.apply (fuel + 3) e g al (textOf pieces last) =
      .ok (interleave (pieces.map fun p => (p.1, p.2.1.shown e.r p.2.2)) last) := by
  have hu : ∀ u ∈ pieces.map Prod.fst, NoPass u ∧ Inert u := by
    intro u h
    obtain ⟨p, h1, rfl⟩ := List.mem_map.mp h
    exact ⟨(hp p h1).1, (hp p h1).2.1⟩
  refine protected_one_by_one e g al fuel (.inl (by rw [hg]; rfl)) (fun p h => ⟨(hp p h).1, (hp p h).2.2.2.1⟩) hl.1 hn ?_
    id ?_ (fun p h => (hp p h).2.2.1) hl.2.2
  · intro p h
    obtain ⟨-, -, -, -, h5⟩ := hp p h
    obtain ⟨u, k, b⟩ := p
    cases k with
    | triple => exact h5
    | passMacro => exact h5
    | double => exact specialsShown_mem hr h5
    | dollars => exact specialsShown_mem hr h5
  · rw [hg]
    refine normalSteps_inert e al hb (inert_marked (fun u h => (hu u h).2) hl.2.1) ?_ ?_
    · exact mem_marked hl.1.1 (fun u h => (hu u h).1.1) (not_mem_placeholder (by decide) (by decide) (by decide)) 0
    · exact mem_marked hl.1.2.2.1 (fun u h => (hu u h).1.2.2.1) (not_mem_placeholder (by decide) (by decide) (by decide)) 0

/-- Non-vacuity: the pieces `a `, `+++<b>*x* {y}</b>+++`, ` and `, `++<i>++`, `, `, `pass:[image:[z\]` and a last text meet
the conditions, and this is what comes out. -/
example :
    letI := asciiUni
    textOf [("a ".toList, .triple, "<b>*x* {y}</b>".toList), (" and ".toList, .double, "<i>".toList),
      (", ".toList, .passMacro, "_image_".toList)] " end".toList =
      "a +++<b>*x* {y}</b>+++ and ++<i>++, pass:[_image_] end".toList ∧
    Group.apply 3 htmlEnv .normal none "a +++<b>*x* {y}</b>+++ and ++<i>++, pass:[_image_] end".toList =
      .ok "a <b>*x* {y}</b> and &lt;i&gt;, _image_ end".toList := by
  decide +kernel

example : NoPass " and ".toList ∧ Inert " and ".toList ∧ PassKind.triple.Body "<b>*x* {y}</b>".toList ∧
    PassKind.double.Body "<i>".toList := by
  have no : ∀ (w t : Text), containsSub t w = false → ¬ Occurs w t := by
    intro w t h ho
    rw [containsSub_iff.mpr ho] at h
    cases h
  refine ⟨⟨by decide, by decide, by decide, by decide, no _ _ (by decide)⟩, ⟨by decide, ?_⟩, no _ _ (by decide),
    ⟨no _ _ (by decide), by decide, by decide⟩⟩
  intro w hw
  simp only [List.mem_cons, List.not_mem_nil, or_false] at hw
  rcases hw with rfl | rfl | rfl | rfl | rfl | rfl <;> exact no _ _ (by decide)

/-! ### Findings -/

theorem restore_loops [LawfulUni] (e : Env) : ∀ fuel,
    restorePassthroughs fuel e [passEntry .triple (placeholder 0)] (placeholder 0) = .error .fuel := by
  intro fuel
  induction fuel with
  | zero => rfl
  | succ fuel ih =>
    have hc := cut_marks (parts := [(([] : Text), 0)]) (last := []) (by simp) (by simp) none
    simp only [List.map_cons, List.map_nil] at hc
    rw [interleave_cons, List.nil_append, show interleave [] [] = ([] : Text) from rfl, List.append_nil] at hc
    rw [restorePassthroughs]
    unfold replaceAll
    rw [replaceAllS_cut hc]
    simp only [runCut, bind, Except.bind]
    rw [show (⟨placeholder 0, [(1, decimal 0)]⟩ : Match).at! 1 = .ok (decimal 0) from rfl]
    simp only
    rw [parseIndex_decimal (by omega)]
    simp only [List.getElem?_cons_zero]
    cases fuel with
    | zero => rfl
    | succ fuel =>
      have hap : Group.apply (fuel + 1) e (passEntry .triple (placeholder 0)).subs none
          (passEntry .triple (placeholder 0)).text = .ok (placeholder 0) := passEntry_apply fuel e .triple _
      rw [hap]
      simp only [passEntry]
      rw [if_pos (by decide)]
      have ih' : restorePassthroughs (fuel + 1) e [⟨placeholder 0, .none, none, none⟩] (placeholder 0) = .error .fuel := ih
      rw [ih']
      rfl

/-- **The recursion need not end**: the text `+++` U+0096 `0` U+0097 `+++` makes the restoring of passthroughs call itself
for ever.  (In the program the stack overflows.) -/
theorem C31_recursion_diverges [LawfulUni] (e : Env) (al : Option Attrlist) (hb : ¬ HardBreaks e al) (fuel : Nat) :
    Group.apply fuel e .normal al (written .triple (placeholder 0)) = .error .fuel := by
  cases fuel with
  | zero => rfl
  | succ fuel =>
    have no : ∀ (w t : Text), containsSub t w = false → ¬ Occurs w t := by
      intro w t h ho
      rw [containsSub_iff.mpr ho] at h
      cases h
    have hnp : NoPass [] := ⟨by simp, by simp, by simp, by simp, no _ _ (by decide)⟩
    have hin : Inert [] := ⟨by simp, fun w hw => no _ _ (by
      simp only [List.mem_cons, List.not_mem_nil, or_false] at hw
      rcases hw with rfl | rfl | rfl | rfl | rfl | rfl <;> decide)⟩
    have hx := extract_pieces (pieces := [([], .triple, placeholder 0)]) (last := [])
      (by
        intro p hp
        simp only [List.mem_singleton] at hp
        subst hp
        exact ⟨hnp, no _ _ (by decide)⟩) hnp
    have hs : passSource [([], .triple, placeholder 0)] [] = written .triple (placeholder 0) := by
      simp [passSource, interleave]
    rw [hs] at hx
    have ht : interleave (withPlaceholders 0 ([([], PassKind.triple, placeholder 0)].map Prod.fst)) [] = placeholder 0 := by
      simp [withPlaceholders, interleave]
    rw [ht] at hx
    have hst := normalSteps_inert e al hb (inert_marked (us := [[]]) (last := []) (by simpa using hin) hin)
      (by decide) (by decide)
    have ht2 : interleave (withPlaceholders 0 [[]]) [] = placeholder 0 := by
      simp [withPlaceholders, interleave]
    rw [ht2] at hst
    rw [Group.apply]
    rw [if_pos (by rfl)]
    simp only [bind, Except.bind, hx, Group.steps, hst]
    exact restore_loops e fuel

/-- A placeholder that the author wrote is not left as it is: it is replaced by the passthrough with that number, or by a
message when there is none. -/
theorem C31_corrupted :
    letI := asciiUni
    Group.apply 3 htmlEnv .normal none (placeholder 0 ++ " +++x+++".toList) = .ok "x x".toList ∧
    Group.apply 3 htmlEnv .normal none (placeholder 7 ++ " +++x+++".toList) =
      .ok "(INTERNAL ERROR: Unresolved passthrough index 7) x".toList ∧
    Group.apply 3 htmlEnv .normal none (placeholder 7) = .ok (placeholder 7) := by
  decide +kernel

end Adoc.Props
