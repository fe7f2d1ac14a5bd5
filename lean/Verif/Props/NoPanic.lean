import Verif.Lemmas.Outcome
import Verif.Lemmas.Harmless
import Verif.Lemmas.Parse
import Verif.Props.Preprocessor
/-!
# C53: what can go wrong; C21: which documents are certain to be parsed
-/

namespace Adoc.Props
open Adoc Adoc.Spec Span

variable [Uni]

/-- With a bound on the iterations that is larger than the text, there are just three reasons for which a document is not
parsed: the substitutions fail for a text taken from it; there is an indented line behind the heading of a section, and the
program was compiled with overflow checks; or there is a place at which the loop over the blocks may stall. -/
theorem C53_reasons {e : BlockEnv} {hr : Renderer} {n : Nat} {p : ParserState} {text : Text} {x : Fail}
    (hn : text.length < n) (h : Document.parse e hr n p text = .error x) :
    (∃ st g al t, Drawn text t ∧ Asked text g al ∧ (e.subs st g al t = .error x ∨ e.dsubs st g al t = .error x)) ∨
      (x = .panic ∧ e.ar = .checked ∧ IndentedInSection text) ∨ (x = .fuel ∧ MayStall text) :=
  document_culprit (fun _ => hn) h

/-- A panic needs no bound: it comes from the substitutions or from an indented line behind a heading. -/
theorem C53_panics {e : BlockEnv} {hr : Renderer} {n : Nat} {p : ParserState} {text : Text}
    (h : Document.parse e hr n p text = .error .panic) :
    (∃ st g al t, Drawn text t ∧ Asked text g al ∧ (e.subs st g al t = .error .panic ∨ e.dsubs st g al t = .error .panic)) ∨
      (e.ar = .checked ∧ IndentedInSection text) := by
  rcases document_culprit (x := .panic) nofun h with h | ⟨_, h1, h2⟩ | ⟨h, _⟩
  · exact Or.inl h
  · exact Or.inr ⟨h1, h2⟩
  · cases h

theorem settled_metaItems {used : List MetaKind} {ls rest : List Text} {is : List MetaItem}
    (h : MetaItems used ls is rest) (hb : ∀ l ∈ ls, l.head? ≠ some '[') : ∀ i ∈ is, ∃ t, i = .title t := by
  induction h with
  | stop _ => nofun
  | @item used l ls i is rest h1 _ _ ih =>
    intro j hj
    rcases List.mem_cons.mp hj with rfl | hj
    · cases h1 with
      | title _ _ _ => exact ⟨_, rfl⟩
      | anchor _ _ => exact absurd rfl (hb _ List.mem_cons_self)
      | anchorText _ _ _ => exact absurd rfl (hb _ List.mem_cons_self)
      | attrs _ _ _ => exact absurd rfl (hb _ List.mem_cons_self)
    · exact ih (fun l hl => hb l (by simp [hl])) j hj

omit [Uni] in
theorem dropLines_nil {p : Text → Bool} : ∀ {ls : List Text}, ls.dropWhile p = [] → ∀ l ∈ ls, p l = true
  | [], _, l, hl => nomatch hl
  | x :: xs, h, l, hl => by
    rw [List.dropWhile_cons] at h
    split at h
    · rcases List.mem_cons.mp hl with rfl | hl
      · assumption
      · exact dropLines_nil h l hl
    · cases h

omit [Uni] in
theorem dropLines_head {p : Text → Bool} : ∀ {ls : List Text} {l : Text}, (ls.dropWhile p).head? = some l → p l = false
  | [], l, h => nomatch h
  | x :: xs, l, h => by
    rw [List.dropWhile_cons] at h
    split at h
    · exact dropLines_head h
    · rename_i hx
      cases h
      simpa using hx

theorem settled_not_stall {doc : Text} (h : Settled doc) : ¬ MayStall doc := by
  rintro ⟨before, ls, behind, hl, hne, hb, is, rest, hm, hr, hs⟩
  have hin : ∀ l ∈ ls, l ∈ lines doc := fun l hx => by rw [hl]; simp [hx]
  have hdw : ∀ l ∈ ls.dropWhile (·.all Span.isBlank), l ∈ ls := fun l hx => (List.dropWhile_suffix _).subset hx
  have ht := settled_metaItems hm fun l hx => h.brackets l (hin l (hdw l hx))
  rcases hs with ⟨rfl, _⟩ | ⟨a, r, rfl⟩ | ⟨t, hx, _⟩
  · have hrest : rest = ls.dropWhile (·.all Span.isBlank) := by
      generalize ls.dropWhile (·.all Span.isBlank) = x at hm
      cases hm
      rfl
    rcases hr with rfl | ⟨l, r, rfl, hw⟩
    · obtain ⟨l, hlast⟩ : ∃ l, ls.getLast? = some l := by
        cases hg : ls.getLast? with
        | none => exact absurd (List.getLast?_eq_none_iff.mp hg) hne
        | some l => exact ⟨l, rfl⟩
      obtain ⟨init, rfl⟩ := List.getLast?_eq_some_iff.mp hlast
      have hbl : ∀ c ∈ l, c = ' ' ∨ c = '\t' := by
        have := dropLines_nil hrest.symm l (by simp)
        intro c hc
        have := List.all_eq_true.mp this c hc
        simpa [Span.isBlank] using this
      obtain ⟨l', behind', e, hd⟩ := h.blank (before ++ init) l behind (by rw [hl]; simp) hbl
      rcases hb with rfl | ⟨d, r, rfl, hd'⟩
      · cases e
      · cases e; exact hd hd'
    · have hlm : l ∈ ls := hdw l (by rw [← hrest]; simp)
      have hbl := h.white l (hin l hlm) hw
      have := dropLines_head (p := fun l : Text => l.all Span.isBlank) (ls := ls) (l := l) (by rw [← hrest]; rfl)
      refine absurd (List.all_eq_true.mpr fun c hc => ?_) (by simpa using this)
      rcases hbl c hc with rfl | rfl <;> rfl
  · obtain ⟨t, e⟩ := ht _ (List.mem_singleton_self _)
    cases e
  · obtain ⟨t, e⟩ := ht _ hx
    cases e

/-- Parsing ends, with a document or a panic, when the substitutions end and there is no place at which the loop over the
blocks may stall.  Missing: the documents with such a place; for some of them it does not end (`C21_diverges`,
`C21_diverges_ordinary`). -/
theorem C21_terminates_partial {e : BlockEnv} {hr : Renderer} {p : ParserState} {text : Text}
    (hs : ∀ st g al t, e.subs st g al t ≠ .error .fuel) (hd : ∀ st g al t, e.dsubs st g al t ≠ .error .fuel)
    (h : ¬ MayStall text) : ∀ n, text.length < n → Document.parse e hr n p text ≠ .error .fuel := by
  intro n hn hx
  rcases C53_reasons hn hx with ⟨st, g, al, t, _, _, hf⟩ | ⟨h, _⟩ | ⟨_, hst⟩
  · rcases hf with hf | hf
    · exact hs _ _ _ _ hf
    · exact hd _ _ _ _ hf
  · cases h
  · exact h hst

omit [Uni] in
theorem harmless_drawn {src t : Text} (h : Harmless src) (hd : Drawn src t) : Harmless t := by
  have hm := hd (h.chars '{' (by simp))
  have hc : ∀ c, c ∉ src → c ≠ '\n' → c ≠ ' ' → c ∉ t := by
    intro c h1 h2 h3 hx
    rcases hm c hx with hx | hx | hx
    · exact h1 hx
    · exact h2 hx
    · exact h3 hx
  refine ⟨fun c hx => hc c (h.chars c hx) ?_ ?_, ?_⟩
  · rintro rfl; revert hx; decide
  · rintro rfl; revert hx; decide
  · rcases h.scheme with h | h
    · exact Or.inl (hc _ h (by decide) (by decide))
    · exact Or.inr (hc _ h (by decide) (by decide))

/-- Whatever the attributes, sections and references the parser starts with, it returns a document if the text has no
backquotes, opening braces or brackets, plus or dollar signs, not both colons and slashes, no directives, no place to
stall, and, when overflows are checked, no indented line behind a heading.
Missing: the documents that break these conditions; for some of them the claim is false (`C46_panics_normal`,
`C32_panics`, `C22_indented_panics`, `C21_diverges`). -/
theorem C53_returns_partial [LawfulUni] {c : Config} (hc : c.renderer = Html.renderer) (hp : c.primary = none)
    {text : Text} (ht : Harmless text) (hs : ¬ MayStall text) (hi : c.ar = .wrapping ∨ ¬ IndentedInSection text)
    (hl : ∀ l ∈ splitChar '\n' text, (¬ ∃ r, l = "include::".toList ++ r) ∧ ¬ ∃ r, l = "if".toList ++ r) :
    ∀ p n, text.length < n → ∃ d p', c.parse n p text = .ok (d, [], p') := by
  intro p n hn
  cases n with
  | zero => cases hn
  | succ n =>
  unfold Config.parse parseDocument
  rw [hp, C12_untouched hl]
  simp only [bind, Except.bind]
  cases hx : Document.parse (c.env (n + 1)) c.renderer (n + 1) p.fresh text with
  | ok y => exact ⟨_, _, rfl⟩
  | error x =>
    exfalso
    rcases C53_reasons hn hx with ⟨st, g, al, t, hd, ha, hf⟩ | ⟨_, h1, h2⟩ | ⟨_, hst⟩
    · obtain ⟨rfl, hg⟩ := ha.plain (ht.chars '[' (by simp))
      have ok : ∀ r sep, r = Html.renderer → ∃ out, substitutions (n + 1) r sep st g none t = .ok out := by
        intro r sep hr
        exact apply_harmless _ hr n hg (harmless_drawn ht hd)
      rcases hf with hf | hf
      · obtain ⟨out, ho⟩ := ok c.renderer c.sep hc
        rw [show (c.env (n + 1)).subs st g none t = _ from ho] at hf
        cases hf
      · obtain ⟨out, ho⟩ := ok Html.renderer '/' rfl
        rw [show (c.env (n + 1)).dsubs st g none t = _ from ho] at hf
        cases hf
    · rcases hi with hi | hi
      · rw [show (c.env (n + 1)).ar = c.ar from rfl, hi] at h1
        cases h1
      · exact hi h2
    · exact hs hst

/-! ### The conditions are met -/

private def compoundish (l : Text) : Bool :=
  l == ['-', '-'] || (['=', '*', '_'].any fun c => l == List.replicate l.length c)

private def closed : List Text → Bool
  | [] => true
  | l :: r => (!l.all Span.isBlank || match r with | [] => false | l' :: _ => !compoundish l') && closed r

omit [Uni] in
private theorem closed_spec : ∀ {ls : List Text}, closed ls = true → ∀ before l behind, ls = before ++ l :: behind →
    (∀ c ∈ l, c = ' ' ∨ c = '\t') → ∃ l' behind', behind = l' :: behind' ∧ ¬ CompoundDelim l'
  | [], _, before, l, behind, e, _ => by simp at e
  | x :: xs, h, before, l, behind, e, hl => by
    unfold closed at h
    rw [Bool.and_eq_true] at h
    cases before with
    | cons b bs => cases e; exact closed_spec h.2 bs l behind rfl hl
    | nil =>
      cases e
      have hb : x.all Span.isBlank = true := by
        refine List.all_eq_true.mpr fun c hc => ?_
        rcases hl c hc with rfl | rfl <;> rfl
      rw [hb] at h
      cases xs with
      | nil => exact absurd h.1 (by simp)
      | cons l' r =>
        refine ⟨l', r, rfl, ?_⟩
        have h1 : compoundish l' = false := by simpa using h.1
        unfold compoundish at h1
        rw [Bool.or_eq_false_iff] at h1
        rintro (rfl | ⟨c, n, hc, rfl⟩)
        · exact absurd h1.1 (by decide)
        · have := List.any_eq_false.mp h1.2 c (by rcases hc with rfl | rfl | rfl <;> simp)
          simp at this

private def sample : Text := "= Title\n:key: value\n\nIntro -- it's *bold*.\n\n== First\n\n----\nx = 1\n----\n\n=== Sub (C)\n\n* item\n".toList

private theorem sample_settled : letI := asciiUni; Settled sample := by
  letI := asciiUni
  exact ⟨by decide, by decide, closed_spec (by decide)⟩

/-- Non-vacuity: a document with a header, sections, a listing and formatted text meets the conditions. -/
example : letI := asciiUni
    ∀ ar p, ∃ d p', (Config.default ar).parse 200 p sample = .ok (d, [], p') := by
  letI := asciiUni
  intro ar p
  refine C53_returns_partial rfl rfl ⟨by decide, by decide⟩ (settled_not_stall sample_settled) (Or.inr ?_) ?_ p 200 (by decide)
  · rintro ⟨a, h, b, l, c, k, t, e, _, hi⟩
    have hm : l ∈ lines sample := by rw [e]; simp
    have : ∀ l ∈ lines sample, ¬ (l.head? = some ' ' ∨ l.head? = some '\t') := by decide
    exact this l hm hi
  · have : ∀ l ∈ splitChar '\n' sample, startsWith l "include::".toList = false ∧ startsWith l "if".toList = false := by decide
    intro l hl
    obtain ⟨h1, h2⟩ := this l hl
    constructor
    · intro h; rw [startsWith_iff.mpr h] at h1; cases h1
    · intro h; rw [startsWith_iff.mpr h] at h2; cases h2

/-- Non-vacuity of `C21_terminates_partial`, with substitutions that change nothing. -/
example : letI := asciiUni
    ∀ n, sample.length < n → Document.parse ⟨.checked, fun _ _ _ t => .ok t, fun _ _ _ t => .ok t⟩ Html.renderer n
      ParserState.default.fresh sample ≠ .error .fuel := by
  letI := asciiUni
  exact C21_terminates_partial nofun nofun (settled_not_stall sample_settled)

/-- Non-vacuity of `C53_panics` and `C53_reasons`: a document that makes the parser panic, with text that is only copied. -/
example : letI := asciiUni
    (match Document.parse ⟨.checked, fun _ _ _ t => .ok t, fun _ _ _ t => .ok t⟩ Html.renderer 30
      ParserState.default.fresh "== S\n\n  x\n".toList with
    | .error .panic => true
    | _ => false) = true := by
  letI := asciiUni
  decide +kernel

end Adoc.Props
