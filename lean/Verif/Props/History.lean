import Verif.Lemmas.History
/-!
# C19: the numbers of sections do not depend on earlier parses

`Used c fuel P p` says that `p` is the state of a parser that was new, with any attributes, and has parsed any number of
texts since, each with a document that satisfies `P`.
-/

namespace Adoc.Props
open Adoc Adoc.Spec Span

variable [Uni]

private theorem parse_renum {c : Config} {fuel : Nat} {p p' : ParserState} {text : Text} {d : Document} {map : SourceMap}
    (h : c.parse fuel p text = .ok (d, map, p')) (hd : NoNumberedAppendix d) {x : Numbering}
    (h1 : x.topmost = p.num.topmost) (h2 : p.num.lastAppendix.ty = .appendix) :
    ∃ q, c.parse fuel { p with num := x } text = .ok (d, map, q) := by
  obtain ⟨t, ht, hp⟩ := c.parse_parts h
  obtain ⟨y, hy⟩ := document_renum hp hd (x := { x with last := .default }) ⟨rfl, h1, h2⟩
  refine ⟨p'.renum y, ?_⟩
  unfold Config.parse parseDocument
  simp only [bind, Except.bind]
  rw [ht]
  simp only
  have : ({ p with num := x } : ParserState).fresh = p.fresh.renum { x with last := .default } := rfl
  rw [this, hy]

/-- A parser that has parsed any texts gives the same document as one with new numbers, as far as documents without
numbered appendices are concerned.
Missing: numbered appendices, which go on from the last appendix of earlier parses (`C19_appendices_drift`). -/
theorem C19_document_partial {c : Config} {fuel : Nat} {p : ParserState} (hu : Used c fuel (fun _ => True) p)
    {text : Text} {d : Document} {map : SourceMap} (hd : NoNumberedAppendix d) :
    (∃ p', c.parse fuel p text = .ok (d, map, p')) ↔ ∃ p', c.parse fuel (renewed p) text = .ok (d, map, p') := by
  obtain ⟨h1, h2⟩ := used_num hu
  constructor
  · rintro ⟨p', h⟩
    exact parse_renum h hd h1.symm h2
  · rintro ⟨p', h⟩
    exact parse_renum (p := renewed p) h hd (x := p.num) h1 rfl

/-- A parser that has parsed only texts without numbered appendices parses every text as one with new numbers does. -/
theorem C19_history_partial {c : Config} {fuel : Nat} {p : ParserState} (hu : Used c fuel NoNumberedAppendix p)
    (text : Text) : c.parse fuel p text = c.parse fuel (renewed p) text := by
  have hn : p.num.topmost = .normal ∧ p.num.lastAppendix = Numbering.default.lastAppendix := by
    induction hu with
    | new h _ => rw [h]; exact ⟨rfl, rfl⟩
    | parse hu h hP ih =>
      obtain ⟨t, _, hd⟩ := Config.parse_parts h
      obtain ⟨a, _, b⟩ := document_num hd ih.1 (congrArg SectionNumber.ty ih.2)
      exact ⟨a, (b hP).trans ih.2⟩
  unfold Config.parse parseDocument
  have : p.fresh = (renewed p).fresh := by
    unfold ParserState.fresh renewed
    obtain ⟨st, cat, ⟨l, a, t⟩, lv⟩ := p
    obtain ⟨rfl, rfl⟩ := hn
    rfl
  rw [this]
  rfl

private def numbers (d : Document) : List (Option SectionNumber) :=
  d.blocks.map fun b => match b.kind with
    | .section _ _ _ _ n => n
    | _ => none

private def again (c : Config) (t1 t2 : String) (f : Document → Document → Bool) : Bool :=
  match c.parse 40 .default t1.toList with
  | .ok (_, _, p) =>
    parsed (c.parse 40 p t2.toList) fun d => parsed (c.parse 40 (renewed p) t2.toList) fun d' => f d d'
  | .error _ => false

private theorem again_spec {c : Config} {t1 t2 : String} {f : Document → Document → Bool} (h : again c t1 t2 f = true) :
    ∃ p d m q d' m' q', Used c 40 (fun _ => True) p ∧ c.parse 40 p t2.toList = .ok (d, m, q) ∧
      c.parse 40 (renewed p) t2.toList = .ok (d', m', q') ∧ f d d' = true := by
  unfold again at h
  generalize h1 : c.parse 40 .default t1.toList = r1 at h
  cases r1 with
  | error _ => cases h
  | ok x =>
    obtain ⟨d1, m1, p⟩ := x
    obtain ⟨d, m, q, h2, h⟩ := parsed_spec h
    obtain ⟨d', m', q', h3, h⟩ := parsed_spec h
    exact ⟨p, d, m, q, d', m', q', .parse (.new rfl rfl) h1 trivial, h2, h3, h⟩

omit [Uni] in
/-- The full claim is false: the appendix of a text is numbered A in the first parse and B in the second. -/
theorem C19_appendices_drift : letI := asciiUni
    ∃ p text d m q d' m' q', Used (Config.default .checked) 40 (fun _ => True) p ∧
      (Config.default .checked).parse 40 p text = .ok (d, m, q) ∧
      (Config.default .checked).parse 40 (renewed p) text = .ok (d', m', q') ∧
      numbers d = [some ⟨.appendix, [2]⟩] ∧ numbers d' = [some ⟨.appendix, [1]⟩] := by
  letI := asciiUni
  have h : again (Config.default .checked) ":sectnums:\n\n[appendix]\n== A" ":sectnums:\n\n[appendix]\n== A"
      (fun d d' => numbers d == [some ⟨.appendix, [2]⟩] && numbers d' == [some ⟨.appendix, [1]⟩]) = true := by
    decide +kernel
  obtain ⟨p, d, m, q, d', m', q', h1, h2, h3, h4⟩ := again_spec h
  rw [Bool.and_eq_true] at h4
  exact ⟨p, _, d, m, q, d', m', q', h1, h2, h3, eq_of_beq h4.1, eq_of_beq h4.2⟩

omit [Uni] in
/-- Non-vacuity: a text with numbered sections, parsed behind another one with numbered sections. -/
example : letI := asciiUni
    again (Config.default .checked) ":sectnums:\n\n== A\n\n== B" ":sectnums:\n\n== C\n\n=== D\n\n== E"
      (fun d d' => numbers d == [some ⟨.normal, [1]⟩, some ⟨.normal, [2]⟩] && numbers d == numbers d') = true := by
  decide +kernel

end Adoc.Props
