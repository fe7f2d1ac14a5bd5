import Verif.Lemmas.Pasting
import Verif.Props.Preprocessor
import Verif.Model.Parser

/-! C79: dividing a document into files makes no difference. -/

namespace Adoc.Props
open Spec

variable [Uni]

private theorem parse_ok {c : Config} {fuel : Nat} {p : ParserState} {text : Text} {x : Document × SourceMap × ParserState}
    (h : c.parse fuel p text = .ok x) :
    ∃ o, preprocess ⟨c.includes, fun s t => (c.env fuel).subs s .header none t⟩ fuel p.store c.primary text = .ok (o, x.2.1) ∧
      Document.parse (c.env fuel) c.renderer fuel p.fresh o = .ok (x.1, x.2.2) := by
  unfold Config.parse parseDocument at h
  cases hp : preprocess ⟨c.includes, fun s t => (c.env fuel).subs s .header none t⟩ fuel p.store c.primary text with
  | error e => rw [hp] at h; cases h
  | ok y =>
    obtain ⟨o, m⟩ := y
    rw [hp] at h
    cases hd : Document.parse (c.env fuel) c.renderer fuel p.fresh o with
    | error e => dsimp only [Bind.bind, Except.bind] at h; rw [hd] at h; cases h
    | ok y =>
      dsimp only [Bind.bind, Except.bind] at h
      rw [hd] at h
      cases h
      exact ⟨o, rfl, hd⟩

/-- The text of a document divided into files, after preprocessing, is that of the document with the files pasted into it. -/
theorem C79_text {env : PreEnv} {fuel : Nat} {store : AttrStore} {primary : Option Text} {text o : Text} {m : SourceMap}
    {files : Text → Option Text} {ls ms : List Text} {l name : Text} {attrs : Option Text}
    (hfiles : ∀ file name al store, env.resolve file name al store = files name)
    (h : preprocess env fuel store primary text = .ok (o, m)) (hls : LinesOf text ls) (hl : l ∈ ls)
    (hi : IncludeLine l name attrs) (hp : Pasted files ls ms) : o = unlines ms := by
  obtain ⟨outs, σ, h1, rfl⟩ := C13_sound h (directive_found hls hl hi)
  exact expansion_pasted hfiles h1 hls hp

/-- A document divided into files and the document with the files pasted into it are the same document for the user: the
header, the blocks, the catalog and the warnings are the same, and the parser is left in the same state. -/
theorem C79_same {c : Config} {fuel : Nat} {p p₁ p₂ : ParserState} {text : Text} {d₁ d₂ : Document} {m₁ m₂ : SourceMap}
    {files : Text → Option Text} {ls ms : List Text} {l name : Text} {attrs : Option Text}
    (hfiles : ∀ file name al store, c.includes file name al store = files name)
    (hls : LinesOf text ls) (hl : l ∈ ls) (hi : IncludeLine l name attrs) (hp : Pasted files ls ms)
    (h₁ : c.parse fuel p text = .ok (d₁, m₁, p₁)) (h₂ : c.parse fuel p (unlines ms) = .ok (d₂, m₂, p₂)) :
    d₁ = d₂ ∧ p₁ = p₂ := by
  obtain ⟨o₁, g₁, k₁⟩ := parse_ok h₁
  obtain ⟨o₂, g₂, k₂⟩ := parse_ok h₂
  have e₁ := C79_text (env := ⟨c.includes, fun s t => (c.env fuel).subs s .header none t⟩) hfiles g₁ hls hl hi hp
  have hq := pasted_plainLines hp
  have e₂ : o₂ = unlines ms := by
    rcases C12_lines_kept_partial g₂ (linesOf_unlines ms (pasted_noNl hls hp)) hq with h | h <;> exact h
  rw [e₁] at k₁
  rw [e₂, k₁] at k₂
  cases k₂
  exact ⟨rfl, rfl⟩

/-- Without a primary file name, and when no line of the whole begins like a directive, the pasted document can be parsed
whenever the divided one can. -/
theorem C79_pasted {c : Config} {fuel : Nat} {p p' : ParserState} {text : Text} {d : Document} {m : SourceMap}
    {files : Text → Option Text} {ls ms : List Text} {l name : Text} {attrs : Option Text}
    (hfiles : ∀ file name al store, c.includes file name al store = files name) (hc : c.primary = none)
    (hls : LinesOf text ls) (hl : l ∈ ls) (hi : IncludeLine l name attrs) (hp : Pasted files ls ms)
    (hd : ∀ l ∈ ms, (¬ ∃ r, l = "include::".toList ++ r) ∧ ¬ ∃ r, l = "if".toList ++ r)
    (h : c.parse fuel p text = .ok (d, m, p')) : c.parse fuel p (unlines ms) = .ok (d, [], p') := by
  obtain ⟨o, g, k⟩ := parse_ok h
  have e := C79_text (env := ⟨c.includes, fun s t => (c.env fuel).subs s .header none t⟩) hfiles g hls hl hi hp
  subst e
  unfold Config.parse parseDocument
  rw [hc, C12_untouched (split_unlines (pasted_noNl hls hp) hd)]
  dsimp only [Bind.bind, Except.bind]
  rw [k]

/-! ### Concrete cases -/

/-- Two files, one of which includes the other. -/
private def twoFiles (name : Text) : Option Text :=
  if name = ['a'] then some "== A\n\ninclude::b[]\nx".toList
  else if name = ['b'] then some "* y\n* z\n\n".toList else none

omit [Uni] in
private theorem simple_test {l : Text} (h : '\r' ∉ l) (h1 : ∀ c, l.getLast? = some c → isWhite c = false ∧ c ≠ '\\') : SimpleLine l :=
  ⟨h, fun r c e => h1 c (by rw [e]; simp)⟩

omit [Uni] in
private theorem no_include {l : Text} (h : startsWith l "include::".toList = false) : ∀ target attrs, ¬ IncludeLine l target attrs := by
  rintro target attrs ⟨⟨inner, e, _⟩, _⟩
  rw [startsWith_iff.mpr ⟨target ++ '[' :: inner ++ [']'], by rw [e]; simp⟩] at h
  cases h

omit [Uni] in
private theorem include_test {x : Char} (h : isWhite x = false) (h1 : x ≠ '[') :
    IncludeLine ("include::".toList ++ x :: "[]".toList) [x] none := by
  refine ⟨⟨[], by simp, Or.inl ⟨rfl, rfl⟩⟩, by simp, by simpa using h1.symm, ?_, ?_⟩
  · rintro c r e; cases e; exact h
  · intro c r e
    cases r with
    | nil => cases e; exact h
    | cons y r => simp at e

omit [Uni] in
private theorem two_pasted : Pasted twoFiles ["= T".toList, [], "include::a[]".toList, "w".toList]
    ["= T".toList, [], "== A".toList, [], "* y".toList, "* z".toList, [], "x".toList, "w".toList] := by
  refine .line (simple_test (by decide) (by decide)) (no_include (by decide)) ?_
  refine .line (simple_test (by decide) (by decide)) (no_include (by decide)) ?_
  refine .file (paste := ["== A".toList, [], "* y".toList, "* z".toList, [], "x".toList]) (by decide)
    (include_test (x := 'a') (by decide) (by decide)) (by decide) (show twoFiles ['a'] = some _ from rfl)
    (inner := ["== A".toList, [], "include::b[]".toList, "x".toList]) ?_ ?_ ?_
  · exact .cons (l := "== A".toList) (by decide) (.cons (l := []) (by decide) (.cons (l := "include::b[]".toList) (by decide)
      (.last (by decide) (by decide))))
  · refine .line (simple_test (by decide) (by decide)) (no_include (by decide)) ?_
    refine .line (simple_test (by decide) (by decide)) (no_include (by decide)) ?_
    refine .file (paste := ["* y".toList, "* z".toList, []]) (by decide) (include_test (x := 'b') (by decide) (by decide))
      (by decide) (show twoFiles ['b'] = some _ from rfl) (inner := ["* y".toList, "* z".toList, []]) ?_ ?_ ?_
    · exact .cons (l := "* y".toList) (by decide) (.cons (l := "* z".toList) (by decide) (.cons (l := []) (by decide) .nil))
    · exact .line (simple_test (by decide) (by decide)) (no_include (by decide))
        (.line (simple_test (by decide) (by decide)) (no_include (by decide))
          (.line (simple_test (by decide) (by decide)) (no_include (by decide)) .nil))
    · exact .line (simple_test (by decide) (by decide)) (no_include (by decide)) .nil
  · exact .line (simple_test (by decide) (by decide)) (no_include (by decide)) .nil

/-- A document that includes a file which includes another meets the hypotheses, and can be parsed. -/
example : letI := asciiUni
    let c : Config := { Config.default .checked with includes := fun _ name _ _ => twoFiles name }
    ∃ d p', c.parse 60 ParserState.default "= T\n\n== A\n\n* y\n* z\n\nx\nw\n".toList = .ok (d, [], p') := by
  letI := asciiUni
  have hok : (Config.parse { Config.default .checked with includes := fun _ name _ _ => twoFiles name } 60 ParserState.default
      "= T\n\ninclude::a[]\nw".toList).toOption.isSome = true := by decide +kernel
  cases h : Config.parse { Config.default .checked with includes := fun _ name _ _ => twoFiles name } 60 ParserState.default
      "= T\n\ninclude::a[]\nw".toList with
  | error e => rw [h] at hok; cases hok
  | ok x =>
    obtain ⟨d, m, p'⟩ := x
    refine ⟨d, p', ?_⟩
    have hls : LinesOf "= T\n\ninclude::a[]\nw".toList ["= T".toList, [], "include::a[]".toList, "w".toList] :=
      .cons (l := "= T".toList) (by decide) (.cons (l := []) (by decide) (.cons (l := "include::a[]".toList) (by decide)
        (.last (by decide) (by decide))))
    have := C79_pasted (c := { Config.default .checked with includes := fun _ name _ _ => twoFiles name })
      (files := twoFiles) (fun _ _ _ _ => rfl) rfl hls (l := "include::a[]".toList) (by simp)
      (include_test (x := 'a') (by decide) (by decide)) two_pasted
      (by
        intro l hl
        have h1 : startsWith l "include::".toList = false ∧ startsWith l "if".toList = false := by
          revert l
          decide
        constructor
        · rintro ⟨r, e⟩; rw [startsWith_iff.mpr ⟨r, e⟩] at h1; cases h1.1
        · rintro ⟨r, e⟩; rw [startsWith_iff.mpr ⟨r, e⟩] at h1; cases h1.2) h
    exact this

end Adoc.Props
