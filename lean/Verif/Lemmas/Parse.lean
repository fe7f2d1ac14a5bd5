import Verif.Lemmas.Document
import Verif.Model.Parser
/-!
# Facts about whole parses
-/

namespace Adoc
open Span Spec

/-- The parts of a parse. -/
theorem Config.parse_parts [Uni] {c : Config} {fuel : Nat} {p p' : ParserState} {text : Text} {d : Document}
    {map : SourceMap} (h : c.parse fuel p text = .ok (d, map, p')) :
    ∃ t, preprocess ⟨c.includes, fun s t => (c.env fuel).subs s .header none t⟩ fuel p.store c.primary text = .ok (t, map) ∧
      Document.parse (c.env fuel) c.renderer fuel p.fresh t = .ok (d, p') := by
  unfold Config.parse parseDocument at h
  simp only [bind, Except.bind] at h
  cases h1 : preprocess ⟨c.includes, fun s t => (c.env fuel).subs s .header none t⟩ fuel p.store c.primary text with
  | error x => rw [h1] at h; cases h
  | ok y =>
    obtain ⟨t, m⟩ := y
    rw [h1] at h
    simp only at h
    cases h2 : Document.parse (c.env fuel) c.renderer fuel p.fresh t with
    | error x => rw [h2] at h; cases h
    | ok z =>
      obtain ⟨d', q⟩ := z
      rw [h2] at h
      cases h
      exact ⟨t, rfl, h2⟩

/-- Whether a parse gives a document with a property. -/
def parsed (r : Res (Document × SourceMap × ParserState)) (f : Document → Bool) : Bool :=
  match r with
  | .ok (d, _, _) => f d
  | .error _ => false

theorem parsed_spec {r : Res (Document × SourceMap × ParserState)} {f : Document → Bool} (h : parsed r f = true) :
    ∃ d map p, r = .ok (d, map, p) ∧ f d = true := by
  cases r with
  | error _ => cases h
  | ok x => exact ⟨x.1, x.2.1, x.2.2, rfl, h⟩

end Adoc
