import Verif.Model.SubGroup
/-!
# Texts made of the characters of another text
-/

namespace Adoc.Spec

/-- `t` is made of characters of `src`, of line ends and of spaces; but if there is an opening brace in `src`, which may
begin a reference to an attribute, `t` may be any text. -/
def Drawn (src t : Text) : Prop := '{' ∉ src → ∀ c ∈ t, c ∈ src ∨ c = '\n' ∨ c = ' '

theorem Drawn.of_mem {src t : Text} (h : ∀ c ∈ t, c ∈ src) : Drawn src t := fun _ c hc => Or.inl (h c hc)

theorem Drawn.mono {src src' t : Text} (h : Drawn src t) (hs : ∀ c ∈ src, c ∈ src') : Drawn src' t := by
  intro hb c hc
  rcases h (fun hx => hb (hs _ hx)) c hc with h | h
  · exact Or.inl (hs c h)
  · exact Or.inr h

/-- A substitution group and an attribute list the parser can ask for on behalf of the text `src`: the group has no step
for callouts, and without an opening bracket in `src` there is no attribute list and the group is one of the named ones. -/
structure Asked (src : Text) (g : Group) (al : Option Attrlist) : Prop where
  callouts : Step.callouts ∉ g.steps
  plain : '[' ∉ src → al = none ∧ ∀ steps, g ≠ .custom steps

theorem Asked.mono {src src' : Text} {g : Group} {al : Option Attrlist} (h : Asked src g al) (hs : ∀ c ∈ src, c ∈ src') :
    Asked src' g al := ⟨h.1, fun hb => h.2 fun hx => hb (hs _ hx)⟩

end Adoc.Spec
