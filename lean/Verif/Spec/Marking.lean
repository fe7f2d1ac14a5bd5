import Verif.Spec.Preprocessor
/-!
# Which lines are marked with their origin

Preprocessing notes the origin of some lines only; that of the others is computed from the noted line in front of them.
-/

namespace Adoc.Spec

/-- A line of the result, and whether its origin is noted. -/
structure MarkedLine where
  line : OutLine
  noted : Bool
deriving DecidableEq, Repr

/-- Only the first of these lines is noted, if at all. -/
def firstNoted (b : Bool) : List OutLine → List MarkedLine
  | [] => []
  | o :: os => ⟨o, b⟩ :: os.map (⟨·, false⟩)

/-- The expansion (see `Expansion`) with its notes: a line of text or the first line of an attribute entry is noted if
nothing was copied from its file since the file's beginning, or since the last directive in it that was resolved; the line
that stands for an unresolved directive is not noted. -/
inductive Marking [Uni] (env : PreEnv) : Option Text → Bool → Nat → Text → Reading → List MarkedLine → Reading → Prop
  | done {file started n σ} : Marking env file started n [] σ [] σ
  | text {file started n t l sep rest σ outs σ'} :
      t ≠ [] → FirstLine t l sep rest → NoEntry σ t l → (∀ target attrs, ¬ IncludeLine l target attrs) →
      Marking env file true (n + 1) rest (σ.line l) outs σ' →
      Marking env file started n t σ (⟨⟨l, ⟨file, n⟩⟩, !started⟩ :: outs) σ'
  | entry {file started n t l lsep lrest c sep rest name kind v b σ outs σ'} :
      t ≠ [] → FirstLine t l lsep lrest → EntryAt σ t l c sep rest name kind → EntryValue (env.hdr σ.attrs) kind v →
      StripEnd c b → Marking env file true (n + c.count '\n' + 1) rest (σ.entry name v) outs σ' →
      Marking env file started n t σ (firstNoted (!started) (numberedLines file n (splitChar '\n' b)) ++ outs) σ'
  | resolved {file started n t l sep rest target attrs target' al text σ outs₁ σ₁ outs₂ σ₂} :
      t ≠ [] → FirstLine t l sep rest → NoEntry σ t l → IncludeLine l target attrs →
      Expands (fun n => σ.attrs.hasAttribute n = true) (attrText σ.attrs) target target' → IncludeAttrs σ.attrs attrs al →
      env.resolve file target' al σ.attrs = some text →
      Marking env (some target') false 1 text σ outs₁ σ₁ → Marking env file false (n + 1) rest σ₁ outs₂ σ₂ →
      Marking env file started n t σ (outs₁ ++ outs₂) σ₂
  | unresolved {file started n t l sep rest target attrs target' al σ outs σ'} :
      t ≠ [] → FirstLine t l sep rest → NoEntry σ t l → IncludeLine l target attrs →
      Expands (fun n => σ.attrs.hasAttribute n = true) (attrText σ.attrs) target target' → IncludeAttrs σ.attrs attrs al →
      env.resolve file target' al σ.attrs = none → Marking env file started (n + 1) rest σ outs σ' →
      Marking env file started n t σ (⟨⟨unresolvedLine file l, ⟨file, n⟩⟩, false⟩ :: outs) σ'

/-- The origin computed for line `i` (counted from 0): the one of the last noted line up to there, moved on by the distance;
without one, the line of the same number of a file without name. -/
def Computed (outs : List MarkedLine) (i : Nat) (r : SourceLine) : Prop :=
  (∃ j o, j ≤ i ∧ outs[j]? = some o ∧ o.noted = true ∧ (∀ k x, j < k → k ≤ i → outs[k]? = some x → x.noted = false) ∧
    r = ⟨o.line.origin.file, o.line.origin.line + (i - j)⟩) ∨
  (∀ k x, k ≤ i → outs[k]? = some x → x.noted = false) ∧ r = ⟨none, i + 1⟩

end Adoc.Spec
