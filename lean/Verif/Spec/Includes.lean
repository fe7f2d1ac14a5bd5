import Verif.Spec.Preprocessor
/-!
# Where preprocessing comes to

The places of the files a preprocessor comes to, one after the other, and the three ways its work can end.
-/

namespace Adoc.Spec

/-- A place: the file, the text from there to the end of the file, and what has been learnt so far. -/
structure Point where
  file : Option Text
  rest : Text
  state : Reading

/-- From a place to the next one in the same file: behind a line of text, behind an attribute entry, behind a directive
that cannot be resolved, or behind a directive whose file has been read to its end. -/
inductive Next [Uni] (env : PreEnv) : Point → Point → Prop
  | text {file t l sep rest σ} :
      t ≠ [] → FirstLine t l sep rest → NoEntry σ t l → (∀ target attrs, ¬ IncludeLine l target attrs) →
      Next env ⟨file, t, σ⟩ ⟨file, rest, σ.line l⟩
  | entry {file t l lsep lrest c sep rest name kind v σ} :
      t ≠ [] → FirstLine t l lsep lrest → EntryAt σ t l c sep rest name kind → EntryValue (env.hdr σ.attrs) kind v →
      Next env ⟨file, t, σ⟩ ⟨file, rest, σ.entry name v⟩
  | unresolved {file t l sep rest target attrs target' al σ} :
      t ≠ [] → FirstLine t l sep rest → NoEntry σ t l → IncludeLine l target attrs →
      Expands (fun n => σ.attrs.hasAttribute n = true) (attrText σ.attrs) target target' → IncludeAttrs σ.attrs attrs al →
      env.resolve file target' al σ.attrs = none → Next env ⟨file, t, σ⟩ ⟨file, rest, σ⟩
  | resolved {file t l sep rest target attrs target' al text σ outs σ'} :
      t ≠ [] → FirstLine t l sep rest → NoEntry σ t l → IncludeLine l target attrs →
      Expands (fun n => σ.attrs.hasAttribute n = true) (attrText σ.attrs) target target' → IncludeAttrs σ.attrs attrs al →
      env.resolve file target' al σ.attrs = some text → Expansion env false (some target') false 1 text σ outs σ' →
      Next env ⟨file, t, σ⟩ ⟨file, rest, σ'⟩

/-- At the first place stands a directive; the second place is the beginning of the file it includes. -/
inductive OpensFile [Uni] (env : PreEnv) : Point → Point → Prop
  | mk {file t l sep rest target attrs target' al text σ} :
      t ≠ [] → FirstLine t l sep rest → NoEntry σ t l → IncludeLine l target attrs →
      Expands (fun n => σ.attrs.hasAttribute n = true) (attrText σ.attrs) target target' → IncludeAttrs σ.attrs attrs al →
      env.resolve file target' al σ.attrs = some text → OpensFile env ⟨file, t, σ⟩ ⟨some target', text, σ⟩

/-- At this place stands an attribute entry, and the substitutions of its value fail with `e`. -/
inductive FailsAt [Uni] (env : PreEnv) (e : Fail) : Point → Prop
  | mk {file t l lsep lrest c sep rest name raw σ} :
      t ≠ [] → FirstLine t l lsep lrest → EntryAt σ t l c sep rest name (.value raw) →
      env.hdr σ.attrs (joinValue raw) = .error e → FailsAt env e ⟨file, t, σ⟩

/-- Later places of the same file. -/
inductive ReadsOn [Uni] (env : PreEnv) : Point → Point → Prop
  | refl {p} : ReadsOn env p p
  | step {p q r} : Next env p q → ReadsOn env q r → ReadsOn env p r

/-- All places the preprocessor comes to, in this file and in the files it includes, directly or indirectly. -/
inductive Reaches [Uni] (env : PreEnv) : Point → Point → Prop
  | refl {p} : Reaches env p p
  | next {p q r} : Next env p q → Reaches env q r → Reaches env p r
  | opens {p q r} : OpensFile env p q → Reaches env q r → Reaches env p r

/-- The file `p` is in comes, from `p` on, to a directive for the file that begins at `q`. -/
def Includes [Uni] (env : PreEnv) (p q : Point) : Prop := ∃ d, ReadsOn env p d ∧ OpensFile env d q

/-- Files include one another without end: the first includes the second, which includes the third, and so on. -/
def EndlessIncludes [Uni] (env : PreEnv) (p : Point) : Prop :=
  ∃ f : Nat → Point, f 0 = p ∧ ∀ i, Includes env (f i) (f (i + 1))

end Adoc.Spec
