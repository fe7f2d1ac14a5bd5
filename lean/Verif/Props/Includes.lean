import Verif.Lemmas.Includes
import Verif.Props.Preprocessor
/-!
# C14: when preprocessing returns, when it panics and when it never ends

The three ways the work can end, each with its exact cause: no failing value and no endless chain of includes; a value whose
substitutions panic; a value whose substitutions never end, or files that include one another without end.
-/

namespace Adoc.Props
open Adoc.Spec

variable [Uni]

/-- The place where preprocessing begins. -/
def startOf (store : AttrStore) (primary : Option Text) (source : Text) : Point := ⟨primary, source, Reading.start store⟩

private theorem run_eq {env : PreEnv} {fuel : Nat} {store : AttrStore} {primary : Option Text} {source : Text} {e : Fail}
    (hn : noDirectives source primary = false) : preprocess env fuel store primary source = .error e ↔
      processLines env fuel primary primary.isNone (Span.new source) (PState.init store) = .error e := by
  unfold preprocess
  rw [if_neg (by simp [hn])]
  split <;> rename_i h <;> simp [h]

/-- Preprocessing fails with `e` from some fuel on exactly when it comes to an attribute entry whose substitutions fail so. -/
theorem C14_fails_iff (env : PreEnv) (store : AttrStore) (primary : Option Text) (source : Text) (e : Fail) (he : e ≠ .fuel) :
    (∃ fuel, preprocess env fuel store primary source = .error e) ↔
      noDirectives source primary = false ∧ ∃ p, Reaches env (startOf store primary source) p ∧ FailsAt env e p := by
  constructor
  · rintro ⟨fuel, h⟩
    have hn : noDirectives source primary = false := by
      cases hn : noDirectives source primary
      · rfl
      · unfold preprocess at h; rw [if_pos hn] at h; cases h
    exact ⟨hn, error_reached env _ _ _ _ _ e ((run_eq hn).mp h) he⟩
  · rintro ⟨hn, p, hr, hf⟩
    obtain ⟨f, hf⟩ := reached_error hr hf primary.isNone (Span.new source) (PState.init store) rfl rfl
    exact ⟨f, (run_eq hn).mpr (hf f (Nat.le_refl _))⟩

/-- Preprocessing returns exactly when the text has no directives, or no value it comes to fails and no files include one
another without end. -/
theorem C14_returns_iff (env : PreEnv) (store : AttrStore) (primary : Option Text) (source : Text) :
    (∃ fuel r, preprocess env fuel store primary source = .ok r) ↔
      noDirectives source primary = true ∨
      (∀ p e, Reaches env (startOf store primary source) p → ¬ FailsAt env e p) ∧
        ¬ EndlessIncludes env (startOf store primary source) := by
  constructor
  · rintro ⟨fuel, r, h⟩
    cases hn : noDirectives source primary
    · right
      unfold preprocess at h
      rw [if_neg (by simp [hn])] at h
      cases hx : processLines env fuel primary primary.isNone (Span.new source) (PState.init store) with
      | error e => rw [hx] at h; cases h
      | ok st =>
        refine ⟨fun p e hr hf => ?_, fun hc => ?_⟩
        · obtain ⟨f, hf⟩ := reached_error hr hf primary.isNone (Span.new source) (PState.init store) rfl rfl
          have := processLines_mono env (Nat.le_max_left fuel f) hx (by simp)
          rw [show processLines env (max fuel f) primary primary.isNone (Span.new source) (PState.init store) = .error e from
            hf _ (Nat.le_max_right fuel f)] at this
          cases this
        · have := chain_fuel env fuel _ (chain_of_endless hc) primary.isNone (Span.new source) (PState.init store) rfl rfl
          rw [show processLines env fuel primary primary.isNone (Span.new source) (PState.init store) = .error .fuel from this]
            at hx
          cases hx
    · exact Or.inl rfl
  · rintro (hn | ⟨hf, hc⟩)
    · exact ⟨0, _, by unfold preprocess; rw [if_pos hn]⟩
    · obtain ⟨outs, σ', hx⟩ := expands_of_acc (acc_of_not_endless hc) (fun q e => hf q e) primary.isNone 1
      obtain ⟨fuel, st, h, _⟩ := processLines_complete hx (Span.new source) (PState.init store) rfl (fun _ => rfl) rfl
      refine ⟨fuel, ?_⟩
      unfold preprocess
      split
      · exact ⟨_, rfl⟩
      · rw [show processLines env fuel primary primary.isNone (Span.new source) (PState.init store) = .ok st from h]
        exact ⟨_, rfl⟩

/-- Preprocessing never ends exactly when it comes to a value whose substitutions never end, or files include one another
without end. -/
theorem C14_never_ends_iff (env : PreEnv) (store : AttrStore) (primary : Option Text) (source : Text) :
    (∀ fuel, preprocess env fuel store primary source = .error .fuel) ↔
      noDirectives source primary = false ∧
      ((∃ p, Reaches env (startOf store primary source) p ∧ FailsAt env .fuel p) ∨
        EndlessIncludes env (startOf store primary source)) := by
  constructor
  · intro h
    have hret : ¬ ∃ fuel r, preprocess env fuel store primary source = .ok r := by
      rintro ⟨fuel, r, h'⟩; rw [h] at h'; cases h'
    rw [C14_returns_iff] at hret
    have hn : noDirectives source primary = false := by
      cases hn : noDirectives source primary
      · rfl
      · exact absurd (Or.inl hn) hret
    refine ⟨hn, Classical.byContradiction fun hno => hret (Or.inr ⟨fun p e hr hf => ?_, fun hc => hno (Or.inr hc)⟩)⟩
    by_cases he : e = .fuel
    · subst he; exact hno (Or.inl ⟨p, hr, hf⟩)
    · obtain ⟨fuel, h'⟩ := (C14_fails_iff env store primary source e he).mpr ⟨hn, p, hr, hf⟩
      rw [h] at h'; cases h'; exact he rfl
  · rintro ⟨hn, ⟨p, hr, hf⟩ | hc⟩ fuel
    · rw [run_eq hn]
      obtain ⟨f, hf⟩ := reached_error hr hf primary.isNone (Span.new source) (PState.init store) rfl rfl
      have h' : processLines env (max fuel f) primary primary.isNone (Span.new source) (PState.init store) = .error .fuel :=
        hf _ (Nat.le_max_right fuel f)
      by_cases h0 : processLines env fuel primary primary.isNone (Span.new source) (PState.init store) = .error .fuel
      · exact h0
      · rw [processLines_mono env (Nat.le_max_left fuel f) rfl h0] at h'
        exact h'
    · rw [run_eq hn]
      exact chain_fuel env fuel _ (chain_of_endless hc) primary.isNone (Span.new source) (PState.init store) rfl rfl

/-! ### The hypotheses are met -/

private def lineA : Text := "include::a[]".toList
private def lineB : Text := "include::b[]".toList

/-- Two files that include each other: `a` is one line including `b`, and `b` is one line including `a`. -/
private def mutualFiles : PreEnv :=
  ⟨fun _ target _ _ => if target = ['a'] then some lineB else if target = ['b'] then some lineA else none, fun _ t => .ok t⟩

omit [Uni] in
private theorem one_line {t : Text} (h1 : '\n' ∉ t) (h2 : t.getLast? ≠ some '\r') : FirstLine t t [] [] :=
  ⟨by simp, h1, Or.inr (Or.inr ⟨rfl, Or.inr rfl⟩), fun ⟨r, h⟩ => by
    rw [h, List.getLast?_concat] at h2; exact absurd rfl h2⟩

private theorem expands_one (σ : Reading) (c : Char) (h1 : c ≠ '{') (h2 : c ≠ '\\') :
    Expands (fun n => σ.attrs.hasAttribute n = true) (attrText σ.attrs) [c] [c] :=
  .other (fun ⟨n, r, h⟩ => by exact h1 (List.cons.inj h.2).1) (fun h => h2 h.1) .nil

omit [Uni] in
private theorem include_line (c : Char) (hc : isWhite c = false) (hb : c ≠ '[') :
    IncludeLine ("include::".toList ++ [c] ++ "[]".toList) [c] none :=
  ⟨⟨[], by simp, Or.inl ⟨rfl, rfl⟩⟩, by simp, by simpa using Ne.symm hb, fun d r e => by cases e; exact hc, fun d r e => by
    have := List.append_inj_right' (s₁ := []) (t₁ := [c]) e rfl
    simp at this; subst this; exact hc⟩

private theorem no_entry (σ : Reading) (t l : Text) (h : l.head? ≠ some ':') : NoEntry σ t l := by
  rintro _ _ _ _ _ ⟨_, ⟨r, rfl⟩, _⟩
  exact h rfl

private theorem opens_a (file : Option Text) (σ : Reading) : OpensFile mutualFiles ⟨file, lineA, σ⟩ ⟨some ['a'], lineB, σ⟩ :=
  .mk (by decide) (one_line (by decide) (by decide)) (no_entry _ _ _ (by decide)) (include_line 'a' (by decide) (by decide))
    (expands_one _ _ (by decide) (by decide)) .none rfl

private theorem opens_b (file : Option Text) (σ : Reading) : OpensFile mutualFiles ⟨file, lineB, σ⟩ ⟨some ['b'], lineA, σ⟩ :=
  .mk (by decide) (one_line (by decide) (by decide)) (no_entry _ _ _ (by decide)) (include_line 'b' (by decide) (by decide))
    (expands_one _ _ (by decide) (by decide)) .none rfl

/-- Two files that include each other do so without end. -/
theorem mutual_endless (file : Option Text) (σ : Reading) : EndlessIncludes mutualFiles ⟨file, lineA, σ⟩ := by
  refine ⟨fun i => if i = 0 then ⟨file, lineA, σ⟩ else if i % 2 = 1 then ⟨some ['a'], lineB, σ⟩ else ⟨some ['b'], lineA, σ⟩,
    rfl, fun i => ⟨_, .refl, ?_⟩⟩
  by_cases h0 : i = 0
  · subst h0; exact opens_a file σ
  · simp only
    rw [if_neg h0, if_neg (show ¬ i + 1 = 0 by omega)]
    by_cases h1 : i % 2 = 1
    · rw [if_pos h1, if_neg (show ¬ (i + 1) % 2 = 1 by omega)]; exact opens_b _ σ
    · rw [if_neg h1, if_pos (show (i + 1) % 2 = 1 by omega)]; exact opens_a _ σ

example (store : AttrStore) : ∀ fuel, preprocess mutualFiles fuel store none lineA = .error .fuel :=
  (C14_never_ends_iff mutualFiles store none lineA).mpr ⟨by decide, Or.inr (mutual_endless _ _)⟩

/-- A file that includes itself until the attribute it sets is known: no ranking of the files exists, and it returns. -/
private def oncePerAttr : PreEnv :=
  ⟨fun _ _ _ s => if s.hasAttribute ['x'] then none else some ":x: 1\ninclude::a[]\nend".toList, fun _ t => .ok t⟩

example : letI := asciiUni
    (preprocess oncePerAttr 9 AttrStore.default none lineA).toOption.map (·.1) =
      some ":x: 1\nUnresolved directive in a - include::a[]\nend\n".toList := by
  decide +kernel

example : letI := asciiUni
    ¬ EndlessIncludes oncePerAttr (startOf AttrStore.default none lineA) := by
  letI := asciiUni
  have h := (C14_returns_iff oncePerAttr AttrStore.default none lineA).mp
    ⟨9, (":x: 1\nUnresolved directive in a - include::a[]\nend\n".toList, [(1, ⟨some ['a'], 1⟩)]), by decide +kernel⟩
  rcases h with h | ⟨_, h⟩
  · exact absurd h (by decide)
  · exact h

/-- Header substitutions that panic on one value. -/
private def panicking : PreEnv := ⟨fun _ _ _ _ => some ":x: bad".toList, fun _ t => if t = "bad".toList then .error .panic else .ok t⟩

example : letI := asciiUni
    ∃ p, Reaches panicking (startOf AttrStore.default none lineA) p ∧ FailsAt panicking .panic p := by
  letI := asciiUni
  exact ((C14_fails_iff panicking AttrStore.default none lineA .panic (by decide)).mp ⟨9, by decide +kernel⟩).2

end Adoc.Props
