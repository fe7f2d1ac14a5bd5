import Verif.Lemmas.Kinds
import Verif.Spec.Reported
/-!
# What blocks report about the lines above them
-/

namespace Adoc
open Spec Span

variable [Uni]

private theorem loop_reftext {subs : Subs} {store : AttrStore} : ∀ {n : Nat} {st st' : MetaState},
    metaLoop subs store n st = .ok st' → (st.anchor = none → st.reftext = none) → st'.anchor = none → st'.reftext = none
  | 0, _, _, h, _ => by cases h
  | n + 1, st, st', h, hi => by
    rw [metaLoop] at h
    simp only [bind, Except.bind] at h
    have step : ∀ found st1, metaStep subs store st = .ok (found, st1) → st1.anchor = none → st1.reftext = none := by
      intro found st1 hs
      have hanchor : ∀ {b st2}, anchorStep st = (b, st2) → st2.anchor = none → st2.reftext = none := by
        intro b st2 ha
        unfold anchorStep at ha
        split at ha
        · split at ha
          · cases ha; exact hi
          · dsimp only at ha
            split at ha
            · cases ha; nofun
            · cases ha; exact hi
        · cases ha; exact hi
      unfold metaStep at hs
      split at hs
      · cases hs; exact hi
      · split at hs
        · rename_i st2 ha
          cases hs; exact hanchor ha
        · rename_i st2 ha
          split at hs
          · simp only [bind, Except.bind] at hs
            split at hs
            · cases hs
            · split at hs
              · cases hs; have k := hanchor ha; exact k
              · cases hs; exact hanchor ha
          · cases hs; exact hanchor ha
    cases hs : metaStep subs store st with
    | error x => rw [hs] at h; cases h
    | ok q =>
      obtain ⟨found, st1⟩ := q
      rw [hs] at h
      dsimp only at h
      split at h
      · exact loop_reftext h (step _ _ hs)
      · cases h; exact step _ _ hs

/-- What is read in front of a block. -/
theorem meta_reports {subs : Subs} {store : AttrStore} {s : Span} {m : BlockMetadata} {mw : List Warning}
    (h : BlockMetadata.parse subs store s = .ok (m, mw)) :
    ∃ is, MetaItems [] (lines m.source.data) is (lines m.blockStart.data) ∧
      Relates (subs store .normal none) store is m.fields := by
  obtain ⟨is, h1, _, h2, h3, h4⟩ := Props.C27_reads h
  obtain ⟨h5, w1, w2, _, h6, _⟩ := Props.C27_values h
  refine ⟨is, ?_, h2, ?_, h3, ?_, h4, fun a ha => ⟨w1, h6 a ha⟩⟩
  · rw [meta_source h, lines_discardEmptyLines]; exact h1
  · rw [← h2]
    rcases h5 with ⟨e1, e2⟩ | ⟨a, t, e1, e2, e3⟩
    · rw [e1, e2]; rfl
    · rw [e1, e2, Option.map_some, Option.mapM_some, e3]; rfl
  · intro hr
    unfold BlockMetadata.parse at h
    simp only [bind, Except.bind] at h
    cases hl : metaLoop subs store 4 { blockStart := s.discardEmptyLines } with
    | error x => rw [hl] at h; cases h
    | ok st =>
      rw [hl] at h
      dsimp only at h
      split at h
      · cases h
      · cases h
        dsimp only at hr ⊢
        cases ha : st.anchor with
        | some _ => rfl
        | none => rw [loop_reftext hl (fun _ => rfl) ha] at hr; cases hr

private theorem reports_nothing (render : Text → Res Text) (store : AttrStore) : Relates render store [] {} :=
  ⟨rfl, rfl, rfl, nofun, rfl, nofun⟩

theorem made_reports {e : BlockEnv} {T : Span} {b : Block} (h : Made e T b) (hne : ¬ IsEntry b) (hnp : b.kind ≠ .preamble) :
    ∃ body k is rest store f, Sub body T ∧ b.source = body.takeN k ∧ MetaItems [] (lines body.data) is rest ∧
      Relates (e.subs store .normal none) store is f ∧ Keeps b is rest f := by
  have ahead : ∀ {p : ParserState} {s : Span} {m : BlockMetadata} {mw : List Warning} {k : Nat},
      BlockMetadata.parse e.subs p.store s = .ok (m, mw) → Sub s T → b.source = m.source.takeN k →
      (¬ Forgets b ∧ b.fields = m.fields ∨ Forgets b ∧ b.fields = { m.fields with anchorReftext := none }) →
      ∃ body k is rest store f, Sub body T ∧ b.source = body.takeN k ∧ MetaItems [] (lines body.data) is rest ∧
        Relates (e.subs store .normal none) store is f ∧ Keeps b is rest f := by
    intro p s m mw k hm hs hk hf
    obtain ⟨is, h1, h2⟩ := meta_reports hm
    refine ⟨m.source, k, is, _, p.store, m.fields, ?_, hk, h1, h2, ?_⟩
    · rw [meta_source hm]; exact (discardEmptyLines_suf s).sub.trans hs
    · rcases hf with hf | hf
      · exact Or.inl hf
      · exact Or.inr (Or.inl hf)
  cases h with
  | preamble => exact absurd rfl hnp
  | compound hm ho hs hal =>
    exact ahead hm.parse hs rfl (Or.inl ⟨(by rintro (⟨_, _, _, h⟩ | ⟨_, h⟩) <;> cases h), rfl⟩)
  | «section» hm _ _ _ hs hal =>
    exact ahead hm.parse hs rfl (Or.inl ⟨(by rintro (⟨_, _, _, h⟩ | ⟨_, h⟩) <;> cases h), rfl⟩)
  | leaf h hs hal =>
    generalize hr : (some (⟨b, _⟩ : MI Block)) = r at h
    cases h with
    | fast hf =>
      cases hr
      obtain ⟨c, r, mi, h1, h2, h3, hp, rfl, rfl⟩ := fast_some hf
      obtain ⟨_, k, h4⟩ := parseLines_lineSuf hp
      obtain ⟨g1, _, _⟩ := fast_form h1 h2 h3
      exact ⟨_, k, [], _, AttrStore.default, {}, hs, h4, g1, reports_nothing _ _,
        Or.inl ⟨(by rintro (⟨_, _, _, h⟩ | ⟨_, h⟩) <;> cases h), rfl⟩⟩
    | entry hb => cases hr; exact absurd ⟨_, rfl⟩ hne
    | raw hm hp =>
      cases hr
      obtain ⟨_, k, g2⟩ := raw_lineSuf hp
      exact ahead hm.parse hs g2 (Or.inl ⟨(by rintro (⟨_, _, _, h⟩ | ⟨_, h⟩) <;> cases h), rfl⟩)
    | media hm hp =>
      cases hr
      obtain ⟨_, k, g2⟩ := media_lineSuf (mediaAt_some hp).2
      exact ahead hm.parse hs g2 (Or.inr ⟨Or.inl ⟨_, _, _, rfl⟩, rfl⟩)
    | brk hm _ hp =>
      cases hr
      obtain ⟨_, k, g2⟩ := break_lineSuf (breakAt_some hp)
      exact ahead hm.parse hs g2 (Or.inr ⟨Or.inr ⟨_, rfl⟩, rfl⟩)
    | simple hfb hp =>
      subst hr
      obtain ⟨m', sb, h1, h2, rfl, h3, _⟩ := parseSimple_some hp
      obtain ⟨_, k, g2⟩ := simple_lineSuf h2
      rw [h1] at g2
      rcases h3 with ⟨rfl, _⟩ | ⟨rfl, hlit, hem, hno, _⟩
      · exact ahead hfb.parse hs g2 (Or.inl ⟨(by rintro (⟨_, _, _, h⟩ | ⟨_, h⟩) <;> cases h), rfl⟩)
      · obtain ⟨is, i1, i2⟩ := meta_reports hfb.parse
        refine ⟨_, k, is, _, _, _, ?_, g2, i1, i2, Or.inr (Or.inr ⟨?_, simple_none hno, ⟨_, _, rfl⟩, rfl⟩)⟩
        · rw [meta_source hfb.parse]; exact (discardEmptyLines_suf _).sub.trans hs
        · rintro rfl
          unfold BlockMetadata.isEmpty at hem
          have ha' : _ = none := i2.attrs
          have hti : _ = none := i2.titleSource
          rw [Option.map_eq_none_iff] at ha' hti
          rw [ha'] at hem
          rcases (Props.C27_values hfb.parse).1 with ⟨_, ht⟩ | ⟨_, _, ht, _⟩
          · rw [ht] at hem; cases hem
          · rw [hti] at ht; cases ht

end Adoc
