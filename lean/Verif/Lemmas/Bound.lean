import Verif.Lemmas.Total
/-!
# How long the block parser can run

An iteration that finds no block changes nothing, so the loop never ends; every other iteration consumes text.
-/

namespace Adoc
open Span Spec Props

variable [Uni]

/-- The call for nested blocks made by the loop. -/
def nestedCall (e : BlockEnv) (n : Nat) : Nested :=
  fun stop p source => blocksLoop e n stop ⟨[], source.discardEmptyLines, [], [], p⟩

theorem blocksLoop_succ (e : BlockEnv) (n : Nat) (stop : Stop) (acc : Blocks) (hne : acc.after.data ≠ []) :
    blocksLoop e (n + 1) stop acc = (stop.check e acc.after).bind fun c =>
      if c.1 then .ok { acc with stopWarnings := acc.stopWarnings ++ c.2.2 }
      else (parseBlock e (nestedCall e n) acc.state acc.after).bind fun q =>
        match q.1 with
        | some mi => blocksLoop e n c.2.1
            ⟨acc.blocks ++ [mi.item], mi.after, acc.warnings ++ q.2.1, acc.stopWarnings ++ c.2.2, q.2.2⟩
        | none => blocksLoop e n c.2.1
            ⟨acc.blocks, acc.after, acc.warnings ++ q.2.1, acc.stopWarnings ++ c.2.2, q.2.2⟩ := by
  rw [blocksLoop, if_neg hne]
  rfl

/-- The text behind nested blocks. -/
theorem nestedCall_suf {e : BlockEnv} {n : Nat} {stop : Stop} {p : ParserState} {s : Span} {maw : Blocks}
    (h : nestedCall e n stop p s = .ok maw) : Suf maw.after s := by
  obtain ⟨bs, ws, sw, _, _, _, hr⟩ := blocksLoop_run _ _ _ _ h
  obtain ⟨k, hk, e', _⟩ := run_tidy hr
  simp only at e' hk
  rw [e']
  exact (dropN_suf _ _).trans (discardEmptyLines_suf _)

omit [Uni] in
theorem suf_len {a s : Span} (h : Suf a s) : a.data.length ≤ s.data.length := by
  obtain ⟨k, _, e⟩ := h
  rw [e, dropN_data, List.length_drop]; omega

/-- A block found without nested blocks consumes text. -/
theorem leaf_shorter {e : BlockEnv} {p p' : ParserState} {s : Span} {b : Block} {after : Span} {ws : List Warning}
    (h : LeafStep e p s (some ⟨b, after⟩) ws p') : after.data.length < s.data.length := by
  obtain ⟨⟨k, hk, e1, hs, c, hc, _⟩, _⟩ := leaf_geo h
  rw [e1, dropN_data, List.length_drop]
  have : k ≠ 0 := by
    rintro rfl
    obtain ⟨i, j, _, e2⟩ := hs
    rw [e2] at hc
    simp [dropN_data, takeN_data] at hc
  omega

theorem inside_shorter {subs : Subs} {store : AttrStore} {s : Span} {m : BlockMetadata} {mw : List Warning} {context : Text}
    {inside closing after src : Span} (hm : BlockMetadata.parse subs store s = .ok (m, mw))
    (ho : CompoundOpen m context inside closing after src) :
    inside.data.length < s.data.length ∧ after.data.length < s.data.length := by
  obtain ⟨_, _, _, h, h'⟩ := compound_geo hm ho
  obtain ⟨h1, h2⟩ := meta_suf hm
  have := suf_len h2
  have := suf_len h1
  have hd : m.blockStart.data ≠ [] := by intro h0; rw [h0] at h; simp at h
  have := takeLine_progress _ hd
  have := suf_len h'
  exact ⟨by omega, by omega⟩

theorem title_shorter {subs : Subs} {store : AttrStore} {s : Span} {m : BlockMetadata} {mw tw : List Warning} {ar : Arith}
    {mi : MI (Nat × Span)} (hm : BlockMetadata.parse subs store s = .ok (m, mw))
    (ht : parseTitleLine ar m.blockStart = .ok (some mi, tw)) : mi.after.data.length < s.data.length := by
  obtain ⟨h1, h2, _⟩ := titleLine_geo ht
  obtain ⟨h3, h4⟩ := meta_suf hm
  have := suf_len h3
  have := suf_len h4
  have := takeLine_progress _ h1
  rw [h2]; omega

/-- The result of an iteration only depends on the nested calls for shorter texts. -/
theorem parseBlock_congr {e : BlockEnv} {nested nested' : Nested} {p : ParserState} {s : Span}
    (hn : ∀ stop p src, src.data.length < s.data.length → nested stop p src ≠ .error .fuel →
      nested' stop p src = nested stop p src)
    (h : parseBlock e nested p s ≠ .error .fuel) : parseBlock e nested' p s = parseBlock e nested p s := by
  have hsh := parseBlock_shape e p s
  generalize hf : (fun nested => parseBlock e nested p s) = F at hsh
  have e1 : parseBlock e nested p s = F nested := by rw [← hf]
  have e2 : parseBlock e nested' p s = F nested' := by rw [← hf]
  rw [e1] at h
  rw [e1, e2]
  have key : ∀ {stop p' src} {f : Blocks → BlockRes}, src.data.length < s.data.length →
      (nested stop p' src).bind f ≠ .error .fuel → (nested' stop p' src).bind f = (nested stop p' src).bind f := by
    intro stop p' src f hl hne
    rw [hn stop p' src hl]
    intro hx
    rw [hx] at hne
    exact hne rfl
  cases hsh with
  | plain _ => rfl
  | compound hm hc _ => exact key (inside_shorter hm hc).1 h
  | «section» hm hi ht _ => exact key (title_shorter hm ht) h

/-- A block consumes text. -/
theorem block_shorter {e : BlockEnv} {n : Nat} {p p' : ParserState} {s : Span} {mi : MI Block} {ws : List Warning}
    (h : parseBlock e (nestedCall e n) p s = .ok (some mi, ws, p')) : mi.after.data.length < s.data.length := by
  have hs := parseBlock_step h
  generalize hr : some mi = r at hs
  cases hs with
  | leaf hl => subst hr; exact leaf_shorter hl
  | compound hm hc hn => cases hr; exact (inside_shorter hm.parse hc).2
  | «section» hm hi ht hn _ =>
    cases hr
    have := suf_len (nestedCall_suf hn)
    rw [discard_marked hi] at ht
    have := title_shorter hm.parse ht
    simp only; omega

/-- When no block is found nothing changes. -/
theorem block_none {e : BlockEnv} {nested : Nested} {p p' : ParserState} {s : Span} {ws : List Warning}
    (h : parseBlock e nested p s = .ok (none, ws, p')) : p' = p ∧ ∀ nested', parseBlock e nested' p s = .ok (none, ws, p') := by
  refine ⟨?_, fun nested' => ?_⟩
  · have hs := parseBlock_step h
    generalize hr : (none : Option (MI Block)) = r at hs
    cases hs with
    | leaf hl =>
      subst hr
      generalize hr : (none : Option (MI Block)) = r at hl
      cases hl <;> cases hr
      rename_i hp
      exact (parseSimple_none hp).1
    | compound => cases hr
    | «section» => cases hr
  · have hsh := parseBlock_shape e p s
    generalize hf : (fun nested => parseBlock e nested p s) = F at hsh
    have e1 : parseBlock e nested p s = F nested := by rw [← hf]
    have e2 : parseBlock e nested' p s = F nested' := by rw [← hf]
    rw [e1] at h
    rw [e2]
    cases hsh with
    | plain _ => exact h
    | compound hm hc hb' =>
      simp only at h
      generalize nested .never p _ = q at h
      cases q with
      | error x => cases h
      | ok maw =>
        obtain ⟨b, ws', p'', hb⟩ := hb' maw
        rw [Except.bind, hb] at h; cases h
    | «section» hm hi ht hb' =>
      simp only at h
      generalize nested _ _ _ = q at h
      cases q with
      | error x => cases h
      | ok maw =>
        obtain ⟨b, hb⟩ := (hb' maw).2 _ h
        cases hb

omit [Uni] in
theorem succ_small {n : Nat} (h : n ≤ 5) : Arith.checked.succ n = .ok (n + 1) := by
  unfold Arith.succ
  have : n + 1 < Arith.size := by have : 6 < Arith.size := by decide
                                  omega
  simp [this]

/-- The test gives the same answer again. -/
theorem check_again {e : BlockEnv} {s : Span} {stop stop' : Stop} {ws : List Warning}
    (h : stop.check e s = .ok (false, stop', ws)) : ∃ stop'' ws', stop'.check e s = .ok (false, stop'', ws') := by
  cases stop with
  | never => cases h; exact ⟨_, _, rfl⟩
  | always => cases h
  | peer l mr =>
    unfold Stop.check at h
    simp only [bind, Except.bind] at h
    cases hp : peerOrAncestor e s l mr with
    | error x => rw [hp] at h; cases h
    | ok q =>
      obtain ⟨b, mr', ws'⟩ := q
      rw [hp] at h
      cases h
      unfold peerOrAncestor at hp
      simp only [bind, Except.bind] at hp
      cases hm : BlockMetadata.parse e.dsubs AttrStore.default s with
      | error x => rw [hm] at hp; cases hp
      | ok q =>
        obtain ⟨m, mw⟩ := q
        rw [hm] at hp
        simp only at hp
        unfold Stop.check peerOrAncestor
        simp only [bind, Except.bind, hm]
        cases hd : m.isDiscrete with
        | true => exact ⟨_, _, rfl⟩
        | false =>
          rw [hd] at hp
          simp only [Bool.false_eq_true, if_false] at hp ⊢
          cases ht : parseTitleLine e.ar m.blockStart with
          | error x => rw [ht] at hp; cases hp
          | ok q =>
            obtain ⟨mi, tw⟩ := q
            rw [ht] at hp
            simp only at hp ⊢
            cases mi with
            | none => exact ⟨_, _, rfl⟩
            | some mi =>
              simp only at hp ⊢
              cases hl : e.ar.succ mr with
              | error x => rw [hl] at hp; cases hp
              | ok k =>
                rw [hl] at hp
                simp only [Except.ok.injEq, Prod.mk.injEq] at hp
                obtain ⟨h1, rfl, _⟩ := hp
                obtain ⟨k', hk⟩ : ∃ k', e.ar.succ mi.item.1 = .ok k' := by
                  cases har : e.ar with
                  | wrapping => unfold Arith.succ; split <;> exact ⟨_, rfl⟩
                  | checked =>
                    rw [har] at ht
                    have := (titleLine_checked ht).1.2.1
                    exact ⟨_, succ_small this⟩
                rw [hk]
                simp only
                rw [h1]
                exact ⟨_, _, rfl⟩

/-- When no block is found the loop never ends. -/
theorem stuck_forever {e : BlockEnv} {nested : Nested} {p p' : ParserState} {s : Span} {ws : List Warning}
    (hne : s.data ≠ []) (hb : parseBlock e nested p s = .ok (none, ws, p')) : ∀ (n : Nat) (stop stop' : Stop)
    (sw : List Warning) (acc : Blocks), stop.check e s = .ok (false, stop', sw) → acc.state = p → acc.after = s →
    blocksLoop e n stop acc = .error .fuel := by
  intro n
  induction n with
  | zero => intros; rfl
  | succ n ih =>
    intro stop stop' sw acc hc hp hs
    subst hp hs
    obtain ⟨rfl, hb'⟩ := block_none hb
    rw [blocksLoop_succ e n stop acc hne, hc]
    simp only [Except.bind, Bool.false_eq_true, if_false, hb' (nestedCall e n)]
    obtain ⟨stop'', sw'', hc'⟩ := check_again hc
    exact ih _ _ _ _ hc' rfl rfl

/-- More iterations do not change the result. -/
theorem blocksLoop_mono {e : BlockEnv} : ∀ (n : Nat) (stop : Stop) (acc : Blocks), blocksLoop e n stop acc ≠ .error .fuel →
    ∀ m, n ≤ m → blocksLoop e m stop acc = blocksLoop e n stop acc := by
  intro n
  induction n with
  | zero => intro stop acc h; exact absurd rfl h
  | succ n ih =>
    intro stop acc h m hm
    obtain ⟨m, rfl⟩ : ∃ k, m = k + 1 := ⟨m - 1, by omega⟩
    by_cases hne : acc.after.data = []
    · rw [blocksLoop, if_pos hne, blocksLoop, if_pos hne]
    · rw [blocksLoop_succ e n stop acc hne] at h ⊢
      rw [blocksLoop_succ e m stop acc hne]
      cases hc : stop.check e acc.after with
      | error x => simp only [Except.bind]
      | ok c =>
        rw [hc] at h
        simp only [Except.bind] at h ⊢
        cases hh : c.1 with
        | true => simp only [if_true]
        | false =>
          rw [hh] at h
          simp only [Bool.false_eq_true, if_false] at h ⊢
          have hpb : parseBlock e (nestedCall e n) acc.state acc.after ≠ .error .fuel := by
            intro hx; rw [hx] at h; exact h rfl
          have hcg := parseBlock_congr (nested := nestedCall e n) (nested' := nestedCall e m)
            (fun stop p src _ hx => ih stop _ hx m (by omega)) hpb
          rw [hcg]
          cases hq : parseBlock e (nestedCall e n) acc.state acc.after with
          | error x => simp only
          | ok q =>
            obtain ⟨b, ws, p'⟩ := q
            rw [hq] at h
            simp only at h ⊢
            cases b with
            | none => exact ih _ _ h m (by omega)
            | some mi => exact ih _ _ h m (by omega)

/-- As many iterations as the text has characters, and one more, suffice. -/
theorem blocksLoop_bound {e : BlockEnv} : ∀ (n : Nat) (stop : Stop) (acc : Blocks), blocksLoop e n stop acc ≠ .error .fuel →
    blocksLoop e (acc.after.data.length + 1) stop acc = blocksLoop e n stop acc := by
  intro n
  induction n with
  | zero => intro stop acc h; exact absurd rfl h
  | succ n ih =>
    intro stop acc h
    by_cases hne : acc.after.data = []
    · rw [blocksLoop, if_pos hne, blocksLoop, if_pos hne]
    · have h0 := h
      rw [blocksLoop_succ e n stop acc hne] at h ⊢
      rw [blocksLoop_succ e _ stop acc hne]
      cases hc : stop.check e acc.after with
      | error x => simp only [Except.bind]
      | ok c =>
        rw [hc] at h
        simp only [Except.bind] at h ⊢
        cases hh : c.1 with
        | true => simp only [if_true]
        | false =>
          rw [hh] at h
          simp only [Bool.false_eq_true, if_false] at h ⊢
          have hpb : parseBlock e (nestedCall e n) acc.state acc.after ≠ .error .fuel := by
            intro hx; rw [hx] at h; exact h rfl
          have up : ∀ stop (acc' : Blocks), acc'.after.data.length < acc.after.data.length →
              blocksLoop e n stop acc' ≠ .error .fuel →
              blocksLoop e acc.after.data.length stop acc' = blocksLoop e n stop acc' := by
            intro stop acc' hl hx
            have h1 := ih stop acc' hx
            rw [← h1]
            exact blocksLoop_mono _ _ _ (by rw [h1]; exact hx) _ (by omega)
          have hcg := parseBlock_congr (nested := nestedCall e n) (nested' := nestedCall e acc.after.data.length)
            (fun stop p src hl hx => up stop _ (Nat.lt_of_le_of_lt (suf_len (discardEmptyLines_suf _)) hl) hx) hpb
          rw [hcg]
          cases hq : parseBlock e (nestedCall e n) acc.state acc.after with
          | error x => simp only
          | ok q =>
            obtain ⟨b, ws, p'⟩ := q
            rw [hq] at h
            simp only at h ⊢
            cases b with
            | none =>
              exfalso
              obtain ⟨b, stop', sw⟩ := c
              simp only at hh
              subst hh
              exact h0 (stuck_forever hne hq (n + 1) _ _ _ _ hc rfl rfl)
            | some mi => exact up _ _ (block_shorter hq) h

end Adoc
