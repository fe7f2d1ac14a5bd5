import Verif.Lemmas.Stuck
import Verif.Lemmas.Outcome
import Verif.Props.Total
import Verif.Spec.Reach
/-!
# C21: exactly when parsing never ends
-/

namespace Adoc
open Span Spec Props

variable [Uni]

theorem check_fuel {e : BlockEnv} {s : Span} {stop : Stop} (hd : ∀ st g al t, e.dsubs st g al t ≠ .error .fuel) :
    stop.check e s ≠ .error .fuel := by
  intro h
  cases stop with
  | never => cases h
  | always => cases h
  | peer l mr =>
    unfold Stop.check at h
    simp only [bind, Except.bind] at h
    cases hp : peerOrAncestor e s l mr with
    | ok q => rw [hp] at h; cases h
    | error x =>
      rw [hp] at h; cases h
      unfold peerOrAncestor at hp
      simp only [bind, Except.bind] at hp
      cases hm : BlockMetadata.parse e.dsubs AttrStore.default s with
      | error y =>
        rw [hm] at hp; cases hp
        obtain ⟨t, _, h2⟩ := C27_terminates hm
        exact hd _ _ _ _ h2
      | ok q =>
        obtain ⟨m, mw⟩ := q
        rw [hm] at hp
        simp only at hp
        split at hp
        · cases hp
        · cases ht : parseTitleLine e.ar m.blockStart with
          | error y =>
            rw [ht] at hp; cases hp
            rcases titleLine_cases e.ar m.blockStart _ rfl with ⟨_, e'⟩ | ⟨hm, e'⟩ | ⟨n, hn, hm, e'⟩ | ⟨hi, t, e'⟩ | ⟨l, t, hh, e'⟩ |
              ⟨_, _, _, _, _, e'⟩ <;> rw [e'] at ht <;> try cases ht
            revert ht
            cases e.ar <;> intro ht <;> cases ht
          | ok q =>
            obtain ⟨mi, tw⟩ := q
            rw [ht] at hp
            cases mi with
            | none => cases hp
            | some mi =>
              simp only at hp
              cases hsu : e.ar.succ mr with
              | ok n => rw [hsu] at hp; cases hp
              | error y =>
                rw [hsu] at hp; cases hp
                unfold Arith.succ at hsu
                split at hsu
                · cases hsu
                · cases har : e.ar <;> rw [har] at hsu <;> cases hsu

/-- Reading blocks from a place to which it does not come back runs into a place at which it stands still. -/
theorem loop_reaches {e : BlockEnv} (hs : ∀ st g al t, e.subs st g al t ≠ .error .fuel)
    (hd : ∀ st g al t, e.dsubs st g al t ≠ .error .fuel) : ∀ (n : Nat) (stop : Stop) (acc : Blocks),
    acc.after.data.length < n → blocksLoop e n stop acc = .error .fuel →
    ∃ st q t, Comes e stop acc.state acc.after st q t ∧ StandsStill e st q t := by
  intro n
  have nb : ∀ {src}, ¬ Blame e src .fuel := by
    rintro src ⟨st, g, al, t, _, _, h | h⟩
    · exact hs _ _ _ _ h
    · exact hd _ _ _ _ h
  induction n with
  | zero => intro stop acc hl; exact absurd hl (Nat.not_lt_zero _)
  | succ n ih =>
    intro stop acc hl h
    by_cases hne : acc.after.data = []
    · unfold blocksLoop at h
      rw [if_pos (by simp [hne])] at h
      cases h
    rw [blocksLoop_succ e n stop acc hne] at h
    cases hc : stop.check e acc.after with
    | error y => rw [hc] at h; cases h; exact absurd hc (check_fuel hd)
    | ok c =>
      obtain ⟨b, stop', sw⟩ := c
      rw [hc] at h
      cases b with
      | true => cases h
      | false =>
        simp only [Except.bind, Bool.false_eq_true, if_false] at h
        cases hb : parseBlock e (nestedCall e n) acc.state acc.after with
        | error y =>
          rw [hb] at h; cases h
          have hsh := parseBlock_shape e acc.state acc.after
          generalize hg : (fun nested => parseBlock e nested acc.state acc.after) = g at hsh
          have hgn : ∀ nested, parseBlock e nested acc.state acc.after = g nested := fun nested => by rw [← hg]
          have hb : g (nestedCall e n) = .error .fuel := by rw [← hgn]; exact hb
          cases hsh with
          | plain hp => exact absurd (hp _ hb) nb
          | compound hm ho hok =>
            rename_i m mw context inside closing after src f
            simp only at hb
            have hent : Enters e acc.state acc.after .never acc.state inside := by
              intro nested x hx
              rw [hgn]
              simp only [hx, Except.bind]
            cases hn : nestedCall e n .never acc.state inside with
            | ok maw =>
              rw [hn] at hb
              obtain ⟨b, ws, p', h'⟩ := hok maw
              simp only [Except.bind, h'] at hb
              cases hb
            | error y =>
              rw [hn] at hb; cases hb
              obtain ⟨st, q, t, r1, r2⟩ := ih _ ⟨[], inside.discardEmptyLines, [], [], acc.state⟩ (by
                have h1 := (inside_shorter hm ho).1
                have h2 := suf_len (discardEmptyLines_suf inside)
                simp only
                omega) hn
              exact ⟨st, q, t, .into hne hc hent r1, r2⟩
          | «section» hm hl' ht hok =>
            rename_i m mw mi tw f
            simp only at hb
            have hent : Enters e acc.state acc.after (if m.isDiscrete then Stop.always else .peer mi.item.1 mi.item.1)
                (openSection acc.state m mi.item.1).2.2 mi.after := by
              intro nested x hx
              rw [hgn]
              simp only [hx, Except.bind]
            generalize (if m.isDiscrete then Stop.always else .peer mi.item.1 mi.item.1) = st at hb hent
            cases hn : nestedCall e n st (openSection acc.state m mi.item.1).2.2 mi.after with
            | ok maw =>
              rw [hn] at hb
              exact absurd ((hok maw).1 _ (nestedCall_suf hn) hb) nb
            | error y =>
              rw [hn] at hb; cases hb
              obtain ⟨st, q, t, r1, r2⟩ := ih _ ⟨[], mi.after.discardEmptyLines, [], [], _⟩ (by
                have h1 := title_shorter hm ht
                have h2 := suf_len (discardEmptyLines_suf mi.after)
                simp only
                omega) hn
              exact ⟨st, q, t, .into hne hc hent r1, r2⟩
        | ok q =>
          obtain ⟨r, ws, p'⟩ := q
          cases r with
          | none =>
            refine ⟨stop, acc.state, acc.after, .here, hne, ⟨_, _, hc⟩, ?_⟩
            cases hm : BlockMetadata.parse e.subs acc.state.store acc.after with
            | error x =>
              exfalso
              unfold parseBlock at hb
              have hb' := hb
              simp only [bind, Except.bind] at hb
              cases hf : fastPath e acc.state acc.after with
              | error y => rw [hf] at hb; cases hb
              | ok y =>
                rw [hf] at hb
                cases y with
                | some y => cases hb
                | none =>
                  simp only at hb
                  cases hf : bodyEntryAt e acc.state acc.after with
                  | error y => rw [hf] at hb; cases hb
                  | ok y =>
                    rw [hf] at hb
                    cases y with
                    | some y => cases hb
                    | none => simp only [hm] at hb; cases hb
            | ok y => exact ⟨_, _, rfl, stuck_of_none hne hm hb⟩
          | some mi =>
            rw [hb] at h
            simp only at h
            obtain ⟨st, q, t, r1, r2⟩ := ih _ _ (by
              have h1 := block_shorter hb
              simp only
              omega) h
            exact ⟨st, q, t, .behind hne hc hb r1, r2⟩

/-- A place at which reading stands still is not passed. -/
theorem reaches_forever {e : BlockEnv} {stop st : Stop} {p q : ParserState} {s t : Span} (h : Comes e stop p s st q t)
    (hs : StandsStill e st q t) : ∀ (n : Nat) (acc : Blocks), acc.state = p → acc.after = s →
    blocksLoop e n stop acc = .error .fuel := by
  induction h with
  | here =>
    intro n acc h1 h2
    obtain ⟨stop', sw, hc⟩ := hs.goes
    obtain ⟨m, mw, hm, hst⟩ := hs.stuck
    exact stuck_forever hs.text (none_of_stuck hs.text hm hst (nestedCall e n)) n _ stop' sw acc hc h1 h2
  | behind hne hc hb hrest ih =>
    rename_i stop stop' st p p' q s t sw k mi ws
    have hb : parseBlock e (nestedCall e k) p s = .ok (some mi, ws, p') := hb
    intro n acc h1 h2
    subst h1 h2
    cases n with
    | zero => rfl
    | succ n =>
      rw [blocksLoop_succ e n stop acc hne, hc]
      simp only [Except.bind, Bool.false_eq_true, if_false]
      by_cases hx : parseBlock e (nestedCall e n) acc.state acc.after = .error .fuel
      · rw [hx]
      · have heq : parseBlock e (nestedCall e n) acc.state acc.after = parseBlock e (nestedCall e k) acc.state acc.after := by
          rcases Nat.le_total n k with h | h
          · exact (parseBlock_congr (fun stop p src _ hx => blocksLoop_mono n stop _ hx k h) hx).symm
          · refine parseBlock_congr (fun stop p src _ hx => blocksLoop_mono k stop _ hx n h) ?_
            rw [hb]; nofun
        rw [heq, hb]
        exact ih hs n _ rfl rfl
  | into hne hc hent _ ih =>
    intro n acc h1 h2
    subst h1 h2
    cases n with
    | zero => rfl
    | succ n =>
      rw [blocksLoop_succ e n _ acc hne, hc]
      simp only [Except.bind, Bool.false_eq_true, if_false]
      rw [hent (nestedCall e n) .fuel (ih hs n _ rfl rfl)]

end Adoc

namespace Adoc.Props
open Adoc Adoc.Spec Span

section
variable [Uni]

/-- Exactly where no block is found, in terms of the lines: where reading stands still. -/
theorem C21_stuck_iff {e : BlockEnv} {p : ParserState} {s : Span} {m : BlockMetadata} {mw : List Warning}
    (hne : s.data ≠ []) (hm : BlockMetadata.parse e.subs p.store s = .ok (m, mw)) :
    (∃ nested ws p', parseBlock e nested p s = .ok (none, ws, p')) ↔
      Stuck (m.fields.style = some "literal".toList) (lines s.data) :=
  ⟨fun ⟨_, _, _, h⟩ => stuck_of_none hne hm h, fun h => ⟨fun _ _ _ => .error .fuel, _, _, none_of_stuck hne hm h _⟩⟩

/-- Exactly when parsing never ends: if the substitutions end, parsing does not end exactly if the header is read and
reading the blocks behind it comes to a place at which it stands still. -/
theorem C21_never_iff {e : BlockEnv} {hr : Renderer} {p : ParserState} {text : Text}
    (hs : ∀ st g al t, e.subs st g al t ≠ .error .fuel) (hd : ∀ st g al t, e.dsubs st g al t ≠ .error .fuel) :
    (∀ n, Document.parse e hr n p text = .error .fuel) ↔
      ∃ mi hw store, Header.parse (fun s t => e.subs s .header none t) hr p.store (Span.new text) = .ok (mi, hw, store) ∧
        ∃ st q t, Comes e .never { p with store := store, sectnumlevels := sectnumlevelsOf store }
          mi.after.discardEmptyLines st q t ∧ StandsStill e st q t := by
  constructor
  · intro h
    have h := h (text.length + 1)
    unfold Document.parse at h
    simp only [bind, Except.bind] at h
    cases h1 : Header.parse (fun s t => e.subs s .header none t) hr p.store (Span.new text) with
    | error y =>
      rw [h1] at h; cases h
      obtain ⟨s, t, _, h2⟩ := header_error h1
      exact absurd h2 (hs _ _ _ _)
    | ok q =>
      obtain ⟨mi, hw, store⟩ := q
      rw [h1] at h
      simp only at h
      refine ⟨mi, hw, store, rfl, ?_⟩
      cases h2 : parseBlocksUntil e (text.length + 1) .never { p with store := store, sectnumlevels := sectnumlevelsOf store }
          mi.after with
      | error y =>
        rw [h2] at h; cases h
        refine loop_reaches hs hd _ _ _ ?_ h2
        have g1 := suf_len (header_suf h1)
        have g2 := suf_len (discardEmptyLines_suf mi.after)
        have g4 : (Span.new text).data.length = text.length := rfl
        simp only
        omega
      | ok maw =>
        exfalso
        rw [h2] at h
        obtain ⟨bs, ws, sw, e1, _, _, hrun⟩ := blocksLoop_run _ _ _ _ h2
        obtain ⟨bs', h3⟩ := withPreamble_total hrun
        have e1 : maw.blocks = bs := by simpa using e1
        rw [← e1] at h3
        simp only [h3] at h
        cases h
  · rintro ⟨mi, hw, store, h1, st, q, t, h2, h3⟩ n
    unfold Document.parse
    simp only [bind, Except.bind]
    rw [h1]
    simp only
    have : parseBlocksUntil e n .never { p with store := store, sectnumlevels := sectnumlevelsOf store } mi.after =
      .error .fuel := reaches_forever h2 h3 n _ rfl rfl
    rw [this]

end

/-! ### The conditions are met -/

section
attribute [local instance] asciiUni

private def copying : BlockEnv := ⟨.checked, fun _ _ _ t => .ok t, fun _ _ _ t => .ok t⟩

private theorem never_of {p : ParserState} {text : Text} {n : Nat} (hn : text.length < n)
    (h : (match Document.parse copying Html.renderer n p text with | .error .fuel => true | _ => false) = true) :
    ∀ k, Document.parse copying Html.renderer k p text = .error .fuel := by
  have h : Document.parse copying Html.renderer n p text = .error .fuel := by
    revert h
    generalize Document.parse copying Html.renderer n p text = q
    cases q with
    | ok y => intro h; cases h
    | error x => cases x with
      | panic => intro h; cases h
      | fuel => intro _; rfl
  intro k
  apply Classical.byContradiction
  intro hk
  exact hk ((C21_bound hk n hn).symm.trans h)

/-- Non-vacuity: behind a paragraph and a heading, in an example block, reading stands still at an anchor with nothing
behind it. -/
example : ∃ mi hw store, Header.parse (fun _ t => .ok t) Html.renderer ParserState.default.fresh.store
      (Span.new "a\n\n== S\n\n====\n[[x]]\n====\n".toList) = .ok (mi, hw, store) ∧
    ∃ st q t, Comes copying .never { ParserState.default.fresh with store := store, sectnumlevels := sectnumlevelsOf store }
      mi.after.discardEmptyLines st q t ∧ StandsStill copying st q t :=
  (C21_never_iff (e := copying) (fun _ _ _ _ h => by cases h) (fun _ _ _ _ h => by cases h)).mp (never_of (n := 40) (by decide) (by decide +kernel))

/-- And a document with which reading comes to no such place. -/
example : ¬ ∃ mi hw store, Header.parse (fun _ t => .ok t) Html.renderer ParserState.default.fresh.store
      (Span.new "a\n\n== S\n\n====\n[[x]]\nb\n====\n".toList) = .ok (mi, hw, store) ∧
    ∃ st q t, Comes copying .never { ParserState.default.fresh with store := store, sectnumlevels := sectnumlevelsOf store }
      mi.after.discardEmptyLines st q t ∧ StandsStill copying st q t := by
  intro h
  have h := (C21_never_iff (e := copying) (fun _ _ _ _ h => by cases h) (fun _ _ _ _ h => by cases h)).mpr h 40
  have h' : (Document.parse copying Html.renderer 40 ParserState.default.fresh
    "a\n\n== S\n\n====\n[[x]]\nb\n====\n".toList).toOption.isSome = true := by decide +kernel
  rw [h] at h'
  cases h'

/-- A line that consists of a tab is passed in front of text, where it is the first line of a paragraph. -/
example : ¬ Stuck False (lines "\t\na".toList) := by
  rw [show lines "\t\na".toList = [['\t'], ['a']] by decide]
  rintro ⟨⟨l, r, h, hb⟩ | ⟨taken, rest, hp, hw⟩, _⟩
  · cases h; cases hb
  · cases hp with
    | stop h => rcases h _ _ rfl with h | h <;> cases h; contradiction
    | comment h => obtain ⟨r, h, _⟩ := h; cases h
    | line _ _ _ hp =>
      cases hp with
      | stop h =>
        rcases h _ _ rfl with h | ⟨_, h⟩
        · cases h
        · rcases h with h | ⟨a, h⟩ | ⟨c, hc, n, h⟩ | h | ⟨c, n, hc, h⟩
          · cases h
          · cases h
          · cases h
          · cases h
          · cases h
      | comment h => obtain ⟨r, h, _⟩ := h; cases h
      | line _ _ _ _ => exact absurd (hw ['a'] (by simp) 'a' (by simp)) (by decide)

/-- A blank line at the end is not. -/
example : Stuck False (lines "\n".toList) :=
  ⟨Or.inr ⟨[], [[]], .stop fun l r h => by cases h; exact Or.inl rfl, nofun⟩, [], [], .stop nofun,
    ⟨[], [], .stop nofun, nofun⟩, Or.inl rfl⟩

end

end Adoc.Props
