import Verif.Spec.Warnings
import Verif.Lemmas.Unterminated
import Verif.Lemmas.Kinds
/-!
# Warnings are about real faults
-/

namespace Adoc
open Span Spec

variable [Uni]

theorem Meek.warranted {w : Warning} (h : Meek w.warning) (ar : Arith) : Warranted ar w := by
  obtain ⟨sp, w⟩ := w
  cases w <;> first | exact h.elim | trivial

/-- All warnings are warranted. -/
def Just (ar : Arith) (ws : List Warning) : Prop := ∀ w ∈ ws, Warranted ar w

theorem just_nil {ar : Arith} : Just ar [] := fun w hw => by cases hw

theorem just_one {ar : Arith} {w : Warning} (h : Warranted ar w) : Just ar [w] := fun _ hw => by
  rw [List.mem_singleton.mp hw]; exact h

theorem Just.append {ar : Arith} {a b : List Warning} (ha : Just ar a) (hb : Just ar b) : Just ar (a ++ b) := by
  intro w hw
  rcases List.mem_append.mp hw with hw | hw
  · exact ha w hw
  · exact hb w hw

theorem meta_just {ar : Arith} {subs : Subs} {store : AttrStore} {s : Span} {m : BlockMetadata} {mw : List Warning}
    (h : BlockMetadata.parse subs store s = .ok (m, mw)) : Just ar mw :=
  fun w hw => (meta_meek h w hw).2.warranted ar

theorem titleLine_just {ar : Arith} {s : Span} {mi : Option (MI (Nat × Span))} {tw : List Warning}
    (h : parseTitleLine ar s = .ok (mi, tw)) : Just ar tw := by
  rcases titleLine_cases ar s _ rfl with ⟨_, e⟩ | ⟨hm, e⟩ | ⟨n, hn, hm, e⟩ | ⟨_, t, e⟩ | ⟨l, t, _, e⟩ | ⟨_, _, _, _, _, e⟩
  · rw [e] at h; cases h; exact just_nil
  · rw [e] at h; cases h; exact just_one hm
  · rw [e] at h; cases h
    refine just_one ⟨Nat.le_sub_one_of_lt hn, ?_⟩
    rw [Nat.sub_add_cancel (by omega)]
    exact hm
  · rw [e] at h
    cases ar with
    | checked => cases h
    | wrapping => cases h; exact just_nil
  · rw [e] at h; cases h; exact just_nil
  · rw [e] at h; cases h; exact just_nil

theorem noHeading_just {e : BlockEnv} {m : BlockMetadata} {sw : List Warning} (h : NoHeading e m sw) : Just e.ar sw := by
  rcases h with rfl | h
  · exact just_nil
  · exact titleLine_just h

/-- The first line of some text, and of the block that begins there. -/
theorem metadata_first_line {subs : Subs} {store : AttrStore} {s : Span} {m : BlockMetadata} {mw : List Warning}
    (h : BlockMetadata.parse subs store s = .ok (m, mw)) (hne : m.blockStart.data ≠ []) :
    s.takeNormalizedLine.item.data.all Span.isBlank = true ∨
      (∃ c r, s.takeNormalizedLine.item.data = c :: r ∧ (c = '.' ∨ c = '[')) ∨
      s.takeNormalizedLine.item.data = m.blockStart.takeNormalizedLine.item.data := by
  cases hb : s.takeNormalizedLine.item.data.all Span.isBlank with
  | true => exact Or.inl rfl
  | false =>
    right
    have hms : m.source.data ≠ [] := fun h0 => hne (suf_nil (meta_suf h).2 h0)
    have hs : s.data ≠ [] := fun h0 => hms (suf_nil (meta_suf h).1 h0)
    have e1 := lines_cons s hs
    have e2 := lines_cons m.source hms
    have e3 := lines_discardEmptyLines s
    rw [← meta_source h, e1, List.dropWhile_cons, if_neg (by rw [hb]; simp), e2] at e3
    have e4 := (List.cons.inj e3).1
    rw [← e4]
    rcases meta_head h with ⟨h1, _⟩ | ⟨c, r, h1, h2⟩
    · right; rw [h1]
    · left
      obtain ⟨w, hw, hc⟩ := normLine_rest m.source
      cases hd : m.source.takeNormalizedLine.item.data with
      | cons x y =>
        rw [hd, h1] at hw
        have := (List.cons.inj hw).1
        subst this
        exact ⟨_, _, rfl, h2⟩
      | nil =>
        rw [hd, h1, List.nil_append] at hw
        rcases hc c r hw.symm with rfl | rfl | rfl <;> rcases h2 with h2 | h2 <;> cases h2

theorem check_just {e : BlockEnv} {s : Span} {stop stop' : Stop} {b : Bool} {sw : List Warning}
    (h : stop.check e s = .ok (b, stop', sw)) : Just e.ar sw := by
  cases stop with
  | never => cases h; exact just_nil
  | always => cases h; exact just_nil
  | peer level mr =>
    unfold Stop.check peerOrAncestor at h
    simp only [bind, Except.bind] at h
    cases hm : BlockMetadata.parse e.dsubs AttrStore.default s with
    | error x => rw [hm] at h; cases h
    | ok y =>
      obtain ⟨m, mw⟩ := y
      rw [hm] at h
      simp only at h
      cases hd : m.isDiscrete with
      | true => rw [hd] at h; cases h; exact just_nil
      | false =>
        rw [hd] at h
        simp only [Bool.false_eq_true, if_false] at h
        cases ht : parseTitleLine e.ar m.blockStart with
        | error x => rw [ht] at h; cases h
        | ok y =>
          obtain ⟨mi, tw⟩ := y
          have htw := titleLine_just ht
          rw [ht] at h
          cases mi with
          | none => cases h; exact htw
          | some mi =>
            simp only at h
            cases hl : e.ar.succ mr with
            | error x => rw [hl] at h; cases h
            | ok limit =>
              rw [hl] at h
              cases h
              refine htw.append fun w hw => ?_
              split at hw
              · rw [List.mem_singleton.mp hw]
                rename_i hgt
                intro har
                rw [har] at hl ht
                have hh := (titleLine_checked ht).1
                have : limit = mr + 1 := by
                  unfold Arith.succ at hl
                  simp only at hl
                  split at hl
                  · exact (Except.ok.inj hl).symm
                  · cases hl
                have hne : m.blockStart.data ≠ [] := by
                  intro h0
                  obtain ⟨w, hw, _⟩ := normLine_rest m.blockStart
                  rw [h0] at hw
                  have h1 := (List.append_eq_nil_iff.mp hw.symm).1
                  obtain ⟨_, _, _, _, _, _, _, _, h2⟩ := hh
                  rw [h1] at h2
                  simp at h2
                have hf := metadata_first_line hm hne
                show mr + 1 < mi.item.1 ∧ mi.item.1 ≤ 5 ∧ (s.takeNormalizedLine.item.data.all Span.isBlank = true ∨
                  (∃ c r, s.takeNormalizedLine.item.data = c :: r ∧ (c = '.' ∨ c = '[')) ∨
                    ∃ title, Heading mi.item.1 title s.takeNormalizedLine.item.data)
                refine ⟨by omega, hh.2.1, ?_⟩
                rcases hf with hf | hf | hf
                · exact Or.inl hf
                · exact Or.inr (Or.inl hf)
                · exact Or.inr (Or.inr ⟨_, by rw [hf]; exact hh⟩)
              · cases hw

theorem register_just {ar : Arith} (p : ParserState) (m : Meta) (sp : Span) : Just ar (registerBlockId p m sp).2 := by
  unfold registerBlockId
  intro w hw
  split at hw
  · split at hw
    · cases hw
    · rw [List.mem_singleton.mp hw]; trivial
  · cases hw

theorem entry_just {ar : Arith} (s : AttrStore) (a : Attribute) : Just ar (s.setFromBody a).2.toList := by
  intro w hw
  unfold AttrStore.setFromBody at hw
  simp only at hw
  split at hw
  · simp at hw; subst hw; trivial
  · simp at hw

theorem raw_just {ar : Arith} {subs : Subs} {store : AttrStore} {m : BlockMetadata} {rb : RawBlock} {after : Span} {ws : List Warning}
    (hm : Suf m.blockStart m.source) (h : RawBlock.parse subs store m = .ok (some (⟨rb, after⟩, ws))) : Just ar ws := by
  have hd : ∃ c, RawDelim c m.blockStart.takeNormalizedLine.item.data :=
    Classical.byContradiction fun hn => by
      have := rawBlock_none (subs := subs) (store := store) hn
      rw [h] at this; cases this
  obtain ⟨c, hc⟩ := hd
  rcases rawBlock_spec (subs := subs) (store := store) rfl hc hm with
    ⟨_, _, _, _, _, _, _, _, _, _, _, _, _, _, _, e⟩ | ⟨_, _, _, _, _, _, _, _, _, _, _, e⟩
  · rw [e] at h
    generalize subs _ _ _ _ = q at h
    cases q with
    | error x => cases h
    | ok r => cases h; exact just_nil
  · rw [e] at h
    cases h
    exact just_one (Or.inl ⟨c, hc⟩)

/-- The report that a block is missing. -/
theorem missing_just {ar : Arith} {e : BlockEnv} {p : ParserState} {s : Span} {m : BlockMetadata} {mw : List Warning} {store : AttrStore}
    (hm : BlockMetadata.parse e.subs p.store s = .ok (m, mw)) (he : m.isEmpty = false)
    (hp : SimpleBlock.parse e.subs store m = .ok none) :
    Warranted ar ⟨m.source, .missingBlockAfterTitleOrAttributeList⟩ := by
  obtain ⟨is, h1, h2⟩ := meta_begun hm
  refine ⟨is, _, h1, ?_, simple_none hp⟩
  have ht := (Props.C27_values hm).1
  unfold BlockMetadata.isEmpty at he
  cases ha : m.fields.attrlist with
  | some a =>
    have := h2.attrs
    rw [ha, Option.map_some] at this
    obtain ⟨i, hi, e⟩ := List.exists_of_findSome?_eq_some this.symm
    cases i with
    | attrs t => exact ⟨_, hi, nofun⟩
    | title t => cases e
    | anchor t r => cases e
  | none =>
    rw [ha] at he
    rcases ht with ⟨_, ht⟩ | ⟨sp, t, hts, _, _⟩
    · rw [ht] at he; simp at he
    · have := h2.title
      rw [hts, Option.map_some] at this
      obtain ⟨i, hi, e⟩ := List.exists_of_findSome?_eq_some this.symm
      cases i with
      | title t => exact ⟨_, hi, nofun⟩
      | attrs t => cases e
      | anchor t r => cases e

omit [Uni] in
theorem parseSimple_none_why {e : BlockEnv} {p p' : ParserState} {m : BlockMetadata} {lit : Bool} {ws : List Warning}
    (h : parseSimple e p m lit = .ok (none, ws, p')) :
    ws = [] ∨ (m.isEmpty = false ∧ SimpleBlock.parse e.subs p.store m = .ok none ∧
      ws = [⟨m.source, .missingBlockAfterTitleOrAttributeList⟩]) := by
  have key : ∀ missing, finishSimple e p m missing = .ok (none, ws, p') →
      ws = if missing then [⟨m.source, .missingBlockAfterTitleOrAttributeList⟩] else [] := by
    intro missing h
    unfold finishSimple at h
    simp only [bind, Except.bind] at h
    split at h
    · cases h
    · split at h
      · cases h; rfl
      · cases h
  unfold parseSimple at h
  cases lit with
  | true => left; exact key _ h
  | false =>
    simp only [Bool.false_eq_true, if_false, bind, Except.bind] at h
    cases hs : SimpleBlock.parse e.subs p.store m with
    | error x => rw [hs] at h; cases h
    | ok o =>
      rw [hs] at h
      have := key _ h
      cases o with
      | some x => left; simpa using this
      | none =>
        cases he : m.isEmpty with
        | true => left; simpa [he] using this
        | false => right; exact ⟨rfl, rfl, by simpa [he] using this⟩

theorem leaf_just {e : BlockEnv} {p p' : ParserState} {s : Span} {b : Option (MI Block)} {ws : List Warning}
    (h : LeafStep e p s b ws p') : Just e.ar ws := by
  cases h with
  | fast hf => exact just_nil
  | @entry a after hf => exact entry_just _ _
  | @raw m mw ws rb after hm hf =>
    exact (meta_just hm.parse).append ((raw_just (meta_suf hm.parse).2 hf).append (register_just _ _ _))
  | @media m mw ws mb after hm hf =>
    refine (meta_just hm.parse).append (Just.append (fun w hw => ?_) (register_just _ _ _))
    exact (media_meek hm.parse (mediaAt_some hf).2 w hw).2.warranted _
  | @brk m mw sw ty src after hm hn hf => exact (meta_just hm.parse).append (noHeading_just hn.noHeading)
  | @simple m mw sw ws lit b p' hfb hp =>
    refine (meta_just hfb.parse).append ((noHeading_just hfb.noHeading).append ?_)
    cases b with
    | none =>
      rcases parseSimple_none_why hp with rfl | ⟨h1, h2, rfl⟩
      · exact just_nil
      · exact just_one (missing_just hfb.parse h1 h2)
    | some mi =>
      obtain ⟨b, after⟩ := mi
      obtain ⟨m', sb, _, _, rfl, h4, rfl⟩ := parseSimple_some hp
      rcases h4 with ⟨_, rfl⟩ | ⟨_, _, h1, h2, rfl⟩
      · exact register_just _ _ _
      · exact (just_one (missing_just hfb.parse h1 h2)).append (register_just _ _ _)

theorem run_just {e : BlockEnv} {stop : Stop} {p p' : ParserState} {s s' : Span} {bs : List Block}
    {ws sw : List Warning} (h : Run e stop p s bs s' ws sw p') : Just e.ar ws ∧ Just e.ar sw := by
  induction h with
  | done _ => exact ⟨just_nil, just_nil⟩
  | halt _ hk => exact ⟨just_nil, check_just hk⟩
  | leaf _ hk hl _ ih => exact ⟨(leaf_just hl).append ih.1, (check_just hk).append ih.2⟩
  | stuck _ hk hl _ ih => exact ⟨(leaf_just hl).append ih.1, (check_just hk).append ih.2⟩
  | compound _ hk hm ho _ _ ih1 ih2 =>
    refine ⟨((meta_just hm.parse).append (Just.append ?_ (register_just _ _ _))).append ih2.1, (check_just hk).append ih2.2⟩
    split
    · refine Just.append (just_one ?_) ih1.1
      exact Or.inr (isCompoundDelimiter_iff.mp ho.delim)
    · exact ih1.1
  | «section» _ hk hm _ ht _ _ _ ih1 ih2 =>
    refine ⟨((meta_just hm.parse).append ((((titleLine_just ht).append ih1.2).append ?_).append ih1.1)).append ih2.1,
      (check_just hk).append ih2.2⟩
    intro w hw
    obtain ⟨i, _, rfl⟩ := List.mem_map.mp hw
    trivial

end Adoc
