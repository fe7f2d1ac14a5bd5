import Verif.Lemmas.Document
import Verif.Lemmas.Heading
/-!
# Warnings of the block parser
-/

namespace Adoc
open Span Spec

/-- The warning is not about a duplicate id. -/
def Other (w : WarningType) : Prop := ∀ id, w ≠ .duplicateId id

/-- The warning is neither about a duplicate id nor about a heading. -/
def Calm : WarningType → Prop
  | .duplicateId _ | .level0SectionHeadingNotSupported | .sectionHeadingLevelSkipped _ _
  | .sectionHeadingLevelExceedsMaximum _ => False
  | _ => True

/-- A warning about a heading is about a line of that form. -/
def Headed (ar : Arith) (w : Warning) : Prop :=
  match w.warning with
  | .level0SectionHeadingNotSupported => Marks 1 w.source.data
  | .sectionHeadingLevelExceedsMaximum n => 6 ≤ n ∧ Marks (n + 1) w.source.data
  | .sectionHeadingLevelSkipped a b => ar = .checked → a + 1 < b ∧ b ≤ 5
  | _ => True

/-- The warning is about the way an attribute list or an anchor is written. -/
def Meek : WarningType → Prop
  | .attributeValueMissingTerminatingQuote | .emptyAttributeValue | .emptyShorthandItem
  | .missingCommaAfterQuotedAttributeValue | .emptyBlockAnchorName | .invalidBlockAnchorName => True
  | _ => False

theorem Meek.calm {w : WarningType} (h : Meek w) : Calm w := by
  cases w <;> first | exact h.elim | trivial

theorem Calm.other {w : WarningType} (h : Calm w) : Other w := by
  rintro id rfl
  exact h

theorem Calm.headed {w : Warning} (h : Calm w.warning) (ar : Arith) : Headed ar w := by
  obtain ⟨sp, w⟩ := w
  cases w <;> first | exact h.elim | trivial

/-- The warning points into `D` and is not about a duplicate id. -/
def Plain (ar : Arith) (D : Span) (w : Warning) : Prop := Sub w.source D ∧ Other w.warning ∧ Headed ar w

theorem Plain.sub {ar : Arith} {D E : Span} {w : Warning} (h : Plain ar D w) (hs : Sub D E) : Plain ar E w :=
  ⟨h.1.trans hs, h.2⟩

theorem Plain.calm {ar : Arith} {D : Span} {w : Warning} (h : Sub w.source D) (hc : Calm w.warning) : Plain ar D w :=
  ⟨h, hc.other, hc.headed ar⟩

theorem shorthandLoop_other : ∀ (n pos : Nat) (t : Text), ∀ w ∈ (shorthandLoop n pos t).2, Meek w
  | 0, _, _ => by simp [shorthandLoop]
  | n + 1, _, [] => by simp [shorthandLoop]
  | n + 1, pos, d :: tl => by
    intro w hw
    rw [shorthandLoop] at hw
    simp only at hw
    split at hw
    · split at hw
      · simp at hw; subst hw; trivial
      · simp at hw
    · split at hw
      · simp only [List.mem_cons] at hw
        rcases hw with rfl | hw
        · trivial
        · exact shorthandLoop_other n _ _ w hw
      · exact shorthandLoop_other n _ _ w hw

theorem shorthand_other (t : Text) : ∀ w ∈ (parseShorthandItems t).2, Meek w := by
  intro w hw
  unfold parseShorthandItems at hw
  simp only at hw
  split at hw <;> exact shorthandLoop_other _ _ _ w hw

theorem elemAt_other {nrm : Text → Res Text} {ctx : AttrlistCtx} {sh : Bool} {t after : Text} {a : ElemAttr}
    {ws : List WarningType} (h : ElemAt nrm ctx sh t a ws after) : ∀ w ∈ ws, Meek w := by
  obtain ⟨body, raw, closed, _, _, _, h1, h2, w1, w2, rfl, e1, e2, e3⟩ := h
  intro w hw
  rcases List.mem_append.mp hw with hw | hw
  · rw [e1] at hw
    split at hw
    · simp at hw; subst hw; trivial
    · simp at hw
  · by_cases hs : a.name = none ∧ sh = true ∧ closed = false
    · rw [e2 hs] at hw; exact shorthand_other _ w hw
    · rw [e3 hs] at hw; simp at hw

theorem elements_other {nrm : Text → Res Text} {ctx : AttrlistCtx} {sh : Bool} {t l f : Text} {as : List ElemAttr}
    {ws : List WarningType} (h : Elements nrm ctx sh t as ws l f) : ∀ w ∈ ws, Meek w := by
  induction h with
  | last h _ => exact elemAt_other h
  | @more _ _ _ _ _ _ _ doubled _ _ _ h _ _ _ ih =>
    intro w hw
    rcases List.mem_append.mp hw with hw | hw
    · rcases List.mem_append.mp hw with hw | hw
      · exact elemAt_other h w hw
      · cases doubled with
        | true => simp at hw; subst hw; trivial
        | false => simp at hw
    · exact ih w hw

variable [Uni]

theorem attrlist_meek {nrm : Text → Res Text} {store : AttrStore} {source : Span} {ctx : AttrlistCtx} {al : Attrlist}
    {ws : List Warning} (h : Attrlist.parse nrm store source ctx = .ok (al, ws)) :
    ∀ w ∈ ws, w.source = source ∧ Meek w.warning := by
  obtain ⟨t, _, _, h1, h2⟩ := Props.C33_elements h
  intro w hw
  by_cases ht : ∃ a, t = '[' :: a ++ [']']
  · obtain ⟨a, ha⟩ := ht
    rw [(h1 a ha).2.2] at hw
    simp at hw
  · obtain ⟨_, as, wts, lastAt, after, he, missing, _, _, e1, e2⟩ := h2 (fun a ha => ht ⟨a, ha⟩)
    by_cases hm : missing
    · rw [e1 hm, List.mem_map] at hw
      obtain ⟨x, hx, rfl⟩ := hw
      refine ⟨rfl, ?_⟩
      rcases List.mem_append.mp hx with hx | hx
      · exact elements_other he x hx
      · rw [List.mem_singleton.mp hx]; trivial
    · rw [e2 hm, List.mem_map] at hw
      obtain ⟨x, hx, rfl⟩ := hw
      exact ⟨rfl, elements_other he x hx⟩

theorem attrlist_plain {ar : Arith} {nrm : Text → Res Text} {store : AttrStore} {source : Span} {ctx : AttrlistCtx} {al : Attrlist}
    {ws : List Warning} (h : Attrlist.parse nrm store source ctx = .ok (al, ws)) : ∀ w ∈ ws, Plain ar source w :=
  fun w hw => Plain.calm ((attrlist_meek h w hw).1 ▸ Sub.refl _) (attrlist_meek h w hw).2.calm

theorem anchorWarning_other {l : Text} {ws : List WarningType} (h : AnchorWarning l ws) : ∀ w ∈ ws, Meek w := by
  intro w hw
  cases h with
  | empty => rw [List.mem_singleton.mp hw]; trivial
  | invalid _ _ => rw [List.mem_singleton.mp hw]; trivial
  | fine _ => simp at hw

theorem meta_meek {subs : Subs} {store : AttrStore} {s : Span} {m : BlockMetadata} {mw : List Warning}
    (h : BlockMetadata.parse subs store s = .ok (m, mw)) : ∀ w ∈ mw, Sub w.source s ∧ Meek w.warning := by
  obtain ⟨_, w1, w2, rfl, h1, h2, h3, h4, h5⟩ := Props.C27_values h
  obtain ⟨k1, _, _, _, _, k2⟩ := Props.C27_spans h
  intro w hw
  rcases List.mem_append.mp hw with hw | hw
  · cases ha : m.fields.attrlist with
    | none => rw [h2 ha] at hw; simp at hw
    | some a =>
      obtain ⟨e1, e2⟩ := attrlist_meek (h1 a ha) w hw
      exact ⟨e1 ▸ (k2 a ha).trans k1.sub, e2⟩
  · refine ⟨h5 w hw, ?_⟩
    cases ha : m.fields.anchor with
    | none => exact anchorWarning_other (h3 ha) w.warning (List.mem_map_of_mem hw)
    | some a => rw [h4 (by rw [ha]; rfl)] at hw; simp at hw

theorem meta_plain {ar : Arith} {subs : Subs} {store : AttrStore} {s : Span} {m : BlockMetadata} {mw : List Warning}
    (h : BlockMetadata.parse subs store s = .ok (m, mw)) : ∀ w ∈ mw, Plain ar s w :=
  fun w hw => Plain.calm (meta_meek h w hw).1 (meta_meek h w hw).2.calm

omit [Uni] in
theorem titleLine_plain {ar : Arith} {s : Span} {mi : Option (MI (Nat × Span))} {tw : List Warning}
    (h : parseTitleLine ar s = .ok (mi, tw)) : ∀ w ∈ tw, Plain ar s w := by
  rcases titleLine_cases ar s _ rfl with ⟨_, e⟩ | ⟨hm, e⟩ | ⟨n, hn, hm, e⟩ | ⟨_, t, e⟩ | ⟨l, t, _, e⟩ | ⟨_, _, _, _, _, e⟩
  · rw [e] at h; cases h; nofun
  · rw [e] at h; cases h
    intro w hw; rw [List.mem_singleton.mp hw]
    exact ⟨normLine_item_sub _, nofun, hm⟩
  · rw [e] at h; cases h
    intro w hw; rw [List.mem_singleton.mp hw]
    refine ⟨normLine_item_sub _, nofun, Nat.le_sub_one_of_lt hn, ?_⟩
    rw [Nat.sub_add_cancel (by omega)]
    exact hm
  · rw [e] at h
    cases ar with
    | checked => cases h
    | wrapping => cases h; nofun
  · rw [e] at h; cases h; nofun
  · rw [e] at h; cases h; nofun

theorem check_plain {e : BlockEnv} {s : Span} {stop stop' : Stop} {b : Bool} {sw : List Warning}
    (h : stop.check e s = .ok (b, stop', sw)) : ∀ w ∈ sw, Plain e.ar s w := by
  cases stop with
  | never => cases h; simp
  | always => cases h; simp
  | peer level mr =>
    unfold Stop.check peerOrAncestor at h
    simp only [bind, Except.bind] at h
    cases hm : BlockMetadata.parse e.dsubs AttrStore.default s with
    | error x => rw [hm] at h; cases h
    | ok y =>
      obtain ⟨m, mw⟩ := y
      have hs := meta_suf hm
      rw [hm] at h
      simp only at h
      cases hd : m.isDiscrete with
      | true => rw [hd] at h; cases h; simp
      | false =>
        rw [hd] at h
        simp only [Bool.false_eq_true, if_false] at h
        cases ht : parseTitleLine e.ar m.blockStart with
        | error x => rw [ht] at h; cases h
        | ok y =>
          obtain ⟨mi, tw⟩ := y
          have htw := titleLine_plain ht
          rw [ht] at h
          cases mi with
          | none =>
            cases h
            exact fun w hw => (htw w hw).sub (hs.2.sub.trans hs.1.sub)
          | some mi =>
            simp only at h
            cases hl : e.ar.succ mr with
            | error x => rw [hl] at h; cases h
            | ok limit =>
              rw [hl] at h
              cases h
              intro w hw
              rcases List.mem_append.mp hw with hw | hw
              · exact (htw w hw).sub (hs.2.sub.trans hs.1.sub)
              · split at hw
                · rw [List.mem_singleton.mp hw]
                  rename_i hgt
                  refine ⟨normLine_item_sub _, nofun, fun har => ?_⟩
                  rw [har] at hl ht
                  have hh := (titleLine_checked ht).1
                  have : limit = mr + 1 := by
                    unfold Arith.succ at hl
                    simp only at hl
                    split at hl
                    · exact (Except.ok.inj hl).symm
                    · cases hl
                  exact ⟨by omega, hh.2.1⟩
                · simp at hw

theorem noHeading_plain {e : BlockEnv} {m : BlockMetadata} {sw : List Warning} (h : NoHeading e m sw) :
    ∀ w ∈ sw, Plain e.ar m.blockStart w := by
  rcases h with rfl | h
  · simp
  · exact fun w hw => (titleLine_plain h w hw).sub (discardEmptyLines_suf _).sub

theorem raw_plain {ar : Arith} {subs : Subs} {store : AttrStore} {m : BlockMetadata} {rb : RawBlock} {after : Span} {ws : List Warning}
    (hm : Suf m.blockStart m.source) (h : RawBlock.parse subs store m = .ok (some (⟨rb, after⟩, ws))) :
    ∀ w ∈ ws, Plain ar m.blockStart w := by
  have hd : ∃ c, RawDelim c m.blockStart.takeNormalizedLine.item.data :=
    Classical.byContradiction fun hn => by
      have := rawBlock_none (subs := subs) (store := store) hn
      rw [h] at this; cases this
  obtain ⟨c, hc⟩ := hd
  rcases rawBlock_spec (subs := subs) (store := store) rfl hc hm with
    ⟨_, _, _, _, _, _, _, _, _, _, _, _, _, _, _, e⟩ | ⟨_, _, _, _, _, _, _, _, _, _, _, e⟩
  · rw [e] at h
    generalize subs _ _ _ _ = q at h
    cases q with
    | error x => cases h
    | ok r => cases h; simp
  · rw [e] at h
    cases h
    intro w hw
    rw [List.mem_singleton.mp hw]
    exact Plain.calm (normLine_item_sub _) trivial

theorem media_meek {subs : Subs} {store : AttrStore} {s : Span} {m : BlockMetadata} {mb : MediaBlock} {after : Span}
    {mw ws : List Warning} (hm : BlockMetadata.parse subs store s = .ok (m, mw))
    (h : MediaBlock.parse subs store m = .ok (some (⟨mb, after⟩, ws))) : ∀ w ∈ ws, Sub w.source m.source ∧ Meek w.warning := by
  have hp := media_placed hm h
  have ha : ∃ nrm ctx, Attrlist.parse nrm store mb.attrs.source ctx = .ok (mb.attrs, ws) := by
    unfold MediaBlock.parse at h
    simp only at h
    split at h
    · cases h
    split at h
    · cases h
    split at h
    · cases h
    split at h
    · cases h
    split at h
    · cases h
    split at h
    · cases h
    rename_i brace _
    simp only [bind, Except.bind] at h
    cases ha : Attrlist.parse (subs store .normal none) store (brace.after.takeN (brace.after.data.length - 1)) .inline with
    | error x => rw [ha] at h; cases h
    | ok y =>
      obtain ⟨al, aw⟩ := y
      rw [ha] at h
      simp only at h
      split at h
      · cases h
      split at h
      · cases h
      cases h
      have := (Props.C33_elements ha).choose_spec.2.1
      refine ⟨subs store .normal none, .inline, ?_⟩
      rw [this]; exact ha
  obtain ⟨nrm, ctx, ha⟩ := ha
  exact fun w hw => ⟨(attrlist_meek ha w hw).1 ▸ hp.2.2.2, (attrlist_meek ha w hw).2⟩

theorem media_plain {ar : Arith} {subs : Subs} {store : AttrStore} {s : Span} {m : BlockMetadata} {mb : MediaBlock} {after : Span}
    {mw ws : List Warning} (hm : BlockMetadata.parse subs store s = .ok (m, mw))
    (h : MediaBlock.parse subs store m = .ok (some (⟨mb, after⟩, ws))) : ∀ w ∈ ws, Plain ar m.source w :=
  fun w hw => Plain.calm (media_meek hm h w hw).1 (media_meek hm h w hw).2.calm

theorem entry_plain (s : AttrStore) (a : Attribute) :
    ∀ w ∈ (s.setFromBody a).2.toList, w.source = a.source ∧ Calm w.warning := by
  intro w hw
  unfold AttrStore.setFromBody at hw
  simp only at hw
  split at hw
  · simp at hw; subst hw; exact ⟨rfl, trivial⟩
  · simp at hw

end Adoc
