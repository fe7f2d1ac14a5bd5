import Verif.Lemmas.Outcome
/-!
# C47: every header that has a meaning is read
-/

namespace Adoc.Props
open Adoc Span Spec

variable [Uni]

private theorem authorEffect_det {r : Renderer} {s s1 s2 : AttrStore} {n : Text} {k : EntryKind} (h1 : AuthorEffect r s n k s1)
    (h2 : AuthorEffect r s n k s2) : s1 = s2 := by
  cases h1 with
  | other g =>
    cases h2 with
    | other _ => rfl
    | noValue _ => rfl
    | blank _ => rfl
    | author g' _ => exact absurd g' g
  | noValue g =>
    cases h2 with
    | other _ => rfl
    | noValue _ => rfl
    | blank _ => rfl
    | author _ _ => exact absurd rfl (g _)
  | blank g =>
    cases h2 with
    | other _ => rfl
    | noValue _ => rfl
    | blank _ => rfl
    | author _ g' => rw [g] at g'; cases g'
  | author g1 g2 =>
    cases h2 with
    | other g => exact absurd g1 g
    | noValue g => exact absurd rfl (g _)
    | blank g => rw [g] at g2; cases g2
    | author _ g' => rw [g2] at g'; cases g'; rfl

private theorem lineEffect_det {hdr : HeaderSubs} {r : Renderer} {s s1 s2 : AttrStore} {l : HLine}
    (h1 : LineEffect hdr r s l s1) (h2 : LineEffect hdr r s l s2) : s1 = s2 := by
  cases h1 with
  | blank => cases h2; rfl
  | comment => cases h2; rfl
  | entry g1 g2 =>
    cases h2 with
    | entry k1 k2 =>
      cases authorEffect_det g2 k2
      have := kindValue_ok.mpr g1
      rw [kindValue_ok.mpr k1] at this
      cases this; rfl
  | title g =>
    cases h2 with
    | title k => rw [g] at k; cases k; rfl
  | author g =>
    cases h2 with
    | author k => rw [g] at k; cases k; rfl
  | revision g =>
    cases h2 with
    | revision k => rw [g] at k; cases k; rfl

private theorem effect_det {hdr : HeaderSubs} {r : Renderer} {s s1 s2 : AttrStore} {ls : List HLine}
    (h1 : HeaderEffect hdr r s ls s1) (h2 : HeaderEffect hdr r s ls s2) : s1 = s2 := by
  induction h1 with
  | nil => cases h2; rfl
  | cons g1 _ ih =>
    cases h2 with
    | cons k1 k2 => cases lineEffect_det g1 k1; exact ih k2

private theorem revisionLine_back {hdr : HeaderSubs} {s s' : AttrStore} {sp : Span} {a : RevisionLine}
    (h : RevisionLine.parse hdr s (Span.new sp.data) = .ok (a, s')) : ∃ a', RevisionLine.parse hdr s sp = .ok (a', s') := by
  unfold RevisionLine.parse at h ⊢
  have : (Span.new sp.data).data = sp.data := rfl
  rw [this] at h
  simp only [bind, Except.bind] at h ⊢
  cases h1 : (revisionParts sp.data).1.mapM (hdr (setRevision s (revisionParts sp.data))) with
  | error e => rw [h1] at h; cases h
  | ok n =>
    rw [h1] at h
    simp only at h ⊢
    cases h2 : hdr (setRevision s (revisionParts sp.data)) (revisionParts sp.data).2.1 with
    | error e => rw [h2] at h; cases h
    | ok d =>
      rw [h2] at h
      simp only at h ⊢
      cases h3 : (revisionParts sp.data).2.2.mapM (hdr (setRevision s (revisionParts sp.data))) with
      | error e => rw [h3] at h; cases h
      | ok r =>
        rw [h3] at h
        simp only [Except.ok.injEq, Prod.mk.injEq] at h ⊢
        obtain ⟨rfl, rfl⟩ := h
        exact ⟨_, rfl, rfl⟩

private theorem step_complete {hdr : HeaderSubs} {r : Renderer} {doc source : Span} {st : HState} {ls : List HLine}
    (inv : HInv doc st ls) {x : Fail} (h : headerStep hdr r source st = .error x) :
    ∃ l s1 rest, HeaderLine (stageOf st) source.data l s1 rest ∧ ∀ store', ¬ LineEffect hdr r st.store l store' := by
  obtain ⟨l, rest, hl, d1, d2, sub1, suf2⟩ := headLine_span source
  unfold headerStep at h
  simp only at h
  generalize source.takeNormalizedLine = mi at *
  obtain ⟨item, after⟩ := mi
  simp only at d1 d2 h sub1 suf2
  subst d1
  subst d2
  by_cases hemp : item.data = []
  · rw [if_pos hemp] at h
    split at h <;> cases h
  · rw [if_neg hemp] at h
    by_cases hcom : (startsWith item.data ['/', '/'] && !startsWith item.data ['/', '/', '/']) = true
    · rw [if_pos hcom] at h; cases h
    · rw [if_neg hcom] at h
      have hnc : ¬ IsComment item.data := fun hc => hcom (comment_iff.mpr hc)
      rcases headerEntryAt_spec hdr st.store source hl with ⟨e1, e2⟩ | ⟨n, k, rr, nm, vs, src, aft, g1, g2, g3, g4, g5, g6, g7, g8, g9⟩
      · rw [e1] at h
        simp only [bind, Except.bind] at h
        have hplain : PlainLine source.data item.data after.data := ⟨hl, hemp, hnc, e2⟩
        by_cases htl : (st.title.isNone && startsWith item.data ['=', ' ']) = true
        · rw [if_pos htl] at h
          simp only [Bool.and_eq_true, Option.isNone_iff_eq_none] at htl
          obtain ⟨ht, hst⟩ := htl
          obtain ⟨y, hy⟩ := startsWith_iff.mp hst
          have hd2 : (item.discard 2).data = y := by
            show (item.dropN 2).data = y
            rw [Span.dropN_data, hy]
            rfl
          have hd3 : (item.discard 2).discardWhitespace.data = y.dropWhile Span.isBlank := by
            rw [← hd2]
            exact takeWhile_after_data _ _
          cases hh : hdr st.store (item.discard 2).discardWhitespace.data with
          | ok v => rw [hh] at h; cases h
          | error e =>
            rw [hd3] at hh
            refine ⟨.title (y.dropWhile Span.isBlank), .titled, after.data, ?_, ?_⟩
            · rw [stage_start.mpr ht]
              refine .title (sp := y.takeWhile Span.isBlank) ?_ ?_ ?_
              · have : '=' :: ' ' :: y.takeWhile Span.isBlank ++ y.dropWhile Span.isBlank = item.data := by
                  rw [hy]
                  simp [List.takeWhile_append_dropWhile]
                rw [this]
                exact hl
              · intro c hc
                have := mem_takeWhile hc
                unfold Span.isBlank at this
                simpa using this
              · intro c hc
                have := List.head?_dropWhile_not (p := Span.isBlank) y
                rw [hc] at this
                unfold Span.isBlank at this
                simpa using this
            · intro store' he
              cases he with
              | title k => rw [hh] at k; cases k
        · rw [if_neg htl] at h
          by_cases hau : (st.title.isSome && st.authorLine.isNone) = true
          · rw [if_pos hau] at h
            exfalso
            obtain ⟨_, s, _, _, hv, _⟩ := C40_line r st.store item
            rw [hv] at h
            cases h
          · rw [if_neg hau] at h
            by_cases hre : (st.title.isSome && st.authorLine.isSome && st.revisionLine.isNone) = true
            · rw [if_pos hre] at h
              simp only [Bool.and_eq_true, Option.isNone_iff_eq_none] at hre
              have t1 : st.title.isNone = false := by
                rw [Option.isNone_eq_false_iff]; exact hre.1.1
              have t2 : st.authorLine.isNone = false := by
                rw [Option.isNone_eq_false_iff]; exact hre.1.2
              have e0 : stageOf st = .authored := by
                unfold stageOf
                simp [t1, t2, hre.2]
              refine ⟨.revision item.data, .revised, after.data, by rw [e0]; exact .revision hplain, ?_⟩
              intro store' he
              cases he with
              | revision k =>
                obtain ⟨a, k⟩ := revisionLine_back k
                rw [k] at h
                cases h
            · rw [if_neg hre] at h
              split at h <;> cases h
      · rw [g9] at h
        cases hv : kindValue (hdr st.store) k with
        | ok v =>
          exfalso
          rw [hv] at h
          simp only [Except.map, bind, Except.bind] at h
          obtain ⟨s1, hs1, he1⟩ := authorEntry_effect (r := r) (store := st.store) (attr := ⟨nm, vs, v, src⟩) (k := k) g3
          rw [hs1] at h
          cases h
        | error e =>
          refine ⟨.entry n k, _, rr, .entry g1, fun store' he => ?_⟩
          cases he with
          | entry m1 m2 =>
            rw [kindValue_ok.mpr m1] at hv
            cases hv

private theorem loop_complete {hdr : HeaderSubs} {r : Renderer} {doc : Span} (n : Nat) :
    ∀ {source : Span} {st : HState} {ls hls : List HLine} {stage : Stage} {rest : Text} {store' : AttrStore},
      Suf source doc → HInv doc st ls → source.data.length ≤ n → HeaderReads (stageOf st) source.data hls stage rest →
      HeaderEffect hdr r st.store hls store' → ∃ y, headerLoop hdr r n source st = .ok y := by
  induction n with
  | zero =>
    intro source st ls hls stage rest store' hsuf hinv hl h1 h2
    rw [headerLoop, if_pos (List.length_eq_zero_iff.mp (by omega))]
    exact ⟨_, rfl⟩
  | succ n ih =>
    intro source st ls hls stage rest store' hsuf hinv hl h1 h2
    rw [headerLoop]
    by_cases he : source.data = []
    · rw [if_pos he]; exact ⟨_, rfl⟩
    · rw [if_neg he]
      simp only [bind, Except.bind]
      cases hx : headerStep hdr r source st with
      | error y =>
        exfalso
        obtain ⟨l, s1, r1, g1, g2⟩ := step_complete hinv hx
        cases h1 with
        | stop hs => exact hs he _ _ _ g1
        | line _ k1 k2 =>
          cases h2 with
          | cons m1 m2 =>
            obtain ⟨rfl, rfl, rfl⟩ := k1.det g1
            exact g2 _ m1
      | ok q =>
        obtain ⟨st1, src1, more⟩ := q
        simp only
        cases more with
        | false => exact ⟨_, rfl⟩
        | true =>
          simp only [if_true]
          rcases headerStep_spec hsuf hinv hx with ⟨_, line, g1, g2, g3, g4, _⟩ | ⟨e, _⟩
          · obtain ⟨pre, e1, e2⟩ := g1.shorter he
            have e3 := congrArg List.length e1
            have e4 : pre.length ≠ 0 := fun h => e2 (List.length_eq_zero_iff.mp h)
            rw [List.length_append] at e3
            cases h1 with
            | stop hs => exact absurd g1 (hs he _ _ _)
            | line _ k1 k2 =>
              cases h2 with
              | cons m1 m2 =>
                obtain ⟨rfl, rfl, rfl⟩ := k1.det g1
                cases lineEffect_det g4 m1
                exact ih (g2.trans hsuf) g3 (by omega) k2 m2
          · cases e

/-- C47. Every document is read whose header lines have a meaning: if the substitutions of the title, of the revision line and
of the values of the entries succeed, one line after the other, the header is read, and it defines the attributes that its
lines define. -/
theorem C47_complete {hdr : HeaderSubs} {r : Renderer} {store store' : AttrStore} {source : Span} {ls : List HLine}
    {stage : Stage} {rest : Text} (h1 : HeaderReads .start source.data ls stage rest)
    (h2 : HeaderEffect hdr r store ls store') :
    ∃ mi ws, Header.parse hdr r store source = .ok (mi, ws, store') := by
  have hinv : HInv source { store := store } [] := by
    refine ⟨by simp, by simp, by simp, by simp, by simp, by simp, by simp, by simp, ⟨?_, ?_, ?_, ?_, ?_⟩, ?_⟩ <;> simp
  obtain ⟨⟨st, rest'⟩, hx⟩ := loop_complete (hdr := hdr) (r := r) source.data.length (Suf.refl source) hinv (Nat.le_refl _) h1 h2
  have hs := headerLoop_suf _ (Suf.refl source) hinv hx
  obtain ⟨src, hsrc⟩ := trimRemainder?_ne_none (discardEmptyLines_suf source).sub hs.sub
  obtain ⟨mi, ws, store'', hp⟩ : ∃ mi ws store'', Header.parse hdr r store source = .ok (mi, ws, store'') := by
    unfold Header.parse
    simp only [bind, Except.bind, hx, hsrc, Res.ofOption]
    exact ⟨_, _, _, rfl⟩
  obtain ⟨ls', st', r', k1, _, _, _, _, _, _, _, _, k2⟩ := C47_reads hp
  obtain ⟨rfl, _, _⟩ := k1.det h1
  cases effect_det k2 h2
  exact ⟨mi, ws, hp⟩

/-- Non-vacuity: the effect of a header with a title. -/
example : letI := asciiUni
    ∃ store, HeaderEffect (fun _ t => .ok t) Html.renderer AttrStore.default [.title "T".toList, .comment "// x".toList] store :=
  letI := asciiUni
  ⟨_, .cons (.title rfl) (.cons .comment .nil)⟩

end Adoc.Props
