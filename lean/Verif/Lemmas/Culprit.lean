import Verif.Lemmas.Station
/-!
# Why parsing blocks fails
-/

namespace Adoc
open Span Spec Props

/-! ### The literal style -/

theorem Spec.Occurs.trans {a b c : Text} (h : Occurs a b) (h' : Occurs b c) : Occurs a c := by
  obtain ⟨x, y, rfl⟩ := h
  obtain ⟨z, w, rfl⟩ := h'
  exact ⟨z ++ x, y ++ w, by simp⟩

theorem occurs_take (t : Text) (n : Nat) : Occurs (t.take n) t := ⟨[], t.drop n, by simp⟩
theorem occurs_drop (t : Text) (n : Nat) : Occurs (t.drop n) t := ⟨t.take n, [], by simp⟩
theorem occurs_trimEnd (t : Text) : Occurs (trimEnd t) t := by
  obtain ⟨w, e, _⟩ := trimEndP_spec isWhite t
  exact ⟨[], w, e⟩

theorem slices_occur {v x : Text} : ∀ {is : List Nat}, x ∈ ElemAttr.slices v is → Occurs x v
  | [], h => by cases h
  | [c], h => by
    rw [ElemAttr.slices, List.mem_singleton] at h
    rw [h]; exact occurs_drop _ _
  | c :: n :: r, h => by
    rw [ElemAttr.slices, List.mem_cons] at h
    rcases h with rfl | h
    · exact (occurs_take _ _).trans (occurs_drop _ _)
    · exact slices_occur h

theorem style_occurs {a : ElemAttr} {v : Text} (h : a.blockStyle = some v) : Occurs v a.value := by
  unfold ElemAttr.blockStyle at h
  cases hh : a.shorthandItems.head? with
  | none => rw [hh] at h; cases h
  | some w =>
    rw [hh] at h
    simp only at h
    split at h
    · cases h
    · cases h
      have hm := List.mem_of_mem_head? hh
      unfold ElemAttr.shorthandItems at hm
      obtain ⟨x, hx, rfl⟩ := List.mem_map.mp (List.mem_filter.mp hm).1
      exact (occurs_trimEnd x).trans (slices_occur (List.mem_filter.mp hx).1)

theorem elemAt_occurs {nrm : Text → Res Text} {ctx : AttrlistCtx} {sh : Bool} {t : Text} {a : ElemAttr}
    {ws : List WarningType} {after : Text} (h : ElemAt nrm ctx sh t a ws after) (hq : '\'' ∉ t ∧ '"' ∉ t) :
    ∃ x y, t = x ++ a.value ++ y ++ after := by
  obtain ⟨_, body, raw, h1, h2, h3⟩ := elemAt_reads h
  obtain ⟨x, hx⟩ : ∃ x, t = x ++ body := by
    generalize a.name = n at h1
    cases n with
    | some n => obtain ⟨w1, w2, e, _⟩ := h1; exact ⟨n ++ (w1 ++ '=' :: w2), by rw [e]; simp⟩
    | none => obtain ⟨_, w, e, _⟩ := h1; exact ⟨w, e⟩
  have hnq : ∀ q r, body = q :: r → ¬ Quote q := by
    rintro q r rfl (rfl | rfl)
    · exact hq.1 (by rw [hx]; simp)
    · exact hq.2 (by rw [hx]; simp)
  rw [h3.2 hnq]
  unfold RawValue at h2
  split at h2
  · obtain ⟨q, hq', e, _⟩ := h2
    exact absurd hq' (hnq _ _ e)
  · obtain ⟨_, sp, e, _⟩ := h2
    exact ⟨x, sp, by rw [hx, e]; simp⟩

theorem elements_occur {nrm : Text → Res Text} {ctx : AttrlistCtx} {sh : Bool} {t : Text} {as : List ElemAttr}
    {ws : List WarningType} {l f : Text} (h : Elements nrm ctx sh t as ws l f) (hq : '\'' ∉ t ∧ '"' ∉ t) :
    ∀ a ∈ as, Occurs a.value t := by
  induction h with
  | last h _ =>
    intro a ha
    obtain rfl := List.mem_singleton.mp ha
    obtain ⟨x, y, e⟩ := elemAt_occurs h hq
    exact ⟨x, _, by rw [e, List.append_assoc]⟩
  | more h _ _ _ ih =>
    obtain ⟨x, y, e⟩ := elemAt_occurs h hq
    intro a ha
    rcases List.mem_cons.mp ha with rfl | ha
    · exact ⟨x, _, by rw [e, List.append_assoc]⟩
    · refine (ih ⟨fun hc => hq.1 ?_, fun hc => hq.2 ?_⟩ a ha).trans ⟨_, [], by rw [e, List.append_nil, ← List.append_assoc]⟩ <;>
        (rw [e]; simp [hc])

variable [Uni]

theorem literal_written {nrm : Text → Res Text} {store : AttrStore} {source : Span} {ctx : AttrlistCtx} {al : Attrlist}
    {ws : List Warning} (h : Attrlist.parse nrm store source ctx = .ok (al, ws))
    (hs : al.blockStyle = some "literal".toList) : MayBeLiteral source.data := by
  apply Classical.byContradiction
  intro hn
  unfold MayBeLiteral at hn
  rw [not_or, not_or, not_or] at hn
  obtain ⟨n1, n2, n3, n4⟩ := hn
  obtain ⟨t, h1, _, h2, h3⟩ := C33_elements h
  obtain rfl := Expands.det h1 (expands_no_brace n2)
  unfold Attrlist.blockStyle Attrlist.nthAttribute at hs
  rw [if_neg (by decide)] at hs
  cases ha : (al.attributes.filter (fun x => x.name == none))[1 - 1]? with
  | none => rw [ha] at hs; cases hs
  | some a =>
    rw [ha] at hs
    have hs : a.blockStyle = some "literal".toList := hs
    have ha : a ∈ al.attributes := (List.mem_filter.mp (List.mem_of_getElem? ha)).1
    refine n1 ((style_occurs hs).trans ?_)
    by_cases hb : ∃ x, source.data = '[' :: x ++ [']']
    · obtain ⟨x, hx⟩ := hb
      rw [(h2 x hx).2.1] at ha; cases ha
    · obtain ⟨_, as, wts, l, f, g1, _, g2, g3, _⟩ := h3 fun x hx => hb ⟨x, hx⟩
      refine elements_occur g1 ⟨n3, n4⟩ a ?_
      by_cases ho : OnlyEmpty as f
      · rw [(g2 ho).1] at ha; cases ha
      · rw [(g3 ho).1] at ha
        exact (List.mem_filter.mp ha).1

/-! ### Stalling -/

omit [Uni] in
theorem parseLines_none {subs : Subs} {store : AttrStore} {s : Span} {al : Option Attrlist}
    (h : parseLines subs store s al = .ok none) :
    lines s.data = [] ∨ ∃ l r, lines s.data = l :: r ∧ ∀ c ∈ l, isWhite c = true := by
  obtain ⟨k, raw, taken, texts, _, h2, _, _, h5, _, h7⟩ := parseLines_spec subs store s al
  rw [h7] at h
  split at h
  · rename_i h0
    have hw : ∀ c ∈ raw, isWhite c = true := List.all_eq_true.mp (trimEndP_nil_iff.mp h0)
    cases hl : lines s.data with
    | nil => exact Or.inl rfl
    | cons l r =>
      right
      generalize lines s.data = ls at h5 hl
      subst hl
      refine ⟨l, r, rfl, ?_⟩
      have hin : l ∈ taken → ∀ c ∈ l, isWhite c = true := by
        intro hm c hc
        rw [← h2] at hm
        exact hw c (lines_mem hm c hc)
      generalize lines (skip k s).data = rest at h5
      cases h5 with
      | stop h =>
        rcases h l r rfl with h | h
        · rw [h]; simp
        · cases h.1
      | comment _ _ _ => exact hin (by simp)
      | line _ _ _ _ => exact hin (by simp)
  · generalize subs _ _ _ _ = q at h
    cases q <;> cases h

omit [Uni] in
theorem simpleBlock_none {subs : Subs} {store : AttrStore} {m : BlockMetadata}
    (h : SimpleBlock.parse subs store m = .ok none) : parseLines subs store m.blockStart m.fields.attrlist = .ok none := by
  unfold SimpleBlock.parse at h
  simp only [bind, Except.bind] at h
  cases hp : parseLines subs store m.blockStart m.fields.attrlist with
  | error x => rw [hp] at h; cases h
  | ok q =>
    rw [hp] at h
    cases q with
    | none => rfl
    | some mi =>
      simp only at h
      generalize Res.ofOption (m.source.trimRemainder? mi.after) = q at h
      cases q <;> cases h

omit [Uni] in
theorem finishSimple_nothing {e : BlockEnv} {p p' : ParserState} {m : BlockMetadata} {missing : Bool} {ws : List Warning}
    (h : finishSimple e p m missing = .ok (none, ws, p')) :
    parseLines e.subs p.store (if missing then m.source else m.blockStart)
      (if missing then none else m.fields.attrlist) = .ok none := by
  unfold finishSimple at h
  simp only [bind, Except.bind] at h
  cases missing with
  | false =>
    simp only [Bool.false_eq_true, if_false] at h ⊢
    cases hp : SimpleBlock.parse e.subs p.store m with
    | error x => rw [hp] at h; cases h
    | ok q =>
      rw [hp] at h
      cases q with
      | none => exact simpleBlock_none hp
      | some mi => cases h
  | true =>
    simp only [if_true] at h ⊢
    generalize hm : ({ m with fields := { anchorReftext := m.fields.anchorReftext }, blockStart := m.source } : BlockMetadata) = m' at h
    cases hp : SimpleBlock.parse e.subs p.store m' with
    | error x => rw [hp] at h; cases h
    | ok q =>
      rw [hp] at h
      cases q with
      | none => have := simpleBlock_none hp; rw [← hm] at this; exact this
      | some mi => cases h

theorem metaItems_anchors {ls : List Text} {is : List MetaItem} {rest : List Text} (h : MetaItems [] ls is rest)
    (h1 : is.findSome? MetaItem.title? = none) (h2 : is.findSome? MetaItem.attrs? = none) :
    is = [] ∨ ∃ a r, is = [.anchor a r] := by
  have key : ∀ i ∈ is, i.kind = .anchor := by
    intro i hi
    have g1 := List.findSome?_eq_none_iff.mp h1 i hi
    have g2 := List.findSome?_eq_none_iff.mp h2 i hi
    cases i with
    | title t => cases g1
    | attrs t => cases g2
    | anchor a r => rfl
  cases h with
  | stop _ => exact Or.inl rfl
  | @item _ l ls i is rest h h' hr =>
    right
    have hi := key i (by simp)
    have : is = [] := by
      cases hr with
      | stop _ => rfl
      | item g g' _ =>
        rename_i j _ _
        exact absurd (by rw [key j (by simp), hi]; simp) g'
    subst this
    cases i with
    | anchor a r => exact ⟨a, r, rfl⟩
    | title _ => cases hi
    | attrs _ => cases hi

theorem simple_stalls {e : BlockEnv} {p p' : ParserState} {m : BlockMetadata} {ws : List Warning}
    (hp : parseSimple e p m false = .ok (none, ws, p')) :
    parseLines e.subs p.store m.blockStart m.fields.attrlist = .ok none ∧
      (m.isEmpty = false → parseLines e.subs p.store m.source none = .ok none) := by
  unfold parseSimple at hp
  simp only [Bool.false_eq_true, if_false, bind, Except.bind] at hp
  cases hq : SimpleBlock.parse e.subs p.store m with
  | error x => rw [hq] at hp; cases hp
  | ok q =>
    rw [hq] at hp
    cases q with
    | none =>
      refine ⟨simpleBlock_none hq, fun hem => ?_⟩
      have := finishSimple_nothing hp
      rw [hem] at this
      exact this
    | some mi =>
      exfalso
      have h1 := finishSimple_nothing hp
      simp only [Option.isNone_some, Bool.false_and, Bool.false_eq_true, if_false] at h1
      unfold SimpleBlock.parse at hq
      simp only [bind, Except.bind, h1] at hq
      cases hq

theorem other_stalls {e : BlockEnv} {p p' : ParserState} {s : Span} {m : BlockMetadata} {mw ws : List Warning} {A : List Text}
    (hne : s.data ≠ []) (hA : Ready A s.data) (hm : BlockMetadata.parse e.subs p.store s = .ok (m, mw))
    (hp : parseSimple e p m false = .ok (none, ws, p')) : Stalls A (lines s.data) := by
  obtain ⟨h1, h2⟩ := simple_stalls hp
  obtain ⟨is, g1, _, g2, _, g3⟩ := C27_reads hm
  obtain ⟨g4, _⟩ := C27_values hm
  have hsrc : lines m.source.data = (lines s.data).dropWhile (·.all isBlank) := by
    rw [meta_source hm, lines_discardEmptyLines]
  have hno : m.isEmpty = false → is ≠ [] → False := by
    intro hem his
    have := parseLines_none (h2 hem)
    rw [hsrc] at this
    generalize lines m.blockStart.data = rest at g1
    generalize (lines s.data).dropWhile (·.all isBlank) = ls at g1 this
    cases g1 with
    | stop _ => exact his rfl
    | item hl _ _ =>
      rcases this with h | ⟨l, r, h, hw⟩
      · cases h
      · cases h
        obtain ⟨r, rfl | rfl⟩ := hl.head
        · exact absurd (hw '.' (by simp)) (by decide)
        · exact absurd (hw '[' (by simp)) (by decide)
  have hnil : is = [] → m.isEmpty = true := by
    rintro rfl
    unfold BlockMetadata.isEmpty
    have a1 : m.fields.attrlist = none := Option.map_eq_none_iff.mp g3
    have a2 : m.fields.title = none := by
      rcases g4 with ⟨_, h⟩ | ⟨x, y, h, _⟩
      · exact h
      · rw [h] at g2; cases g2
    rw [a1, a2]; rfl
  have hem : m.isEmpty = true := by
    cases hem : m.isEmpty with
    | true => rfl
    | false => exact (hno hem fun h => by rw [hnil h] at hem; cases hem).elim
  unfold BlockMetadata.isEmpty at hem
  rw [Bool.and_eq_true, Option.isNone_iff_eq_none, Option.isNone_iff_eq_none] at hem
  obtain ⟨k1, k2⟩ := hem
  have k3 : m.fields.titleSource = none := by
    rcases g4 with ⟨h, _⟩ | ⟨x, y, _, h, _⟩
    · exact h
    · rw [h] at k1; cases k1
  rw [k3] at g2
  rw [k2] at g3
  refine ⟨is, _, g1, parseLines_none h1, ?_⟩
  rcases metaItems_anchors g1 g2.symm g3.symm with h | h
  · refine Or.inl ⟨h, fun hr => ?_⟩
    subst h
    rw [hr] at g1
    rcases hA with hA | hA
    · exfalso
      have : (lines s.data).dropWhile (·.all isBlank) = [] := by
        generalize (lines s.data).dropWhile (·.all isBlank) = ls at g1
        cases g1; rfl
      cases hl : lines s.data with
      | nil => exact hne (lines_eq_nil.mp hl)
      | cons l r =>
        rw [hl, List.dropWhile_cons, hA l r hl] at this
        cases this
    · exact hA
  · exact Or.inr (Or.inl h)

theorem literal_stalls {e : BlockEnv} {p p' : ParserState} {s : Span} {m : BlockMetadata} {mw ws : List Warning} {A : List Text}
    (hm : BlockMetadata.parse e.subs p.store s = .ok (m, mw)) (hs : m.fields.style = some "literal".toList)
    (hp : parseSimple e p m true = .ok (none, ws, p')) : Stalls A (lines s.data) := by
  obtain ⟨is, g1, _, _, _, g3⟩ := C27_reads hm
  obtain ⟨_, w1, _, _, hv, _⟩ := C27_values hm
  refine ⟨is, _, g1, parseLines_none (finishSimple_nothing hp), Or.inr (Or.inr ?_)⟩
  cases ha : m.fields.attrlist with
  | none => unfold Meta.style at hs; rw [ha] at hs; cases hs
  | some al =>
    unfold Meta.style at hs
    rw [ha] at hs g3
    refine ⟨al.source.data, ?_, literal_written (hv al ha) hs⟩
    obtain ⟨i, hi, he⟩ := List.exists_of_findSome?_eq_some g3.symm
    cases i with
    | attrs t => cases he; exact hi
    | title t => cases he
    | anchor a r => cases he

/-- No block is found. -/
theorem parseBlock_stalls {e : BlockEnv} {nested : Nested} {p p' : ParserState} {s : Span} {ws : List Warning} {A : List Text}
    (hne : s.data ≠ []) (hA : Ready A s.data) (h : parseBlock e nested p s = .ok (none, ws, p')) : Stalls A (lines s.data) := by
  have hs := parseBlock_step h
  generalize hr : (none : Option (MI Block)) = r at hs
  cases hs with
  | leaf hl =>
    subst hr
    generalize hr : (none : Option (MI Block)) = r at hl
    cases hl with
    | simple hf hp =>
      subst hr
      cases hf with
      | literal h1 h2 _ _ => exact literal_stalls h1 h2 hp
      | other h1 _ _ _ _ => exact other_stalls hne hA h1.parse hp
    | _ => cases hr
  | compound => cases hr
  | «section» => cases hr

/-! ### The culprit -/

/-- The line with which the parser cannot go on: an indented one, in a section. -/
def Trapped (doc : Text) (x : Fail) (ar : Arith) : Prop := x = .panic ∧ ar = .checked ∧ IndentedInSection doc

/-- What makes the parser fail. -/
def Culprit (e : BlockEnv) (doc : Text) (x : Fail) : Prop :=
  Blame e doc x ∨ Trapped doc x e.ar ∨ (x = .fuel ∧ MayStall doc)

/-- A heading has been passed. -/
def Passed (A : List Text) : Prop := ∃ h ∈ A, ∃ k t, Heading k t h

theorem peer_error {e : BlockEnv} {doc : Text} {s : Span} {A : List Text} {level mr : Nat} {x : Fail}
    (hs : Place doc s A) (hk : e.ar = .checked → mr ≤ 5 ∧ Passed A) (h : peerOrAncestor e s level mr = .error x) :
    Blame e doc x ∨ Trapped doc x e.ar := by
  unfold peerOrAncestor at h
  simp only [bind, Except.bind] at h
  cases hm : BlockMetadata.parse e.dsubs AttrStore.default s with
  | error y =>
    rw [hm] at h; cases h
    obtain ⟨t, h1, h2⟩ := C27_terminates hm
    exact Or.inl ⟨_, _, _, t, h1.mono hs.2, asked_named (by decide) (by simp) (fun h => absurd rfl h), Or.inr h2⟩
  | ok q =>
    obtain ⟨m, mw⟩ := q
    rw [hm] at h
    simp only at h
    split at h
    · cases h
    · cases ht : parseTitleLine e.ar m.blockStart with
      | error y =>
        rw [ht] at h; cases h
        right
        have hc : e.ar = .checked ∧ x = .panic ∧ Indented m.blockStart.takeNormalizedLine.item.data := by
          rcases titleLine_cases e.ar m.blockStart _ rfl with ⟨_, e'⟩ | ⟨hm, e'⟩ | ⟨n, hn, hm, e'⟩ | ⟨hi, t, e'⟩ | ⟨l, t, hh, e'⟩ |
            ⟨_, _, _, _, _, e'⟩ <;> rw [e'] at ht <;> try cases ht
          revert ht
          cases e.ar with
          | wrapping => intro ht; cases ht
          | checked => intro ht; cases ht; exact ⟨rfl, rfl, hi⟩
        obtain ⟨h1, h2, h3⟩ := hc
        refine ⟨h2, h1, ?_⟩
        obtain ⟨_, hd, hh, k, t, hh'⟩ := hk h1
        obtain ⟨l1, l2⟩ := meta_skips hm
        obtain ⟨T, hT⟩ := (l1.trans l2).moves
        obtain ⟨⟨B, hB, _⟩, _⟩ := hs.moves hT
        have hne : m.blockStart.data ≠ [] := by
          intro h0
          have : m.blockStart.takeNormalizedLine.item.data = [] := by
            have := (normLine_item_sub m.blockStart)
            cases hn : m.blockStart.takeNormalizedLine.item.data with
            | nil => rfl
            | cons c r =>
              have := sub_mem this (c := c) (by rw [hn]; simp)
              rw [h0] at this; cases this
          rw [this] at h3
          rcases h3 with h3 | h3 <;> cases h3
        rw [lines_cons _ hne] at hB
        obtain ⟨a, b, rfl⟩ := List.append_of_mem hh
        exact ⟨a, hd, b ++ T, _, lines m.blockStart.takeLine.after.data ++ B, k, t, by rw [hB]; simp [List.append_assoc],
          hh', h3⟩
      | ok q =>
        obtain ⟨mi, tw⟩ := q
        rw [ht] at h
        cases mi with
        | none => cases h
        | some mi =>
          exfalso
          simp only at h
          cases hsu : e.ar.succ mr with
          | ok n => rw [hsu] at h; cases h
          | error y =>
            cases har : e.ar with
            | wrapping =>
              rw [har] at hsu
              unfold Arith.succ at hsu
              split at hsu <;> cases hsu
            | checked => rw [har, succ_small (hk har).1] at hsu; cases hsu

theorem peer_recent {e : BlockEnv} {s : Span} {level mr mr' : Nat} {b : Bool} {ws : List Warning} (har : e.ar = .checked)
    (hk : mr ≤ 5) (h : peerOrAncestor e s level mr = .ok (b, mr', ws)) : mr' ≤ 5 := by
  unfold peerOrAncestor at h
  simp only [bind, Except.bind] at h
  cases hm : BlockMetadata.parse e.dsubs AttrStore.default s with
  | error y => rw [hm] at h; cases h
  | ok q =>
    obtain ⟨m, mw⟩ := q
    rw [hm] at h
    simp only at h
    split at h
    · cases h; exact hk
    · cases ht : parseTitleLine e.ar m.blockStart with
      | error y => rw [ht] at h; cases h
      | ok q =>
        obtain ⟨mi, tw⟩ := q
        rw [ht] at h
        cases mi with
        | none => cases h; exact hk
        | some mi =>
          simp only at h
          cases hsu : e.ar.succ mr with
          | error y => rw [hsu] at h; cases h
          | ok n =>
            rw [hsu] at h; cases h
            rw [har] at ht
            exact (titleLine_checked ht).1.2.1

theorem blocksLoop_culprit {e : BlockEnv} {doc : Text} {x : Fail} : ∀ (n : Nat) (stop : Stop) (acc : Blocks) (A : List Text),
    Station doc acc.after A → (∀ l mr, stop = .peer l mr → e.ar = .checked → mr ≤ 5 ∧ Passed A) →
    (x = .fuel → acc.after.data.length < n) → blocksLoop e n stop acc = .error x → Culprit e doc x := by
  intro n
  induction n with
  | zero =>
    intro stop acc A _ _ hf h
    cases h
    exact absurd (hf rfl) (Nat.not_lt_zero _)
  | succ n ih =>
    intro stop acc A hs hk hf h
    by_cases hne : acc.after.data = []
    · unfold blocksLoop at h
      rw [if_pos (by simp [hne])] at h
      cases h
    rw [blocksLoop_succ e n stop acc hne] at h
    cases hc : stop.check e acc.after with
    | error y =>
      rw [hc] at h; cases h
      cases stop with
      | never => cases hc
      | always => cases hc
      | peer l mr =>
        unfold Stop.check at hc
        simp only [bind, Except.bind] at hc
        cases hp : peerOrAncestor e acc.after l mr with
        | ok q => rw [hp] at hc; cases hc
        | error y =>
          rw [hp] at hc; cases hc
          rcases peer_error hs.1 (hk l mr rfl) hp with h | h
          · exact Or.inl h
          · exact Or.inr (Or.inl h)
    | ok c =>
      obtain ⟨b, stop', sw⟩ := c
      have hk' : ∀ l mr, stop' = .peer l mr → e.ar = .checked → mr ≤ 5 ∧ Passed A := by
        rintro l mr rfl har
        cases stop with
        | never => cases hc
        | always => cases hc
        | peer l' mr' =>
          obtain ⟨h1, h2⟩ := hk l' mr' rfl har
          unfold Stop.check at hc
          simp only [bind, Except.bind] at hc
          cases hp : peerOrAncestor e acc.after l' mr' with
          | error y => rw [hp] at hc; cases hc
          | ok q =>
            obtain ⟨b', mr'', ws'⟩ := q
            rw [hp] at hc; cases hc
            exact ⟨peer_recent har h1 hp, h2⟩
      rw [hc] at h
      cases b with
      | true => cases h
      | false =>
        simp only [Except.bind, Bool.false_eq_true, if_false] at h
        cases hb : parseBlock e (nestedCall e n) acc.state acc.after with
        | error y =>
          rw [hb] at h; cases h
          have hsh := parseBlock_shape e acc.state acc.after
          generalize hg : (fun nested => parseBlock e nested acc.state acc.after) = g at hsh
          have hb : g (nestedCall e n) = .error x := by rw [← hg]; exact hb
          cases hsh with
          | plain hp => exact Or.inl ((hp x hb).mono hs.1.2)
          | compound hm ho hok =>
            rename_i m mw context inside closing after src f
            simp only at hb
            cases hn : nestedCall e n .never acc.state inside with
            | ok maw =>
              rw [hn] at hb
              obtain ⟨b, ws, p', h'⟩ := hok maw
              simp only [Except.bind, h'] at hb
              cases hb
            | error y =>
              rw [hn] at hb; cases hb
              obtain ⟨T, hT⟩ := (compound_moves hm ho).2 hs.1
              obtain ⟨U, hU⟩ := hT.discard
              refine ih _ _ _ hU (fun _ _ hst => by cases hst) (fun hx => ?_) hn
              have h1 := (inside_shorter hm ho).1
              have h2 := suf_len (discardEmptyLines_suf inside)
              have h3 := hf hx
              simp only
              omega
          | «section» hm hl ht hok =>
            rename_i m mw mi tw f
            simp only at hb
            obtain ⟨T, hT, hmem⟩ := title_moves hm ht
            generalize hst : (if m.isDiscrete then Stop.always else .peer mi.item.1 mi.item.1) = st at hb
            cases hn : nestedCall e n st (openSection acc.state m mi.item.1).2.2 mi.after with
            | ok maw =>
              rw [hn] at hb
              exact Or.inl (((hok maw).1 x (nestedCall_suf hn) hb).mono hs.1.2)
            | error y =>
              rw [hn] at hb; cases hb
              obtain ⟨U, hU⟩ := (hs.1.moves hT).discard
              refine ih _ _ _ hU ?_ (fun hx => ?_) hn
              · rintro l mr rfl har
                rw [har] at ht
                have hh := (titleLine_checked ht).1
                split at hst
                · cases hst
                · cases hst
                  exact ⟨hh.2.1, _, by simp [hmem], _, _, hh⟩
              · have h1 := title_shorter hm ht
                have h2 := suf_len (discardEmptyLines_suf mi.after)
                have h3 := hf hx
                simp only
                omega
        | ok q =>
          obtain ⟨r, ws, p'⟩ := q
          cases r with
          | none =>
            have := stuck_forever hne hb (n + 1) stop stop' sw acc hc rfl rfl
            rw [blocksLoop_succ e n stop acc hne, hc] at this
            simp only [Except.bind, Bool.false_eq_true, if_false] at this
            rw [this] at h
            cases h
            obtain ⟨⟨B, hB, hB'⟩, _⟩ := hs.1
            exact Or.inr (Or.inr ⟨rfl, A, lines acc.after.data, B, hB, fun h0 => hne (lines_eq_nil.mp h0), hB',
              parseBlock_stalls hne hs.2 hb⟩)
          | some mi =>
            rw [hb] at h
            simp only at h
            obtain ⟨T, hT⟩ : ∃ T, Station doc mi.after (A ++ T) := by
              have hstep := parseBlock_step hb
              generalize hr : some mi = r at hstep
              cases hstep with
              | leaf hl =>
                subst hr
                obtain ⟨T, h1, h2⟩ := leaf_moves hl
                exact ⟨T, hs.moves h1 h2⟩
              | compound hm ho hn =>
                cases hr
                obtain ⟨T, h1, h2⟩ := (compound_moves hm.parse ho).1
                exact ⟨T, hs.moves h1 h2⟩
              | «section» hm hi ht hn _ =>
                cases hr
                rw [discard_marked hi] at ht
                obtain ⟨T, hT, _⟩ := title_moves hm.parse ht
                obtain ⟨U, hU⟩ := (hs.1.moves hT).discard
                obtain ⟨bs, ws, sw, _, _, _, hr⟩ := blocksLoop_run _ _ _ _ hn
                obtain ⟨V, hV⟩ := run_station hr hU
                exact ⟨T ++ U ++ V, by simpa [List.append_assoc] using hV⟩
            refine ih _ _ _ hT ?_ (fun hx => ?_) h
            · intro l mr hst har
              obtain ⟨h1, hh, h2, h3⟩ := hk' l mr hst har
              exact ⟨h1, hh, by simp [h2], h3⟩
            · have h1 := block_shorter hb
              have h3 := hf hx
              simp only
              omega

end Adoc
