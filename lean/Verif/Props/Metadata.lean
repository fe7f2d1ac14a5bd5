import Verif.Lemmas.Metadata
/-!
# C27: block metadata
-/

namespace Adoc.Props
open Adoc Adoc.Spec Span

variable [Uni]

/-- Reading metadata returns: it can only fail when a substitution applied to the title or to an attribute value does.  In
particular the bound on the number of iterations in the model is never reached.  The text that is substituted is made of
characters of the source. -/
theorem C27_terminates {subs : Subs} {store : AttrStore} {source : Span} {e : Fail}
    (h : BlockMetadata.parse subs store source = .error e) :
    ∃ t, Drawn source.data t ∧ subs store .normal none t = .error e := by
  unfold BlockMetadata.parse at h
  simp only [bind, Except.bind] at h
  cases hl : metaLoop subs store 4 { blockStart := source.discardEmptyLines } with
  | error e' =>
    rw [hl] at h; cases h
    obtain ⟨t, h1, h2⟩ := metaLoop_error 4 _ hl (by simp)
    exact ⟨t, h1.mono fun c hc => sub_mem (discardEmptyLines_suf source).sub hc, h2⟩
  | ok st =>
    rw [hl] at h
    simp only at h
    cases ht : st.titleSource with
    | none => rw [ht] at h; cases h
    | some t =>
      rw [ht] at h
      simp only [Option.mapM_some] at h
      cases hs : subs store .normal none t.data with
      | ok _ => rw [hs] at h; cases h
      | error e' =>
        rw [hs] at h; cases h
        refine ⟨_, .of_mem fun c hc => ?_, hs⟩
        obtain ⟨_, _, _, _, _, g5, _⟩ := metaLoop_spec source.discardEmptyLines 4 _ _ [] hl rfl
          (by intro k; cases k <;> simp [MetaState.has]) ⟨rfl, rfl, fun _ => rfl, rfl⟩ (by simp) (by simp) (by simp)
          (by simp) (by simp) (by simp)
        exact sub_mem (discardEmptyLines_suf source).sub (sub_mem (g5 t (by rw [ht]; rfl)) hc)

theorem parse_ok {subs : Subs} {store : AttrStore} {source : Span} {m : BlockMetadata} {ws : List Warning}
    (h : BlockMetadata.parse subs store source = .ok (m, ws)) :
    ∃ st title, metaLoop subs store 4 { blockStart := source.discardEmptyLines } = .ok st ∧
      st.titleSource.mapM (fun s => subs store .normal none s.data) = .ok title ∧
      m = ⟨⟨st.titleSource, title, st.anchor, st.reftext, st.attrlist⟩, source.discardEmptyLines, st.blockStart⟩ ∧
      ws = st.warnings := by
  unfold BlockMetadata.parse at h
  simp only [bind, Except.bind] at h
  cases hl : metaLoop subs store 4 { blockStart := source.discardEmptyLines } with
  | error e' => rw [hl] at h; cases h
  | ok st =>
    rw [hl] at h
    simp only at h
    cases ht : st.titleSource.mapM (fun s => subs store .normal none s.data) with
    | error e => rw [ht] at h; cases h
    | ok title => rw [ht] at h; cases h; exact ⟨st, title, rfl, ht, by simp, rfl⟩

private theorem initial (subs : Subs) (store : AttrStore) (s : Span) :
    MetaState.Says subs store { blockStart := s } [] := ⟨rfl, rfl, fun _ => rfl, rfl⟩

private theorem kinds_le_three {used : List MetaKind} {ls rest : List Text} {is : List MetaItem}
    (h : MetaItems used ls is rest) (hu : used.Nodup) : is.length + used.length ≤ 3 := by
  induction h with
  | stop _ =>
    rename_i u _ _
    have h1 : ∀ l : List MetaKind, l.Nodup → l.length ≤ 3 := by
      intro l hl
      rcases l with _ | ⟨a, _ | ⟨b, _ | ⟨c, _ | ⟨d, l⟩⟩⟩⟩
      · simp
      · simp
      · simp
      · simp
      · exfalso
        simp only [List.nodup_cons, List.mem_cons, not_or] at hl
        cases a <;> cases b <;> cases c <;> cases d <;> simp at hl
    simp; exact h1 u hu
  | item hl hn _ ih =>
    have := ih (List.nodup_cons.mpr ⟨hn, hu⟩)
    simp at this ⊢; omega

/-- What is read: the blank lines in front are dropped; then as many title, anchor and attribute list lines as there are,
in any order but one of each kind, are the metadata, and the block starts behind them.  At most three lines are read.
The values found are those lines' contents. -/
theorem C27_reads {subs : Subs} {store : AttrStore} {source : Span} {m : BlockMetadata} {ws : List Warning}
    (h : BlockMetadata.parse subs store source = .ok (m, ws)) :
    ∃ is, MetaItems [] ((lines source.data).dropWhile (·.all isBlank)) is (lines m.blockStart.data) ∧ is.length ≤ 3 ∧
      m.fields.titleSource.map Span.data = is.findSome? MetaItem.title? ∧
      m.fields.anchor.map (fun a => (a.data, m.fields.anchorReftext.map Span.data)) = is.findSome? MetaItem.anchor? ∧
      m.fields.attrlist.map (fun a => a.source.data) = is.findSome? MetaItem.attrs? := by
  obtain ⟨st, title, h1, h2, rfl, rfl⟩ := parse_ok h
  obtain ⟨is, g1, g2, g3, g4, g5⟩ := metaLoop_spec source.discardEmptyLines 4 _ _ [] h1 rfl
    (by intro k; cases k <;> simp [MetaState.has]) (initial subs store _) (by simp) (by simp) (by simp) (by simp) (by simp)
    (by simp)
  refine ⟨is, ?_, ?_, ?_, ?_, ?_⟩
  · rw [← lines_discardEmptyLines]; exact g1
  · have := kinds_le_three g1 List.nodup_nil
    simpa using this
  · simpa using g3.title
  · simpa using g3.anchor
  · simpa using g3.attrs

/-- The lines determine what is read. -/
theorem C27_deterministic {ls rest rest' : List Text} {is js : List MetaItem} (h : MetaItems [] ls is rest)
    (h' : MetaItems [] ls js rest') : is = js ∧ rest = rest' := h.det h'

/-- The values: the title is the substituted text of its line, the attribute list is parsed from its line, and so are the
warnings, followed by one about a line that looks like an anchor but is none and on which reading stopped.  All spans lie
in the text. -/
theorem C27_values {subs : Subs} {store : AttrStore} {source : Span} {m : BlockMetadata} {ws : List Warning}
    (h : BlockMetadata.parse subs store source = .ok (m, ws)) :
    (m.fields.titleSource = none ∧ m.fields.title = none ∨
      ∃ s t, m.fields.titleSource = some s ∧ m.fields.title = some t ∧ subs store .normal none s.data = .ok t) ∧
    ∃ w1 w2, ws = w1 ++ w2 ∧
      (∀ a ∈ m.fields.attrlist, Attrlist.parse (subs store .normal none) store a.source .block = .ok (a, w1)) ∧
      (m.fields.attrlist = none → w1 = []) ∧
      (m.fields.anchor = none → AnchorWarning m.blockStart.takeNormalizedLine.item.data (w2.map Warning.warning)) ∧
      (m.fields.anchor.isSome = true → w2 = []) ∧ (∀ w ∈ w2, Sub w.source source) := by
  obtain ⟨st, title, h1, h2, rfl, rfl⟩ := parse_ok h
  obtain ⟨is, g1, g2, g3, ⟨w1, w2, e1, e2, e3, e4, e5, e6⟩, g5⟩ := metaLoop_spec source.discardEmptyLines 4 _ _ [] h1 rfl
    (by intro k; cases k <;> simp [MetaState.has]) (initial subs store _) (by simp) (by simp) (by simp) (by simp) (by simp)
    (by simp)
  refine ⟨?_, w1, w2, e1, e2, e3, e5, e4, fun w hw => (e6 w hw).trans (discardEmptyLines_suf source).sub⟩
  cases ht : st.titleSource with
  | none => rw [ht] at h2; cases h2; exact Or.inl ⟨rfl, rfl⟩
  | some t =>
    rw [ht] at h2
    simp only [Option.mapM_some] at h2
    cases hs : subs store .normal none t.data with
    | error e => rw [hs] at h2; cases h2
    | ok x => rw [hs] at h2; cases h2; exact Or.inr ⟨t, x, rfl, rfl, hs⟩

/-- The spans of the metadata lie in the text, and so does the rest. -/
theorem C27_spans {subs : Subs} {store : AttrStore} {source : Span} {m : BlockMetadata} {ws : List Warning}
    (h : BlockMetadata.parse subs store source = .ok (m, ws)) :
    Suf m.source source ∧ (∃ n, n ≤ 3 ∧ m.blockStart = m.source.skip n) ∧ (∀ s ∈ m.fields.titleSource, Sub s m.source) ∧
      (∀ s ∈ m.fields.anchor, Sub s m.source) ∧ (∀ s ∈ m.fields.anchorReftext, Sub s m.source) ∧
      ∀ a ∈ m.fields.attrlist, Sub a.source m.source := by
  obtain ⟨st, title, h1, h2, rfl, rfl⟩ := parse_ok h
  obtain ⟨is, g1, g2, g3, g4, g5⟩ := metaLoop_spec source.discardEmptyLines 4 _ _ [] h1 rfl
    (by intro k; cases k <;> simp [MetaState.has]) (initial subs store _) (by simp) (by simp) (by simp) (by simp) (by simp)
    (by simp)
  refine ⟨discardEmptyLines_suf _, ⟨is.length, ?_, by simpa using g2⟩, g5⟩
  have := kinds_le_three g1 List.nodup_nil
  simpa using this

private theorem stop_perm {ls : List Text} {is js : List MetaItem} {rest : List Text} {used used' : List MetaKind}
    (h : ∀ k, k ∈ used ↔ k ∈ used') (hm : MetaItems used ls is rest) : MetaItems used' ls is rest := by
  induction hm generalizing used' with
  | stop hn => exact .stop (fun l r i e hl => (h _).mp (hn l r i e hl))
  | item hl hu _ ih =>
    refine .item hl (fun g => hu ((h _).mpr g)) (ih ?_)
    intro k; simp [h]

private theorem items_lines {used : List MetaKind} {ls rest : List Text} {is : List MetaItem} (h : MetaItems used ls is rest) :
    ∃ ms, ls = ms ++ rest ∧ ms.length = is.length ∧ (∀ p ∈ ms.zip is, MetaLine p.1 p.2) ∧ (is.map MetaItem.kind).Nodup ∧
      (∀ k ∈ is.map MetaItem.kind, k ∉ used) ∧
      ∀ l r i, rest = l :: r → MetaLine l i → i.kind ∈ used ∨ i.kind ∈ is.map MetaItem.kind := by
  induction h with
  | stop hn => exact ⟨[], rfl, rfl, by simp, by simp, by simp, fun l r i e hl => Or.inl (hn l r i e hl)⟩
  | item hl hu hr ih =>
    rename_i used l ls i is rest
    obtain ⟨ms, e1, e2, e3, e4, e5, e6⟩ := ih
    refine ⟨l :: ms, by rw [e1]; rfl, by simp [e2], ?_, ?_, ?_, ?_⟩
    · intro p hp
      simp only [List.zip_cons_cons, List.mem_cons] at hp
      rcases hp with rfl | hp
      · exact hl
      · exact e3 p hp
    · rw [List.map_cons, List.nodup_cons]
      refine ⟨fun hk => ?_, e4⟩
      have := e5 _ hk
      simp at this
    · intro k hk
      rw [List.map_cons, List.mem_cons] at hk
      rcases hk with rfl | hk
      · exact hu
      · have := e5 _ hk
        simp at this; exact this.2
    · intro l r j e hj
      rcases e6 l r j e hj with h | h
      · rw [List.mem_cons] at h
        rcases h with h | h
        · right; rw [h]; simp
        · exact Or.inl h
      · right; rw [List.map_cons]; exact List.mem_cons_of_mem _ h

private theorem items_of_lines {rest : List Text} : ∀ (ms : List (Text × MetaItem)) (used : List MetaKind),
    (∀ p ∈ ms, MetaLine p.1 p.2) → (ms.map (fun p => p.2.kind)).Nodup → (∀ k ∈ ms.map (fun p => p.2.kind), k ∉ used) →
    (∀ l r i, rest = l :: r → MetaLine l i → i.kind ∈ used ∨ i.kind ∈ ms.map (fun p => p.2.kind)) →
    MetaItems used (ms.map Prod.fst ++ rest) (ms.map Prod.snd) rest := by
  intro ms
  induction ms with
  | nil =>
    intro used _ _ _ h
    exact .stop (fun l r i e hl => by simpa using h l r i e hl)
  | cons p ms ih =>
    intro used h1 h2 h3 h4
    rw [List.map_cons, List.nodup_cons] at h2
    refine .item (h1 p (by simp)) (h3 _ (by simp)) (ih _ (fun q hq => h1 q (by simp [hq])) h2.2 ?_ ?_)
    · intro k hk
      rw [List.mem_cons]
      rintro (rfl | hu)
      · exact h2.1 hk
      · exact h3 k (by rw [List.map_cons]; exact List.mem_cons_of_mem _ hk) hu
    · intro l r i e hl
      rcases h4 l r i e hl with h | h
      · exact Or.inl (List.mem_cons_of_mem _ h)
      · rw [List.map_cons, List.mem_cons] at h
        rcases h with h | h
        · left; rw [h]; simp
        · exact Or.inr h

/-- Any order of the metadata lines gives the same result: when the lines of a text are `ms` (each saying what it says,
each kind once) and then `rest`, with nothing more to read, then the same holds for every permutation of `ms`; and the
values, found by kind, are the same. -/
theorem C27_any_order {ms ms' : List (Text × MetaItem)} {rest : List Text} (hp : ms.Perm ms')
    (h : MetaItems [] (ms.map Prod.fst ++ rest) (ms.map Prod.snd) rest) :
    MetaItems [] (ms'.map Prod.fst ++ rest) (ms'.map Prod.snd) rest ∧
      (ms'.map Prod.snd).findSome? MetaItem.title? = (ms.map Prod.snd).findSome? MetaItem.title? ∧
      (ms'.map Prod.snd).findSome? MetaItem.anchor? = (ms.map Prod.snd).findSome? MetaItem.anchor? ∧
      (ms'.map Prod.snd).findSome? MetaItem.attrs? = (ms.map Prod.snd).findSome? MetaItem.attrs? := by
  obtain ⟨ls, e1, e2, e3, e4, e5, e6⟩ := items_lines h
  have els : ls = ms.map Prod.fst := (List.append_cancel_right e1).symm
  subst els
  have hz : (ms.map Prod.fst).zip (ms.map Prod.snd) = ms := by
    clear h hp e1 e2 e3 e4 e5 e6
    induction ms with
    | nil => rfl
    | cons p ms ih => simp [ih]
  rw [hz] at e3
  have ek : (ms.map Prod.snd).map MetaItem.kind = ms.map (fun p => p.2.kind) := by simp
  rw [ek] at e4 e5 e6
  have hk : (ms.map (fun p => p.2.kind)).Perm (ms'.map (fun p => p.2.kind)) := hp.map _
  refine ⟨items_of_lines ms' [] (fun p h => e3 p (hp.mem_iff.mpr h)) (hk.nodup_iff.mp e4) (by simp) ?_, ?_⟩
  · intro l r i e hl
    rcases e6 l r i e hl with h | h
    · exact Or.inl h
    · exact Or.inr (hk.mem_iff.mp h)
  -- a value of each kind occurs once
  have key : ∀ {β : Type} (f : MetaItem → Option β) (k : MetaKind), (∀ i, (f i).isSome = true → i.kind = k) →
      (ms'.map Prod.snd).findSome? f = (ms.map Prod.snd).findSome? f := by
    intro β f k hf
    clear h e1 e2 e3 e5 e6 hz ek
    induction hp with
    | nil => rfl
    | cons x _ ih =>
      rw [List.map_cons, List.nodup_cons] at e4
      simp only [List.map_cons, List.findSome?_cons]
      rw [ih e4.2 (List.Perm.map _ ‹_›)]
    | swap x y l =>
      simp only [List.map_cons, List.findSome?_cons]
      rw [List.map_cons, List.map_cons, List.nodup_cons] at e4
      cases h1 : f x.2 with
      | none => rfl
      | some a =>
        cases h2 : f y.2 with
        | none => rfl
        | some b =>
          exfalso
          apply e4.1
          have e1 := hf x.2 (by rw [h1]; rfl)
          have e2 := hf y.2 (by rw [h2]; rfl)
          simp [e1, e2]
    | trans p1 p2 ih1 ih2 =>
      rw [ih2 ((p1.map _).nodup_iff.mp e4) (p2.map _), ih1 e4 (p1.map _)]
  exact ⟨key _ .title (by intro i hi; cases i <;> simp_all [MetaItem.title?, MetaItem.kind]),
    key _ .anchor (by intro i hi; cases i <;> simp_all [MetaItem.anchor?, MetaItem.kind]),
    key _ .attrs (by intro i hi; cases i <;> simp_all [MetaItem.attrs?, MetaItem.kind])⟩

omit [Uni] in
/-- All orders of a title, an anchor and an attribute list in front of a paragraph. -/
example : letI := asciiUni
    [".T\n[[a,R]]\n[x]\npara", "[[a,R]]\n.T\n[x]\npara", "[x]\n[[a,R]]\n.T\npara",
      "\n[x]\n.T\n[[a,R]]\npara"].map (fun t =>
      (BlockMetadata.parse (fun _ _ _ t => .ok t) AttrStore.default (Span.new t.toList)).toOption.map
        (fun r => [r.1.fields.title, r.1.fields.anchor.map Span.data, r.1.fields.anchorReftext.map Span.data,
          r.1.fields.attrlist.map (fun a => a.source.data), some r.1.blockStart.data])) =
      List.replicate 4
        (some [some "T".toList, some "a".toList, some "R".toList, some "x".toList, some "para".toList]) := by
  decide +kernel

omit [Uni] in
/-- A second title is not metadata. -/
example : letI := asciiUni
    (BlockMetadata.parse (fun _ _ _ t => .ok t) AttrStore.default (Span.new ".T\n.U\npara".toList)).toOption.map
        (fun r => (r.1.fields.title, r.1.blockStart.data, r.2)) =
      some (some "T".toList, ".U\npara".toList, []) := by
  decide +kernel

omit [Uni] in
/-- A line that looks like an anchor. -/
example : letI := asciiUni
    (BlockMetadata.parse (fun _ _ _ t => .ok t) AttrStore.default (Span.new ".T\n[[3]]\npara".toList)).toOption.map
        (fun r => (r.1.fields.title, r.1.blockStart.data, r.2.map Warning.warning)) =
      some (some "T".toList, "[[3]]\npara".toList, [.invalidBlockAnchorName]) := by
  decide +kernel

omit [Uni] in
example : letI := asciiUni
    MetaItems [] ([(".T".toList, MetaItem.title "T".toList), ("[x]".toList, .attrs "x".toList)].map Prod.fst ++ [['p']])
      [.title "T".toList, .attrs "x".toList] [['p']] := by
  letI := asciiUni
  refine .item (.title (by decide) (by decide) (by decide)) (by decide)
    (.item (.attrs (t := ['x']) (by decide) (by decide) ?_) (by decide) (.stop ?_))
  · intro r h; cases h
  · intro l rest i e h
    cases e
    generalize hl : ['p'] = l at h
    cases h <;> cases hl

end Adoc.Props
