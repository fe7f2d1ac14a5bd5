import Verif.Lemmas.Tree
import Verif.Spec.Document
import Verif.Props.Header
/-!
# Documents
-/

namespace Adoc
open Span Spec

/-! ### The preamble -/

theorem isSection_iff {b : Block} : b.isSection = true ↔ IsSection b := by
  unfold Block.isSection IsSection
  cases b.kind <;> simp

theorem isDocAttr_iff {b : Block} : b.isDocAttr = true ↔ IsEntry b := by
  unfold Block.isDocAttr IsEntry
  cases b.kind <;> simp

theorem entry_not_section {b : Block} (h : IsEntry b) : ¬ IsSection b := by
  obtain ⟨a, ha⟩ := h
  rintro ⟨l, c, t, i, n, hs⟩
  rw [ha] at hs; cases hs

/-- What the search for the end of the preamble finds. -/
theorem preambleSplit_spec : ∀ (bs : List Block) (i : Nat) (content : Bool),
    match preambleSplit i content bs with
    | some j => ∃ front first back, bs = front ++ first :: back ∧ j = i + front.length ∧ IsSection first ∧
        (∀ b ∈ front, ¬ IsSection b) ∧ (content = true ∨ ∃ b ∈ front, ¬ IsEntry b)
    | none => (∀ b ∈ bs, ¬ IsSection b) ∨ ∃ front first back, bs = front ++ first :: back ∧ IsSection first ∧
        content = false ∧ ∀ b ∈ front, IsEntry b
  | [], i, content => by
    simp only [preambleSplit]
    exact Or.inl (by simp)
  | b :: bs, i, content => by
    rw [preambleSplit]
    by_cases h1 : b.isDocAttr = true
    · rw [if_pos h1]
      have he := isDocAttr_iff.mp h1
      have ih := preambleSplit_spec bs (i + 1) content
      cases hp : preambleSplit (i + 1) content bs with
      | some j =>
        rw [hp] at ih
        obtain ⟨front, first, back, rfl, rfl, h3, h4, h5⟩ := ih
        refine ⟨b :: front, first, back, rfl, by simp; omega, h3, ?_, ?_⟩
        · intro x hx
          rcases List.mem_cons.mp hx with rfl | hx
          · exact entry_not_section he
          · exact h4 x hx
        · rcases h5 with h5 | ⟨x, hx, hn⟩
          · exact Or.inl h5
          · exact Or.inr ⟨x, List.mem_cons_of_mem _ hx, hn⟩
      | none =>
        rw [hp] at ih
        rcases ih with ih | ⟨front, first, back, rfl, h3, h4, h5⟩
        · refine Or.inl ?_
          intro x hx
          rcases List.mem_cons.mp hx with rfl | hx
          · exact entry_not_section he
          · exact ih x hx
        · refine Or.inr ⟨b :: front, first, back, rfl, h3, h4, ?_⟩
          intro x hx
          rcases List.mem_cons.mp hx with rfl | hx
          · exact he
          · exact h5 x hx
    · rw [if_neg h1]
      have hne : ¬ IsEntry b := fun h => h1 (isDocAttr_iff.mpr h)
      by_cases h2 : b.isSection = true
      · rw [if_pos h2]
        have hs := isSection_iff.mp h2
        cases content with
        | true => exact ⟨[], b, bs, rfl, rfl, hs, by simp, Or.inl rfl⟩
        | false => exact Or.inr ⟨[], b, bs, rfl, hs, rfl, by simp⟩
      · rw [if_neg h2]
        have hns : ¬ IsSection b := fun h => h2 (isSection_iff.mpr h)
        have ih := preambleSplit_spec bs (i + 1) true
        cases hp : preambleSplit (i + 1) true bs with
        | some j =>
          rw [hp] at ih
          obtain ⟨front, first, back, rfl, rfl, h3, h4, _⟩ := ih
          refine ⟨b :: front, first, back, rfl, by simp; omega, h3, ?_, Or.inr ⟨b, by simp, hne⟩⟩
          intro x hx
          rcases List.mem_cons.mp hx with rfl | hx
          · exact hns
          · exact h4 x hx
        | none =>
          rw [hp] at ih
          rcases ih with ih | ⟨front, first, back, rfl, h3, h4, h5⟩
          · refine Or.inl ?_
            intro x hx
            rcases List.mem_cons.mp hx with rfl | hx
            · exact hns
            · exact ih x hx
          · cases h4

theorem HasPreamble.det {bs f f' k k' : List Block} {s s' : Block} (h : HasPreamble bs f s k) (h' : HasPreamble bs f' s' k') :
    f = f' ∧ s = s' ∧ k = k' := by
  obtain ⟨rfl, h1, h2, _⟩ := h
  obtain ⟨e, h1', h2', _⟩ := h'
  rcases List.append_eq_append_iff.mp e with ⟨z, rfl, hz⟩ | ⟨z, rfl, hz⟩
  · cases z with
    | nil => simp at hz; simp [hz]
    | cons x xs =>
      simp at hz
      exact absurd (hz.1 ▸ h1) (h2' x (by simp))
  · cases z with
    | nil => simp at hz; simp [hz]
    | cons x xs =>
      simp at hz
      exact absurd (hz.1 ▸ h1') (h2 x (by simp))

/-- What is done about the preamble. -/
theorem withPreamble_spec (bs : List Block) (src : Span) :
    (∃ front first back, HasPreamble bs front first back ∧
      withPreamble bs src = (preambleOf front src).map fun p => p :: first :: back) ∨
    ((¬ ∃ front first back, HasPreamble bs front first back) ∧ withPreamble bs src = .ok bs) := by
  have h := preambleSplit_spec bs 0 false
  unfold withPreamble
  cases hp : preambleSplit 0 false bs with
  | some j =>
    rw [hp] at h
    obtain ⟨front, first, back, rfl, rfl, h3, h4, h5⟩ := h
    refine Or.inl ⟨front, first, back, ⟨rfl, h3, h4, by simpa using h5⟩, ?_⟩
    simp only [Nat.zero_add, List.take_left, List.drop_left]
    cases preambleOf front src <;> rfl
  | none =>
    rw [hp] at h
    refine Or.inr ⟨?_, rfl⟩
    rintro ⟨f, s, k, hf, h1, h2, x, hx, h3⟩
    rcases h with h | ⟨front, first, back, e, h4, _, h5⟩
    · exact h s (by rw [hf]; simp) h1
    · subst hf
      rcases List.append_eq_append_iff.mp e with ⟨z, rfl, hz⟩ | ⟨z, rfl, hz⟩
      · exact h3 (h5 x (by simp [hx]))
      · cases z with
        | nil => rw [List.append_nil] at hx; exact h3 (h5 x hx)
        | cons y ys =>
          simp at hz
          exact h2 y (by simp) (hz.1 ▸ h4)

theorem preambleOf_shape {bs : List Block} {src : Span} {b : Block} (h : preambleOf bs src = .ok b) :
    ∃ s, b = .mk .preamble s {} bs := by
  unfold preambleOf at h
  simp only [bind, Except.bind] at h
  split at h
  · rename_i x _
    cases ho : src.trimRemainder? x.source.discardAll with
    | none => rw [ho] at h; cases h
    | some v => rw [ho] at h; exact ⟨v, (Except.ok.inj h).symm⟩
  · cases ho : src.trimRemainder? src with
    | none => rw [ho] at h; cases h
    | some v => rw [ho] at h; exact ⟨v, (Except.ok.inj h).symm⟩

/-- The preamble of blocks in a text reaches from the beginning of the text to the end of the last block. -/
theorem preambleOf_geo {bs : List Block} {src : Span} (hne : bs ≠ []) (hs : ∀ b ∈ bs, Sub b.source src) (ho : InOrder bs) :
    ∃ k, k ≤ src.data.length ∧ preambleOf bs src = .ok (.mk .preamble (src.takeN k) {} bs) ∧
      (∀ b ∈ bs, Contains (src.takeN k) b.source) ∧ ∃ b ∈ bs, Sub b.source (src.takeN k) ∧ stopOf (src.takeN k) = stopOf b.source := by
  obtain ⟨front, last, rfl⟩ : ∃ front last, bs = front ++ [last] := by
    rcases List.eq_nil_or_concat bs with h | ⟨a, b, h⟩
    · exact absurd h hne
    · exact ⟨a, b, by rw [h, List.concat_eq_append]⟩
  obtain ⟨a, b, hab, e⟩ := hs last (by simp)
  have hlen : b ≤ (src.dropN a).data.length := by rw [dropN_data, List.length_drop]; omega
  have hoff : last.source.discardAll.offset = (src.dropN (a + b)).offset := by
    rw [e, ← dropN_dropN]
    unfold Span.discardAll Span.discard Span.cut
    simp only
    rw [dropN_offset, dropN_offset, takeN_offset, takeN_data]
    congr 2
    exact List.take_of_length_le (Nat.le_refl _)
  have hst : stopOf (src.takeN (a + b)) = stopOf last.source := by
    rw [e, stopOf_eq, stopOf_eq, takeN_offset, takeN_offset, takeN_data, takeN_data, dropN_offset, dropN_data,
      List.take_add, blen_append]
    omega
  have hsub : Sub last.source (src.takeN (a + b)) := by
    refine ⟨a, b, by rw [takeN_data, List.length_take]; omega, ?_⟩
    rw [e, takeN_dropN src (by omega : a ≤ a + b), takeN_takeN]
    congr 1
    omega
  refine ⟨a + b, hab, ?_, ?_, last, by simp, hsub, hst⟩
  · unfold preambleOf
    simp only [List.getLast?_append, List.getLast?_singleton, Option.some_or]
    rw [trimRemainder?_offset hoff, trimRemainder?_dropN _ hab]
    rfl
  · intro x hx
    refine ⟨by rw [takeN_offset]; exact (hs x hx).bounds.1, ?_⟩
    rw [hst]
    rcases List.mem_append.mp hx with hx | hx
    · have := (List.pairwise_append.mp ho).2.2 x hx last (by simp)
      have h2 : last.source.offset ≤ stopOf last.source := by rw [stopOf_eq]; omega
      omega
    · rw [List.mem_singleton.mp hx]; exact Nat.le_refl _

theorem Contains.covers {outer inner : Span} (h : Contains outer inner) : Covers outer inner := by
  refine ⟨h.1, ?_⟩
  intro x c y e _
  refine Nat.le_trans ?_ h.2
  rw [stopOf_eq, bytes_eq, e, show x ++ c :: y = (x ++ [c]) ++ y by simp, blen_append (x ++ [c])]
  omega

variable [Uni]

/-! ### Documents -/

theorem run_never {e : BlockEnv} {stop : Stop} {p p' : ParserState} {s s' : Span} {bs : List Block} {ws sw : List Warning}
    (h : Run e stop p s bs s' ws sw p') (hs : stop = .never) : s'.data = [] ∧ sw = [] := by
  have next : ∀ {s : Span} {stop' : Stop} {b : Bool} {sw : List Warning},
      Stop.check e s .never = .ok (b, stop', sw) → b = false ∧ stop' = .never ∧ sw = [] := by
    intro s stop' b sw h
    cases h; exact ⟨rfl, rfl, rfl⟩
  induction h with
  | done h => exact ⟨h, rfl⟩
  | halt _ h => subst hs; cases (next h).1
  | leaf _ h _ _ ih => subst hs; obtain ⟨_, h1, rfl⟩ := next h; exact ih h1
  | stuck _ h _ _ ih => subst hs; obtain ⟨_, h1, rfl⟩ := next h; exact ih h1
  | compound _ h _ _ _ _ _ ih => subst hs; obtain ⟨_, h1, rfl⟩ := next h; exact ih h1
  | «section» _ h _ _ _ _ _ _ _ ih => subst hs; obtain ⟨_, h1, rfl⟩ := next h; exact ih h1

theorem leaf_kind {e : BlockEnv} {p p' : ParserState} {s after : Span} {b : Block} {ws : List Warning}
    (h : LeafStep e p s (some ⟨b, after⟩) ws p') :
    b.children = [] ∧ ¬ IsSection b ∧ b.kind ≠ .preamble ∧ ∀ c, b.kind ≠ .compound c := by
  generalize hr : (some (⟨b, after⟩ : MI Block)) = r at h
  cases h with
  | fast _ => cases hr; exact ⟨rfl, (fun ⟨_, _, _, _, _, h⟩ => nomatch h), nofun, nofun⟩
  | entry _ => cases hr; exact ⟨rfl, (fun ⟨_, _, _, _, _, h⟩ => nomatch h), nofun, nofun⟩
  | raw _ _ => cases hr; exact ⟨rfl, (fun ⟨_, _, _, _, _, h⟩ => nomatch h), nofun, nofun⟩
  | media _ _ => cases hr; exact ⟨rfl, (fun ⟨_, _, _, _, _, h⟩ => nomatch h), nofun, nofun⟩
  | brk _ _ _ => cases hr; exact ⟨rfl, (fun ⟨_, _, _, _, _, h⟩ => nomatch h), nofun, nofun⟩
  | simple _ hp =>
    subst hr
    obtain ⟨m', sb, _, _, rfl, _⟩ := parseSimple_some hp
    exact ⟨rfl, (fun ⟨_, _, _, _, _, h⟩ => nomatch h), nofun, nofun⟩

omit [Uni] in
theorem Spec.Within.cases {x b : Block} (h : Within x b) : x = b ∨ ∃ c ∈ b.children, Within x c := by
  cases h with
  | self => exact Or.inl rfl
  | child hc h => exact Or.inr ⟨_, hc, h⟩

theorem run_kinds {e : BlockEnv} {stop : Stop} {p p' : ParserState} {s s' : Span} {bs : List Block} {ws sw : List Warning}
    (h : Run e stop p s bs s' ws sw p') : ∀ b ∈ bs, ∀ x, Within x b → x.kind ≠ .preamble := by
  have front : ∀ {b : Block} {cs bs : List Block}, b.children = cs → b.kind ≠ .preamble →
      (∀ c ∈ cs, ∀ x, Within x c → x.kind ≠ .preamble) → (∀ b ∈ bs, ∀ x, Within x b → x.kind ≠ .preamble) →
      ∀ x ∈ b :: bs, ∀ y, Within y x → y.kind ≠ .preamble := by
    intro b cs bs h1 h2 h3 h4 x hx y hy
    rcases List.mem_cons.mp hx with rfl | hx
    · rcases hy.cases with rfl | ⟨c, hc, hy⟩
      · exact h2
      · exact h3 c (h1 ▸ hc) y hy
    · exact h4 x hx y hy
  induction h with
  | done _ => simp
  | halt _ _ => simp
  | leaf _ _ hl _ ih => exact front (leaf_kind hl).1 (leaf_kind hl).2.2.1 (by simp) ih
  | stuck _ _ _ _ ih => exact ih
  | compound _ _ _ _ _ _ ih1 ih2 => exact front rfl nofun ih1 ih2
  | «section» _ _ _ _ _ _ _ _ ih1 ih2 => exact front rfl nofun ih1 ih2

/-- The parts of the parse of a document. -/
theorem document_run {e : BlockEnv} {hr : Renderer} {fuel : Nat} {p p' : ParserState} {text : Text} {d : Document}
    (h : Document.parse e hr fuel p text = .ok (d, p')) :
    ∃ mi hw store bs rest ws sw q,
      Header.parse (fun s t => e.subs s .header none t) hr p.store (Span.new text) = .ok (mi, hw, store) ∧
      Run e .never { p with store := store, sectnumlevels := sectnumlevelsOf store } mi.after.discardEmptyLines bs rest ws sw q ∧
      withPreamble bs mi.after = .ok d.blocks ∧ d.header = mi.item ∧ d.warnings = hw ++ ws ∧ d.catalog = q.catalog ∧
      p' = { q with catalog := none } ∧ d.source = (Span.new text).trimTrailingWhitespace := by
  unfold Document.parse at h
  simp only [bind, Except.bind] at h
  cases h1 : Header.parse (fun s t => e.subs s .header none t) hr p.store (Span.new text) with
  | error x => rw [h1] at h; cases h
  | ok y =>
    obtain ⟨mi, hw, store⟩ := y
    rw [h1] at h
    simp only at h
    cases h2 : parseBlocksUntil e fuel .never { p with store := store, sectnumlevels := sectnumlevelsOf store } mi.after with
    | error x => rw [h2] at h; cases h
    | ok r =>
      rw [h2] at h
      simp only at h
      cases h3 : withPreamble r.blocks mi.after with
      | error x => rw [h3] at h; cases h
      | ok bs =>
        rw [h3] at h
        cases h
        exact ⟨mi, hw, store, r.blocks, r.after, r.warnings, r.stopWarnings, r.state, rfl, parseBlocksUntil_run h2, h3,
          rfl, rfl, rfl, rfl, rfl⟩

/-- What holds of every block of a document. -/
structure Node (D : Span) (x : Block) : Prop where
  own : ∀ s ∈ spans x, Sub s D
  vis : Vis x.source.data
  order : InOrder x.children
  cover : ∀ c ∈ x.children, Covers x.source c.source
  inside : ∀ c ∈ x.children, ¬ IsRaw c ∨ x.kind = .preamble → Contains x.source c.source

theorem Tidy.lastVis {D : Span} {b : Block} (h : Tidy D b) : IsRaw b ∨ LastVis b.source.data := by
  cases h with
  | mk _ _ h _ _ _ => exact h

theorem Tidy.node {D : Span} {b : Block} (h : Tidy D b) (hp : b.kind ≠ .preamble) : Node D b := by
  cases h with
  | mk h1 h2 h3 h4 h5 h6 =>
    refine ⟨h1, h2, h4, h5, ?_⟩
    intro c hc hr
    rcases hr with hr | hr
    · exact Covers.of_trimmed (h5 c hc) ((h6 c hc).lastVis.resolve_left hr)
    · exact absurd hr hp

theorem header_after {hdr : HeaderSubs} {r : Renderer} {store store' : AttrStore} {doc : Text} {mi : MI Header}
    {ws : List Warning} (h : Header.parse hdr r store (Span.new doc) = .ok (mi, ws, store')) : Sub mi.after (Span.new doc) :=
  (faithful_iff_sub doc _).mp (Props.C47_spans h).1

/-- The blocks of a document, in terms of the executions of the block parser. -/
theorem document_tidy {e : BlockEnv} {hr : Renderer} {fuel : Nat} {p p' : ParserState} {text : Text} {d : Document}
    (h : Document.parse e hr fuel p text = .ok (d, p')) :
    InOrder d.blocks ∧ ∀ x, InDoc d x → Node (Span.new text) x := by
  obtain ⟨mi, hw, store, bs, rest, ws, sw, q, h1, h2, h3, _⟩ := document_run h
  obtain ⟨k, hk, e1, g1, g2, g3⟩ := run_tidy h2
  have hk2 := run_kinds h2
  have hde : Sub mi.after.discardEmptyLines mi.after := (discardEmptyLines_suf _).sub
  have hD := header_after h1
  have g3 := g3 _ (hde.trans hD)
  have hsub : ∀ b ∈ bs, Sub b.source mi.after := fun b hb => (g1 b hb).trans ((takeN_sub _ _).trans hde)
  have hnode : ∀ b ∈ bs, ∀ x, Within x b → Node (Span.new text) x := fun b hb x hx =>
    (Tidy.within hx (g3 b hb)).node (hk2 b hb x hx)
  rcases withPreamble_spec bs mi.after with ⟨front, first, back, ⟨rfl, hs, hns, y, hy, _⟩, hp⟩ | ⟨_, hp⟩
  · have hne : front ≠ [] := List.ne_nil_of_mem hy
    have ho := List.pairwise_append.mp g2
    obtain ⟨k', hk', hpre, hin, last, hlast, hls, hst⟩ := preambleOf_geo hne (fun b hb => hsub b (by simp [hb])) ho.1
    rw [hp, hpre] at h3
    have hb : d.blocks = .mk .preamble (mi.after.takeN k') {} front :: first :: back := (Except.ok.inj h3).symm
    rw [hb]
    refine ⟨?_, ?_⟩
    · refine List.pairwise_cons.mpr ⟨?_, ho.2.1⟩
      intro x hx
      show stopOf (mi.after.takeN k') ≤ _
      rw [hst]
      exact ho.2.2 last hlast x hx
    · rintro x ⟨b, hbm, hx⟩
      rw [hb] at hbm
      rcases List.mem_cons.mp hbm with rfl | hbm
      · rcases hx.cases with rfl | ⟨c, hc, hx⟩
        · refine ⟨?_, ?_, ho.1, fun c hc => Contains.covers (hin c hc), fun c hc _ => hin c hc⟩
          · intro s hs
            simp [spans, Block.source, Block.fields, Block.kind] at hs
            rw [hs]
            exact (takeN_sub _ _).trans hD
          · exact ((hnode last (by simp [hlast]) last (.self _)).vis).sub hls
        · exact hnode c (by simp [show c ∈ front from hc]) x hx
      · exact hnode b (List.mem_append_right _ hbm) x hx
  · rw [hp] at h3
    have hb : d.blocks = bs := (Except.ok.inj h3).symm
    rw [hb]
    refine ⟨g2, ?_⟩
    rintro x ⟨b, hbm, hx⟩
    rw [hb] at hbm
    exact hnode b hbm x hx

end Adoc
