import Verif.Lemmas.OutlineStep
/-!
# Documents written from an outline: all blocks
-/

namespace Adoc
open Span Spec Props

variable [Uni]

/-! ### Layouts -/

/-- Where the first line of a block or a heading is among its lines: behind what stands above it. -/
inductive Starts (R : Rendering) : List Text → Text → List Text → Prop
  | labelled {label mls l r} : LabelLines R label mls → Starts R (mls ++ l :: r) l r

omit [Uni] in
theorem Starts.plain {R : Rendering} {l : Text} {r : List Text} : Starts R (l :: r) l r := .labelled .nil

/-- The lines of a discrete heading. -/
def Floats (R : Rendering) (ls : List Text) (l : Text) (r : List Text) : Prop :=
  ∃ label mls, LabelLines R label mls ∧ ls = mls ++ l :: r ∧ label.attrs ≠ none ∧
    ∀ a, '[' :: a ++ [']'] ∈ mls → (∀ r, a ≠ '[' :: r ++ [']']) → R.discrete a

omit [Uni] in
theorem starts_shape {R : Rendering} {ls r : List Text} {l : Text} (h : Starts R ls l r) (ho : Opens l) :
    r.length < ls.length ∧ ∃ l' r', ls = l' :: r' ∧ l'.all isBlank = false := by
  cases h with
  | labelled h =>
    rcases labels_first h with rfl | ⟨c, r', ls, rfl, hc⟩
    · exact ⟨by simp, _, _, rfl, ho.nonblank⟩
    exact ⟨by simp; omega, _, _, rfl, by rcases hc with rfl | rfl <;> (rw [List.all_cons]; rfl)⟩

omit [Uni] in
theorem takes_first {R : Rendering} {as : Option (List ElemAttr)} {x : Leaf} {b : Bool} {ls rest : List Text}
    (h : Takes R as (.leaf x) b ls rest) (hx : ∀ label y, x ≠ .labelled label y) :
    ∃ l r, ls = l :: r ∧ Opens l ∧ rest.length ≤ r.length ∧
      ((¬ ∃ n t, Heading n t l) ∨ (∃ n r, x = .discrete n r) ∧ as ≠ none) := by
  cases h with
  | discrete h1 h2 _ =>
    exact ⟨_, _, rfl, (opens_heading h2).1, by simp, Or.inr ⟨⟨_, _, rfl⟩, fun h => by rw [h] at h1; rcases h1 with h | h <;> cases h⟩⟩
  | para h1 h2 _ _ =>
    refine ⟨_, _, rfl, begins_opens h1, by simp, ?_⟩
    cases h1.form with
    | text _ _ _ a _ => exact Or.inl a
  | verbatim h1 h2 h0 _ =>
    refine ⟨_, _, rfl, (opens_raw h1).1, by simp; omega, ?_⟩
    refine Or.inl ?_
    rintro ⟨n, t, h⟩
    cases lineForm_unique (.verbatim h1) (.heading h)
  | brk h1 h0 =>
    refine ⟨_, _, rfl, (opens_brk h1).1, by simp, ?_⟩
    refine Or.inl ?_
    rintro ⟨n, t, h⟩
    cases lineForm_unique (.brk h1) (.heading h)
  | media h1 h2 _ _ =>
    refine ⟨_, _, rfl, opens_media h1, by simp, ?_⟩
    refine Or.inl ?_
    rintro ⟨n, t, h⟩
    cases lineForm_unique (.media h1 h2) (.heading h)
  | container h1 h2 _ _ _ =>
    refine ⟨_, _, rfl, (opens_compound h1 h2).1, by simp; omega, ?_⟩
    refine Or.inl ?_
    rintro ⟨n, t, h⟩
    cases lineForm_unique (.container h1) (.heading h)
  | labelled _ _ _ _ _ => exact absurd rfl (hx _ _)

omit [Uni] in
theorem takes_head {R : Rendering} {x : Token} {b : Bool} {ls rest : List Text} (h : Takes R none x b ls rest) :
    ∃ l r, Starts R ls l r ∧ Opens l ∧ rest.length ≤ r.length ∧
      ((∃ y, x = .leaf y) → (¬ ∃ n t, Heading n t l) ∨ Floats R ls l r) := by
  cases x with
  | heading n t label =>
    cases h with
    | heading h0 h1 _ =>
      exact ⟨_, _, .labelled h0.written, (opens_heading h1).1, by simp, fun ⟨y, h⟩ => by cases h⟩
  | leaf x =>
    by_cases hx : ∀ label y, x ≠ .labelled label y
    · obtain ⟨l, r, rfl, g1, g2, g3⟩ := takes_first h hx
      exact ⟨l, r, .plain, g1, g2, fun _ => g3.imp_right fun h => absurd rfl h.2⟩
    · cases h with
      | labelled h1 _ h2 h4 h3 =>
        obtain ⟨l, r, rfl, g1, g2, g3⟩ := takes_first h3 h2
        exact ⟨l, r, .labelled h1, g1, g2, fun _ => g3.imp_right fun h => ⟨_, _, h1, rfl, h.2, h4 h.1⟩⟩
      | _ => exact absurd (fun label y he => by cases he) hx

omit [Uni] in
theorem layout_strip {R : Rendering} {x : Token} {ps : List Token} {ls : List Text} (h : Layout R false (x :: ps) ls) :
    ∃ k ls' rest b, ls = List.replicate k [] ++ ls' ∧ Takes R none x b ls' rest ∧ Layout R b ps rest := by
  induction ls with
  | nil =>
    cases h with
    | piece h1 h2 => exact ⟨0, _, _, _, rfl, h1, h2⟩
  | cons l ls ih =>
    cases h with
    | blank h1 h2 =>
      obtain ⟨k, ls', rest, b, rfl, h3, h4⟩ := ih h2
      rcases h1 with rfl | ⟨h1, _⟩
      · exact ⟨k + 1, ls', rest, b, by rw [List.replicate_succ]; rfl, h3, h4⟩
      · cases h1
    | piece h1 h2 => exact ⟨0, _, _, _, rfl, h1, h2⟩

omit [Uni] in
theorem blank_all {l : Text} (h : ∀ c ∈ l, c = ' ' ∨ c = '\t') : l.all isBlank = true := by
  rw [List.all_eq_true]
  intro c hc
  rcases h c hc with rfl | rfl <;> decide

omit [Uni] in
theorem layout_drop {R : Rendering} {b : Bool} {ps : List Token} {ls : List Text} (h : Layout R b ps ls) :
    Layout R false ps (ls.dropWhile (·.all isBlank)) := by
  induction ls with
  | nil =>
    cases h with
    | nil => exact .nil
    | done h => exact .nil
    | piece h1 h2 =>
      obtain ⟨_, _, hs, ho, _⟩ := takes_head h1
      obtain ⟨_, _, _, e, _⟩ := starts_shape hs ho
      cases e
  | cons l ls ih =>
    cases h with
    | done h =>
      rw [List.dropWhile_cons_of_pos (by exact blank_all (h l (by simp)))]
      exact ih (.done fun l' hl' => h l' (by simp [hl']))
    | blank h1 h2 =>
      rw [List.dropWhile_cons_of_pos]
      · exact ih h2
      · rcases h1 with rfl | ⟨_, h1⟩
        · rfl
        · exact blank_all h1
    | piece h1 h2 =>
      obtain ⟨_, _, hs, ho, _⟩ := takes_head h1
      obtain ⟨_, l', r', e, hb⟩ := starts_shape hs ho
      cases e
      rw [List.dropWhile_cons_of_neg (by rw [hb]; simp)]
      exact .piece h1 h2

omit [Uni] in
theorem layout_nil {R : Rendering} {ls : List Text} (h : Layout R false [] ls) : ls = [] := by
  cases h; rfl

/-! ### The test for the end of a section -/

theorem check_leaf {e : BlockEnv} {store : AttrStore} {s : Span} {k : Nat} {l : Text} {ls r : List Text} {stop : Stop}
    (hs : stop = .never ∨ ∃ a b, stop = .peer a b) (hk : lines s.data = List.replicate k [] ++ ls)
    (hst : Starts (renders e store) ls l r) (ho : Opens l)
    (hn : ¬ ∃ n t, Heading n t l) : stop.check e s = .ok (false, stop, []) := by
  rcases hs with rfl | ⟨a, b, rfl⟩
  · rfl
  · cases hst with
    | labelled h =>
      obtain ⟨m, mw, hp, hb, _⟩ := meta_labels (R := renders e store) (subs := e.dsubs) (store := AttrStore.default)
        (Q := fun _ _ => True) (Q' := fun _ _ _ => True)
        (fun t r _ h => by obtain ⟨r', h⟩ := h; exact ⟨r', h, trivial⟩)
        (fun a as h source hs => by
          obtain ⟨_, ⟨al, ws⟩, h⟩ := h source hs
          exact ⟨al, ws, h, trivial⟩) (fun _ h => h) h hk ho
      have g2 := (line_of hb).1
      exact C22_no_heading_partial hp (by rw [g2]; exact ho.indent) (by rw [g2]; exact hn) (by rw [g2]; exact ho.mark)

omit [Uni] in
/-- The lines above a discrete heading. -/
theorem labels_discrete {R : Rendering} {label : Label} {ls : List Text} (h : LabelLines R label ls)
    (hh : ∀ a, '[' :: a ++ [']'] ∈ ls → (∀ r, a ≠ '[' :: r ++ [']']) → R.discrete a) :
    LabelLines { R with attrs := fun a as => R.attrs a as ∧ R.discrete a } label ls := by
  induction h with
  | nil => exact .nil
  | title h _ ih => exact .title h (ih fun a ha => hh a (List.mem_cons_of_mem _ ha))
  | anchor h _ ih => exact .anchor h (ih fun a ha => hh a (List.mem_cons_of_mem _ ha))
  | attrs h _ ih =>
    refine .attrs ?_ (ih fun a ha => hh a (List.mem_cons_of_mem _ ha))
    obtain ⟨a, rfl, h1, h2, h3, h4⟩ := h
    exact ⟨a, rfl, h1, h2, h3, ⟨h4, hh a (by simp) h3⟩⟩

theorem check_discrete {e : BlockEnv} {store : AttrStore} {s : Span} {k : Nat} {l : Text} {ls r : List Text} {stop : Stop}
    (hs : stop = .never ∨ ∃ a b, stop = .peer a b) (hk : lines s.data = List.replicate k [] ++ ls)
    (hf : Floats (renders e store) ls l r) (ho : Opens l) : stop.check e s = .ok (false, stop, []) := by
  rcases hs with rfl | ⟨a, b, rfl⟩
  · rfl
  obtain ⟨label, mls, hl, rfl, hne, hd⟩ := hf
  obtain ⟨m, mw, hp, hb, _, _, ts, tr, i, tx, x, hf, _, _, _, _, _, hQ'⟩ := meta_labels (subs := e.dsubs) (store := AttrStore.default)
    (Q := fun _ _ => True)
    (Q' := fun _ al _ => al.blockStyle = some "discrete".toList ∨ al.blockStyle = some "float".toList)
    (fun t r _ h => by obtain ⟨r', h⟩ := h; exact ⟨r', h, trivial⟩)
    (fun a as h source hs => by
      obtain ⟨_, ⟨al, ws⟩, hp⟩ := h.1 source hs
      exact ⟨al, ws, hp, h.2 source al ws hs hp⟩) (fun _ h => h) (labels_discrete hl hd) hk ho
  have hdisc : m.isDiscrete = true := by
    unfold BlockMetadata.isDiscrete Meta.style
    rw [Bool.or_eq_true, beq_iff_eq, beq_iff_eq, hf]
    generalize label.attrs = as at hQ' hne
    cases hQ' with
    | none => exact absurd rfl hne
    | some hq => exact hq
  unfold Stop.check peerOrAncestor
  simp only [bind, Except.bind, hp, hdisc, if_true]

omit [Uni] in
/-- The lines above a heading, if the test for the end of a section does not take the heading for a discrete one. -/
theorem labels_headed {R : Rendering} {label : Label} {ls : List Text} (h : LabelLines R label ls)
    (hh : ∀ a, '[' :: a ++ [']'] ∈ ls → (∀ r, a ≠ '[' :: r ++ [']']) → R.headed a) :
    LabelLines { R with attrs := fun a as => R.attrs a as ∧ R.headed a } label ls := by
  induction h with
  | nil => exact .nil
  | title h _ ih => exact .title h (ih fun a ha => hh a (List.mem_cons_of_mem _ ha))
  | anchor h _ ih => exact .anchor h (ih fun a ha => hh a (List.mem_cons_of_mem _ ha))
  | attrs h _ ih =>
    refine .attrs ?_ (ih fun a ha => hh a (List.mem_cons_of_mem _ ha))
    obtain ⟨a, rfl, h1, h2, h3, h4⟩ := h
    exact ⟨a, rfl, h1, h2, h3, ⟨h4, hh a (by simp) h3⟩⟩

theorem check_heading {e : BlockEnv} {store : AttrStore} {s : Span} {k n level recent : Nat} {label : Label} {l t : Text}
    {mls r : List Text} (hl : HeadLines (renders e store) label mls)
    (hk : lines s.data = List.replicate k [] ++ (mls ++ l :: r)) (hh : Heading n t l) (hr : recent ≤ 5) :
    Stop.check e s (.peer level recent) = .ok (decide (n ≤ level), .peer level n,
      if recent + 1 < n then [⟨s.takeNormalizedLine.item, .sectionHeadingLevelSkipped recent n⟩] else []) := by
  obtain ⟨ho, _⟩ := opens_heading hh
  obtain ⟨m, mw, hp, hb, _, _, ts, tr, i, tx, x, hf, _, _, _, _, _, hQ'⟩ := meta_labels (subs := e.dsubs) (store := AttrStore.default)
    (Q := fun _ _ => True)
    (Q' := fun _ al _ => al.blockStyle ≠ some "discrete".toList ∧ al.blockStyle ≠ some "float".toList)
    (fun t r _ h => by obtain ⟨r', h⟩ := h; exact ⟨r', h, trivial⟩)
    (fun a as h source hs => by
      obtain ⟨_, ⟨al, ws⟩, hp⟩ := h.1 source hs
      exact ⟨al, ws, hp, h.2 source al ws hs hp⟩) (fun _ h => h) (labels_headed hl.written hl.headed) hk ho
  have g2 := (line_of hb).1
  have hdisc : m.isDiscrete = false := by
    unfold BlockMetadata.isDiscrete Meta.style
    rw [Bool.or_eq_false_iff, beq_eq_false_iff_ne, beq_eq_false_iff_ne, hf]
    generalize label.attrs = as at hQ'
    cases hQ' with
    | none => exact ⟨nofun, nofun⟩
    | some hq => exact hq
  rw [C22_heading hp hdisc hr (by rw [g2]; exact hh)]

/-! ### The loops -/

theorem loop_warned {e : BlockEnv} {n : Nat} {stop stop' : Stop} {bs : List Block} {s after : Span} {ws sw wc wb : List Warning}
    {p p' : ParserState} {b : Block} (hne : s.data ≠ []) (hc : stop.check e s = .ok (false, stop', wc))
    (hp : parseBlock e (fun stop p source => blocksLoop e n stop ⟨[], source.discardEmptyLines, [], [], p⟩) p s =
      .ok (some ⟨b, after⟩, wb, p')) :
    blocksLoop e (n + 1) stop ⟨bs, s, ws, sw, p⟩ = blocksLoop e n stop' ⟨bs ++ [b], after, ws ++ wb, sw ++ wc, p'⟩ := by
  rw [blocksLoop]
  simp only [if_neg hne, hc, bind, Except.bind, Bool.false_eq_true, if_false, hp]

theorem loop_end {e : BlockEnv} {n : Nat} {stop : Stop} {bs : List Block} {s : Span} {ws sw : List Warning}
    {p : ParserState} (h : s.data = []) (hn : 0 < n) : blocksLoop e n stop ⟨bs, s, ws, sw, p⟩ = .ok ⟨bs, s, ws, sw, p⟩ := by
  cases n with
  | zero => omega
  | succ n => rw [blocksLoop]; simp only [if_pos h]

omit [Uni] in
theorem dropWhile_length {α : Type} (f : α → Bool) (l : List α) : (l.dropWhile f).length ≤ l.length :=
  (List.dropWhile_suffix f).length_le

/-- A block behind its metadata, if the blocks in it can be read. -/
theorem body_step {e : BlockEnv} {store : AttrStore} {nested : Nested} {p : ParserState} (hst : p.store = store) {s : Span}
    {m : BlockMetadata} {as : Option (List ElemAttr)} {b : Leaf} {skips : Bool} {ls rest : List Text} (hal : Aligned s)
    (hA : Fronted e p s m as ls) (h : Takes (renders e store) as (.leaf b) skips ls rest) (hb : ∀ label b', b ≠ .labelled label b')
    (hv : ∀ c t, ∃ r, ∀ al, e.subs store (rawBlockKind c).2.2 al t = .ok r)
    (hn : ∀ blocks inside, Aligned inside → Layout (renders e store) true (blocks.map .leaf) (lines inside.data) →
      (lines inside.data).length < ls.length →
      ∃ maw, nested .never p inside = .ok maw ∧ Led (Leaf.allIds blocks) p maw.state maw.warnings ∧
        Shows (renders e store) blocks maw.blocks)
    (hn' : ∀ inside, nested .always p inside = .ok ⟨[], inside.discardEmptyLines, [], [], p⟩) :
    ∃ blk after p' ws, parseLabelled e nested p m = .ok (some ⟨blk, after⟩, ws, p') ∧ Led (b.ids ++ m.ids) p p' ws ∧
      ShowsOne (renders e store) as m.fields b blk ∧
      lines after.data = (if skips then rest.dropWhile (·.all isBlank) else rest) ∧ LineSuf after s := by
  subst hst
  cases h with
  | discrete h1 h2 h3 =>
    obtain ⟨t, src, id, after, p', ws, hpb, hled, ha, hsuf⟩ := discrete_step (nested := nested) hA h1 h2 h3 hn'
    exact ⟨_, after, p', ws, (hA.behind_eq (by rcases h1 with h | h <;> rw [h] <;> decide)).trans hpb, by rw [Leaf.ids]; exact hled,
      .discrete (title := ⟨t, _⟩), ha, hsuf⟩
  | para h1 h2 h3 h5 =>
    obtain ⟨c, src, after, p', ws, hpb, hled, ha, hsuf⟩ := para_behind (nested := nested) hal hA h1 h2 h3 h5
    exact ⟨_, after, p', ws, hpb, by rw [Leaf.ids]; exact hled, .para (content := ⟨c, _⟩), ha, hsuf⟩
  | @verbatim _ c _ _ _ h1 h2 h0 h4 =>
    obtain ⟨raw, content, src, after, p', ws, hpb, hled, g1, g2, g3, ha, hsuf⟩ := raw_step (nested := nested) hA h1 h2
      (fun raw t hraw ht => by
        by_cases hg : chosen as (rawBlockKind c).2.2 = (rawBlockKind c).2.2
        · obtain ⟨r, hr⟩ := hv c t
          exact ⟨r, fun source => by rw [hg]; exact hr _⟩
        · exact h4 hg raw t hraw ht)
    refine ⟨_, after, p', ws, (hA.behind_eq h0).trans hpb, by rw [Leaf.ids]; exact hled, ?_, ha, hsuf⟩
    rw [← g1]
    exact .verbatim g2 g3
  | brk h1 h0 =>
    obtain ⟨src, after, hpb, ha, hsuf⟩ := brk_step (nested := nested) hA h1
    exact ⟨_, after, p, [], (hA.behind_eq h0).trans hpb, .refl _ _, .brk, ha, hsuf⟩
  | media h1 h2 h3 h0 =>
    obtain ⟨t, source, src, after, p', ws, ht, hpb, hled, ha, hsuf⟩ := media_step (nested := nested) hA h1 h2 h3
    subst ht
    exact ⟨_, after, p', ws, (hA.behind_eq h0).trans hpb, by rw [Leaf.ids]; exact hled, .media, ha, hsuf⟩
  | container h1 h2 h3 h4 h0 =>
    obtain ⟨inside, src, after, i1, i2, i3, i4, i5⟩ := compound_step (e := e) (p := p) hal hA h1 h2 h3
    obtain ⟨maw, g1, g2, g4⟩ := hn _ inside i2 (by rw [i1]; exact h4) (by rw [i1]; simp; omega)
    obtain ⟨p', ws, hled, hpb⟩ := i5 nested maw g1
    exact ⟨_, after, p', _, (hA.behind_eq h0).trans hpb, by rw [Leaf.ids]; exact g2.trans hled, .container g4, i3, i4⟩
  | labelled _ _ _ _ _ => exact absurd rfl (hb _ _)

theorem leaves_loop {e : BlockEnv} {store : AttrStore}
    (hv : ∀ c t, ∃ r, ∀ al, e.subs store (rawBlockKind c).2.2 al t = .ok r) : ∀ (n : Nat) (leaves : List Leaf) (ps : List Token)
    (s : Span) (stop : Stop) (bs : List Block) (ws sw : List Warning) (p : ParserState), p.store = store →
    (stop = .never ∨ ∃ a b, stop = .peer a b) → Aligned s →
    Layout (renders e store) false (leaves.map .leaf ++ ps) (lines s.data) → (lines s.data).length < n →
    ∃ bs' s' n' p' ws', Shows (renders e store) leaves bs' ∧ Layout (renders e store) false ps (lines s'.data) ∧ LineSuf s' s ∧
      (lines s'.data).length < n' ∧ (lines s'.data).length ≤ (lines s.data).length ∧ Led (Leaf.allIds leaves) p p' ws' ∧
      blocksLoop e n stop ⟨bs, s, ws, sw, p⟩ = blocksLoop e n' stop ⟨bs ++ bs', s', ws ++ ws', sw, p'⟩ := by
  intro n
  induction n with
  | zero => intro leaves ps s stop bs ws sw p _ _ _ _ h; cases h
  | succ n ih =>
    intro leaves ps s stop bs ws sw p hst hstop hal hlay hlen
    cases leaves with
    | nil => exact ⟨[], s, n + 1, p, [], .nil, hlay, LineSuf.refl s, hlen, Nat.le_refl _, .refl _ _, by rw [List.append_nil, List.append_nil]⟩
    | cons leaf leaves =>
      rw [List.map_cons, List.cons_append] at hlay
      obtain ⟨k, ls, rest, b, hls, htk, hrest⟩ := layout_strip hlay
      obtain ⟨l, r, hstart, ho, hle, hnh⟩ := takes_head htk
      obtain ⟨hlt, l', r', hcons, _⟩ := starts_shape hstart ho
      have hne : s.data ≠ [] := by
        intro h0
        rw [h0, lines_nil, hcons] at hls
        simp at hls
      have hck : stop.check e s = .ok (false, stop, []) := by
        rcases hnh ⟨_, rfl⟩ with h | h
        · exact check_leaf (e := e) hstop hls hstart ho h
        · exact check_discrete (e := e) hstop hls h ho
      have hn : rest.length < (lines s.data).length := by
        rw [hls, List.length_append]
        omega
      have hdrop : (rest.dropWhile (·.all isBlank)).length < (lines s.data).length :=
        Nat.lt_of_le_of_lt (dropWhile_length _ _) hn
      generalize hGoal : (∃ bs' s' n' p' ws', Shows (renders e store) (leaf :: leaves) bs' ∧
        Layout (renders e store) false ps (lines s'.data) ∧ LineSuf s' s ∧ (lines s'.data).length < n' ∧
        (lines s'.data).length ≤ (lines s.data).length ∧ Led (Leaf.allIds (leaf :: leaves)) p p' ws' ∧
        blocksLoop e (n + 1) stop ⟨bs, s, ws, sw, p⟩ = blocksLoop e n' stop ⟨bs ++ bs', s', ws ++ ws', sw, p'⟩) = Goal
      -- the rest, when one block has been read
      have key : ∀ (blk : Block) (after : Span) (p1 : ParserState) (ws1 : List Warning), Led leaf.ids p p1 ws1 →
          ShowsOne (renders e store) none {} leaf blk →
          parseBlock e (fun stop p source => blocksLoop e n stop ⟨[], source.discardEmptyLines, [], [], p⟩) p s =
            .ok (some ⟨blk, after⟩, ws1, p1) →
          lines after.data = (if b then rest.dropWhile (·.all isBlank) else rest) → LineSuf after s →
          Goal := by
        intro blk after p1 ws1 hled hsh hpb ha hsuf
        have hl : Layout (renders e store) false (leaves.map .leaf ++ ps) (lines after.data) := by
          rw [ha]
          cases b with
          | true => exact layout_drop hrest
          | false => exact hrest
        have hn' : (lines after.data).length < (lines s.data).length := by
          rw [ha]
          cases b with
          | true => exact hdrop
          | false => exact hn
        obtain ⟨bs', s', n', p2, ws2, g1, g2, g3, g4, g6, g7, g5⟩ :=
          ih leaves ps after stop (bs ++ [blk]) (ws ++ ws1) sw p1 (hled.store.trans hst) hstop (hal.of_lineSuf hsuf) hl (by omega)
        rw [← hGoal]
        refine ⟨blk :: bs', s', n', p2, ws1 ++ ws2, .cons hsh g1, g2, g3.trans hsuf, g4, by omega, ?_, ?_⟩
        · rw [Leaf.allIds]; exact hled.trans g7
        · rw [loop_warned hne hck hpb, List.append_nil, g5, List.append_assoc, List.append_assoc]
          rfl
      -- the blocks in a block
      have inner : ∀ blocks inside, Aligned inside → Layout (renders e store) true (blocks.map .leaf) (lines inside.data) →
          (lines inside.data).length < n →
          ∃ maw, blocksLoop e n .never ⟨[], inside.discardEmptyLines, [], [], p⟩ = .ok maw ∧
            Led (Leaf.allIds blocks) p maw.state maw.warnings ∧ Shows (renders e store) blocks maw.blocks := by
        intro blocks inside i2 h4 hlt
        obtain ⟨cbs, s', n', p2, ws2, g1, g2, g3, g4, _, g7, g5⟩ := ih blocks [] inside.discardEmptyLines .never [] [] [] p hst (Or.inl rfl)
          (i2.of_lineSuf (discardEmptyLines_lineSuf _))
          (by rw [List.append_nil, lines_discardEmptyLines]; exact layout_drop h4)
          (by rw [lines_discardEmptyLines]; exact Nat.lt_of_le_of_lt (dropWhile_length _ _) hlt)
        have hend : s'.data = [] := lines_eq_nil.mp (layout_nil g2)
        rw [loop_end hend (by omega), List.nil_append] at g5
        exact ⟨_, g5, g7, g1⟩
      have hln : ls.length ≤ n := by
        rw [hls, List.length_append] at hlen
        omega
      have halways : ∀ inside : Span, blocksLoop e n .always ⟨[], inside.discardEmptyLines, [], [], p⟩ =
          .ok ⟨[], inside.discardEmptyLines, [], [], p⟩ := by
        intro inside
        obtain ⟨n', rfl⟩ : ∃ n', n = n' + 1 := ⟨n - 1, by omega⟩
        rw [blocksLoop]
        dsimp only
        split
        · rfl
        · simp only [Stop.check, bind, Except.bind, if_true, List.append_nil]
      have plain : ∀ (m : BlockMetadata), m.fields = {} → Fronted e p s m none ls → (∀ label b', leaf ≠ .labelled label b') →
          (∀ nested, parseBlock e nested p s = parseBehind e nested p m) → Goal := by
        intro m hf hA hu hp
        obtain ⟨blk, after, p1, ws1, hpb, hled, hsh, ha, hsuf⟩ := body_step (nested := (fun stop p source =>
          blocksLoop e n stop ⟨[], source.discardEmptyLines, [], [], p⟩)) hst hal hA htk hu hv
          (fun blocks inside i1 i2 i3 => inner blocks inside i1 i2 (by omega)) halways
        rw [hf] at hsh
        rw [parseLabelled_plain hf, ← hp] at hpb
        rw [show m.ids = [] by unfold BlockMetadata.ids; rw [hf]; rfl, List.append_nil] at hled
        exact key _ after _ _ hled hsh hpb ha hsuf
      have hmk : ∀ {l' r'}, ls = l' :: r' → Opens l' → (∃ c r, l' = c :: r ∧ isMarker c = true) →
          (∀ label b', leaf ≠ .labelled label b') → Goal := by
        intro l' r' hl ho' hm hu
        have h0 := fun nested => marked_step (e := e) (nested := nested) (p := p) (hl ▸ hls) ho' hm
        obtain ⟨_, h2, _, h4⟩ := h0 (fun _ _ _ => .error .fuel)
        exact plain _ rfl (fronted_plain (h4 _ _) (h2.trans hl.symm)) hu fun nested => (h0 nested).1
      clear hstart hcons
      cases htk with
      | discrete h1 _ _ => rcases h1 with h | h <;> cases h
      | para h1 h2 h3 h5 =>
        subst hst
        obtain ⟨c, src, after, p1, ws1, hpb, hled, ha, hsuf⟩ := para_step (nested := (fun stop p source =>
          blocksLoop e n stop ⟨[], source.discardEmptyLines, [], [], p⟩)) hal hls h1 h2 h3 (h5 s)
        exact key _ after _ _ (by rw [Leaf.ids]; exact hled) (.para (content := ⟨c, _⟩)) hpb ha hsuf
      | verbatim h1 h2 h0 _ =>
        obtain ⟨ho', r', e', hm⟩ := opens_raw h1
        exact hmk rfl ho' ⟨_, _, e', hm⟩ nofun
      | brk h1 h0 =>
        obtain ⟨ho', hm⟩ := opens_brk h1
        exact hmk rfl ho' hm nofun
      | media h1 h2 h3 h0 =>
        have h0 := fun nested => media_ahead (e := e) (nested := nested) (p := p) hls h1
        obtain ⟨_, g2, g3⟩ := h0 (fun _ _ _ => .error .fuel)
        exact plain _ rfl (fronted_plain (g3 _ _) g2) nofun fun nested => (h0 nested).1
      | container h1 h2 h3 h4 h0 =>
        obtain ⟨ho', hm⟩ := opens_compound h1 h2
        exact hmk rfl ho' hm nofun
      | labelled h1 h0 h2 _ h3 =>
        clear plain hmk
        subst hst
        obtain ⟨l1, r1, rfl, ho', _⟩ := takes_first h3 h2
        obtain ⟨m, ts, i, tx, source, hf, hts, hi, htx, hA, hp⟩ := labelled_step h1 h0 hls ho'
        obtain ⟨blk, after, p1, ws1, hpb, hled, hsh, ha, hsuf⟩ := body_step (nested := (fun stop p source =>
          blocksLoop e n stop ⟨[], source.discardEmptyLines, [], [], p⟩)) rfl hal hA h3 h2 hv
          (fun blocks inside i1 i2 i3 => inner blocks inside i1 i2 (by rw [List.length_append] at hln; omega)) halways
        rw [BlockMetadata.ids_eq hf hi] at hled
        rw [hf] at hsh
        rw [← hp] at hpb
        exact key _ after _ _ (by rw [Leaf.ids]; exact hled) (.labelled hts hi htx h2 hsh) hpb ha hsuf

omit [Uni] in
theorem flat_head {l k : Nat} {secs : List Sec} {ps : List Token} (h : Flat l k secs ps) :
    ps = [] ∨ ∃ j t lab qs, ps = .heading (l + j) t lab :: qs ∧ j ≤ k := by
  cases h with
  | nil => exact Or.inl rfl
  | cons h _ _ => exact Or.inr ⟨_, _, _, _, rfl, h⟩

/-- The warnings that the test for the end of a section gives. -/
def stopKinds (secs : List Sec) : Stop → List WarningType
  | .peer level recent => if recent = level then firstSkip level secs else []
  | _ => []

omit [Uni] in
theorem apart_append {ids ids' : List Text} {a b a' b' : List WarningType} (h : Apart ids a b) (h' : Apart ids' a' b') :
    Apart (ids ++ ids') (a ++ a') (b ++ b') := by
  induction h with
  | nil =>
    rw [List.nil_append, List.nil_append]
    induction h' with
    | nil => exact .nil
    | cons _ ih => exact .cons ih
    | used hi _ ih => exact .used (List.mem_append_right _ hi) ih
  | cons _ ih => exact .cons ih
  | used hi _ ih => exact .used (List.mem_append_left _ hi) ih

omit [Uni] in
theorem apart_refl (ids : List Text) : ∀ ks, Apart ids ks ks
  | [] => .nil
  | _ :: ks => .cons (apart_refl ids ks)

omit [Uni] in
theorem apart_warned {ids : List Text} : ∀ {ws : List Warning}, (∀ w ∈ ws, ∃ i ∈ ids, w.warning = .duplicateId i) →
    Apart ids (ws.map Warning.warning) []
  | [], _ => .nil
  | w :: ws, h => by
    obtain ⟨i, hi, e⟩ := h w (by simp)
    rw [List.map_cons, e]
    exact .used hi (apart_warned fun w hw => h w (by simp [hw]))

omit [Uni] in
/-- If no ids are given, the warnings are all of them. -/
theorem apart_none {ws ks : List WarningType} (h : Apart [] ws ks) : ws = ks := by
  induction h with
  | nil => rfl
  | cons _ ih => rw [ih]
  | used hi => cases hi

theorem sections_loop {e : BlockEnv} {store : AttrStore}
    (hv : ∀ c t, ∃ r, ∀ al, e.subs store (rawBlockKind c).2.2 al t = .ok r) {l most : Nat} {secs : List Sec} {ps : List Token}
    (h : Flat l most secs ps) : ∀ (n : Nat) (qs : List Token) (s : Span) (stop : Stop) (bs : List Block)
    (ws sw : List Warning) (p : ParserState) (ty : SectionType), Still store ty p → (l ≤ 1 → ty = .normal) →
    ((stop = .never ∧ qs = []) ∨ ∃ level recent, stop = .peer level recent ∧ l = level + 1 ∧
      (recent = level ∨ recent = l + most) ∧ recent ≤ 5 ∧ (∀ x qs', qs = x :: qs' → ∃ m t lab, x = .heading m t lab ∧ m ≤ level)) →
    Aligned s → Layout (renders e store) false (ps ++ qs) (lines s.data) → (lines s.data).length < n →
    ∃ ss s' p' ws' sw', SectionsShow (renders e store) l ty secs ss ∧ Layout (renders e store) false qs (lines s'.data) ∧ LineSuf s' s ∧
      (lines s'.data).length ≤ (lines s.data).length ∧ Still store ty p' ∧ Apart (Sec.allIds secs) (ws'.map Warning.warning) (Sec.allSkips l secs) ∧
      sw'.map Warning.warning = stopKinds secs stop ∧
      blocksLoop e n stop ⟨bs, s, ws, sw, p⟩ = .ok ⟨bs ++ ss, s', ws ++ ws', sw ++ sw', p'⟩ := by
  induction h with
  | @nil l most =>
    intro n qs s stop bs ws sw p ty hst hlow hstop hal hlay hlen
    rw [List.nil_append] at hlay
    have hk : stopKinds [] stop = [] := by
      unfold stopKinds firstSkip
      split
      · split <;> rfl
      · rfl
    refine ⟨[], s, p, [], [], .nil, hlay, LineSuf.refl s, Nat.le_refl _, hst, by rw [Sec.allSkips]; exact .nil, by rw [hk]; rfl, ?_⟩
    rw [List.append_nil, List.append_nil, List.append_nil]
    cases n with
    | zero => omega
    | succ n =>
      cases qs with
      | nil => exact loop_end (lines_eq_nil.mp (layout_nil hlay)) (by omega)
      | cons x qs =>
        rcases hstop with ⟨_, h⟩ | ⟨level, recent, rfl, _, hr, hr5, hq⟩
        · cases h
        obtain ⟨m, t, lab, rfl, hm⟩ := hq _ _ rfl
        obtain ⟨k, ls, rest, b, hls, htk, hrest⟩ := layout_strip hlay
        cases htk with
        | heading h0 h1 h2 =>
          have hne : s.data ≠ [] := by
            intro h0
            rw [h0, lines_nil] at hls
            simp at hls
          have hck := check_heading (e := e) (level := level) h0 hls h1 hr5
          rw [if_neg (by omega)] at hck
          rw [blocksLoop]
          simp only [if_neg hne, hck, bind, Except.bind, decide_eq_true hm, if_true, List.append_nil]
  | @cons l most title blocks subs label skipped secs ps qs1 hmost hsubs hsecs ih1 ih2 =>
    intro n qs s stop bs ws sw p ty hst hlow hstop hal hlay hlen
    cases n with
    | zero => omega
    | succ n =>
    rw [List.cons_append] at hlay
    obtain ⟨k, ls, rest, b, hls, htk, hrest⟩ := layout_strip hlay
    have hne : s.data ≠ [] := by
      obtain ⟨_, _, hs, ho, _⟩ := takes_head htk
      obtain ⟨_, _, _, rfl, _⟩ := starts_shape hs ho
      intro h0
      rw [h0, lines_nil] at hls
      simp at hls
    cases htk with
    | @heading _ title' _ line _ _ mls h0 h1 h2 =>
    obtain ⟨p1, t, after, hst1, ha, hsuf, hpb⟩ := heading_step (e := e) (p := p) h0 hls h1 hst (fun h => hlow (by omega)) h2
    have hl5 : l + skipped ≤ 5 := h1.2.1
    have hl1 : 1 ≤ l + skipped := h1.1
    have hn : rest.length < (lines s.data).length := by
      rw [hls, List.length_append, List.length_append, List.length_cons]
      omega
    have hn0 : (lines after.discardEmptyLines.data).length < (lines s.data).length := by
      rw [lines_discardEmptyLines, ha]; exact Nat.lt_of_le_of_lt (dropWhile_length _ _) hn
    -- the body of the section
    obtain ⟨bs', s1, n1, p1', wsl, g1, g2, g3, g4, g6, g7, g5⟩ := leaves_loop hv n blocks (ps ++ (qs1 ++ qs)) after.discardEmptyLines
      (.peer (l + skipped) (l + skipped))
      [] [] [] p1 hst1.store (Or.inr ⟨_, _, rfl⟩) ((hal.of_lineSuf hsuf).of_lineSuf (discardEmptyLines_lineSuf _))
      (by
        rw [lines_discardEmptyLines, ha]
        rw [List.append_assoc, List.append_assoc] at hrest
        exact layout_drop hrest)
      (by omega)
    have hal1 : Aligned s1 := ((hal.of_lineSuf hsuf).of_lineSuf (discardEmptyLines_lineSuf _)).of_lineSuf g3
    have hheads : ∀ x qs', qs1 ++ qs = x :: qs' → ∃ m t lab, x = Token.heading m t lab ∧ m ≤ l + skipped := by
      intro x qs' hx
      rcases flat_head hsecs with rfl | ⟨j, t, lab, qs2, rfl, hj⟩
      · rw [List.nil_append] at hx
        rcases hstop with ⟨_, rfl⟩ | ⟨level, recent, _, rfl, _, _, hq⟩
        · cases hx
        · obtain ⟨m, t, lab, hx', hm⟩ := hq x qs' hx
          exact ⟨m, t, lab, hx', by omega⟩
      · cases hx; exact ⟨l + j, t, lab, rfl, by omega⟩
    obtain ⟨cs, s2, p2, ws2, sw2, k1, k2, k3, k6, k4, kw, ksw, k5⟩ := ih1 n1 (qs1 ++ qs) s1 (.peer (l + skipped) (l + skipped)) bs' wsl [] p1' _ (g7.still hst1) (by omega)
      (Or.inr ⟨l + skipped, l + skipped, rfl, rfl, Or.inl rfl, hl5, hheads⟩) hal1 g2 g4
    rw [List.nil_append, List.nil_append, k5, List.nil_append] at g5
    have hs2 : LineSuf s2 after := k3.trans (g3.trans (discardEmptyLines_lineSuf _))
    obtain ⟨src, id, number, ts, an, at', source, p3, dw, hst3, hts, han, hat', hdw, hblk⟩ := hpb (fun stop p source => blocksLoop e n stop ⟨[], source.discardEmptyLines, [], [], p⟩)
      _ g5 hs2.1 k4
    -- the check in front of the section
    have hck : ∃ stop' wc, stop.check e s = .ok (false, stop', wc) ∧
        wc.map Warning.warning = stopKinds (.mk title blocks subs label skipped :: secs) stop ∧ stopKinds secs stop' = [] ∧
        ((stop' = .never ∧ qs = []) ∨ ∃ level recent, stop' = .peer level recent ∧ l = level + 1 ∧
          (recent = level ∨ recent = l + skipped) ∧ recent ≤ 5 ∧
          (∀ x qs', qs = x :: qs' → ∃ m t lab, x = .heading m t lab ∧ m ≤ level)) := by
      rcases hstop with ⟨rfl, hq⟩ | ⟨level, recent, rfl, hlv, hr, hr5, hq⟩
      · exact ⟨_, _, rfl, rfl, rfl, Or.inl ⟨rfl, hq⟩⟩
      · refine ⟨.peer level (l + skipped), if recent + 1 < l + skipped then
          [⟨s.takeNormalizedLine.item, .sectionHeadingLevelSkipped recent (l + skipped)⟩] else [], ?_, ?_, ?_, Or.inr ⟨level, l + skipped, rfl, hlv, Or.inr rfl, hl5, hq⟩⟩
        · rw [check_heading (e := e) (level := level) h0 hls h1 hr5, decide_eq_false (by omega)]
        · unfold stopKinds
          dsimp only
          rcases hr with rfl | rfl
          · rw [if_pos rfl]
            subst hlv
            cases skipped with
            | zero => rw [if_neg (by omega)]; rfl
            | succ j => rw [if_pos (by omega)]; rfl
          · rw [if_neg (by omega), if_neg (by omega)]; rfl
        · unfold stopKinds
          dsimp only
          rw [if_neg (by omega)]
    obtain ⟨stop', wc, hck, hwc, hno, hstop'⟩ := hck
    have hlen2 : (lines s2.data).length < n := by omega
    obtain ⟨ss, s3, p4, ws3, sw3, m1, m2, m3, m6, m4, mw, msw, m5⟩ := ih2 n qs s2 stop' (bs ++ [.mk (.section (l + skipped) ⟨t, title⟩ (typeOf (l + skipped) ty label.attrs) id number) src
      ⟨ts, label.title, an, at', label.attrs.map (attrlistOf · source)⟩ (bs' ++ cs)])
      (ws ++ (sw2 ++ dw ++ (wsl ++ ws2))) (sw ++ wc) p3 ty hst3 hlow hstop' (hal.of_lineSuf (hs2.trans hsuf)) k2 hlen2
    refine ⟨.mk (.section (l + skipped) ⟨t, title⟩ (typeOf (l + skipped) ty label.attrs) id number) src
      ⟨ts, label.title, an, at', label.attrs.map (attrlistOf · source)⟩ (bs' ++ cs) :: ss, s3, p4, sw2 ++ dw ++ (wsl ++ ws2) ++ ws3, wc ++ sw3,
      .cons (title := ⟨t, title⟩) hts han hat' g1 k1 m1, m2, m3.trans (hs2.trans hsuf), by omega, m4, ?_, ?_, ?_⟩
    · rw [Sec.allSkips, Sec.skips, Sec.allIds, Sec.ids, List.map_append, List.map_append, List.map_append, List.map_append, ksw]
      unfold stopKinds
      dsimp only
      rw [if_pos rfl]
      refine apart_append (apart_append ?_ ?_) mw
      · have := apart_append (apart_refl [] (firstSkip (l + skipped) subs)) (apart_warned hdw)
        rw [List.append_nil] at this
        exact this
      · exact apart_append (apart_warned g7.warned) kw
    · rw [List.map_append, hwc, msw, hno, List.append_nil]
    · rw [loop_warned hne hck hblk, m5]
      simp only [List.append_assoc, List.cons_append, List.nil_append]

end Adoc
