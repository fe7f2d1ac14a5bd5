import Verif.Lemmas.Warnings
import Verif.Lemmas.Tree
import Verif.Spec.Refs
import Verif.Props.Catalog
/-!
# The catalog of a document
-/

namespace Adoc
open Span Spec

theorem refsAll_append (a b : List Block) : refsAll (a ++ b) = refsAll a ++ refsAll b := by
  induction a with
  | nil => simp [refsAll]
  | cons x a ih => simp [refsAll, ih]

theorem occurrences_append (a b : List RefEntry) (id : Text) : occurrences (a ++ b) id = occurrences a id + occurrences b id := by
  simp [occurrences]

theorem reported_append (a b : List Warning) (id : Text) : reported (a ++ b) id = reported a id + reported b id := by
  simp [reported]

theorem reported_other {ws : List Warning} (h : ∀ w ∈ ws, Other w.warning) (id : Text) : reported ws id = 0 := by
  unfold reported
  rw [List.length_eq_zero_iff, List.filter_eq_nil_iff]
  intro w hw
  simpa using h w hw id

theorem firstById_append (a b : List RefEntry) (id : Text) : firstById (a ++ b) id = (firstById a id).or (firstById b id) := by
  unfold firstById
  rw [List.find?_append]

theorem firstById_none {a : List RefEntry} {id : Text} : firstById a id = none ↔ occurrences a id = 0 := by
  unfold firstById occurrences
  rw [List.find?_eq_none, List.length_eq_zero_iff, List.filter_eq_nil_iff]

theorem mem_firsts {log : List RefEntry} {id : Text} : (∃ e ∈ firsts log, e.id = id) ↔ ∃ e ∈ log, e.id = id := by
  induction log with
  | nil => simp [firsts]
  | cons a l ih =>
    constructor
    · rintro ⟨e, he, rfl⟩
      rcases List.mem_cons.mp he with rfl | he
      · exact ⟨e, by simp, rfl⟩
      · obtain ⟨x, hx, hx'⟩ := ih.mp ⟨e, (List.mem_filter.mp he).1, rfl⟩
        exact ⟨x, List.mem_cons_of_mem _ hx, hx'⟩
    · rintro ⟨e, he, rfl⟩
      by_cases h : e.id = a.id
      · exact ⟨a, by simp [firsts], h.symm⟩
      · rcases List.mem_cons.mp he with rfl | he
        · exact absurd rfl h
        · obtain ⟨x, hx, hx'⟩ := ih.mpr ⟨e, he, rfl⟩
          exact ⟨x, List.mem_cons_of_mem _ (List.mem_filter.mpr ⟨hx, by simpa [hx'] using h⟩), hx'⟩

theorem firsts_snoc (log : List RefEntry) (e : RefEntry) :
    firsts (log ++ [e]) = if ∃ x ∈ log, x.id = e.id then firsts log else firsts log ++ [e] := by
  induction log with
  | nil => simp [firsts]
  | cons a l ih =>
    rw [List.cons_append, firsts, ih]
    by_cases h : ∃ x ∈ l, x.id = e.id
    · obtain ⟨x, hx, hx'⟩ := h
      rw [if_pos ⟨x, hx, hx'⟩, if_pos ⟨x, List.mem_cons_of_mem _ hx, hx'⟩]
      rfl
    · rw [if_neg h]
      by_cases ha : a.id = e.id
      · rw [if_pos ⟨a, by simp, ha⟩, List.filter_append]
        simp [firsts, ha]
      · rw [if_neg, List.filter_append]
        · simp [firsts, Ne.symm ha]
        · rintro ⟨x, hx, hx'⟩
          rcases List.mem_cons.mp hx with rfl | hx
          · exact ha hx'
          · exact h ⟨x, hx, hx'⟩

/-- The catalog knows the entries of the log. -/
def Knows (c : Catalog) (log : List RefEntry) : Prop :=
  (∀ id, c.containsId id = true ↔ ∃ e ∈ log, e.id = id) ∧ ∀ t, c.resolveId t = firstByReftext (firsts log) t

theorem Knows.insert {c : Catalog} {log : List RefEntry} {id : Text} {r : Option Text} {ty : RefType} (h : Knows c log)
    (hn : c.containsId id = false) : Knows (c.insertEntry id r ty) (log ++ [⟨id, r, ty⟩]) := by
  have hno : ¬ ∃ x ∈ log, x.id = id := by rw [← h.1, hn]; simp
  constructor
  · intro i
    have : (c.insertEntry id r ty).containsId i = (decide (i = id) || c.containsId i) := AMap.contains_insert _ _ _ _
    rw [this, Bool.or_eq_true, h.1, decide_eq_true_eq]
    constructor
    · rintro (rfl | ⟨e, he, rfl⟩)
      · exact ⟨⟨i, r, ty⟩, by simp, rfl⟩
      · exact ⟨e, by simp [he], rfl⟩
    · rintro ⟨e, he, rfl⟩
      rcases List.mem_append.mp he with he | he
      · exact Or.inr ⟨e, he, rfl⟩
      · rw [List.mem_singleton.mp he]; exact Or.inl rfl
  · intro t
    rw [firsts_snoc, if_neg hno]
    unfold firstByReftext
    rw [List.find?_append, Option.map_or]
    have := h.2 t
    unfold firstByReftext at this
    rw [← this]
    unfold Catalog.resolveId Catalog.insertEntry
    cases r with
    | none => simp
    | some r =>
      simp only [List.find?_singleton, Option.some.injEq]
      rw [AMap.get_orInsert]
      by_cases hr : t = r
      · subst hr; cases c.reftextToId.get t <;> simp
      · cases c.reftextToId.get t <;> simp [hr, Ne.symm hr]

theorem Knows.refused {c : Catalog} {log : List RefEntry} {e : RefEntry} (h : Knows c log) (hn : c.containsId e.id = true) :
    Knows c (log ++ [e]) := by
  have hyes := (h.1 _).mp hn
  constructor
  · intro i
    rw [h.1]
    constructor
    · rintro ⟨x, hx, rfl⟩; exact ⟨x, by simp [hx], rfl⟩
    · rintro ⟨x, hx, rfl⟩
      rcases List.mem_append.mp hx with hx | hx
      · exact ⟨x, hx, rfl⟩
      · rw [List.mem_singleton.mp hx]; exact hyes
  · intro t
    rw [firsts_snoc, if_pos hyes]
    exact h.2 t

theorem knows_new : Knows Catalog.new [] := by
  constructor
  · intro id
    have : Catalog.new.containsId id = false := AMap.contains_empty _
    simp [this]
  · exact fun _ => rfl

/-- From the catalog `c`, adding `es` in this order gives `c'` and the warnings `ws` about duplicate ids. -/
def Reg (c c' : Catalog) (es : List RefEntry) (ws : List Warning) : Prop :=
  (∀ log, Knows c log → Knows c' (log ++ es)) ∧ ∀ id, c'.getRef id = (c.getRef id).or (firstById es id) ∧
    reported ws id + (if c.getRef id = none ∧ occurrences es id ≠ 0 then 1 else 0) = occurrences es id

theorem Reg.nil {c : Catalog} {ws : List Warning} (h : ∀ w ∈ ws, Other w.warning) : Reg c c [] ws := by
  refine ⟨fun log h => by rwa [List.append_nil], ?_⟩
  intro id
  rw [reported_other h]
  simp [firstById, occurrences]

theorem Reg.trans {c c1 c2 : Catalog} {e1 e2 : List RefEntry} {w1 w2 ws : List Warning} (h1 : Reg c c1 e1 w1)
    (h2 : Reg c1 c2 e2 w2) (hw : ∀ id, reported ws id = reported w1 id + reported w2 id) : Reg c c2 (e1 ++ e2) ws := by
  refine ⟨fun log h => by rw [← List.append_assoc]; exact h2.1 _ (h1.1 _ h), ?_⟩
  intro id
  obtain ⟨a1, b1⟩ := h1.2 id
  obtain ⟨a2, b2⟩ := h2.2 id
  refine ⟨by rw [a2, a1, firstById_append, Option.or_assoc], ?_⟩
  rw [hw, occurrences_append]
  rw [a1] at b2
  cases hc : c.getRef id with
  | some x => rw [hc] at b1 b2; simp at b1 b2 ⊢; omega
  | none =>
    rw [hc] at b1 b2
    simp only [true_and, Option.none_or, firstById_none] at b1 b2 ⊢
    by_cases h0 : occurrences e1 id = 0
    · simp [h0] at b1 b2 ⊢
      omega
    · simp only [h0, false_and, ne_eq, not_false_eq_true, if_true, if_false] at b1 b2 ⊢
      rw [if_pos (by omega)]
      omega

theorem Reg.mono {c c' : Catalog} {es : List RefEntry} {w ws : List Warning} (h : Reg c c' es w)
    (hw : ∀ id, reported ws id = reported w id) : Reg c c' es ws := by
  refine ⟨h.1, ?_⟩
  intro id
  obtain ⟨a, b⟩ := h.2 id
  exact ⟨a, by rw [hw]; exact b⟩

theorem getRef_none {c : Catalog} {id : Text} : c.containsId id = false ↔ c.getRef id = none := by
  unfold Catalog.containsId Catalog.getRef
  rw [AMap.contains_false_iff, AMap.get_none_iff]

theorem reg_insert {c : Catalog} {id : Text} {r : Option Text} {ty : RefType} (h : c.containsId id = false) :
    Reg c (c.insertEntry id r ty) [⟨id, r, ty⟩] [] := by
  refine ⟨fun log hk => hk.insert h, ?_⟩
  intro x
  by_cases hx : x = id
  · subst hx
    have h1 : (c.insertEntry x r ty).getRef x = some ⟨x, r, ty⟩ := AMap.get_insert_self _ _ _
    rw [h1, getRef_none.mp h]
    simp [firstById, occurrences, reported]
  · have h1 : (c.insertEntry id r ty).getRef x = c.getRef x := AMap.get_insert_ne _ _ hx
    rw [h1]
    simp [firstById, occurrences, reported, Ne.symm hx]

theorem reg_refused {c : Catalog} {id : Text} {r : Option Text} {ty : RefType} (h : c.containsId id = true) (sp : Span) :
    Reg c c [⟨id, r, ty⟩] [⟨sp, .duplicateId id⟩] := by
  refine ⟨fun log hk => hk.refused h, ?_⟩
  intro x
  have hc : c.getRef id ≠ none := by
    intro h0
    rw [getRef_none.mpr h0] at h; cases h
  by_cases hx : x = id
  · subst hx
    cases hg : c.getRef x with
    | none => exact absurd hg hc
    | some y => simp [occurrences, reported]
  · simp [firstById, occurrences, reported, Ne.symm hx, hx]

theorem registerBlockId_reg {p : ParserState} {c : Catalog} (hc : p.catalog = some c) (m : Meta) (sp : Span) :
    ∃ c', (registerBlockId p m sp).1 = { p with catalog := some c' } ∧
      Reg c c' (m.id.map fun i => ⟨i, m.title, .anchor⟩).toList (registerBlockId p m sp).2 ∧
      ∀ w ∈ (registerBlockId p m sp).2, w.source = sp ∧ ∀ ar, Headed ar w := by
  unfold registerBlockId
  rw [hc]
  have hp : ({ p with catalog := some c } : ParserState) = p := by rw [← hc]
  cases hi : m.id with
  | none => exact ⟨c, hp.symm, Reg.nil (by simp), by simp⟩
  | some id =>
    simp only [Catalog.registerRef]
    cases hk : c.refs.contains id with
    | true =>
      simp only [if_true]
      exact ⟨c, hp.symm, reg_refused hk sp, fun w hw => by rw [List.mem_singleton.mp hw]; exact ⟨rfl, fun _ => trivial⟩⟩
    | false =>
      simp only [Bool.false_eq_true, if_false]
      exact ⟨_, rfl, reg_insert hk, by simp⟩

theorem uniqueId_free {c : Catalog} {base id : Text} (h : c.uniqueId base = some id) : c.containsId id = false := by
  unfold Catalog.uniqueId at h
  split at h
  · rename_i hf
    cases h
    simpa using hf
  · have key : ∀ fuel k, c.findFree base fuel k = some id → c.containsId id = false := by
      intro fuel
      induction fuel with
      | zero => intro k h; cases h
      | succ n ih =>
        intro k h
        rw [Catalog.findFree] at h
        split at h
        · rename_i hf
          cases h
          simpa using hf
        · exact ih _ h
    exact key _ _ h

theorem registerSection_reg {p p' : ParserState} {c : Catalog} {sectids : Bool} {base : Text} {manual : Option Text}
    {reftext : Text} {id dup : Option Text} (hc : p.catalog = some c)
    (h : registerSection p sectids base manual reftext = .ok (id, p', dup)) (sp : Span) :
    ∃ c', p' = { p with catalog := some c' } ∧
      Reg c c' ((manual.or id).map fun i => ⟨i, some reftext, .section⟩).toList
        (dup.toList.map fun i => ⟨sp, .duplicateId i⟩) ∧ (manual.isSome = true → id = none) := by
  unfold registerSection at h
  rw [hc] at h
  have hp : ({ p with catalog := some c } : ParserState) = p := by rw [← hc]
  cases manual with
  | some i =>
    simp only [Catalog.registerRef] at h
    cases hk : c.refs.contains i with
    | true =>
      rw [hk] at h
      simp only [if_true] at h
      cases h
      exact ⟨c, hp.symm, reg_refused hk sp, fun _ => rfl⟩
    | false =>
      rw [hk] at h
      simp only [Bool.false_eq_true, if_false] at h
      cases h
      exact ⟨_, rfl, reg_insert hk, fun _ => rfl⟩
  | none =>
    simp only at h
    cases sectids with
    | false => cases h; exact ⟨c, hp.symm, Reg.nil (by simp), by simp⟩
    | true =>
      simp only [if_true, Catalog.generate] at h
      cases hu : c.uniqueId base with
      | none => rw [hu] at h; cases h
      | some i =>
        rw [hu] at h
        cases h
        exact ⟨_, rfl, reg_insert (uniqueId_free hu), by simp⟩

theorem finishSimple_none {e : BlockEnv} {p p' : ParserState} {m : BlockMetadata} {missing : Bool} {ws : List Warning}
    (h : finishSimple e p m missing = .ok (none, ws, p')) :
    p' = p ∧ ∀ w ∈ ws, w = ⟨m.source, .missingBlockAfterTitleOrAttributeList⟩ := by
  unfold finishSimple at h
  simp only [bind, Except.bind] at h
  split at h
  · cases h
  · split at h
    · cases h
      refine ⟨rfl, fun w hw => ?_⟩
      split at hw
      · exact List.mem_singleton.mp hw
      · cases hw
    · cases h

theorem parseSimple_none {e : BlockEnv} {p p' : ParserState} {m : BlockMetadata} {lit : Bool} {ws : List Warning}
    (h : parseSimple e p m lit = .ok (none, ws, p')) :
    p' = p ∧ ∀ w ∈ ws, w = ⟨m.source, .missingBlockAfterTitleOrAttributeList⟩ := by
  unfold parseSimple at h
  cases lit with
  | true => exact finishSimple_none h
  | false =>
    simp only [Bool.false_eq_true, if_false, bind, Except.bind] at h
    split at h
    · cases h
    · exact finishSimple_none h

/-- What the blocks of a step add to the catalog. -/
def stepRefs : Option (MI Block) → List RefEntry
  | none => []
  | some mi => refs mi.item

variable [Uni]

theorem leaf_reg {e : BlockEnv} {p p' : ParserState} {s : Span} {b : Option (MI Block)} {ws : List Warning} {c : Catalog}
    (h : LeafStep e p s b ws p') (hc : p.catalog = some c) :
    ∃ c', p'.catalog = some c' ∧ Reg c c' (stepRefs b) ws ∧ ∀ w ∈ ws, Sub w.source s ∧ Headed e.ar w := by
  have hgeo : ∀ mi, b = some mi → Sub mi.item.source s := by
    rintro ⟨x, after⟩ rfl
    obtain ⟨_, _, _, h4⟩ := leaf_geo h
    exact h4 _ (by simp [spans])
  -- plain warnings in front of a registration
  have app : ∀ {w1 w2 : List Warning} {es : List RefEntry} {c' : Catalog}, (∀ w ∈ w1, Plain e.ar s w) → Reg c c' es w2 →
      (∀ w ∈ w2, Sub w.source s ∧ Headed e.ar w) → Reg c c' es (w1 ++ w2) ∧ ∀ w ∈ w1 ++ w2, Sub w.source s ∧ Headed e.ar w := by
    intro w1 w2 es c' h1 h2 h3
    refine ⟨h2.mono fun id => ?_, fun w hw => ?_⟩
    · rw [reported_append, reported_other (fun w hw => (h1 w hw).2.1), Nat.zero_add]
    · rcases List.mem_append.mp hw with hw | hw
      · exact ⟨(h1 w hw).1, (h1 w hw).2.2⟩
      · exact h3 w hw
  have plain : ∀ {w1 : List Warning}, (∀ w ∈ w1, Plain e.ar s w) → Reg c c [] w1 ∧ ∀ w ∈ w1, Sub w.source s ∧ Headed e.ar w :=
    fun h1 => ⟨Reg.nil fun w hw => (h1 w hw).2.1, fun w hw => ⟨(h1 w hw).1, (h1 w hw).2.2⟩⟩
  cases h with
  | fast hf => exact ⟨c, hc, Reg.nil (by simp), by simp⟩
  | @entry a after hf =>
    have := hgeo _ rfl
    exact ⟨c, hc, plain fun w hw => .calm ((entry_plain _ _ w hw).1 ▸ this) (entry_plain _ _ w hw).2⟩
  | @raw m mw ws rb after hm hr =>
    replace hm := hm.parse
    obtain ⟨c', h1, h2, h3⟩ := registerBlockId_reg hc m.fields rb.source
    have hs := meta_suf hm
    refine ⟨c', by rw [h1], ?_⟩
    rw [← List.append_assoc]
    refine app (fun w hw => ?_) (by simpa [stepRefs, refs, refsAll, ownRef, blockId, Meta.id, Block.kind, Block.fields] using h2)
      (fun w hw => ⟨(h3 w hw).1 ▸ hgeo _ rfl, (h3 w hw).2 _⟩)
    rcases List.mem_append.mp hw with hw | hw
    · exact meta_plain hm w hw
    · exact (raw_plain hs.2 hr w hw).sub (hs.2.trans hs.1).sub
  | @media m mw ws mb after hm hr =>
    replace hm := hm.parse
    obtain ⟨c', h1, h2, h3⟩ := registerBlockId_reg hc { m.fields with anchorReftext := none } mb.source
    have hs := meta_suf hm
    refine ⟨c', by rw [h1], ?_⟩
    rw [← List.append_assoc]
    refine app (fun w hw => ?_) (by simpa [stepRefs, refs, refsAll, ownRef, blockId, Meta.id, Block.kind, Block.fields] using h2)
      (fun w hw => ⟨(h3 w hw).1 ▸ hgeo _ rfl, (h3 w hw).2 _⟩)
    rcases List.mem_append.mp hw with hw | hw
    · exact meta_plain hm w hw
    · exact (media_plain hm (mediaAt_some hr).2 w hw).sub hs.1.sub
  | @brk m mw sw ty src after hm hn hr =>
    replace hm := hm.parse
    replace hn := hn.noHeading
    replace hr := breakAt_some hr
    have hs := meta_suf hm
    refine ⟨c, hc, plain fun w hw => ?_⟩
    rcases List.mem_append.mp hw with hw | hw
    · exact meta_plain hm w hw
    · exact (noHeading_plain hn w hw).sub (hs.2.trans hs.1).sub
  | @simple m mw sw ws lit b p' hfb hp =>
    have hm := hfb.parse
    have hn := hfb.noHeading
    have hs := meta_suf hm
    have hpre : ∀ w ∈ mw ++ sw, Plain e.ar s w := by
      intro w hw
      rcases List.mem_append.mp hw with hw | hw
      · exact meta_plain hm w hw
      · exact (noHeading_plain hn w hw).sub (hs.2.trans hs.1).sub
    have hmiss : Plain e.ar s ⟨m.source, .missingBlockAfterTitleOrAttributeList⟩ := .calm hs.1.sub trivial
    cases b with
    | none =>
      obtain ⟨rfl, h2⟩ := parseSimple_none hp
      rw [← List.append_assoc]
      refine ⟨c, hc, plain fun w hw => ?_⟩
      rcases List.mem_append.mp hw with hw | hw
      · exact hpre w hw
      · exact h2 w hw ▸ hmiss
    | some mi =>
      obtain ⟨b, after⟩ := mi
      obtain ⟨m', sb, _, _, rfl, h4, rfl⟩ := parseSimple_some hp
      obtain ⟨c', h1, h2, h3⟩ := registerBlockId_reg hc m'.fields sb.source
      refine ⟨c', by rw [h1], ?_⟩
      have hreg : Reg c c' (stepRefs (some ⟨.mk (.simple sb.content sb.style) sb.source m'.fields [], after⟩))
          (registerBlockId p m'.fields sb.source).2 := by
        simpa [stepRefs, refs, refsAll, ownRef, blockId, Meta.id, Block.kind, Block.fields] using h2
      rcases h4 with ⟨_, rfl⟩ | ⟨_, _, _, _, rfl⟩
      · rw [← List.append_assoc]
        exact app hpre hreg (fun w hw => ⟨(h3 w hw).1 ▸ hgeo _ rfl, (h3 w hw).2 _⟩)
      · rw [List.append_cons sw, ← List.append_assoc, ← List.append_assoc]
        refine app (fun w hw => ?_) hreg (fun w hw => ⟨(h3 w hw).1 ▸ hgeo _ rfl, (h3 w hw).2 _⟩)
        rcases List.mem_append.mp hw with hw | hw
        · exact hpre w hw
        · rw [List.mem_singleton.mp hw]; exact hmiss

/-- The catalog and the warnings of a run. -/
theorem run_reg {e : BlockEnv} {stop : Stop} {p p' : ParserState} {s s' : Span} {bs : List Block} {ws sw : List Warning}
    (h : Run e stop p s bs s' ws sw p') : ∀ c, p.catalog = some c →
    (∃ c', p'.catalog = some c' ∧ Reg c c' (refsAll bs) ws) ∧ (∀ w ∈ ws, Sub w.source s ∧ Headed e.ar w) ∧ ∀ w ∈ sw, Plain e.ar s w := by
  induction h with
  | done _ => exact fun c hc => ⟨⟨c, hc, Reg.nil (by simp)⟩, by simp, by simp⟩
  | halt _ hk => exact fun c hc => ⟨⟨c, hc, Reg.nil (by simp)⟩, by simp, check_plain hk⟩
  | @leaf stop stop' p p1 p2 s s' sw sw' ws ws' b after bs _ hk hl _ ih =>
    intro c hc
    obtain ⟨c1, hc1, r1, w1⟩ := leaf_reg hl hc
    obtain ⟨⟨c2, hc2, r2⟩, w2, w3⟩ := ih c1 hc1
    have hs : Sub after s := (leaf_geo hl).1.suf.sub
    refine ⟨⟨c2, hc2, r1.trans r2 (reported_append _ _)⟩, fun w hw => ?_, fun w hw => ?_⟩
    · rcases List.mem_append.mp hw with hw | hw
      · exact w1 w hw
      · exact ⟨(w2 w hw).1.trans hs, (w2 w hw).2⟩
    · rcases List.mem_append.mp hw with hw | hw
      · exact check_plain hk w hw
      · exact (w3 w hw).sub hs
  | @stuck stop stop' p p1 p2 s s' sw sw' ws ws' bs _ hk hl _ ih =>
    intro c hc
    obtain ⟨c1, hc1, r1, w1⟩ := leaf_reg hl hc
    obtain ⟨⟨c2, hc2, r2⟩, w2, w3⟩ := ih c1 hc1
    refine ⟨⟨c2, hc2, r1.trans r2 (reported_append _ _)⟩, fun w hw => ?_, fun w hw => ?_⟩
    · rcases List.mem_append.mp hw with hw | hw
      · exact w1 w hw
      · exact w2 w hw
    · rcases List.mem_append.mp hw with hw | hw
      · exact check_plain hk w hw
      · exact w3 w hw
  | @compound stop stop' p p1 p2 s s' sw sw' ws' bs m mw context inside closing after src cbs cs cws csw h1 hk hm ho r1 r2
      ih1 ih2 =>
    intro c hc
    obtain ⟨⟨c1, hc1, q1⟩, w1, _⟩ := ih1 c hc
    obtain ⟨c2, hc2, q2, w2⟩ := registerBlockId_reg hc1 m.fields src.trimTrailingWhitespace
    obtain ⟨⟨c3, hc3, q3⟩, w3, w4⟩ := ih2 c2 (by rw [hc2])
    have hs := meta_suf hm.parse
    obtain ⟨g1, g2, g3, _, g5⟩ := compound_geo hm.parse ho
    have hin : Sub inside.discardEmptyLines s := (discardEmptyLines_suf _).sub.trans (g2.trans (g1.sub.trans hs.1.sub))
    have haf : Sub after s := (g5.trans ((takeLine_after_suf _).trans (hs.2.trans hs.1))).sub
    have hsrc : Sub src.trimTrailingWhitespace s := (trimTrailingWhitespace_sub _).trans (g1.sub.trans hs.1.sub)
    have hdel : Plain e.ar s ⟨m.blockStart.takeNormalizedLine.item, .unterminatedDelimitedBlock⟩ :=
      .calm ((normLine_item_sub _).trans (hs.2.trans hs.1).sub) trivial
    have hmw := meta_plain (ar := e.ar) hm.parse
    refine ⟨⟨c3, hc3, ?_⟩, fun w hw => ?_, fun w hw => ?_⟩
    · rw [refsAll, refs, ownRef]
      refine Reg.trans (Reg.trans q1 (by simpa [blockId, Meta.id, Block.kind, Block.fields] using q2) (reported_append _ _))
        q3 fun id => ?_
      have e0 := reported_other (fun w hw => (hmw w hw).2.1) id
      have e1 : reported (if closing.data = [] then
          ⟨m.blockStart.takeNormalizedLine.item, .unterminatedDelimitedBlock⟩ :: cws else cws) id = reported cws id := by
        split
        · rw [← List.singleton_append, reported_append, reported_other (by simpa using hdel.2.1), Nat.zero_add]
        · rfl
      rw [reported_append, reported_append, reported_append, reported_append, e0, e1]
      omega
    · rcases List.mem_append.mp hw with hw | hw
      · rcases List.mem_append.mp hw with hw | hw
        · exact ⟨(hmw w hw).1, (hmw w hw).2.2⟩
        · rcases List.mem_append.mp hw with hw | hw
          · have : w = ⟨m.blockStart.takeNormalizedLine.item, .unterminatedDelimitedBlock⟩ ∨ w ∈ cws := by
              split at hw
              · exact List.mem_cons.mp hw
              · exact Or.inr hw
            rcases this with rfl | hw
            · exact ⟨hdel.1, hdel.2.2⟩
            · exact ⟨(w1 w hw).1.trans hin, (w1 w hw).2⟩
          · exact ⟨(w2 w hw).1 ▸ hsrc, (w2 w hw).2 _⟩
      · exact ⟨(w3 w hw).1.trans haf, (w3 w hw).2⟩
    · rcases List.mem_append.mp hw with hw | hw
      · exact check_plain hk w hw
      · exact (w4 w hw).sub haf
  | @«section» stop stop' p p1 p2 p3 s s' sw sw' ws' bs m mw mi tw cbs cs cws csw src dupSrc title base id dup h1 hk hm
      hstart ht r1 hclose r2 ih1 ih2 =>
    intro c hc
    have hop : (openSection p m mi.item.1).2.2.catalog = some c := by
      unfold openSection sectionNumber
      simp only
      split <;> exact hc
    obtain ⟨⟨c1, hc1, q1⟩, w1, w2⟩ := ih1 c hop
    obtain ⟨c2, hc2, q2, q2'⟩ := registerSection_reg hc1 hclose.register dupSrc
    have hcl : (closeSection p2 m mi.item.1).catalog = some c2 := by
      unfold closeSection
      split <;> rw [hc2]
    obtain ⟨⟨c3, hc3, q3⟩, w3, w4⟩ := ih2 c2 hcl
    have hs := meta_suf hm.parse
    obtain ⟨t1, t2, t3, rfl⟩ := titleLine_geo ht
    have hbs : Suf m.blockStart.discardEmptyLines s := (discardEmptyLines_suf _).trans (hs.2.trans hs.1)
    have hin : Sub mi.after.discardEmptyLines s := by
      rw [t2]
      exact ((discardEmptyLines_suf _).trans ((takeLine_after_suf _).trans hbs)).sub
    have hcs : Sub cs s := by
      obtain ⟨k, _, he, _⟩ := run_tidy r1
      rw [he]
      exact (dropN_suf _ _).sub.trans hin
    have hdup : Sub dupSrc s := by
      obtain ⟨k, _, rfl⟩ := trimRemainder?_some hclose.head
      exact (takeN_sub _ _).trans hs.1.sub
    have hmw := meta_plain (ar := e.ar) hm.parse
    refine ⟨⟨c3, hc3, ?_⟩, fun w hw => ?_, fun w hw => ?_⟩
    · rw [refsAll, refs, ownRef]
      refine Reg.trans (Reg.trans q1 (by simpa [sectionId?, sectionReftext, Block.kind, Block.fields] using q2)
        (reported_append _ _)) q3 fun id => ?_
      have e0 := reported_other (fun w hw => (hmw w hw).2.1) id
      have e1 := reported_other (fun w hw => (w2 w hw).2.1) id
      simp only [reported_append, e0, e1, List.nil_append]
      omega
    · rcases List.mem_append.mp hw with hw | hw
      · rcases List.mem_append.mp hw with hw | hw
        · exact ⟨(hmw w hw).1, (hmw w hw).2.2⟩
        · rw [List.nil_append] at hw
          rcases List.mem_append.mp hw with hw | hw
          · rcases List.mem_append.mp hw with hw | hw
            · exact ⟨(w2 w hw).1.trans hin, (w2 w hw).2.2⟩
            · obtain ⟨i, _, rfl⟩ := List.mem_map.mp hw
              exact ⟨hdup, trivial⟩
          · exact ⟨(w1 w hw).1.trans hin, (w1 w hw).2⟩
      · exact ⟨(w3 w hw).1.trans hcs, (w3 w hw).2⟩
    · rcases List.mem_append.mp hw with hw | hw
      · exact check_plain hk w hw
      · exact (w4 w hw).sub hcs

end Adoc
