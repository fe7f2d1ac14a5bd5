import Verif.Spec.Requests
import Verif.Lemmas.Refs
import Verif.Lemmas.Rendered
import Verif.Props.Header
import Verif.Props.AttrStore
/-!
# The requests of a document
-/

set_option linter.unusedSectionVars false
namespace Adoc
open Span Spec Props

variable [Uni]

/-! ### Histories -/

theorem attrRun_nil (s : AttrStore) : attrRun s [] = (s, []) := rfl

theorem attrRun_cons (s : AttrStore) (w : Write) (ws : List Write) :
    attrRun s (w :: ws) = ((attrRun (attrExec s w).1 ws).1, (attrExec s w).2 ++ (attrRun (attrExec s w).1 ws).2) := by
  have h : ∀ (ws : List Write) (s : AttrStore) (l : List Warning),
      ws.foldl (fun p w => let r := attrExec p.1 w; (r.1, p.2 ++ r.2)) (s, l) = ((attrRun s ws).1, l ++ (attrRun s ws).2) := by
    intro ws
    induction ws with
    | nil => intro s l; simp [attrRun]
    | cons w ws ih =>
      intro s l
      rw [List.foldl_cons]
      simp only
      rw [ih]
      have e : attrRun s (w :: ws) = ((attrRun (attrExec s w).1 ws).1, (attrExec s w).2 ++ (attrRun (attrExec s w).1 ws).2) := by
        rw [← ih]
        show List.foldl _ _ (w :: ws) = _
        rw [List.foldl_cons]
        simp only [List.nil_append]
      rw [e]
      simp
  conv => lhs; unfold attrRun
  rw [List.foldl_cons]
  simp only [List.nil_append]
  rw [h]

theorem attrRun_append (s : AttrStore) (ws ws' : List Write) :
    attrRun s (ws ++ ws') = ((attrRun (attrRun s ws).1 ws').1, (attrRun s ws).2 ++ (attrRun (attrRun s ws).1 ws').2) := by
  induction ws generalizing s with
  | nil => simp [attrRun_nil]
  | cons w ws ih => rw [List.cons_append, attrRun_cons, ih, attrRun_cons]; simp

theorem attrRun_asks (l : List (Text × Option Text)) (s : AttrStore) : attrRun s (asks l) = (setAll s l, []) := by
  induction l generalizing s with
  | nil => rfl
  | cons p l ih =>
    obtain ⟨n, o⟩ := p
    cases o with
    | none => exact ih s
    | some v =>
      show attrRun s (.implicitHeader n v :: asks l) = _
      rw [attrRun_cons]
      show ((attrRun (s.setByValueFromHeader n v) (asks l)).1, [] ++ (attrRun (s.setByValueFromHeader n v) (asks l)).2) = _
      rw [ih]
      rfl

/-- The reports of a history are those of the model. -/
theorem refusals_run (s : AttrStore) (ws : List Write) : Refusals (cellOf s) ws (attrRun s ws).2 := by
  refine snocInd (P := fun ws => Refusals (cellOf s) ws (attrRun s ws).2) ?_ ?_ ws
  · exact .nil
  · intro ws w ih
    obtain ⟨c, h1, _, h3⟩ := C08_last_accepted_write s ws w.target
    rw [run_snoc]
    by_cases hr : Refused (cellOf (attrRun s ws).1 w.target) w
    · rw [(C07_warning_iff_refused _ w).1 hr]
      exact .refused ih h1 ((refused_ctx h3 w).mp hr)
    · rw [((C07_warning_iff_refused _ w).2 hr).1, List.append_nil]
      exact .accepted ih h1 fun h => hr ((refused_ctx h3 w).mpr h)

omit [Uni] in
theorem snoc_inj {α : Type} {a b : List α} {x y : α} (h : a ++ [x] = b ++ [y]) : a = b ∧ x = y := by
  simpa using List.append_inj' h rfl

theorem Spec.Cell.det {name : Text} {start c c' : Option (IVal × ModCtx)} {ws : List Write} (h : Cell name start ws c)
    (h' : Cell name start ws c') : c = c' := by
  induction h generalizing c' with
  | nil =>
    generalize hx : ([] : List Write) = x at h'
    cases h' with
    | nil => rfl
    | other _ _ => simp at hx
    | refused _ _ _ => simp at hx
    | accepted _ _ _ => simp at hx
  | @other ws w c h1 h2 ih =>
    generalize hx : ws ++ [w] = x at h'
    cases h' with
    | nil => simp at hx
    | other k1 k2 => obtain ⟨rfl, rfl⟩ := snoc_inj hx; exact ih k1
    | refused k1 k2 k3 => obtain ⟨rfl, rfl⟩ := snoc_inj hx; exact absurd k2 h2
    | accepted k1 k2 k3 => obtain ⟨rfl, rfl⟩ := snoc_inj hx; exact absurd k2 h2
  | @refused ws w c h1 h2 h3 ih =>
    generalize hx : ws ++ [w] = x at h'
    cases h' with
    | nil => simp at hx
    | other k1 k2 => obtain ⟨rfl, rfl⟩ := snoc_inj hx; exact absurd h2 k2
    | refused k1 k2 k3 => obtain ⟨rfl, rfl⟩ := snoc_inj hx; exact ih k1
    | accepted k1 k2 k3 =>
      obtain ⟨rfl, rfl⟩ := snoc_inj hx
      rw [ih k1] at h3; exact absurd h3 k3
  | @accepted ws w c h1 h2 h3 ih =>
    generalize hx : ws ++ [w] = x at h'
    cases h' with
    | nil => simp at hx
    | other k1 k2 => obtain ⟨rfl, rfl⟩ := snoc_inj hx; exact absurd h2 k2
    | refused k1 k2 k3 =>
      obtain ⟨rfl, rfl⟩ := snoc_inj hx
      rw [ih k1] at h3; exact absurd k3 h3
    | accepted k1 k2 k3 => obtain ⟨rfl, rfl⟩ := snoc_inj hx; rfl

theorem Spec.Refusals.det {start : Text → Option (IVal × ModCtx)} {ws : List Write} {l l' : List Warning}
    (h : Refusals start ws l) (h' : Refusals start ws l') : l = l' := by
  induction h generalizing l' with
  | nil =>
    generalize hx : ([] : List Write) = x at h'
    cases h' with
    | nil => rfl
    | refused _ _ _ => simp at hx
    | accepted _ _ _ => simp at hx
  | @refused ws w c l h1 h2 h3 ih =>
    generalize hx : ws ++ [w] = x at h'
    cases h' with
    | nil => simp at hx
    | refused k1 k2 k3 => obtain ⟨rfl, rfl⟩ := snoc_inj hx; rw [ih k1]
    | accepted k1 k2 k3 =>
      obtain ⟨rfl, rfl⟩ := snoc_inj hx
      rw [h2.det k2] at h3; exact absurd h3 k3
  | @accepted ws w c l h1 h2 h3 ih =>
    generalize hx : ws ++ [w] = x at h'
    cases h' with
    | nil => simp at hx
    | refused k1 k2 k3 =>
      obtain ⟨rfl, rfl⟩ := snoc_inj hx
      rw [h2.det k2] at h3; exact absurd k3 h3
    | accepted k1 k2 k3 => obtain ⟨rfl, rfl⟩ := snoc_inj hx; exact ih k1

/-! ### The header -/

theorem entriesOf_append (a b : List Write) : entriesOf (a ++ b) = entriesOf a ++ entriesOf b := by
  simp [entriesOf, List.filterMap_append]

theorem entriesOf_asks (l : List (Text × Option Text)) : entriesOf (asks l) = [] := by
  induction l with
  | nil => rfl
  | cons p l ih =>
    obtain ⟨n, o⟩ := p
    cases o with
    | none => exact ih
    | some v => exact ih

theorem asks_map (f : Text → Text) (l : List (Text × Option Text)) :
    asks (l.map fun q => (f q.1, q.2)) =
      (l.filterMap fun p => p.2.map fun v => (f p.1, v)).map fun p => .implicitHeader p.1 p.2 := by
  induction l with
  | nil => rfl
  | cons p l ih =>
    obtain ⟨n, o⟩ := p
    cases o with
    | none => simpa [asks] using ih
    | some v => simpa [asks] using ih

theorem line_asks {hdr : HeaderSubs} {r : Renderer} {s s' : AttrStore} {l : HLine} (h : LineEffect hdr r s l s')
    (hn : ∀ n k, l ≠ .entry n k) (hr : ∀ x, l = .revision x → '\n' ∉ x) :
    ∃ ws, LineAsks hdr r s l ws ∧ attrRun s ws = (s', []) ∧ entriesOf ws = [] := by
  cases h with
  | blank => exact ⟨[], .blank, rfl, rfl⟩
  | comment => exact ⟨[], .comment, rfl, rfl⟩
  | entry _ _ => exact absurd rfl (hn _ _)
  | title hv => exact ⟨_, .title hv, attrRun_asks _ _, entriesOf_asks _⟩
  | @author l a s' hp =>
    refine ⟨_, .author hp, ?_, ?_⟩
    · have hs : s' = putAll s ((a.authors.zipIdx 0).flatMap fun p => authorWrites p.2 p.1) := by
        unfold AuthorLine.parse at hp
        simp only [bind, Except.bind] at hp
        cases hq : parseAuthors r s (splitStr "; ".toList (Span.new l).data) with
        | error e => rw [hq] at hp; cases hp
        | ok as =>
          rw [hq] at hp
          simp only [Except.ok.injEq, Prod.mk.injEq] at hp
          rw [← hp.2, ← hp.1, setAuthors_eq]
      have hput : ∀ (l : List (Text × Text)) (s : AttrStore),
          attrRun s (l.map fun p => .implicitHeader p.1 p.2) = (putAll s l, []) := by
        intro l
        induction l with
        | nil => intro s; rfl
        | cons p l ih =>
          intro s
          rw [List.map_cons, attrRun_cons]
          show ((attrRun (s.setByValueFromHeader p.1 p.2) _).1, [] ++ _) = _
          rw [show (attrExec s (.implicitHeader p.1 p.2)).1 = s.setByValueFromHeader p.1 p.2 from rfl, ih]
          rfl
      rw [hs, ← hput]
      congr 1
      rw [List.map_flatMap]
      congr 1
      funext p
      rw [asks_map (fun n => suffixed n (p.2 + 1))]
      congr 1
      unfold authorWrites
      congr 1
      funext q
      rw [suffixed_eq]
    · generalize a.authors.zipIdx = z
      induction z with
      | nil => rfl
      | cons p z ih => rw [List.flatMap_cons, entriesOf_append, entriesOf_asks, ih]; rfl
  | @revision l a s' hp =>
    have hs : s' = setRevision s (revisionParts l) := by
      unfold RevisionLine.parse at hp
      simp only [bind, Except.bind] at hp
      split at hp
      · cases hp
      · split at hp
        · cases hp
        · split at hp
          · cases hp
          · simp only [Except.ok.injEq, Prod.mk.injEq] at hp
            exact hp.2.symm
    generalize hq : revisionParts l = p at hs
    obtain ⟨n, d, m⟩ := p
    refine ⟨_, .revision ((revision_iff (hr _ rfl)).mpr hq), ?_, entriesOf_asks _⟩
    rw [attrRun_asks, hs]
    cases n <;> cases m <;> rfl

theorem entry_asks {hdr : HeaderSubs} {r : Renderer} {s s1 : AttrStore} {a : Attribute} {k : EntryKind}
    (hv : EntryValue (hdr s) k a.value) (ha : AuthorEffect r s a.name.data k s1) :
    ∃ ws, LineAsks hdr r s (.entry a.name.data k) ws ∧
      attrRun s ws = ((s1.setFromHeader a).1, (s1.setFromHeader a).2.toList) ∧ entriesOf ws = [a] := by
  have one : ∀ s, attrRun s [.headerEntry a] = ((s.setFromHeader a).1, (s.setFromHeader a).2.toList) := by
    intro s
    rw [attrRun_cons, attrRun_nil]
    simp [attrExec]
  cases ha with
  | other h => exact ⟨_, .entry hv (fun h' => absurd h' h), one _, rfl⟩
  | noValue h => exact ⟨_, .entry hv (fun _ raw e => absurd e (h raw)), one _, rfl⟩
  | blank h => exact ⟨_, .entry hv (fun _ raw e => by cases e; exact h), one _, rfl⟩
  | author hn hp =>
    refine ⟨_, .authorEntry hv hn hp, ?_, ?_⟩
    · rw [attrRun_append, attrRun_asks, one]; simp
    · rw [entriesOf_append, entriesOf_asks]; rfl

theorem trace_asks {hdr : HeaderSubs} {r : Renderer} {s s' : AttrStore} {ls : List HLine} {as : List Attribute}
    {w : List Warning} (h : Trace hdr r s ls as w s') (hr : ∀ x, .revision x ∈ ls → '\n' ∉ x) :
    ∃ ws, HeaderAsks hdr r s ls ws ∧ attrRun s ws = (s', w) ∧ entriesOf ws = as := by
  induction h with
  | nil => exact ⟨[], .nil, rfl, rfl⟩
  | plain h1 h2 _ ih =>
    obtain ⟨ws, e1, e2, e3⟩ := ih fun x hx => hr x (List.mem_cons_of_mem _ hx)
    obtain ⟨ws', k1, k2, k3⟩ := line_asks h1 h2 fun x hx => hr x (hx ▸ List.mem_cons_self)
    refine ⟨ws' ++ ws, .cons h1 k1 e1, ?_, by rw [entriesOf_append, k3, e3]; rfl⟩
    rw [attrRun_append, k2, e2]; rfl
  | @entry s a k s1 ls as w s2 h1 h2 _ ih =>
    obtain ⟨ws, e1, e2, e3⟩ := ih fun x hx => hr x (List.mem_cons_of_mem _ hx)
    obtain ⟨ws', k1, k2, k3⟩ := entry_asks h1 h2
    refine ⟨ws' ++ ws, .cons ?_ k1 e1, ?_, by rw [entriesOf_append, k3, e3]; rfl⟩
    · rw [setFromHeader_congr s1 (a := a) (b := ⟨Span.new a.name.data, none, a.value, Span.new []⟩) rfl rfl]
      exact .entry h1 h2
    · rw [attrRun_append, k2, e2]

omit [Uni] in
theorem reads_revision {s s' : Stage} {t rest : Text} {ls : List HLine} (h : HeaderReads s t ls s' rest) :
    ∀ x, .revision x ∈ ls → '\n' ∉ x := by
  induction h with
  | stop _ => intro x hx; cases hx
  | line _ hl _ ih =>
    intro x hx
    rcases List.mem_cons.mp hx with rfl | hx
    · cases hl with
      | revision h => exact h.1.noNl
    · exact ih x hx

/-- The requests of a header. -/
theorem header_asks {hdr : HeaderSubs} {r : Renderer} {store store' : AttrStore} {source : Span} {mi : MI Header}
    {ws : List Warning} (h : Header.parse hdr r store source = .ok (mi, ws, store')) :
    ∃ lines stage rest hist, HeaderReads .start source.data lines stage rest ∧ HeaderAsks hdr r store lines hist ∧
      entriesOf hist = mi.item.attributes ∧ attrRun store hist = (store', ws.filter isRefusal) := by
  obtain ⟨lines, stage, rest, w, h1, h2, h3⟩ := header_trace h
  obtain ⟨hist, e1, e2, e3⟩ := trace_asks h2 (reads_revision h1)
  refine ⟨lines, stage, rest, hist, h1, e1, e3, ?_⟩
  have hw : w.filter isRefusal = w := by
    rw [List.filter_eq_self]
    clear h h1 h3 e1 e2 e3 hist
    generalize mi.item.attributes = as at h2
    induction h2 with
    | nil => simp
    | plain _ _ _ ih => exact ih
    | entry _ _ _ ih =>
      intro x hx
      rcases List.mem_append.mp hx with hx | hx
      · obtain ⟨⟨n, hn⟩, _⟩ := setFromHeader_warn _ _ x hx
        unfold isRefusal; rw [hn]
      · exact ih x hx
  rw [e2]
  rcases h3 with rfl | ⟨line, rfl⟩
  · rw [hw]
  · rw [List.filter_append, hw]
    have : [(⟨line, .documentHeaderNotTerminated⟩ : Warning)].filter isRefusal = [] := rfl
    rw [this, List.append_nil]

/-! ### The blocks -/

/-- The requests of blocks. -/
def asked (bs : List Block) : List Write := (entriesAmong bs).map .bodyEntry

omit [Uni] in
theorem asked_append (a b : List Block) : asked (a ++ b) = asked a ++ asked b := by
  simp [asked, entriesAmong, List.filterMap_append]

omit [Uni] in
theorem asked_skip {b : Block} (h : ¬ IsEntry b) (bs : List Block) : asked (b :: bs) = asked bs := by
  unfold asked entriesAmong
  rw [List.filterMap_cons_none]
  split
  · rename_i a hk; exact absurd ⟨a, hk⟩ h
  · rfl

theorem meek_quiet {w : Warning} (h : Meek w.warning) : isRefusal w = false := by
  obtain ⟨s, w⟩ := w
  cases w <;> first | exact h.elim | rfl

theorem filter_quiet {ws : List Warning} (h : ∀ w ∈ ws, isRefusal w = false) : ws.filter isRefusal = [] := by
  rw [List.filter_eq_nil_iff]
  intro w hw; rw [h w hw]; simp

theorem register_quiet (p : ParserState) (m : Meta) (sp : Span) : ∀ w ∈ (registerBlockId p m sp).2, isRefusal w = false := by
  intro w hw
  unfold registerBlockId at hw
  split at hw
  · split at hw
    · simp at hw
    · simp at hw; subst hw; rfl
  · simp at hw

theorem register_store (p : ParserState) (m : Meta) (sp : Span) : (registerBlockId p m sp).1.store = p.store :=
  congrArg Tally.attrs (registerBlockId_rest p m sp).1

omit [Uni] in
theorem titleLine_quiet {ar : Arith} {s : Span} {mi : Option (MI (Nat × Span))} {tw : List Warning}
    (h : parseTitleLine ar s = .ok (mi, tw)) : ∀ w ∈ tw, isRefusal w = false := by
  rcases titleLine_cases ar s _ rfl with ⟨_, e⟩ | ⟨hm, e⟩ | ⟨n, hn, hm, e⟩ | ⟨_, t, e⟩ | ⟨l, t, _, e⟩ | ⟨_, _, _, _, _, e⟩
  · rw [e] at h; cases h; nofun
  · rw [e] at h; cases h
    intro w hw; rw [List.mem_singleton.mp hw]; rfl
  · rw [e] at h; cases h
    intro w hw; rw [List.mem_singleton.mp hw]; rfl
  · rw [e] at h
    cases ar with
    | checked => cases h
    | wrapping => cases h; nofun
  · rw [e] at h; cases h; nofun
  · rw [e] at h; cases h; nofun

theorem noHeading_quiet {e : BlockEnv} {m : BlockMetadata} {sw : List Warning} (h : NoHeading e m sw) :
    ∀ w ∈ sw, isRefusal w = false := by
  rcases h with rfl | h
  · simp
  · exact titleLine_quiet h

theorem check_quiet {e : BlockEnv} {s : Span} {stop stop' : Stop} {b : Bool} {sw : List Warning}
    (h : stop.check e s = .ok (b, stop', sw)) : ∀ w ∈ sw, isRefusal w = false := by
  cases stop with
  | never => cases h; simp
  | always => cases h; simp
  | peer level mr =>
    unfold Stop.check peerOrAncestor at h
    simp only [bind, Except.bind] at h
    cases hm : BlockMetadata.parse e.dsubs AttrStore.default s with
    | error x => rw [hm] at h; cases h
    | ok y =>
      obtain ⟨m, mw⟩ := y
      rw [hm] at h
      simp only at h
      cases hd : m.isDiscrete with
      | true => rw [hd] at h; cases h; simp
      | false =>
        rw [hd] at h
        simp only [Bool.false_eq_true, if_false] at h
        cases ht : parseTitleLine e.ar m.blockStart with
        | error x => rw [ht] at h; cases h
        | ok y =>
          obtain ⟨mi, tw⟩ := y
          have htw := titleLine_quiet ht
          rw [ht] at h
          cases mi with
          | none => cases h; exact htw
          | some mi =>
            simp only at h
            cases hl : e.ar.succ mr with
            | error x => rw [hl] at h; cases h
            | ok limit =>
              rw [hl] at h
              cases h
              intro w hw
              rcases List.mem_append.mp hw with hw | hw
              · exact htw w hw
              · split at hw
                · rw [List.mem_singleton.mp hw]; rfl
                · simp at hw

theorem raw_quiet {subs : Subs} {store : AttrStore} {m : BlockMetadata} {rb : RawBlock} {after : Span} {ws : List Warning}
    (hm : Suf m.blockStart m.source) (h : RawBlock.parse subs store m = .ok (some (⟨rb, after⟩, ws))) :
    ∀ w ∈ ws, isRefusal w = false := by
  have hd : ∃ c, RawDelim c m.blockStart.takeNormalizedLine.item.data :=
    Classical.byContradiction fun hn => by
      have := rawBlock_none (subs := subs) (store := store) hn
      rw [h] at this; cases this
  obtain ⟨c, hc⟩ := hd
  rcases rawBlock_spec (subs := subs) (store := store) rfl hc hm with
    ⟨_, _, _, _, _, _, _, _, _, _, _, _, _, _, _, e⟩ | ⟨_, _, _, _, _, _, _, _, _, _, _, e⟩
  · rw [e] at h
    generalize subs _ _ _ _ = q at h
    cases q with
    | error x => cases h
    | ok r => cases h; simp
  · rw [e] at h
    cases h
    intro w hw
    rw [List.mem_singleton.mp hw]; rfl

/-- The requests of a step. -/
def stepAsked : Option (MI Block) → List Write
  | none => []
  | some mi => asked (preorder mi.item)

theorem leaf_asked {e : BlockEnv} {p p' : ParserState} {s : Span} {b : Option (MI Block)} {ws : List Warning}
    (h : LeafStep e p s b ws p') : attrRun p.store (stepAsked b) = (p'.store, ws.filter isRefusal) := by
  have quiet : ∀ {k sp f after} {q : ParserState} {w : List Warning}, (∀ a, k ≠ .docAttr a) → q.store = p.store →
      (∀ x ∈ w, isRefusal x = false) →
      attrRun p.store (stepAsked (some ⟨.mk k sp f [], after⟩)) = (q.store, w.filter isRefusal) := by
    intro k sp f after q w hk hq hw
    unfold stepAsked
    simp only
    rw [preorder, preorderAll, asked_skip (not_entry_mk hk), hq, filter_quiet hw]
    rfl
  cases h with
  | fast hf => exact quiet nofun rfl (by simp)
  | @entry a after hf =>
    show attrRun p.store [.bodyEntry a] = _
    rw [attrRun_cons, attrRun_nil]
    have : (p.store.setFromBody a).2.toList.filter isRefusal = (p.store.setFromBody a).2.toList := by
      unfold AttrStore.setFromBody
      simp only
      split <;> rfl
    rw [this]
    simp [attrExec]
  | @raw m mw ws rb after hm hr =>
    refine quiet nofun (register_store _ _ _) fun w hw => ?_
    rcases List.mem_append.mp hw with hw | hw
    · exact meek_quiet (meta_meek hm.parse w hw).2
    · rcases List.mem_append.mp hw with hw | hw
      · exact raw_quiet (meta_suf hm.parse).2 hr w hw
      · exact register_quiet _ _ _ w hw
  | @media m mw ws mb after hm hr =>
    refine quiet nofun (register_store _ _ _) fun w hw => ?_
    rcases List.mem_append.mp hw with hw | hw
    · exact meek_quiet (meta_meek hm.parse w hw).2
    · rcases List.mem_append.mp hw with hw | hw
      · exact meek_quiet (media_meek hm.parse (mediaAt_some hr).2 w hw).2
      · exact register_quiet _ _ _ w hw
  | @brk m mw sw ty src after hm hn hr =>
    refine quiet nofun rfl fun w hw => ?_
    rcases List.mem_append.mp hw with hw | hw
    · exact meek_quiet (meta_meek hm.parse w hw).2
    · exact noHeading_quiet hn.noHeading w hw
  | @simple m mw sw ws lit b p' hfb hp =>
    have hpre : ∀ w ∈ mw ++ sw, isRefusal w = false := by
      intro w hw
      rcases List.mem_append.mp hw with hw | hw
      · exact meek_quiet (meta_meek hfb.parse w hw).2
      · exact noHeading_quiet hfb.noHeading w hw
    cases b with
    | none =>
      obtain ⟨rfl, h2⟩ := parseSimple_none hp
      show (p'.store, []) = _
      rw [filter_quiet]
      rw [← List.append_assoc]
      intro w hw
      rcases List.mem_append.mp hw with hw | hw
      · exact hpre w hw
      · rw [h2 w hw]; rfl
    | some mi =>
      obtain ⟨b, after⟩ := mi
      obtain ⟨m', sb, _, _, rfl, h4, rfl⟩ := parseSimple_some hp
      refine quiet nofun (register_store _ _ _) fun w hw => ?_
      rw [← List.append_assoc] at hw
      rcases List.mem_append.mp hw with hw | hw
      · exact hpre w hw
      rcases h4 with ⟨_, rfl⟩ | ⟨_, _, _, _, rfl⟩
      · exact register_quiet _ _ _ w hw
      · rcases List.mem_cons.mp hw with rfl | hw
        · rfl
        · exact register_quiet _ _ _ w hw

/-- The requests of a run. -/
theorem run_asked {e : BlockEnv} {stop : Stop} {p p' : ParserState} {s s' : Span} {bs : List Block} {ws sw : List Warning}
    (h : Run e stop p s bs s' ws sw p') :
    attrRun p.store (asked (preorderAll bs)) = (p'.store, ws.filter isRefusal) ∧ ∀ w ∈ sw, isRefusal w = false := by
  induction h with
  | done _ => exact ⟨rfl, by simp⟩
  | halt _ hk => exact ⟨rfl, check_quiet hk⟩
  | @leaf stop stop' p p1 p2 s s' sw sw' ws ws' b after bs _ hk hl _ ih =>
    refine ⟨?_, fun w hw => ?_⟩
    · have := leaf_asked hl
      unfold stepAsked at this
      rw [preorderAll, asked_append, attrRun_append, this, List.filter_append]
      simp only
      rw [ih.1]
    · rcases List.mem_append.mp hw with hw | hw
      · exact check_quiet hk w hw
      · exact ih.2 w hw
  | @stuck stop stop' p p1 p2 s s' sw sw' ws ws' bs _ hk hl _ ih =>
    refine ⟨?_, fun w hw => ?_⟩
    · have := leaf_asked hl
      unfold stepAsked at this
      rw [attrRun_nil, Prod.mk.injEq] at this
      rw [List.filter_append, ← this.2, this.1, List.nil_append]
      exact ih.1
    · rcases List.mem_append.mp hw with hw | hw
      · exact check_quiet hk w hw
      · exact ih.2 w hw
  | @compound stop stop' p p1 p2 s s' sw sw' ws' bs m mw context inside closing after src cbs cs cws csw h1 hk hm ho r1 r2
      ih1 ih2 =>
    refine ⟨?_, fun w hw => ?_⟩
    · rw [register_store] at ih2
      rw [preorderAll, preorder, List.cons_append, asked_skip (not_entry_mk (fun _ h => (by cases h))), asked_append, attrRun_append, ih1.1]
      simp only
      rw [ih2.1]
      have e1 : mw.filter isRefusal = [] := filter_quiet fun w hw => meek_quiet (meta_meek hm.parse w hw).2
      have e2 := filter_quiet (register_quiet p1 m.fields src.trimTrailingWhitespace)
      rw [List.filter_append, List.filter_append, List.filter_append, e1, e2]
      split
      · simp [isRefusal]
      · simp
    · rcases List.mem_append.mp hw with hw | hw
      · exact check_quiet hk w hw
      · exact ih2.2 w hw
  | @«section» stop stop' p p1 p2 p3 s s' sw sw' ws' bs m mw mi tw cbs cs cws csw src dupSrc title base id dup h1 hk hm
      hstart ht r1 hclose r2 ih1 ih2 =>
    have ho : (openSection p m mi.item.1).2.2.store = p.store := by
      unfold openSection sectionNumber
      simp only
      split <;> rfl
    have hc : (closeSection p2 m mi.item.1).store = p1.store := by
      have hr := congrArg Tally.attrs (registerSection_rest hclose.register).1
      unfold closeSection
      split <;> exact hr
    rw [ho] at ih1
    rw [hc] at ih2
    refine ⟨?_, fun w hw => ?_⟩
    · rw [preorderAll, preorder, List.cons_append, asked_skip (not_entry_mk (fun _ h => (by cases h))), asked_append, attrRun_append, ih1.1]
      simp only
      rw [ih2.1]
      have e1 : mw.filter isRefusal = [] := filter_quiet fun w hw => meek_quiet (meta_meek hm.parse w hw).2
      have e2 := filter_quiet (titleLine_quiet ht)
      have e3 := filter_quiet ih1.2
      have e4 : ((dup.toList.map fun i => (⟨dupSrc, .duplicateId i⟩ : Warning))).filter isRefusal = [] := by
        refine filter_quiet fun w hw => ?_
        obtain ⟨i, _, rfl⟩ := List.mem_map.mp hw
        rfl
      simp only [List.filter_append, e1, e2, e3, e4, List.nil_append]
    · rcases List.mem_append.mp hw with hw | hw
      · exact check_quiet hk w hw
      · exact ih2.2 w hw

/-- The requests of a document. -/
theorem document_asked {e : BlockEnv} {hr : Renderer} {fuel : Nat} {p p' : ParserState} {text : Text} {d : Document}
    (h : Document.parse e hr fuel p text = .ok (d, p')) :
    ∃ lines stage rest hist, HeaderReads .start text lines stage rest ∧
      HeaderAsks (fun s t => e.subs s .header none t) hr p.store lines hist ∧
      entriesOf hist = d.header.attributes ∧
      attrRun p.store (hist ++ asked (preorderAll d.blocks)) = (p'.store, d.warnings.filter isRefusal) := by
  obtain ⟨mi, hw, store, bs, rest, ws, sw, q, k1, k2, k3, k4, k5, k6, rfl, k8⟩ := document_run h
  obtain ⟨lines, stage, rest', hist, e1, e2, e3, e4⟩ := header_asks k1
  refine ⟨lines, stage, rest', hist, e1, e2, by rw [k4, e3], ?_⟩
  have hb := (run_asked k2).1
  have hp : asked (preorderAll d.blocks) = asked (preorderAll bs) := by
    rcases withPreamble_spec bs mi.after with ⟨front, first, back, ⟨rfl, _⟩, hp⟩ | ⟨_, hp⟩
    · rw [hp] at k3
      cases hq : preambleOf front mi.after with
      | error x => rw [hq] at k3; cases k3
      | ok b =>
        rw [hq] at k3
        obtain ⟨k, rfl⟩ := preambleOf_front hq
        have e1 : d.blocks = .mk .preamble (mi.after.takeN k) {} front :: first :: back := (Except.ok.inj k3).symm
        rw [e1, preorderAll, preorder, List.cons_append, asked_skip (not_entry_mk (fun _ h => (by cases h))), ← preorderAll_append]
    · rw [hp] at k3
      injection k3 with k3
      rw [← k3]
  rw [attrRun_append, e4, hp]
  simp only at hb ⊢
  rw [hb, k5, List.filter_append]

/-! ### The reports about one attribute -/

/-- The report is about this attribute. -/
def isAbout (name : Text) (w : Warning) : Bool := w.warning == .attributeValueIsLocked name

theorem refusalOf_about (name : Text) (w : Write) :
    (refusalOf w).filter (isAbout name) = if w.target = name then refusalOf w else [] := by
  cases w with
  | api _ _ _ => simp [refusalOf]
  | apiBool _ _ _ => simp [refusalOf]
  | implicitHeader _ _ => simp [refusalOf]
  | headerEntry a => by_cases h : entryKey a.name.data = name <;> simp [refusalOf, Write.target, isAbout, h]
  | bodyEntry a => by_cases h : entryKey a.name.data = name <;> simp [refusalOf, Write.target, isAbout, h]

theorem Spec.Cell.frozen {name : Text} {start c : Option (IVal × ModCtx)} {ws : List Write} (h : Cell name start ws c)
    (hr : ∀ w ∈ ws, w.target = name → Refused start w) : c = start := by
  induction h with
  | nil => rfl
  | other _ _ ih => exact ih fun w hw => hr w (by simp [hw])
  | refused _ _ _ ih => exact ih fun w hw => hr w (by simp [hw])
  | accepted h1 h2 h3 ih =>
    have := ih fun w hw => hr w (by simp [hw])
    rw [this] at h3
    exact absurd (hr _ (by simp) h2) h3

/-- All requests about an attribute are refused, and reported. -/
theorem Spec.Refusals.frozen {start : Text → Option (IVal × ModCtx)} {ws : List Write} {l : List Warning}
    (h : Refusals start ws l) {name : Text} (hr : ∀ w ∈ ws, w.target = name → Refused (start name) w) :
    l.filter (isAbout name) = (ws.filter fun w => w.target = name).flatMap refusalOf := by
  induction h with
  | nil => rfl
  | @refused ws w c l h1 h2 h3 ih =>
    rw [List.filter_append, List.filter_append, List.flatMap_append, ih fun w hw => hr w (by simp [hw]), refusalOf_about]
    by_cases ht : w.target = name <;> simp [ht]
  | @accepted ws w c l h1 h2 h3 ih =>
    rw [List.filter_append, List.flatMap_append, ih fun w hw => hr w (by simp [hw])]
    by_cases ht : w.target = name
    · have := hr w (by simp) ht
      rw [← ht, ← h2.frozen (by rw [ht]; exact fun w hw => hr w (by simp [hw]))] at this
      exact absurd this h3
    · simp [ht]

/-- No request about an attribute is refused. -/
theorem Spec.Refusals.free {start : Text → Option (IVal × ModCtx)} {ws : List Write} {l : List Warning}
    (h : Refusals start ws l) {name : Text}
    (hr : ∀ a w b c, ws = a ++ w :: b → w.target = name → Cell name (start name) a c → ¬ Refused c w) :
    l.filter (isAbout name) = [] := by
  have step : ∀ {ws : List Write} {w : Write}, (∀ a w' b c, ws ++ [w] = a ++ w' :: b → w'.target = name →
      Cell name (start name) a c → ¬ Refused c w') → ∀ a w' b c, ws = a ++ w' :: b → w'.target = name →
      Cell name (start name) a c → ¬ Refused c w' := by
    intro ws w h a w' b c e
    exact h a w' (b ++ [w]) c (by rw [e]; simp)
  induction h with
  | nil => rfl
  | @refused ws w c l h1 h2 h3 ih =>
    rw [List.filter_append, ih (step hr), refusalOf_about]
    by_cases ht : w.target = name
    · exact absurd h3 (hr ws w [] c (by simp) ht (ht ▸ h2))
    · simp [ht]
  | @accepted ws w c l h1 h2 h3 ih => exact ih (step hr)

/-- The request makes the attribute one that may be changed anywhere, when it is accepted. -/
def Loosens (w : Write) : Prop := w.effect.2 = .anywhere

theorem Spec.Cell.loose {name : Text} {start c : Option (IVal × ModCtx)} {ws : List Write} (h : Cell name start ws c)
    (hl : ∀ w ∈ ws, w.target = name → Loosens w) : c = start ∨ ∃ v, c = some (v, .anywhere) := by
  induction h with
  | nil => exact .inl rfl
  | other _ _ ih => exact ih fun w hw => hl w (by simp [hw])
  | refused _ _ _ ih => exact ih fun w hw => hl w (by simp [hw])
  | @accepted ws w c h1 h2 h3 ih =>
    have := hl w (by simp) h2
    refine .inr ⟨w.effect.1, ?_⟩
    rw [← this]

theorem Spec.Cell.touched {name : Text} {start c : Option (IVal × ModCtx)} {ws : List Write} (h : Cell name start ws c)
    (hl : ∀ w ∈ ws, w.target = name → Loosens w ∧ ¬ Refused start w ∧ ∀ v, ¬ Refused (some (v, .anywhere)) w)
    (hw : ∃ w ∈ ws, w.target = name) : ∃ v, c = some (v, .anywhere) := by
  induction h with
  | nil => obtain ⟨_, h, _⟩ := hw; cases h
  | @other ws w c h1 h2 ih =>
    obtain ⟨w', h3, h4⟩ := hw
    refine ih (fun w hw => hl w (by simp [hw])) ⟨w', ?_, h4⟩
    rcases List.mem_append.mp h3 with h3 | h3
    · exact h3
    · rw [List.mem_singleton.mp h3] at h4; exact absurd h4 h2
  | @refused ws w c h1 h2 h3 ih =>
    exfalso
    obtain ⟨k1, k2, k3⟩ := hl w (by simp) h2
    rcases h1.loose (fun w hw ht => (hl w (by simp [hw]) ht).1) with rfl | ⟨v, rfl⟩
    · exact k2 h3
    · exact k3 v h3
  | @accepted ws w c h1 h2 h3 ih =>
    have := (hl w (by simp) h2).1
    refine ⟨w.effect.1, ?_⟩
    rw [← this]

/-! ### The requests of a header are entries and derived names -/

/-- A request of a header. -/
def FromHeader (w : Write) : Prop := (∃ a, w = .headerEntry a) ∨ ∃ n v, w = .implicitHeader n v ∧ DerivedName (entryKey n)

theorem asks_from {l : List (Text × Option Text)} (h : ∀ p ∈ l, DerivedName (entryKey p.1)) : ∀ w ∈ asks l, FromHeader w := by
  intro w hw
  unfold asks at hw
  obtain ⟨⟨n, o⟩, h1, h2⟩ := List.mem_filterMap.mp hw
  cases o with
  | none => cases h2
  | some v => cases h2; exact .inr ⟨n, v, rfl, h _ h1⟩

theorem derived_key [LawfulUni] {n : Text} (h : n ∈ ["doctitle".toList, "revnumber".toList, "revdate".toList,
    "revremark".toList, "author".toList, "authorinitials".toList, "firstname".toList, "middlename".toList, "lastname".toList,
    "email".toList]) : DerivedName (entryKey n) := by
  have h1 : ∀ {n : Text}, n ∈ ["doctitle".toList, "revnumber".toList, "revdate".toList,
    "revremark".toList, "author".toList, "authorinitials".toList, "firstname".toList, "middlename".toList, "lastname".toList,
    "email".toList] → (∀ c ∈ n, c.toNat < 128 ∧ c.toLower = c) ∧ n ≠ "hardbreaks".toList := by decide
  rw [key_ascii (h1 h).1 (h1 h).2]
  have one : ∀ b : String, suffixed b.toList (0 + 1) = b.toList := fun _ => rfl
  simp only [List.mem_cons, List.not_mem_nil, or_false] at h
  rcases h with rfl | rfl | rfl | rfl | rfl | rfl | rfl | rfl | rfl | rfl
  · exact .inl (by simp)
  · exact .inl (by simp)
  · exact .inl (by simp)
  · exact .inl (by simp)
  · exact .inr ⟨"author", by simp, 0, rfl⟩
  · exact .inr ⟨"authorinitials", by simp, 0, rfl⟩
  · exact .inr ⟨"firstname", by simp, 0, rfl⟩
  · exact .inr ⟨"middlename", by simp, 0, rfl⟩
  · exact .inr ⟨"lastname", by simp, 0, rfl⟩
  · exact .inr ⟨"email", by simp, 0, rfl⟩

theorem lineAsks_from [LawfulUni] {hdr : HeaderSubs} {r : Renderer} {s : AttrStore} {l : HLine} {ws : List Write}
    (h : LineAsks hdr r s l ws) : ∀ w ∈ ws, FromHeader w := by
  cases h with
  | blank => simp
  | comment => simp
  | title _ => exact asks_from (by simp only [List.mem_singleton]; rintro _ rfl; exact derived_key (by simp))
  | entry _ _ => intro w hw; exact .inl ⟨_, List.mem_singleton.mp hw⟩
  | @authorEntry a raw x _ _ _ =>
    intro w hw
    rcases List.mem_append.mp hw with hw | hw
    · refine asks_from ?_ w hw
      intro p hp
      have : p.1 ∈ (authorEntryAttrs x).map Prod.fst := List.mem_map_of_mem hp
      refine derived_key ?_
      have hm : p.1 ∈ ["firstname".toList, "middlename".toList, "lastname".toList, "authorinitials".toList, "email".toList] := this
      simp only [List.mem_cons, List.not_mem_nil, or_false] at hm ⊢
      rcases hm with h | h | h | h | h <;> simp [h]
    · exact .inl ⟨_, List.mem_singleton.mp hw⟩
  | @author l a s' _ =>
    intro w hw
    obtain ⟨⟨au, i⟩, _, hw⟩ := List.mem_flatMap.mp hw
    refine asks_from ?_ w hw
    intro p hp
    obtain ⟨⟨b, o⟩, hb, rfl⟩ := List.mem_map.mp hp
    have hb' : b ∈ ["author".toList, "authorinitials".toList, "firstname".toList, "middlename".toList, "lastname".toList,
        "email".toList] := List.mem_map_of_mem (f := Prod.fst) hb
    have hbb : b ∈ authorBases := hb'
    have e : entryKey (suffixed b (i + 1)) = suffixed b (i + 1) := by
      rw [← suffixed_eq]
      exact remap_nthName hbb i
    show DerivedName (entryKey (suffixed b (i + 1)))
    rw [e]
    have : ∃ base ∈ ["author", "authorinitials", "firstname", "middlename", "lastname", "email"], b = base.toList := by
      simp only [List.mem_cons, List.not_mem_nil, or_false] at hb'
      rcases hb' with rfl | rfl | rfl | rfl | rfl | rfl <;> exact ⟨_, by simp, rfl⟩
    obtain ⟨base, h1, rfl⟩ := this
    exact .inr ⟨base, h1, i, rfl⟩
  | revision _ =>
    refine asks_from ?_
    intro p hp
    have : p.1 ∈ ["revnumber".toList, "revdate".toList, "revremark".toList] := List.mem_map_of_mem (f := Prod.fst) hp
    refine derived_key ?_
    simp only [List.mem_cons, List.not_mem_nil, or_false] at this ⊢
    rcases this with h | h | h <;> simp [h]

theorem headerAsks_from [LawfulUni] {hdr : HeaderSubs} {r : Renderer} {s : AttrStore} {ls : List HLine} {ws : List Write}
    (h : HeaderAsks hdr r s ls ws) : ∀ w ∈ ws, FromHeader w := by
  induction h with
  | nil => simp
  | cons _ h _ ih =>
    intro w hw
    rcases List.mem_append.mp hw with hw | hw
    · exact lineAsks_from h w hw
    · exact ih w hw

end Adoc
