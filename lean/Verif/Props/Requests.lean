import Verif.Lemmas.Requests
import Verif.Lemmas.Parse
import Verif.Props.Numbers
/-!
# C69, C49: the requests of a document to change attributes, and the reports about the refused ones
-/

set_option linter.unusedSectionVars false
namespace Adoc.Props
open Adoc Adoc.Spec Adoc.Span

variable [Uni]

/-- The reports of a document about an attribute that may not be changed. -/
def reportsAbout (name : Text) (d : Document) : List Warning :=
  d.warnings.filter fun w => w.warning = .attributeValueIsLocked name

/-- One report for every one of the entries that is about the attribute. -/
def reportsFor (name : Text) (as : List Attribute) : List Warning :=
  (as.filter fun a => entryKey a.name.data = name).map fun a => ⟨a.source, .attributeValueIsLocked name⟩

/-! ### Helper lemmas -/

private theorem about_eq (name : Text) (d : Document) :
    reportsAbout name d = (d.warnings.filter isRefusal).filter (isAbout name) := by
  unfold reportsAbout
  rw [List.filter_filter]
  congr 1
  funext w
  unfold isAbout isRefusal
  rw [Bool.eq_iff_iff]
  simp only [decide_eq_true_eq, Bool.and_eq_true, beq_iff_eq]
  constructor
  · intro h; rw [h]; exact ⟨rfl, rfl⟩
  · exact fun h => h.1

private theorem keep_pos {w : Write} {name : Text} {ws : List Write} (h : w.target = name) :
    (w :: ws).filter (fun w => decide (w.target = name)) = w :: ws.filter (fun w => decide (w.target = name)) := by
  rw [List.filter_cons_of_pos (by rw [h]; exact decide_eq_true rfl)]

private theorem keep_neg {w : Write} {name : Text} {ws : List Write} (h : ¬ w.target = name) :
    (w :: ws).filter (fun w => decide (w.target = name)) = ws.filter (fun w => decide (w.target = name)) := by
  rw [List.filter_cons_of_neg (by rw [decide_eq_false h]; exact Bool.false_ne_true)]

private theorem for_header (name : Text) {ws : List Write} (h : ∀ w ∈ ws, w.target = name → ∃ a, w = .headerEntry a) :
    (ws.filter fun w => w.target = name).flatMap refusalOf =
      reportsFor name (entriesOf (ws.filter fun w => w.target = name)) := by
  induction ws with
  | nil => rfl
  | cons w ws ih =>
    have ih := ih fun w hw => h w (by simp [hw])
    by_cases ht : w.target = name
    · obtain ⟨a, rfl⟩ := h w (by simp) ht
      simp only [Write.target] at ht
      rw [keep_pos (w := .headerEntry a) ht, List.flatMap_cons, ih]
      simp [refusalOf, entriesOf, reportsFor, ht]
    · rw [keep_neg ht, ih]

private theorem entries_target (name : Text) {ws : List Write} (h : ∀ w ∈ ws, (∃ a, w = .headerEntry a) ∨
    ∃ n v, w = .implicitHeader n v) :
    reportsFor name (entriesOf (ws.filter fun w => w.target = name)) = reportsFor name (entriesOf ws) := by
  induction ws with
  | nil => rfl
  | cons w ws ih =>
    have ih := ih fun w hw => h w (by simp [hw])
    rcases h w (by simp) with ⟨a, rfl⟩ | ⟨n, v, rfl⟩
    · by_cases ht : entryKey a.name.data = name
      · rw [keep_pos (w := .headerEntry a) ht]
        simp only [reportsFor, entriesOf, List.filterMap_cons] at ih ⊢
        simp [ht, ih]
      · rw [keep_neg (w := .headerEntry a) ht, ih]
        simp [reportsFor, entriesOf, ht]
    · by_cases ht : entryKey n = name
      · rw [keep_pos (w := .implicitHeader n v) ht]
        simpa [entriesOf] using ih
      · rw [keep_neg (w := .implicitHeader n v) ht, ih]
        simp [entriesOf]

private theorem for_body (name : Text) (as : List Attribute) :
    ((as.map Write.bodyEntry).filter fun w => w.target = name).flatMap refusalOf = reportsFor name as := by
  induction as with
  | nil => rfl
  | cons a as ih =>
    by_cases ht : entryKey a.name.data = name
    · rw [List.map_cons, keep_pos (w := .bodyEntry a) ht, List.flatMap_cons, ih]
      simp [refusalOf, reportsFor, ht]
    · rw [List.map_cons, keep_neg (w := .bodyEntry a) ht, ih]
      simp [reportsFor, ht]

private theorem reportsFor_append (name : Text) (a b : List Attribute) :
    reportsFor name (a ++ b) = reportsFor name a ++ reportsFor name b := by
  simp [reportsFor]

private theorem about_append {s : AttrStore} {hist body : List Write} {s' : AttrStore} {l : List Warning}
    (h : attrRun s (hist ++ body) = (s', l)) (name : Text) :
    ∃ s1 l1 l2, attrRun s hist = (s1, l1) ∧ attrRun s1 body = (s', l2) ∧ l = l1 ++ l2 ∧ Refusals (cellOf s) hist l1 ∧
      Refusals (cellOf s1) body l2 ∧
      ∃ c, Cell name (cellOf s name) hist c ∧ (cellOf s1 name).map Prod.snd = c.map Prod.snd := by
  rw [attrRun_append, Prod.mk.injEq] at h
  obtain ⟨c, h1, _, h3⟩ := C08_last_accepted_write s hist name
  exact ⟨_, _, _, rfl, Prod.ext h.1 rfl, h.2.symm, refusals_run s hist, refusals_run _ body, c, h1, h3⟩

/-! ### Theorems -/

/-- C69. A document makes requests to change attributes: first those of the lines of its header, in order, and then those of
the attribute entries among its blocks, in document order.  A request is refused exactly when the attribute may not be
changed from there, as the requests in front of it have left it.  What the document reports about attributes that may not be
changed is one report for every refused entry, in order, which points at the entry and names the attribute – and nothing
else.  The attributes behind the document are the effect of the requests that were not refused. -/
theorem C69_refused {c : Config} {fuel : Nat} {p p' : ParserState} {text : Text} {d : Document} {map : SourceMap}
    (h : c.parse fuel p text = .ok (d, map, p')) :
    ∃ t lines stage rest hist,
      preprocess ⟨c.includes, fun s t => (c.env fuel).subs s .header none t⟩ fuel p.store c.primary text = .ok (t, map) ∧
      HeaderReads .start t lines stage rest ∧
      HeaderAsks (fun s t => (c.env fuel).subs s .header none t) c.renderer p.store lines hist ∧
      entriesOf hist = d.header.attributes ∧
      Refusals (cellOf p.store) (hist ++ (entriesAmong (preorderAll d.blocks)).map .bodyEntry)
        (d.warnings.filter isRefusal) ∧
      ∀ name, ∃ cell, Cell name (cellOf p.store name) (hist ++ (entriesAmong (preorderAll d.blocks)).map .bodyEntry) cell ∧
        p'.store.attributeValue name = readCell (p.store.defaults.get name) cell := by
  obtain ⟨t, ht, hd⟩ := c.parse_parts h
  obtain ⟨lines, stage, rest, hist, h1, h2, h3, h4⟩ := document_asked hd
  have hs : p.fresh.store = p.store := rfl
  rw [hs] at h2 h4
  refine ⟨t, lines, stage, rest, hist, ht, h1, h2, h3, ?_, fun name => ?_⟩
  · have := refusals_run p.store (hist ++ asked (preorderAll d.blocks))
    rw [h4] at this
    exact this
  · obtain ⟨cell, k1, k2, _⟩ := C08_last_accepted_write p.store (hist ++ asked (preorderAll d.blocks)) name
    rw [h4] at k2
    exact ⟨cell, k1, k2⟩

/-- The requests determine the reports. -/
theorem C69_one_answer {start : Text → Option (IVal × ModCtx)} {ws : List Write} {l l' : List Warning}
    (h : Refusals start ws l) (h' : Refusals start ws l') : l = l' := h.det h'

private theorem parts [LawfulUni] {c : Config} {fuel : Nat} {p p' : ParserState} {text : Text} {d : Document} {map : SourceMap}
    (h : c.parse fuel p text = .ok (d, map, p')) (name : Text) :
    ∃ hist s1 l1 l2, entriesOf hist = d.header.attributes ∧ (∀ w ∈ hist, FromHeader w) ∧
      attrRun s1 (asked (preorderAll d.blocks)) = (p'.store, l2) ∧
      reportsAbout name d = l1.filter (isAbout name) ++ l2.filter (isAbout name) ∧ Refusals (cellOf p.store) hist l1 ∧
      Refusals (cellOf s1) (asked (preorderAll d.blocks)) l2 ∧
      (∃ c, Cell name (cellOf p.store name) hist c ∧ (cellOf s1 name).map Prod.snd = c.map Prod.snd) ∧
      attrRun p.store hist = (s1, l1) := by
  obtain ⟨t, ht, hd⟩ := c.parse_parts h
  obtain ⟨lines, stage, rest, hist, h1, h2, h3, h4⟩ := document_asked hd
  obtain ⟨s1, l1, l2, k1, k2, k3, k4, k5, k6⟩ := about_append h4 name
  exact ⟨hist, s1, l1, l2, h3, headerAsks_from h2, k2, by rw [about_eq, k3, List.filter_append], k4, k5, k6, k1⟩

private theorem of_header {hist : List Write} (h : ∀ w ∈ hist, FromHeader w) :
    ∀ w ∈ hist, (∃ a, w = .headerEntry a) ∨ ∃ n v, w = .implicitHeader n v := by
  intro w hw
  rcases h w hw with h | ⟨n, v, h, _⟩
  · exact .inl h
  · exact .inr ⟨n, v, h⟩

private theorem entry_of {hist : List Write} (h : ∀ w ∈ hist, FromHeader w) {name : Text} (hn : ¬ DerivedName name) :
    ∀ w ∈ hist, w.target = name → ∃ a, w = .headerEntry a := by
  intro w hw ht
  rcases h w hw with h | ⟨n, v, rfl, hd⟩
  · exact h
  · exact absurd (by rw [← ht]; exact hd) hn

private theorem body_of {bs : List Block} : ∀ w ∈ asked bs, ∃ a, w = .bodyEntry a := by
  intro w hw
  obtain ⟨a, _, rfl⟩ := List.mem_map.mp hw
  exact ⟨a, rfl⟩

private theorem header_reports {hist : List Write} (h : ∀ w ∈ hist, FromHeader w) {name : Text} (hn : ¬ DerivedName name) :
    (hist.filter fun w => w.target = name).flatMap refusalOf = reportsFor name (entriesOf hist) := by
  rw [for_header name (entry_of h hn), entries_target name (of_header h)]

private theorem cell_some {s : AttrStore} {name : Text} {c : Option (IVal × ModCtx)} {x : ModCtx}
    (h : (cellOf s name).map Prod.snd = c.map Prod.snd) {v : IVal} (hc : c = some (v, x)) : ∃ v', cellOf s name = some (v', x) := by
  rw [hc] at h
  cases hx : cellOf s name with
  | none => rw [hx] at h; cases h
  | some y =>
    rw [hx] at h
    obtain ⟨v', x'⟩ := y
    simp only [Option.map_some, Option.some.injEq] at h
    exact ⟨v', by rw [h]⟩

/-- C69. An attribute that only the program may change: every entry about it, in the header and among the blocks, is reported,
in order, and nothing else is reported about it; and its value is kept. -/
theorem C69_program_only [LawfulUni] {c : Config} {fuel : Nat} {p p' : ParserState} {text : Text} {d : Document}
    {map : SourceMap} (h : c.parse fuel p text = .ok (d, map, p')) {name : Text} {v : IVal}
    (hc : cellOf p.store name = some (v, .apiOnly)) (hn : ¬ DerivedName name) :
    reportsAbout name d = reportsFor name (d.header.attributes ++ entriesAmong (preorderAll d.blocks)) ∧
    p'.store.attributeValue name = p.store.attributeValue name := by
  obtain ⟨hist, s1, l1, l2, h1, h2, h3, h4, h5, h6, ⟨cell, h7, h8⟩, h9⟩ := parts h name
  have hr : ∀ w ∈ hist, w.target = name → Refused (cellOf p.store name) w := by
    intro w hw ht
    obtain ⟨a, rfl⟩ := entry_of h2 hn w hw ht
    simp [hc, Refused, HeaderMay]
  have hcell := h7.frozen hr
  obtain ⟨v', hs1⟩ := cell_some h8 (hcell.trans hc)
  have hr' : ∀ w ∈ asked (preorderAll d.blocks), w.target = name → Refused (cellOf s1 name) w := by
    intro w hw ht
    obtain ⟨a, rfl⟩ := body_of w hw
    simp [hs1, Refused, BodyMay]
  constructor
  · rw [h4, h5.frozen hr, h6.frozen hr', header_reports h2 hn, h1, reportsFor_append]
    unfold asked
    rw [for_body]
  · have e1 := (locked_run p.store name hist hr).1
    have e2 := (locked_run s1 name _ hr').1
    rw [h9] at e1
    rw [h3] at e2
    have d1 := run_defaults p.store hist
    have d2 := run_defaults s1 (asked (preorderAll d.blocks))
    rw [h9] at d1
    rw [h3] at d2
    unfold AttrStore.attributeValue
    rw [e2, d2]
    rw [show s1.values.get name = p.store.values.get name from e1, show s1.defaults = p.store.defaults from d1]

/-- C69. An attribute that the program and the blocks may change: every entry about it in the header is reported, and no entry
among the blocks. -/
theorem C69_body_only [LawfulUni] {c : Config} {fuel : Nat} {p p' : ParserState} {text : Text} {d : Document}
    {map : SourceMap} (h : c.parse fuel p text = .ok (d, map, p')) {name : Text} {v : IVal}
    (hc : cellOf p.store name = some (v, .apiOrDocumentBody)) (hn : ¬ DerivedName name) :
    reportsAbout name d = reportsFor name d.header.attributes := by
  obtain ⟨hist, s1, l1, l2, h1, h2, h3, h4, h5, h6, ⟨cell, h7, h8⟩, h9⟩ := parts h name
  have hr : ∀ w ∈ hist, w.target = name → Refused (cellOf p.store name) w := by
    intro w hw ht
    obtain ⟨a, rfl⟩ := entry_of h2 hn w hw ht
    simp [hc, Refused, HeaderMay]
  obtain ⟨v', hs1⟩ := cell_some h8 ((h7.frozen hr).trans hc)
  have hf := h6.free (name := name) (by
    intro a w b c e ht hcell
    have hl : ∀ w ∈ a, w.target = name → Loosens w := by
      intro w hw _
      obtain ⟨x, rfl⟩ := body_of w (by rw [e]; simp [hw])
      rfl
    obtain ⟨x, rfl⟩ := body_of w (by rw [e]; simp)
    rcases hcell.loose hl with rfl | ⟨v, rfl⟩
    · rw [hs1]; simp [Refused, BodyMay]
    · simp [Refused, BodyMay])
  rw [h4, h5.frozen hr, hf, header_reports h2 hn, h1, List.append_nil]

/-- C69, C49. An attribute that the program and the header may change.  When the header has no entry about it, every entry
about it among the blocks is reported, and its value is kept.  When the header has such an entry, nothing is reported about
the attribute, and the entries among the blocks change it. -/
theorem C69_header_only [LawfulUni] {c : Config} {fuel : Nat} {p p' : ParserState} {text : Text} {d : Document}
    {map : SourceMap} (h : c.parse fuel p text = .ok (d, map, p')) {name : Text} {v : IVal}
    (hc : cellOf p.store name = some (v, .apiOrHeader)) (hn : ¬ DerivedName name) :
    ((∀ a ∈ d.header.attributes, entryKey a.name.data ≠ name) →
      reportsAbout name d = reportsFor name (entriesAmong (preorderAll d.blocks)) ∧
      p'.store.attributeValue name = p.store.attributeValue name) ∧
    ((∃ a ∈ d.header.attributes, entryKey a.name.data = name) → reportsAbout name d = [] ∧
      ∀ as a, entriesAmong (preorderAll d.blocks) = as ++ [a] → entryKey a.name.data = name →
        p'.store.attributeValue name = readCell (p.store.defaults.get name) (some (a.value, .anywhere))) := by
  obtain ⟨hist, s1, l1, l2, h1, h2, h3, h4, h5, h6, ⟨cell, h7, h8⟩, h9⟩ := parts h name
  have mem : ∀ a, .headerEntry a ∈ hist ↔ a ∈ d.header.attributes := by
    intro a
    rw [← h1]
    unfold entriesOf
    rw [List.mem_filterMap]
    constructor
    · exact fun h => ⟨_, h, rfl⟩
    · rintro ⟨w, hw, e⟩
      rcases of_header h2 w hw with ⟨b, rfl⟩ | ⟨n, v, rfl⟩
      · cases e; exact hw
      · cases e
  constructor
  · intro hno
    have hr : ∀ w ∈ hist, w.target = name → Refused (cellOf p.store name) w := by
      intro w hw ht
      obtain ⟨a, rfl⟩ := entry_of h2 hn w hw ht
      exact absurd ht (hno a ((mem a).mp hw))
    obtain ⟨v', hs1⟩ := cell_some h8 ((h7.frozen hr).trans hc)
    have hr' : ∀ w ∈ asked (preorderAll d.blocks), w.target = name → Refused (cellOf s1 name) w := by
      intro w hw ht
      obtain ⟨a, rfl⟩ := body_of w hw
      simp [hs1, Refused, BodyMay]
    constructor
    · have e0 : hist.filter (fun w => w.target = name) = [] := by
        rw [List.filter_eq_nil_iff]
        intro w hw ht
        obtain ⟨a, rfl⟩ := entry_of h2 hn w hw (by simpa using ht)
        exact hno a ((mem a).mp hw) (of_decide_eq_true ht)
      rw [h4, h5.frozen hr, h6.frozen hr', e0]
      unfold asked
      rw [for_body]
      rfl
    · have e1 := (locked_run p.store name hist hr).1
      have e2 := (locked_run s1 name _ hr').1
      rw [h9] at e1
      rw [h3] at e2
      have d1 := run_defaults p.store hist
      have d2 := run_defaults s1 (asked (preorderAll d.blocks))
      rw [h9] at d1
      rw [h3] at d2
      unfold AttrStore.attributeValue
      rw [e2, d2]
      rw [show s1.values.get name = p.store.values.get name from e1, show s1.defaults = p.store.defaults from d1]
  · rintro ⟨a0, ha0, hk⟩
    have loose : ∀ w ∈ hist, w.target = name → Loosens w ∧ ¬ Refused (cellOf p.store name) w ∧
        ∀ v, ¬ Refused (some (v, .anywhere)) w := by
      intro w hw ht
      obtain ⟨a, rfl⟩ := entry_of h2 hn w hw ht
      refine ⟨rfl, ?_, ?_⟩
      · rw [hc]; simp [Refused, HeaderMay]
      · simp [Refused, HeaderMay]
    obtain ⟨v1, hv1⟩ := h7.touched loose ⟨_, (mem a0).mpr ha0, hk⟩
    obtain ⟨v', hs1⟩ := cell_some h8 hv1
    have hf := h6.free (name := name) (by
      intro a w b c e ht hcell
      have hl : ∀ w ∈ a, w.target = name → Loosens w := by
        intro w hw _
        obtain ⟨x, rfl⟩ := body_of w (by rw [e]; simp [hw])
        rfl
      obtain ⟨x, rfl⟩ := body_of w (by rw [e]; simp)
      rcases hcell.loose hl with rfl | ⟨v, rfl⟩
      · rw [hs1]; simp [Refused, BodyMay]
      · simp [Refused, BodyMay])
    have hg := h5.free (name := name) (by
      intro a w b c e ht hcell
      have hsub : ∀ w ∈ a, w ∈ hist := by intro w hw; rw [e]; simp [hw]
      obtain ⟨k1, k2, k3⟩ := loose w (by rw [e]; simp) ht
      rcases hcell.loose (fun w hw ht => (loose w (hsub w hw) ht).1) with rfl | ⟨v, rfl⟩
      · exact k2
      · exact k3 v)
    refine ⟨by rw [h4, hf, hg]; rfl, ?_⟩
    intro as a e ht
    have hrun : asked (preorderAll d.blocks) = as.map .bodyEntry ++ [.bodyEntry a] := by
      unfold asked; rw [e]; simp
    rw [hrun, run_snoc, Prod.mk.injEq] at h3
    obtain ⟨c2, q1, _, q3⟩ := C08_last_accepted_write s1 (as.map Write.bodyEntry) name
    have hl : ∀ w ∈ as.map Write.bodyEntry, w.target = name → Loosens w := by
      intro w hw _
      obtain ⟨x, _, rfl⟩ := List.mem_map.mp hw
      rfl
    have hnr : ¬ Refused (cellOf (attrRun s1 (as.map Write.bodyEntry)).1 (Write.bodyEntry a).target) (.bodyEntry a) := by
      show ¬ Refused (cellOf _ (entryKey a.name.data)) _
      rw [ht, refused_ctx q3]
      rcases q1.loose hl with rfl | ⟨v, rfl⟩
      · rw [hs1]; simp [Refused, BodyMay]
      · simp [Refused, BodyMay]
    obtain ⟨_, g2⟩ := (C07_warning_iff_refused _ (Write.bodyEntry a)).2 hnr
    rw [h3.1] at g2
    have d1 := run_defaults p.store hist
    have d2 := run_defaults s1 (as.map Write.bodyEntry)
    rw [h9] at d1
    simp only [Write.target, ht, Write.effect] at g2
    rw [d2] at g2
    rw [show s1.defaults = p.store.defaults from d1] at g2
    exact g2

/-- C69. Nothing is ever reported about an attribute that may be changed anywhere, or that is not known. -/
theorem C69_anywhere [LawfulUni] {c : Config} {fuel : Nat} {p p' : ParserState} {text : Text} {d : Document}
    {map : SourceMap} (h : c.parse fuel p text = .ok (d, map, p')) {name : Text}
    (hc : cellOf p.store name = none ∨ ∃ v, cellOf p.store name = some (v, .anywhere)) : reportsAbout name d = [] := by
  obtain ⟨hist, s1, l1, l2, h1, h2, h3, h4, h5, h6, ⟨cell, h7, h8⟩, h9⟩ := parts h name
  have loose : ∀ w ∈ hist, Loosens w := by
    intro w hw
    rcases of_header h2 w hw with ⟨a, rfl⟩ | ⟨n, v, rfl⟩ <;> rfl
  have open_ : ∀ {c : Option (IVal × ModCtx)} {w : Write}, (c = none ∨ ∃ v, c = some (v, .anywhere)) → ¬ Refused c w := by
    rintro c w (rfl | ⟨v, rfl⟩) <;> cases w <;> simp [Refused, HeaderMay, BodyMay]
  have hs1 : cellOf s1 name = none ∨ ∃ v, cellOf s1 name = some (v, .anywhere) := by
    rcases h7.loose (fun w hw _ => loose w hw) with rfl | ⟨v, hv⟩
    · rcases hc with hc | ⟨v, hv⟩
      · rw [hc] at h8
        cases hx : cellOf s1 name with
        | none => exact .inl rfl
        | some y => rw [hx] at h8; cases h8
      · exact .inr (cell_some h8 hv)
    · exact .inr (cell_some h8 hv)
  have hf := h6.free (name := name) (by
    intro a w b c e ht hcell
    have hl : ∀ w ∈ a, w.target = name → Loosens w := by
      intro w hw _
      obtain ⟨x, rfl⟩ := body_of w (by rw [e]; simp [hw])
      rfl
    rcases hcell.loose hl with rfl | h
    · exact open_ hs1
    · exact open_ (.inr h))
  have hg := h5.free (name := name) (by
    intro a w b c e ht hcell
    rcases hcell.loose (fun w hw _ => loose w (by rw [e]; simp [hw])) with rfl | h
    · exact open_ hc
    · exact open_ (.inr h))
  rw [h4, hf, hg]
  rfl

/-- C49. Attributes that the program has opened for the header only are protected from the blocks exactly in documents whose
header has no entry about them. -/
theorem C49_document_partial [LawfulUni] {c : Config} {fuel : Nat} {p p' : ParserState} {text : Text} {d : Document}
    {map : SourceMap} (h : c.parse fuel p text = .ok (d, map, p')) {name : Text} {v : IVal}
    (hc : cellOf p.store name = some (v, .apiOrHeader)) (hn : ¬ DerivedName name) {as : List Attribute} {a : Attribute}
    (he : entriesAmong (preorderAll d.blocks) = as ++ [a]) (ha : entryKey a.name.data = name) :
    (⟨a.source, .attributeValueIsLocked name⟩ ∈ d.warnings ↔ ∀ b ∈ d.header.attributes, entryKey b.name.data ≠ name) := by
  obtain ⟨k1, k2⟩ := C69_header_only h hc hn
  have mem : ∀ w : Warning, w.warning = .attributeValueIsLocked name → (w ∈ d.warnings ↔ w ∈ reportsAbout name d) := by
    intro w hw
    unfold reportsAbout
    rw [List.mem_filter]
    exact ⟨fun h => ⟨h, decide_eq_true hw⟩, fun h => h.1⟩
  rw [mem _ rfl]
  constructor
  · intro hm b hb e
    rw [(k2 ⟨b, hb, e⟩).1] at hm
    cases hm
  · intro hno
    rw [(k1 hno).1, he, reportsFor_append]
    refine List.mem_append.mpr (.inr ?_)
    simp [reportsFor, ha]

omit [Uni] in
private theorem foo_free : letI := asciiUni; ¬ DerivedName "foo".toList := by
  letI := asciiUni
  rintro (h | ⟨base, hb, i, h⟩)
  · revert h; decide
  · have : ∃ t, suffixed base.toList (i + 1) = base.toList ++ t := by
      unfold suffixed
      split
      · exact ⟨[], (List.append_nil _).symm⟩
      · exact ⟨_, List.append_assoc _ _ _⟩
    obtain ⟨t, ht⟩ := this
    rw [ht] at h
    simp only [List.mem_cons, List.not_mem_nil, or_false] at hb
    rcases hb with rfl | rfl | rfl | rfl | rfl | rfl <;> simp at h

omit [Uni] in
/-- Non-vacuity: a document with entries about an attribute in its header, in a section and in a delimited block, for each of
the four kinds of protection, and what is reported. -/
example : letI := asciiUni
    let text := "= T\n:foo: 1\n\n:foo: 2\n\n== A\n\n====\n:foo!:\n====\n".toList
    let start := fun ctx => { ParserState.default with store := AttrStore.default.withIntrinsic "foo".toList "x".toList ctx }
    ¬ DerivedName "foo".toList ∧
    (∀ ctx, cellOf (start ctx).store "foo".toList = some (.value "x".toList, ctx)) ∧
    (∃ d map p', (Config.default .checked).parse 60 (start .apiOnly) text = .ok (d, map, p') ∧
      (reportsAbout "foo".toList d).map (·.source.line) = [2, 4, 9]) ∧
    (∃ d map p', (Config.default .checked).parse 60 (start .apiOrDocumentBody) text = .ok (d, map, p') ∧
      (reportsAbout "foo".toList d).map (·.source.line) = [2]) ∧
    (∃ d map p', (Config.default .checked).parse 60 (start .apiOrHeader) text = .ok (d, map, p') ∧
      (reportsAbout "foo".toList d).map (·.source.line) = []) ∧
    (∃ d map p', (Config.default .checked).parse 60 (start .apiOrHeader) ("= T\n".toList ++ text.drop 12) = .ok (d, map, p') ∧
      (reportsAbout "foo".toList d).map (·.source.line) = [3, 8]) ∧
    (∃ d map p', (Config.default .checked).parse 60 (start .anywhere) text = .ok (d, map, p') ∧
      (reportsAbout "foo".toList d).map (·.source.line) = []) := by
  letI := asciiUni
  have key : ∀ ctx t l, parsed ((Config.default .checked).parse 60
        { ParserState.default with store := AttrStore.default.withIntrinsic "foo".toList "x".toList ctx } t)
        (fun d => (reportsAbout "foo".toList d).map (·.source.line) == l) = true →
      ∃ d map p', (Config.default .checked).parse 60
        { ParserState.default with store := AttrStore.default.withIntrinsic "foo".toList "x".toList ctx } t = .ok (d, map, p') ∧
        (reportsAbout "foo".toList d).map (·.source.line) = l := by
    intro ctx t l h
    obtain ⟨d, map, p', h1, h2⟩ := parsed_spec h
    exact ⟨d, map, p', h1, eq_of_beq h2⟩
  refine ⟨foo_free, fun ctx => by cases ctx <;> decide, key _ _ _ ?_, key _ _ _ ?_, key _ _ _ ?_, key _ _ _ ?_, key _ _ _ ?_⟩
  all_goals decide +kernel

end Adoc.Props
