import Verif.Spec.AttrStore
import Verif.Lemmas.AMap
import Verif.Lemmas.Text
/-!
# C07, C08, C49: document attributes
-/

namespace Adoc.Props
open Adoc Adoc.Spec

/-- One request executed by the model: the new store and the warnings it pushed. -/
def attrExec [Uni] (s : AttrStore) : Write → AttrStore × List Warning
  | .api n v ctx => (s.withIntrinsic n v ctx, [])
  | .apiBool n b ctx => (s.withIntrinsicBool n b ctx, [])
  | .headerEntry a => let r := s.setFromHeader a; (r.1, r.2.toList)
  | .implicitHeader n v => (s.setByValueFromHeader n v, [])
  | .bodyEntry a => let r := s.setFromBody a; (r.1, r.2.toList)

/-- A history executed by the model, with all warnings in order. -/
def attrRun [Uni] (s : AttrStore) (ws : List Write) : AttrStore × List Warning :=
  ws.foldl (fun p w => let r := attrExec p.1 w; (r.1, p.2 ++ r.2)) (s, [])

/-- The cell of a name in a store. -/
def cellOf (s : AttrStore) (name : Text) : Option (IVal × ModCtx) :=
  (s.values.get name).map fun v => (v.value, v.ctx)

/-- The warning a refused entry must produce. -/
def refusal [Uni] : Write → List Warning
  | .headerEntry a => [⟨a.source, .attributeValueIsLocked (entryKey a.name.data)⟩]
  | .bodyEntry a => [⟨a.source, .attributeValueIsLocked (entryKey a.name.data)⟩]
  | _ => []

set_option linter.unusedSectionVars false

/-! ### Helper lemmas -/

variable [Uni]

private theorem remap_eq (n : Text) : AttrStore.remapAttrName n = entryKey n := by
  have h : AttrStore.remapAttrName n = entryKey n := rfl
  rw [h]

/-- The value stored by a header entry reads the same as the entry's own value. -/
private def sameRead (dflt : Option Text) (a b : Option (IVal × ModCtx)) : Prop :=
  a.map Prod.snd = b.map Prod.snd ∧ readCell dflt a = readCell dflt b

private theorem cellOf_put (s : AttrStore) (n m : Text) (v : AttrVal) :
    cellOf (s.put n v) m = if m = n then some (v.value, v.ctx) else cellOf s m := by
  unfold cellOf AttrStore.put
  rw [AMap.get_insert]
  split <;> rfl

private theorem headerLocked_iff (s : AttrStore) (a : Attribute) (k : Text) :
    s.headerLocked k = true ↔ Refused (cellOf s k) (.headerEntry a) := by
  unfold AttrStore.headerLocked cellOf
  cases s.values.get k with
  | none => simp [Refused]
  | some e => cases he : e.ctx <;> simp [Refused, HeaderMay, he]

private theorem bodyLocked_iff (s : AttrStore) (a : Attribute) (k : Text) :
    s.bodyLocked k = true ↔ Refused (cellOf s k) (.bodyEntry a) := by
  unfold AttrStore.bodyLocked cellOf
  cases s.values.get k with
  | none => simp [Refused]
  | some e => cases he : e.ctx <;> simp [Refused, BodyMay, he]

private theorem headerValue_read (s : AttrStore) (k : Text) (v : IVal) (c : ModCtx) :
    readCell (s.defaults.get k) (some (s.headerValue k v, c)) = readCell (s.defaults.get k) (some (v, c)) := by
  unfold AttrStore.headerValue
  cases v with
  | value t => rfl
  | unset => rfl
  | set => cases hd : s.defaults.get k <;> simp [readCell]

private theorem read_eq (s : AttrStore) (k : Text) :
    s.attributeValue k = readCell (s.defaults.get k) (cellOf s k) := by
  unfold AttrStore.attributeValue cellOf
  cases s.values.get k with
  | none => rfl
  | some e => cases he : e.value <;> simp only [readCell, he, Option.map_some] <;> cases s.defaults.get k <;> rfl

/-- One request: refused (store unchanged, one warning) or accepted (only the target cell changes, no warning). -/
private theorem exec_cases (s : AttrStore) (w : Write) :
    (Refused (cellOf s w.target) w ∧ attrExec s w = (s, refusal w)) ∨
    (¬ Refused (cellOf s w.target) w ∧ ∃ v,
      attrExec s w = (s.put w.target ⟨w.effect.2, v⟩, []) ∧
      readCell (s.defaults.get w.target) (some (v, w.effect.2)) =
        readCell (s.defaults.get w.target) (some w.effect) ∧
      ((∀ a, w ≠ .headerEntry a) → v = w.effect.1)) := by
  cases w with
  | api n v ctx => exact Or.inr ⟨by simp [Refused], _, rfl, rfl, fun _ => rfl⟩
  | apiBool n v ctx => exact Or.inr ⟨by simp [Refused], _, rfl, rfl, fun _ => rfl⟩
  | implicitHeader n v => exact Or.inr ⟨by simp [Refused], _, rfl, rfl, fun _ => rfl⟩
  | headerEntry a =>
    simp only [attrExec, AttrStore.setFromHeader, remap_eq, Write.target]
    by_cases h : s.headerLocked (entryKey a.name.data) = true
    · rw [if_pos h]
      exact Or.inl ⟨(headerLocked_iff s a _).mp h, rfl⟩
    · rw [if_neg h]
      exact Or.inr ⟨fun hr => h ((headerLocked_iff s a _).mpr hr), _, rfl, headerValue_read _ _ _ _,
        fun h => absurd rfl (h a)⟩
  | bodyEntry a =>
    simp only [attrExec, AttrStore.setFromBody, remap_eq, Write.target]
    by_cases h : s.bodyLocked (entryKey a.name.data) = true
    · rw [if_pos h]
      exact Or.inl ⟨(bodyLocked_iff s a _).mp h, rfl⟩
    · rw [if_neg h]
      exact Or.inr ⟨fun hr => h ((bodyLocked_iff s a _).mpr hr), _, rfl, rfl, fun _ => rfl⟩

theorem run_snoc (s : AttrStore) (ws : List Write) (w : Write) :
    attrRun s (ws ++ [w]) = ((attrExec (attrRun s ws).1 w).1, (attrRun s ws).2 ++ (attrExec (attrRun s ws).1 w).2) := by
  simp [attrRun]

private theorem run_warn (ws : List Write) : ∀ (s : AttrStore) (l : List Warning),
    (ws.foldl (fun p w => let r := attrExec p.1 w; (r.1, p.2 ++ r.2)) (s, l)).1 = (attrRun s ws).1 := by
  induction ws with
  | nil => intro s l; rfl
  | cons w ws ih =>
    intro s l
    unfold attrRun
    rw [List.foldl_cons, List.foldl_cons]
    simp only
    rw [ih, ih]

theorem run_cons (s : AttrStore) (w : Write) (ws : List Write) :
    (attrRun (attrExec s w).1 ws).1 = (attrRun s (w :: ws)).1 := by
  conv => rhs; unfold attrRun
  rw [List.foldl_cons, run_warn]

private theorem exec_defaults (s : AttrStore) (w : Write) : (attrExec s w).1.defaults = s.defaults := by
  rcases exec_cases s w with ⟨_, h⟩ | ⟨_, v, h, _⟩ <;> rw [h] <;> rfl

theorem run_defaults (s : AttrStore) (ws : List Write) : (attrRun s ws).1.defaults = s.defaults := by
  refine snocInd (P := fun ws => (attrRun s ws).1.defaults = s.defaults) rfl ?_ ws
  intro ws w ih
  rw [run_snoc]; simp only; rw [exec_defaults, ih]

theorem refused_ctx {a b : Option (IVal × ModCtx)} (h : a.map Prod.snd = b.map Prod.snd) (w : Write) :
    Refused a w ↔ Refused b w := by
  cases a with
  | none =>
    cases b with
    | none => exact Iff.rfl
    | some q => simp at h
  | some p =>
    cases b with
    | none => simp at h
    | some q =>
      simp at h
      obtain ⟨p1, p2⟩ := p; obtain ⟨q1, q2⟩ := q
      simp at h; subst h
      cases w <;> simp [Refused]

/-! ### Theorems -/

/-- C08. After any history of requests, looking an attribute up gives the effect of the last accepted request
about that name (or the value at the start): the store is a product of independent cells.  What is accepted
depends on the context left in the cell by the previous accepted request. -/
theorem C08_last_accepted_write (s : AttrStore) (ws : List Write) (name : Text) :
    ∃ c, Cell name (cellOf s name) ws c ∧
      (attrRun s ws).1.attributeValue name = readCell (s.defaults.get name) c ∧
      (cellOf (attrRun s ws).1 name).map Prod.snd = c.map Prod.snd := by
  refine snocInd (P := fun ws => ∃ c, Cell name (cellOf s name) ws c ∧
      (attrRun s ws).1.attributeValue name = readCell (s.defaults.get name) c ∧
      (cellOf (attrRun s ws).1 name).map Prod.snd = c.map Prod.snd) ?_ ?_ ws
  · exact ⟨_, .nil, read_eq s name, rfl⟩
  · rintro ws w ⟨c, h1, h2, h3⟩
    rw [run_snoc]
    simp only
    by_cases ht : w.target = name
    · rcases exec_cases (attrRun s ws).1 w with ⟨hr, he⟩ | ⟨hr, v, he, hv, _⟩
      · rw [ht, refused_ctx h3] at hr
        rw [he]
        exact ⟨c, .refused h1 ht hr, h2, h3⟩
      · rw [ht, refused_ctx h3] at hr
        refine ⟨_, .accepted h1 ht hr, ?_, ?_⟩
        · rw [read_eq, he]
          simp only
          rw [cellOf_put, if_pos ht.symm]
          rw [ht, run_defaults] at hv
          simp only [AttrStore.put]
          rw [run_defaults]
          exact hv
        · rw [he]; simp only
          rw [cellOf_put, if_pos ht.symm]
          rfl
    · refine ⟨c, .other h1 ht, ?_, ?_⟩
      · rw [read_eq, exec_defaults, run_defaults] at *
        rcases exec_cases (attrRun s ws).1 w with ⟨_, he⟩ | ⟨_, v, he, _⟩
        · rw [he]; exact h2
        · rw [he]; simp only; rw [cellOf_put, if_neg (fun e => ht e.symm)]; exact h2
      · rcases exec_cases (attrRun s ws).1 w with ⟨_, he⟩ | ⟨_, v, he, _⟩
        · rw [he]; exact h3
        · rw [he]; simp only; rw [cellOf_put, if_neg (fun e => ht e.symm)]; exact h3

/-- C08. Writing one name never affects another: names no request of the history is about keep their value. -/
theorem C08_untouched (s : AttrStore) (ws : List Write) (name : Text) (h : ∀ w ∈ ws, w.target ≠ name) :
    (attrRun s ws).1.attributeValue name = s.attributeValue name ∧
    (attrRun s ws).1.hasAttribute name = s.hasAttribute name ∧
    (attrRun s ws).1.isAttributeSet name = s.isAttributeSet name := by
  have : (attrRun s ws).1.values.get name = s.values.get name ∧ (attrRun s ws).1.defaults = s.defaults := by
    revert h
    refine snocInd (P := fun ws => (∀ w ∈ ws, w.target ≠ name) →
      (attrRun s ws).1.values.get name = s.values.get name ∧ (attrRun s ws).1.defaults = s.defaults) ?_ ?_ ws
    · intro _; exact ⟨rfl, rfl⟩
    · intro ws w ih h
      obtain ⟨ih1, ih2⟩ := ih (fun w' hw => h w' (by simp [hw]))
      have hw := h w (by simp)
      rw [run_snoc]
      simp only
      rw [exec_defaults]
      refine ⟨?_, ih2⟩
      rcases exec_cases (attrRun s ws).1 w with ⟨_, he⟩ | ⟨_, v, he, _⟩
      · rw [he]; exact ih1
      · rw [he]; simp only [AttrStore.put]
        rw [AMap.get_insert_ne _ _ (fun e => hw e.symm)]; exact ih1
  unfold AttrStore.attributeValue AttrStore.hasAttribute AttrStore.isAttributeSet AMap.contains
  rw [this.1, this.2]
  exact ⟨rfl, rfl, rfl⟩

/-- C08. `is_attribute_set` says exactly whether the lookup gives something other than "unset". -/
theorem C08_is_set_iff_not_unset (s : AttrStore) (name : Text) :
    s.isAttributeSet name = true ↔ s.attributeValue name ≠ .unset := by
  unfold AttrStore.isAttributeSet AttrStore.attributeValue
  cases h : s.values.get name with
  | none => simp
  | some av =>
    simp only
    cases hv : av.value with
    | unset => simp
    | value t => simp
    | set => cases s.defaults.get name <;> simp

/-- C08. After any history, an attribute is known exactly if it was known before or some request was about it. -/
theorem C08_known_iff_requested (s : AttrStore) (ws : List Write) (name : Text) :
    (attrRun s ws).1.hasAttribute name = true ↔ s.hasAttribute name = true ∨ ∃ w ∈ ws, w.target = name := by
  have key : ∀ (t : AttrStore), t.hasAttribute name = true ↔ cellOf t name ≠ none := by
    intro t
    unfold AttrStore.hasAttribute AMap.contains cellOf
    cases t.values.get name <;> simp
  refine snocInd (P := fun ws => (attrRun s ws).1.hasAttribute name = true ↔
    s.hasAttribute name = true ∨ ∃ w ∈ ws, w.target = name) ?_ ?_ ws
  · simp [attrRun]
  · intro ws w ih
    rw [run_snoc]
    simp only
    by_cases ht : w.target = name
    · have hr : (s.hasAttribute name = true ∨ ∃ w' ∈ ws ++ [w], w'.target = name) := Or.inr ⟨w, by simp, ht⟩
      refine ⟨fun _ => hr, fun _ => ?_⟩
      rw [key]
      rcases exec_cases (attrRun s ws).1 w with ⟨hf, he⟩ | ⟨_, v, he, _⟩
      · rw [he]; simp only
        intro hn
        rw [ht, hn] at hf
        cases w <;> simp [Refused] at hf
      · rw [he]; simp only
        rw [cellOf_put, if_pos ht.symm]; simp
    · have : (attrExec (attrRun s ws).1 w).1.hasAttribute name = (attrRun s ws).1.hasAttribute name := by
        rcases exec_cases (attrRun s ws).1 w with ⟨hf, he⟩ | ⟨_, v, he, _⟩
        · rw [he]
        · rw [he]; unfold AttrStore.hasAttribute AMap.contains AttrStore.put; simp only
          rw [AMap.get_insert_ne _ _ (fun e => ht e.symm)]
      rw [this, ih]
      constructor
      · rintro (h | ⟨w', h1, h2⟩)
        · exact Or.inl h
        · exact Or.inr ⟨w', by simp [h1], h2⟩
      · rintro (h | ⟨w', h1, h2⟩)
        · exact Or.inl h
        · rcases List.mem_append.mp h1 with h1 | h1
          · exact Or.inr ⟨w', h1, h2⟩
          · simp at h1; subst h1; exact absurd h2 ht

/-- C07/C08. Every entry produces exactly the required warning when it is refused and none when it is accepted;
a refused entry changes nothing. -/
theorem C07_warning_iff_refused (s : AttrStore) (w : Write) :
    (Refused (cellOf s w.target) w → attrExec s w = (s, refusal w)) ∧
    (¬ Refused (cellOf s w.target) w → (attrExec s w).2 = [] ∧
      (attrExec s w).1.attributeValue w.target = readCell (s.defaults.get w.target) (some w.effect)) := by
  constructor
  · intro h
    rcases exec_cases s w with ⟨_, he⟩ | ⟨hr, _⟩
    · exact he
    · exact absurd h hr
  · intro h
    rcases exec_cases s w with ⟨hr, _⟩ | ⟨_, v, he, hv, _⟩
    · exact absurd hr h
    · rw [he]
      refine ⟨rfl, ?_⟩
      rw [read_eq]
      simp only
      rw [cellOf_put, if_pos rfl]
      exact hv

/-- The requests that come from attribute entries in the document. -/
def isEntry : Write → Prop
  | .headerEntry _ | .bodyEntry _ => True
  | _ => False

theorem locked_run (s : AttrStore) (name : Text) (ws : List Write)
    (h : ∀ w ∈ ws, w.target = name → Refused (cellOf s name) w) :
    (attrRun s ws).1.values.get name = s.values.get name ∧
    ∀ w ∈ ws, w.target = name → ∀ x ∈ refusal w, x ∈ (attrRun s ws).2 := by
  revert h
  refine snocInd (P := fun ws => (∀ w ∈ ws, w.target = name → Refused (cellOf s name) w) →
    (attrRun s ws).1.values.get name = s.values.get name ∧
    ∀ w ∈ ws, w.target = name → ∀ x ∈ refusal w, x ∈ (attrRun s ws).2) ?_ ?_ ws
  · intro _; exact ⟨rfl, by simp⟩
  · intro ws w ih h
    obtain ⟨ih1, ih2⟩ := ih (fun w' hw => h w' (by simp [hw]))
    have hcell : cellOf (attrRun s ws).1 name = cellOf s name := by unfold cellOf; rw [ih1]
    rw [run_snoc]
    simp only
    constructor
    · rcases exec_cases (attrRun s ws).1 w with ⟨_, he⟩ | ⟨hr, v, he, _⟩
      · rw [he]; exact ih1
      · rw [he]; simp only [AttrStore.put]
        by_cases ht : w.target = name
        · exfalso; rw [ht, hcell] at hr; exact hr (h w (by simp) ht)
        · rw [AMap.get_insert_ne _ _ (fun e => ht e.symm)]; exact ih1
    · intro w' hw' ht' x hx
      rcases List.mem_append.mp hw' with hw' | hw'
      · exact List.mem_append.mpr (Or.inl (ih2 w' hw' ht' x hx))
      · simp at hw'
        subst hw'
        rcases exec_cases (attrRun s ws).1 w' with ⟨_, he⟩ | ⟨hr, _⟩
        · rw [he]; exact List.mem_append.mpr (Or.inr hx)
        · rw [ht', hcell] at hr; exact absurd (h w' (by simp) ht') hr

/-- C07. An API-only attribute keeps its value and its lock under every sequence of header and body attribute
entries, whatever their names, and each entry about it leaves its warning. -/
theorem C07_apiOnly_locked (s : AttrStore) (name : Text) (v : IVal) (ws : List Write)
    (hlock : cellOf s name = some (v, .apiOnly)) (hws : ∀ w ∈ ws, isEntry w) :
    cellOf (attrRun s ws).1 name = some (v, .apiOnly) ∧
    (attrRun s ws).1.attributeValue name = s.attributeValue name ∧
    ∀ w ∈ ws, w.target = name → ∀ x ∈ refusal w, x ∈ (attrRun s ws).2 := by
  have h := locked_run s name ws (by
    intro w hw ht
    have := hws w hw
    cases w <;> simp [isEntry] at this <;> simp [hlock, Refused, HeaderMay, BodyMay])
  have hc : cellOf (attrRun s ws).1 name = cellOf s name := by unfold cellOf; rw [h.1]
  refine ⟨by rw [hc, hlock], ?_, h.2⟩
  rw [read_eq, read_eq, hc, run_defaults]

/-- C07. An attribute restricted to API and header is immune to every sequence of body entries. -/
theorem C07_headerLocked_body (s : AttrStore) (name : Text) (v : IVal) (attrs : List Attribute)
    (hlock : cellOf s name = some (v, .apiOrHeader)) :
    cellOf (attrRun s (attrs.map .bodyEntry)).1 name = some (v, .apiOrHeader) ∧
    (attrRun s (attrs.map .bodyEntry)).1.attributeValue name = s.attributeValue name ∧
    ∀ a ∈ attrs, entryKey a.name.data = name →
      ⟨a.source, .attributeValueIsLocked name⟩ ∈ (attrRun s (attrs.map .bodyEntry)).2 := by
  have h := locked_run s name (attrs.map .bodyEntry) (by
    intro w hw ht
    obtain ⟨a, _, rfl⟩ := List.mem_map.mp hw
    simp [hlock, Refused, BodyMay])
  have hc : cellOf (attrRun s (attrs.map .bodyEntry)).1 name = cellOf s name := by unfold cellOf; rw [h.1]
  refine ⟨by rw [hc, hlock], ?_, ?_⟩
  · rw [read_eq, read_eq, hc, run_defaults]
  · intro a ha ht
    exact h.2 (.bodyEntry a) (List.mem_map.mpr ⟨a, ha, rfl⟩) ht _ (by simp [refusal, ht])

/-- C07. An attribute restricted to API and body is immune to every sequence of header entries. -/
theorem C07_bodyLocked_header (s : AttrStore) (name : Text) (v : IVal) (attrs : List Attribute)
    (hlock : cellOf s name = some (v, .apiOrDocumentBody)) :
    cellOf (attrRun s (attrs.map .headerEntry)).1 name = some (v, .apiOrDocumentBody) ∧
    (attrRun s (attrs.map .headerEntry)).1.attributeValue name = s.attributeValue name ∧
    ∀ a ∈ attrs, entryKey a.name.data = name →
      ⟨a.source, .attributeValueIsLocked name⟩ ∈ (attrRun s (attrs.map .headerEntry)).2 := by
  have h := locked_run s name (attrs.map .headerEntry) (by
    intro w hw ht
    obtain ⟨a, _, rfl⟩ := List.mem_map.mp hw
    simp [hlock, Refused, HeaderMay])
  have hc : cellOf (attrRun s (attrs.map .headerEntry)).1 name = cellOf s name := by unfold cellOf; rw [h.1]
  refine ⟨by rw [hc, hlock], ?_, ?_⟩
  · rw [read_eq, read_eq, hc, run_defaults]
  · intro a ha ht
    exact h.2 (.headerEntry a) (List.mem_map.mpr ⟨a, ha, rfl⟩) ht _ (by simp [refusal, ht])

end Adoc.Props

namespace Adoc.Props
open Adoc Adoc.Spec

private def entry (n : String) (v : IVal) : Attribute := ⟨Span.new n.toList, none, v, Span.new n.toList⟩

/-- Non-vacuity of C07: `sp` is API-only in the default store. -/
example : cellOf AttrStore.default "sp".toList = some (.value [' '], .apiOnly) := by decide
example : cellOf AttrStore.default "toc".toList = some (.unset, .apiOrHeader) := by decide
example : letI := asciiUni
    (attrRun AttrStore.default [.headerEntry (entry "SP" .unset), .bodyEntry (entry "toc" .set),
      .headerEntry (entry "sectnums" .set), .bodyEntry (entry "HardBreaks" .set)]).1.attributeValue "sp".toList
      = .value [' '] ∧
    (attrRun AttrStore.default [.headerEntry (entry "SP" .unset), .bodyEntry (entry "toc" .set),
      .headerEntry (entry "sectnums" .set), .bodyEntry (entry "HardBreaks" .set)]).2.length = 2 ∧
    (attrRun AttrStore.default [.headerEntry (entry "SP" .unset), .bodyEntry (entry "toc" .set),
      .headerEntry (entry "sectnums" .set), .bodyEntry (entry "HardBreaks" .set)]).1.attributeValue
        "hardbreaks-option".toList = .set := by decide

example : letI := asciiUni
    (attrRun AttrStore.default [.bodyEntry (entry "Foo" .unset)]).1.hasAttribute "foo".toList = true ∧
    (attrRun AttrStore.default [.bodyEntry (entry "Foo" .unset)]).1.isAttributeSet "foo".toList = false ∧
    AttrStore.default.hasAttribute "foo".toList = false := by decide

/-- C49 fails: after a header entry about a header-restricted attribute, a body entry changes it without any
warning, because an accepted entry relaxes the attribute to "anywhere". -/
theorem C49_header_restriction_lost :
    letI := asciiUni
    cellOf AttrStore.default "toc".toList = some (.unset, .apiOrHeader) ∧
    (attrRun AttrStore.default [.headerEntry (entry "toc" (.value "left".toList)),
      .bodyEntry (entry "toc" (.value "right".toList))]).2 = [] ∧
    (attrRun AttrStore.default [.headerEntry (entry "toc" (.value "left".toList)),
      .bodyEntry (entry "toc" (.value "right".toList))]).1.attributeValue "toc".toList =
        .value "right".toList := by decide

/-- C49, the part that holds: as long as the header has no entry about a header-restricted attribute, no sequence
of header entries (about other names) followed by body entries (about any name) changes it. -/
theorem C49_header_restriction_partial [Uni] (s : AttrStore) (name : Text) (v : IVal) (hs bs : List Attribute)
    (hlock : cellOf s name = some (v, .apiOrHeader)) (hh : ∀ a ∈ hs, entryKey a.name.data ≠ name) :
    (attrRun s (hs.map .headerEntry ++ bs.map .bodyEntry)).1.attributeValue name = s.attributeValue name := by
  have h := locked_run s name (hs.map .headerEntry ++ bs.map .bodyEntry) (by
    intro w hw ht
    rcases List.mem_append.mp hw with hw | hw
    · obtain ⟨a, ha, rfl⟩ := List.mem_map.mp hw
      exact absurd ht (hh a ha)
    · obtain ⟨a, ha, rfl⟩ := List.mem_map.mp hw
      simp [hlock, Refused, BodyMay])
  rw [read_eq, read_eq, run_defaults]
  unfold cellOf
  rw [h.1]

/-- C08, remark: the alias `hardbreaks` is resolved on writing but not on reading. -/
theorem C08_alias_not_resolved_on_read :
    letI := asciiUni
    (attrRun AttrStore.default [.bodyEntry (entry "hardbreaks" .set)]).1.attributeValue "hardbreaks".toList
      = .unset := by decide

end Adoc.Props
