import Verif.Spec.Carry
import Verif.Model.IsBlock
import Verif.Lemmas.Requests
import Verif.Props.Requests
import Verif.Props.History
/-!
# C72: what one document leaves behind for the next one
-/

set_option linter.unusedSectionVars false
namespace Adoc.Props
open Adoc Adoc.Spec Span

section
variable [Uni]

private theorem ask_one {d : Document} {c : Config} {fuel : Nat} {p p' : ParserState} {text : Text} {map : SourceMap}
    [LawfulUni] (h : c.parse fuel p text = .ok (d, map, p')) :
    ∃ ws, entriesOf ws = documentEntries d ∧ attrRun p.store ws = (p'.store, d.warnings.filter isRefusal) ∧
      ∀ w ∈ ws, (∃ a, w = .headerEntry a) ∨ (∃ a, w = .bodyEntry a) ∨ ∃ n v, w = .implicitHeader n v ∧ DerivedName (entryKey n) := by
  obtain ⟨t, ht, hd⟩ := c.parse_parts h
  obtain ⟨lines, stage, rest, hist, h1, h2, h3, h4⟩ := document_asked hd
  refine ⟨hist ++ asked (preorderAll d.blocks), ?_, h4, ?_⟩
  · rw [entriesOf_append, h3]
    unfold documentEntries
    congr 1
    unfold asked
    induction entriesAmong (preorderAll d.blocks) with
    | nil => rfl
    | cons a as ih => rw [List.map_cons, show entriesOf (.bodyEntry a :: as.map Write.bodyEntry) = a :: entriesOf (as.map Write.bodyEntry) from rfl, ih]
  · intro w hw
    rcases List.mem_append.mp hw with hw | hw
    · rcases headerAsks_from h2 w hw with h | h
      · exact .inl h
      · exact .inr (.inr h)
    · obtain ⟨a, _, rfl⟩ := List.mem_map.mp hw
      exact .inr (.inl ⟨a, rfl⟩)

/-- C72. What a parser has parsed before matters for a document only through the attributes that are left (and numbered
appendices, see C19): every text is parsed as by a new parser with these attributes. -/
theorem C72_only_attributes_partial {c : Config} {fuel : Nat} {start : AttrStore} {ds : List Document} {p : ParserState}
    (h : HasParsed c fuel start ds p) (hn : ∀ d ∈ ds, NoNumberedAppendix d) (text : Text) :
    c.parse fuel p text = c.parse fuel (newParser p.store) text := by
  have key : p.num.topmost = .normal ∧ p.num.lastAppendix = Numbering.default.lastAppendix ∧
      (p.catalog = none ∨ p.catalog = some .new) := by
    induction h with
    | new => exact ⟨rfl, rfl, .inr rfl⟩
    | parse h1 h2 ih =>
      have ih := ih fun d hd => hn d (by simp [hd])
      obtain ⟨t, _, hd⟩ := Config.parse_parts h2
      obtain ⟨a, _, b⟩ := document_num hd ih.1 (congrArg SectionNumber.ty ih.2.1)
      obtain ⟨_, _, _, _, _, _, _, _, _, _, _, _, _, _, e, _⟩ := document_run hd
      exact ⟨a, (b (hn _ (by simp))).trans ih.2.1, .inl (by rw [e])⟩
  unfold Config.parse parseDocument
  obtain ⟨st, cat, ⟨l, a, t⟩, lv⟩ := p
  obtain ⟨rfl, rfl, hc⟩ := key
  have : ∀ e r t, Document.parse e r fuel (ParserState.fresh ⟨st, cat, ⟨l, Numbering.default.lastAppendix, .normal⟩, lv⟩) t =
      Document.parse e r fuel (newParser st).fresh t := by
    intro e r t
    rcases hc with rfl | rfl <;> rfl
  simp only [this]
  rfl

/-- C72. The attributes that are left: the effect of all requests of the documents, in order; the attribute entries among
these requests are those of the documents. -/
theorem C72_attributes [LawfulUni] {c : Config} {fuel : Nat} {start : AttrStore} {ds : List Document} {p : ParserState}
    (h : HasParsed c fuel start ds p) :
    ∃ ws, entriesOf ws = ds.flatMap documentEntries ∧
      (∀ w ∈ ws, (∃ a, w = .headerEntry a) ∨ (∃ a, w = .bodyEntry a) ∨
        ∃ n v, w = .implicitHeader n v ∧ DerivedName (entryKey n)) ∧
      ∀ name, ∃ cell, Cell name (cellOf start name) ws cell ∧
        p.store.attributeValue name = readCell (start.defaults.get name) cell := by
  have key : ∃ ws l, entriesOf ws = ds.flatMap documentEntries ∧ attrRun start ws = (p.store, l) ∧
      ∀ w ∈ ws, (∃ a, w = .headerEntry a) ∨ (∃ a, w = .bodyEntry a) ∨
        ∃ n v, w = .implicitHeader n v ∧ DerivedName (entryKey n) := by
    induction h with
    | new => exact ⟨[], [], rfl, rfl, by simp⟩
    | @parse ds p text d map p' h1 h2 ih =>
      obtain ⟨ws, l, e1, e2, e3⟩ := ih
      obtain ⟨ws', f1, f2, f3⟩ := ask_one h2
      refine ⟨ws ++ ws', l ++ d.warnings.filter isRefusal, ?_, ?_, ?_⟩
      · rw [entriesOf_append, e1, f1, List.flatMap_append]; simp
      · rw [attrRun_append, e2]
        simp only
        rw [f2]
      · intro w hw
        rcases List.mem_append.mp hw with hw | hw
        · exact e3 w hw
        · exact f3 w hw
  obtain ⟨ws, l, e1, e2, e3⟩ := key
  refine ⟨ws, e1, e3, fun name => ?_⟩
  obtain ⟨cell, k1, k2, _⟩ := C08_last_accepted_write start ws name
  rw [e2] at k2
  exact ⟨cell, k1, k2⟩

omit [Uni] in
private theorem mem_entriesOf {ws : List Write} {a : Attribute} (h : .headerEntry a ∈ ws ∨ .bodyEntry a ∈ ws) : a ∈ entriesOf ws := by
  unfold entriesOf
  rw [List.mem_filterMap]
  rcases h with h | h
  · exact ⟨_, h, rfl⟩
  · exact ⟨_, h, rfl⟩

/-- C72. An attribute no document mentions is as it was, unless it is one that titles, authors or revisions define. -/
theorem C72_unmentioned_partial [LawfulUni] {c : Config} {fuel : Nat} {start : AttrStore} {ds : List Document} {p : ParserState}
    (h : HasParsed c fuel start ds p) {name : Text} (hd : ¬ DerivedName name)
    (hn : ∀ d ∈ ds, ∀ a ∈ documentEntries d, entryKey a.name.data ≠ name) :
    p.store.attributeValue name = start.attributeValue name := by
  obtain ⟨ws, e1, e3, e4⟩ := C72_attributes h
  obtain ⟨cell, k1, k2⟩ := e4 name
  have hw : ∀ w ∈ ws, w.target ≠ name := by
    intro w hw
    have hm : ∀ a ∈ entriesOf ws, entryKey a.name.data ≠ name := by
      intro a ha
      rw [e1] at ha
      obtain ⟨d, h1, h2⟩ := List.mem_flatMap.mp ha
      exact hn d h1 a h2
    rcases e3 w hw with ⟨a, rfl⟩ | ⟨a, rfl⟩ | ⟨n, v, rfl, h⟩
    · exact hm a (mem_entriesOf (.inl hw))
    · exact hm a (mem_entriesOf (.inr hw))
    · intro ht; exact hd (ht ▸ h)
  have hc : cell = cellOf start name := by
    clear e1 e3 e4 k2
    induction k1 with
    | nil => rfl
    | other _ _ ih => exact ih fun w hw' => hw w (by simp [hw'])
    | refused _ h2 _ _ => exact absurd h2 (hw _ (by simp))
    | accepted _ h2 _ _ => exact absurd h2 (hw _ (by simp))
  obtain ⟨cell', m1, m2, _⟩ := C08_last_accepted_write start [] name
  have : cell' = cellOf start name := by
    generalize hx : ([] : List Write) = x at m1
    cases m1 with
    | nil => rfl
    | other _ _ => simp at hx
    | refused _ _ _ => simp at hx
    | accepted _ _ _ => simp at hx
  rw [k2, hc, ← this, ← m2]
  rfl

private theorem filterMap_none {α β : Type} {f : α → Option β} {l : List α} (h : l.filterMap f = []) : ∀ x ∈ l, f x = none := by
  simpa using h

private theorem silent_store {c : Config} {fuel : Nat} {p p' : ParserState} {text : Text} {d : Document} {map : SourceMap}
    (h : c.parse fuel p text = .ok (d, map, p')) (hs : Silent d) : p'.store = p.store := by
  obtain ⟨t, ht, hd⟩ := c.parse_parts h
  obtain ⟨mi, hw, store, bs, rest, ws, sw, q, k1, k2, k3, k4, k5, k6, rfl, k8⟩ := document_run hd
  obtain ⟨lines, stage, rest', hist, h1, h2, h3, h4⟩ := document_asked hd
  obtain ⟨lines', stage', rest'', f1, _, f3, f4, f5, _, f7, _, _, f10⟩ := C47_reads k1
  obtain ⟨rfl, _⟩ := h1.det f1
  have hlines : ∀ {s : AttrStore} {ls : List HLine} {ws : List Write},
      HeaderAsks (fun s t => (c.env fuel).subs s .header none t) c.renderer s ls ws →
      (∀ l ∈ ls, l.title? = none ∧ l.author? = none ∧ l.revision? = none ∧ l.entry? = none) → ws = [] := by
    intro s ls ws he
    induction he with
    | nil => exact fun _ => rfl
    | cons _ hl _ ih =>
      intro hq
      rw [ih fun l hl => hq l (by simp [hl]), List.append_nil]
      obtain ⟨q1, q2, q3, q4⟩ := hq _ (List.mem_cons_self ..)
      cases hl with
      | blank => rfl
      | comment => rfl
      | @entry a k _ _ => cases k <;> cases q4
      | authorEntry _ _ _ => cases q4
      | title _ => cases q1
      | author _ => cases q2
      | revision _ => cases q3
  have he := hs.entries
  unfold documentEntries at he
  rw [List.append_eq_nil_iff] at he
  rw [k4] at he
  have hs1 := hs.title
  have hs2 := hs.author
  have hs3 := hs.revision
  rw [k4] at hs1 hs2 hs3
  rw [hs1] at f3
  rw [hs2] at f4
  rw [hs3] at f5
  rw [he.1] at f7
  have hst := hlines h2 fun l hl => ⟨filterMap_none f3.symm l hl, filterMap_none f4.symm l hl, filterMap_none f5.symm l hl,
    filterMap_none f7.symm l hl⟩
  have hb : asked (preorderAll d.blocks) = [] := by unfold asked; rw [he.2]; rfl
  rw [hst, hb] at h4
  exact (congrArg Prod.fst h4).symm

/-- C72. Documents that say nothing about attributes and have no numbered appendices leave nothing behind: every text is
parsed as by a new parser. -/
theorem C72_silent_partial {c : Config} {fuel : Nat} {start : AttrStore} {ds : List Document} {p : ParserState}
    (h : HasParsed c fuel start ds p) (hs : ∀ d ∈ ds, Silent d) (hn : ∀ d ∈ ds, NoNumberedAppendix d) (text : Text) :
    c.parse fuel p text = c.parse fuel (newParser start) text := by
  rw [C72_only_attributes_partial h hn]
  have : p.store = start := by
    clear hn
    induction h with
    | new => rfl
    | parse _ h2 ih =>
      rw [silent_store h2 (hs _ (by simp))]
      exact ih fun d hd => hs d (by simp [hd])
  rw [this]

end

section
attribute [local instance] asciiUni

/-- What is rendered for the blocks of the text `t2` by a parser that has parsed `t1`, and by a new one. -/
private def behind (c : Config) (t1 t2 : String) (f : Document → Document → Bool) : Bool :=
  match c.parse 40 (newParser .default) t1.toList with
  | .ok (_, _, p) =>
    parsed (c.parse 40 p t2.toList) fun d =>
      parsed (c.parse 40 (newParser .default) t2.toList) fun d' => f d d'
  | .error _ => false

private def texts (d : Document) : List (Option Text) := d.blocks.map Block.renderedContent

private theorem behind_spec {c : Config} {t1 t2 : String} {f : Document → Document → Bool} (h : behind c t1 t2 f = true) :
    ∃ d0 p d m q d' m' q', HasParsed c 40 .default [d0] p ∧
      c.parse 40 p t2.toList = .ok (d, m, q) ∧
      c.parse 40 (newParser .default) t2.toList = .ok (d', m', q') ∧ f d d' = true := by
  unfold behind at h
  generalize h1 : c.parse 40 (newParser .default) t1.toList = r1 at h
  cases r1 with
  | error _ => cases h
  | ok x =>
    obtain ⟨d1, m1, p⟩ := x
    obtain ⟨d, m, q, h2, h⟩ := parsed_spec h
    obtain ⟨d', m', q', h3, h⟩ := parsed_spec h
    exact ⟨d1, p, d, m, q, d', m', q', .parse .new h1, h2, h3, h⟩

/-- The full claim is false: an attribute that one document defines is replaced in the next one, and so are its title and
its author. -/
theorem C72_attributes_kept :
    ∃ d0 p d m q d' m' q', HasParsed (Config.default .checked) 40 .default [d0] p ∧
      (Config.default .checked).parse 40 p "{doctitle} {author} {foo}".toList = .ok (d, m, q) ∧
      (Config.default .checked).parse 40 (newParser .default) "{doctitle} {author} {foo}".toList = .ok (d', m', q') ∧
      texts d = [some "First Jo Doe bar".toList] ∧ texts d' = [some "{doctitle} {author} {foo}".toList] := by
  have h : behind (Config.default .checked) "= First\nJo Doe\n:foo: bar\n\nText." "{doctitle} {author} {foo}" (fun d d' =>
      texts d == [some "First Jo Doe bar".toList] && texts d' == [some "{doctitle} {author} {foo}".toList]) = true := by
    decide +kernel
  obtain ⟨d0, p, d, m, q, d', m', q', h1, h2, h3, h4⟩ := behind_spec h
  rw [Bool.and_eq_true] at h4
  exact ⟨d0, p, d, m, q, d', m', q', h1, h2, h3, eq_of_beq h4.1, eq_of_beq h4.2⟩

/-- An attribute that may be changed in the header only can be changed in the body of a document, once another document has
set it in its header; a new parser refuses that. -/
theorem C72_restriction_lost :
    ∃ d0 p d m q d' m' q', HasParsed (Config.default .checked) 40 .default [d0] p ∧
      (Config.default .checked).parse 40 p "= T\n\n:sectnumlevels: 5".toList = .ok (d, m, q) ∧
      (Config.default .checked).parse 40 (newParser .default) "= T\n\n:sectnumlevels: 5".toList = .ok (d', m', q') ∧
      d.warnings = [] ∧ d'.warnings.map (·.warning) = [.attributeValueIsLocked "sectnumlevels".toList] := by
  have h : behind (Config.default .checked) "= First\n:sectnumlevels: 2\n\nText." "= T\n\n:sectnumlevels: 5" (fun d d' =>
      d.warnings == [] && d'.warnings.map (·.warning) == [.attributeValueIsLocked "sectnumlevels".toList]) = true := by
    decide +kernel
  obtain ⟨d0, p, d, m, q, d', m', q', h1, h2, h3, h4⟩ := behind_spec h
  rw [Bool.and_eq_true] at h4
  exact ⟨d0, p, d, m, q, d', m', q', h1, h2, h3, eq_of_beq h4.1, eq_of_beq h4.2⟩

/-- Non-vacuity: a document with several blocks that says nothing about attributes, another one behind it; an attribute that
is not mentioned. -/
example : behind (Config.default .checked) "Text.\n\n== S\n\n* more" "= T\n:foo: bar\n\n{foo}" (fun d d' =>
    texts d == [some "bar".toList] && texts d' == [some "bar".toList]) = true := by
  decide +kernel

private theorem silent_of {d : Document} (h : (d.header.titleSource.isNone && d.header.authorLine.isNone &&
    d.header.revisionLine.isNone && (documentEntries d).isEmpty) = true) : Silent d := by
  simp only [Bool.and_eq_true, Option.isNone_iff_eq_none, List.isEmpty_iff] at h
  exact ⟨h.1.1.1, h.1.1.2, h.1.2, h.2⟩

example : ∃ d p, HasParsed (Config.default .checked) 40 .default [d] p ∧ Silent d ∧ d.blocks.length = 2 := by
  have h : parsed ((Config.default .checked).parse 40 (newParser .default) "Text.\n\n== S\n\n* more".toList) (fun d =>
      (d.header.titleSource.isNone && d.header.authorLine.isNone && d.header.revisionLine.isNone &&
        (documentEntries d).isEmpty) && d.blocks.length == 2) = true := by decide +kernel
  obtain ⟨d, m, q, h1, h2⟩ := parsed_spec h
  rw [Bool.and_eq_true] at h2
  exact ⟨d, q, .parse .new h1, silent_of h2.1, eq_of_beq h2.2⟩

end
end Adoc.Props
