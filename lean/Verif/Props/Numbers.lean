import Verif.Lemmas.Numbers
import Verif.Props.AttrStore
import Verif.Props.Header
/-!
# C17, C60, C07: the sections of a document, their types and their numbers, and its attributes

`Used c fuel P p` says that `p` is the state of a parser that was new, with any attributes, and has parsed any number of
texts since.
-/

namespace Adoc.Props
open Adoc Adoc.Spec Span

/-! ### The levels that are numbered -/

private def value (t : Text) : Nat := t.foldl (fun n c => n * 10 + (c.toNat - 48)) 0

private theorem digit_of {c : Char} (h : isAsciiDigit c = true) :
    c.toNat - 48 < 10 ∧ c = Char.ofNat (48 + (c.toNat - 48)) := by
  have h' : 48 ≤ c.toNat ∧ c.toNat ≤ 57 := by simpa [isAsciiDigit] using h
  have h1 := h'.1
  have h2 := h'.2
  refine ⟨by omega, ?_⟩
  rw [show 48 + (c.toNat - 48) = c.toNat by omega, Char.ofNat_toNat]

private theorem digit_toNat {d : Nat} (h : d < 10) :
    isAsciiDigit (Char.ofNat (48 + d)) = true ∧ (Char.ofNat (48 + d)).toNat - 48 = d := by
  have : d = 0 ∨ d = 1 ∨ d = 2 ∨ d = 3 ∨ d = 4 ∨ d = 5 ∨ d = 6 ∨ d = 7 ∨ d = 8 ∨ d = 9 := by omega
  rcases this with rfl | rfl | rfl | rfl | rfl | rfl | rfl | rfl | rfl | rfl <;> decide

private theorem snoc_cases (t : Text) : t = [] ∨ ∃ r c, t = r ++ [c] := by
  rcases List.eq_nil_or_concat t with h | ⟨r, c, h⟩
  · exact Or.inl h
  · exact Or.inr ⟨r, c, by simpa using h⟩

private theorem digits_iff {t : Text} {n : Nat} :
    Digits t n ↔ t ≠ [] ∧ t.all isAsciiDigit = true ∧ value t = n := by
  constructor
  · intro h
    induction h with
    | one hd =>
      obtain ⟨h1, h2⟩ := digit_toNat hd
      exact ⟨nofun, by simp [h1], by simp [value, h2]⟩
    | more _ hd ih =>
      obtain ⟨h1, h2⟩ := digit_toNat hd
      obtain ⟨i1, i2, i3⟩ := ih
      refine ⟨by simp, by simp [i2, h1], ?_⟩
      unfold value at i3 ⊢
      rw [List.foldl_append, i3]
      simp only [List.foldl_cons, List.foldl_nil, h2]
      omega
  · rintro ⟨h1, h2, rfl⟩
    generalize hk : t.length = k
    induction k using Nat.strongRecOn generalizing t with
    | ind k ih =>
      rcases snoc_cases t with rfl | ⟨r, c, rfl⟩
      · exact absurd rfl h1
      · simp only [List.all_append, Bool.and_eq_true, List.all_cons, List.all_nil, Bool.and_true] at h2
        obtain ⟨d1, d2⟩ := digit_of h2.2
        have e : value (r ++ [c]) = 10 * value r + (c.toNat - 48) := by
          simp only [value, List.foldl_append, List.foldl_cons, List.foldl_nil]
          omega
        rw [e]
        by_cases hr : r = []
        · subst hr
          have := Digits.one d1
          rw [← d2] at this
          simpa [value] using this
        · have := Digits.more (ih r.length (by simp at hk; omega) hr h2.1 rfl) d1
          rw [← d2] at this
          exact this

private theorem numeral_iff {t : Text} {n : Nat} :
    (parseUsize t = some n ↔ (Digits t n ∨ ∃ r, t = '+' :: r ∧ Digits r n) ∧ n < 2 ^ 64) := by
  have key : ∀ r : Text, (if r ≠ [] ∧ r.all isAsciiDigit then
      (if value r < 2 ^ 64 then some (value r) else none) else none) = some n ↔ Digits r n ∧ n < 2 ^ 64 := by
    intro r
    rw [digits_iff]
    constructor
    · intro h
      split at h
      · rename_i hr
        split at h
        · cases h; exact ⟨⟨hr.1, hr.2, rfl⟩, by assumption⟩
        · cases h
      · cases h
    · rintro ⟨⟨h1, h2, rfl⟩, h3⟩
      rw [if_pos ⟨h1, h2⟩, if_pos h3]
  unfold parseUsize
  split
  · rename_i r
    have hno : ¬ Digits ('+' :: r) n := by
      rw [digits_iff]
      rintro ⟨_, h, _⟩
      have : isAsciiDigit '+' = true := by simpa using (List.all_eq_true.mp h '+' (by simp))
      exact absurd this (by decide)
    refine (key r).trans ?_
    constructor
    · rintro ⟨a, b⟩; exact ⟨Or.inr ⟨r, rfl, a⟩, b⟩
    · rintro ⟨h | ⟨r', e, h⟩, b⟩
      · exact absurd h hno
      · cases e; exact ⟨h, b⟩
  · rename_i hp
    refine (key t).trans ?_
    constructor
    · rintro ⟨a, b⟩; exact ⟨Or.inl a, b⟩
    · rintro ⟨h | ⟨r', e, h⟩, b⟩
      · exact ⟨h, b⟩
      · exact absurd e (hp r')

/-- The levels of sections that are numbered are those the attribute `sectnumlevels` says. -/
theorem levels_iff {s : AttrStore} {n : Nat} : sectnumlevelsOf s = n ↔ NumberedLevels s n := by
  unfold sectnumlevelsOf
  constructor
  · rintro rfl
    split
    · rename_i t ht
      cases hp : parseUsize t with
      | some n => exact .given ht (numeral_iff.mp hp).1 (numeral_iff.mp hp).2
      | none =>
        refine .standard fun t' n ht' hd => ?_
        rw [ht] at ht'
        cases ht'
        refine Nat.le_of_not_lt fun hn => ?_
        rw [numeral_iff.mpr ⟨hd, hn⟩] at hp
        cases hp
    · rename_i hno
      exact .standard fun t n ht _ => absurd ht (hno t)
  · intro h
    cases h with
    | given h1 h2 h3 =>
      rw [h1]
      simp only [numeral_iff.mpr ⟨h2, h3⟩, Option.getD_some]
    | standard h =>
      split
      · rename_i t ht
        cases hp : parseUsize t with
        | some n =>
          obtain ⟨h1, h2⟩ := numeral_iff.mp hp
          exact absurd (h t n ht h1) (Nat.not_le.mpr h2)
        | none => rfl
      · rfl

variable [Uni]

/-! ### The parser -/

private theorem used_ok {c : Config} {fuel : Nat} {P : Document → Prop} {p : ParserState} (h : Used c fuel P p) :
    NumOk p.fresh.num ∧ p.fresh.num.topmost = .normal := by
  obtain ⟨h1, h2⟩ := used_num h
  exact ⟨⟨by show p.num.topmost ≠ _; rw [h1]; nofun, rfl, h2⟩, h1⟩

private theorem counted_parse {c : Config} {fuel : Nat} {P : Document → Prop} {p p' : ParserState} (hu : Used c fuel P p)
    {text : Text} {d : Document} {map : SourceMap} (h : c.parse fuel p text = .ok (d, map, p')) :
    ∃ store, BehindHeader c fuel p text store ∧
      Counted (sectnumlevelsOf store) ⟨store, [], p.num.lastAppendix.components⟩ (preorderAll d.blocks) (tally p') ∧
      Typed .normal d.blocks p'.num.topmost := by
  obtain ⟨t, ht, hd⟩ := c.parse_parts h
  obtain ⟨h1, h2⟩ := used_ok hu
  obtain ⟨mi, ws, store, k1, _, k3, k4⟩ := document_counted hd h1
  rw [h2] at k4
  exact ⟨store, ⟨t, map, mi, ws, ht, k1⟩, k3, k4⟩

omit [Uni] in
private theorem preorderAll_mem {bs : List Block} {x : Block} (h : ∃ b ∈ bs, x ∈ preorder b) : x ∈ preorderAll bs := by
  induction bs with
  | nil => obtain ⟨_, hb, _⟩ := h; cases hb
  | cons c cs ih =>
    rw [preorderAll, List.mem_append]
    obtain ⟨b, hb, hx⟩ := h
    rcases List.mem_cons.mp hb with rfl | hb
    · exact Or.inl hx
    · exact Or.inr (ih ⟨b, hb, hx⟩)

omit [Uni] in
private theorem within_mem {x b : Block} (h : Within x b) : x ∈ preorder b := by
  induction h with
  | self => cases x; simp [preorder]
  | @child c b hc _ ih =>
    obtain ⟨k, s, f, cs⟩ := b
    rw [preorder]
    exact List.mem_cons_of_mem _ (preorderAll_mem ⟨c, hc, ih⟩)

omit [Uni] in
private theorem inDoc_mem {d : Document} {x : Block} (h : InDoc d x) : x ∈ preorderAll d.blocks := by
  obtain ⟨b, hb, hx⟩ := h
  exact preorderAll_mem ⟨b, hb, within_mem hx⟩

omit [Uni] in
private theorem mem_preorder {x : Block} : ∀ {b : Block}, x ∈ preorder b → Within x b
  | .mk k s f cs, h => by
    rw [preorder] at h
    rcases List.mem_cons.mp h with rfl | h
    · exact .self _
    · obtain ⟨c, hc, hx⟩ := mem_all h
      exact .child (c := c) hc hx
where
  mem_all {x : Block} : ∀ {cs : List Block}, x ∈ preorderAll cs → ∃ c ∈ cs, Within x c
  | [], h => by rw [preorderAll] at h; cases h
  | c :: cs, h => by
    rw [preorderAll, List.mem_append] at h
    rcases h with h | h
    · exact ⟨c, by simp, mem_preorder h⟩
    · obtain ⟨c', hc, hx⟩ := mem_all h
      exact ⟨c', by simp [hc], hx⟩

omit [Uni] in
private theorem mem_inDoc {d : Document} {x : Block} (h : x ∈ preorderAll d.blocks) : InDoc d x := mem_preorder.mem_all h

/-! ### C17 for documents -/

/-- The numbers of all sections of a document: in document order, each section has the number that follows the one of the
last numbered section of its type, if it is to be numbered, and none otherwise.  Normal sections are counted from the
beginning of the document, appendices from where the parser stopped with the last document. -/
theorem C17_document {c : Config} {fuel : Nat} {p p' : ParserState} (hu : Used c fuel (fun _ => True) p) {text : Text}
    {d : Document} {map : SourceMap} (h : c.parse fuel p text = .ok (d, map, p')) :
    ∃ store levels t, BehindHeader c fuel p text store ∧ NumberedLevels store levels ∧
      Counted levels ⟨store, [], p.num.lastAppendix.components⟩ (preorderAll d.blocks) t ∧ p'.store = t.attrs := by
  obtain ⟨store, h1, h2, _⟩ := counted_parse hu h
  exact ⟨store, _, _, h1, levels_iff.mp rfl, h2, rfl⟩

/-- The last number of a type. -/
private def lastIn (ty : SectionType) (t : Tally) : List Nat := if ty = .appendix then t.appendix else t.normal

private theorem counted_above {levels : Nat} {t t' : Tally} {bs : List Block} (h : Counted levels t bs t')
    {ty : SectionType} (hty : ty ≠ .discrete) : (lastIn ty t :: numbersIn ty bs).Pairwise (· < ·) := by
  have cons : ∀ {x y : List Nat} {l}, x < y → (y :: l).Pairwise (· < ·) → (x :: y :: l).Pairwise (· < ·) := by
    intro x y l hxy hl
    refine List.pairwise_cons.mpr ⟨fun z hz => ?_, hl⟩
    rcases List.mem_cons.mp hz with rfl | hz
    · exact hxy
    · exact List.lt_trans hxy ((List.pairwise_cons.mp hl).1 z hz)
  induction h with
  | nil => simp [numbersIn]
  | @entry t t' b a bs hk _ ih =>
    have : numbersIn ty (b :: bs) = numbersIn ty bs := by
      unfold numbersIn; rw [List.filterMap_cons_none]; rw [hk]
    rw [this]; exact ih
  | @other t t' b bs h1 h2 _ ih =>
    have : numbersIn ty (b :: bs) = numbersIn ty bs := by
      unfold numbersIn; rw [List.filterMap_cons_none]
      split
      · rename_i hk; exact absurd ⟨_, _, _, _, _, hk⟩ h1
      · rfl
    rw [this]; exact ih
  | @plain t t' b l c ty' i bs hk _ _ ih =>
    have : numbersIn ty (b :: bs) = numbersIn ty bs := by
      unfold numbersIn; rw [List.filterMap_cons_none]; rw [hk]
    rw [this]; exact ih
  | @normal t t' b l c i n bs hk _ _ hn _ ih =>
    cases ty with
    | discrete => exact absurd rfl hty
    | normal =>
      have : numbersIn .normal (b :: bs) = n :: numbersIn .normal bs := by
        unfold numbersIn; rw [List.filterMap_cons_some (b := n)]; rw [hk]; rfl
      rw [this]; exact cons hn.lt ih
    | appendix =>
      have : numbersIn .appendix (b :: bs) = numbersIn .appendix bs := by
        unfold numbersIn; rw [List.filterMap_cons_none]; rw [hk]; rfl
      rw [this]; exact ih
  | @appendix t t' b l c i n bs hk _ _ hn _ ih =>
    cases ty with
    | discrete => exact absurd rfl hty
    | appendix =>
      have : numbersIn .appendix (b :: bs) = n :: numbersIn .appendix bs := by
        unfold numbersIn; rw [List.filterMap_cons_some (b := n)]; rw [hk]; rfl
      rw [this]; exact cons hn.lt ih
    | normal =>
      have : numbersIn .normal (b :: bs) = numbersIn .normal bs := by
        unfold numbersIn; rw [List.filterMap_cons_none]; rw [hk]; rfl
      rw [this]; exact ih

/-- In document order, the numbers of the normal sections of a document, and those of its appendices, increase strictly in
lexicographic order; in particular no two sections of one type have the same number. -/
theorem C17_document_increasing {c : Config} {fuel : Nat} {p p' : ParserState} (hu : Used c fuel (fun _ => True) p)
    {text : Text} {d : Document} {map : SourceMap} (h : c.parse fuel p text = .ok (d, map, p')) {ty : SectionType}
    (hty : ty ≠ .discrete) :
    (numbersIn ty (preorderAll d.blocks)).Pairwise (· < ·) ∧ (numbersIn ty (preorderAll d.blocks)).Nodup := by
  obtain ⟨store, _, h2, _⟩ := counted_parse hu h
  have := (List.pairwise_cons.mp (counted_above h2 hty)).2
  refine ⟨this, this.imp fun hab e => ?_⟩
  subst e
  exact absurd hab (List.lt_irrefl _)

private theorem counted_pos {levels : Nat} {t t' : Tally} {bs : List Block} (h : Counted levels t bs t')
    (h1 : ∀ x ∈ t.normal, 1 ≤ x) (h2 : ∀ x ∈ t.appendix, 1 ≤ x) :
    (∀ x ∈ t'.appendix, 1 ≤ x) ∧ ∀ b ∈ bs, ∀ l c ty i n, b.kind = .section l c ty i (some n) →
      n.ty = ty ∧ ty ≠ .discrete ∧ l ≤ levels ∧ n.components.length = l ∧ ∀ x ∈ n.components, 1 ≤ x := by
  induction h with
  | nil => exact ⟨h2, nofun⟩
  | entry hk _ ih =>
    obtain ⟨a, b⟩ := ih h1 h2
    refine ⟨a, fun x hx l c ty i n hk' => ?_⟩
    rcases List.mem_cons.mp hx with rfl | hx
    · rw [hk] at hk'; cases hk'
    · exact b x hx l c ty i n hk'
  | other hs _ _ ih =>
    obtain ⟨a, b⟩ := ih h1 h2
    refine ⟨a, fun x hx l c ty i n hk' => ?_⟩
    rcases List.mem_cons.mp hx with rfl | hx
    · exact absurd ⟨_, _, _, _, _, hk'⟩ hs
    · exact b x hx l c ty i n hk'
  | plain hk _ _ ih =>
    obtain ⟨a, b⟩ := ih h1 h2
    refine ⟨a, fun x hx l c ty i n hk' => ?_⟩
    rcases List.mem_cons.mp hx with rfl | hx
    · rw [hk] at hk'; cases hk'
    · exact b x hx l c ty i n hk'
  | normal hk hl _ hn _ ih =>
    obtain ⟨a, b⟩ := ih (hn.pos h1) h2
    refine ⟨a, fun x hx l c ty i n hk' => ?_⟩
    rcases List.mem_cons.mp hx with rfl | hx
    · rw [hk] at hk'; cases hk'
      exact ⟨rfl, nofun, hl, hn.length, hn.pos h1⟩
    · exact b x hx l c ty i n hk'
  | appendix hk hl _ hn _ ih =>
    obtain ⟨a, b⟩ := ih h1 (hn.pos h2)
    refine ⟨a, fun x hx l c ty i n hk' => ?_⟩
    rcases List.mem_cons.mp hx with rfl | hx
    · rw [hk] at hk'; cases hk'
      exact ⟨rfl, nofun, hl, hn.length, hn.pos h2⟩
    · exact b x hx l c ty i n hk'

private theorem used_pos {c : Config} {fuel : Nat} {p : ParserState} (h : Used c fuel (fun _ => True) p) :
    ∀ x ∈ p.num.lastAppendix.components, 1 ≤ x := by
  induction h with
  | new h _ => rw [h]; nofun
  | parse hu h _ ih =>
    obtain ⟨store, _, h2, _⟩ := counted_parse hu h
    exact (counted_pos h2 nofun ih).1

/-- A number has as many components as the level of its section, none of them 0, and is the number of a section or of an
appendix as its section is one.  Discrete headings have none. -/
theorem C17_document_shape {c : Config} {fuel : Nat} {p p' : ParserState} (hu : Used c fuel (fun _ => True) p)
    {text : Text} {d : Document} {map : SourceMap} (h : c.parse fuel p text = .ok (d, map, p')) {x : Block}
    (hx : InDoc d x) {l : Nat} {title : Content} {ty : SectionType} {id : Option Text} {n : SectionNumber}
    (hk : x.kind = .section l title ty id (some n)) :
    n.ty = ty ∧ ty ≠ .discrete ∧ n.components.length = l ∧ ∀ k ∈ n.components, 1 ≤ k := by
  obtain ⟨store, _, h2, _⟩ := counted_parse hu h
  obtain ⟨a, b, _, e, f⟩ := (counted_pos h2 nofun (used_pos hu)).2 x (inDoc_mem hx) l title ty id n hk
  exact ⟨a, b, e, f⟩

/-- Whether an entry is about another attribute. -/
private theorem setFromBody_other {s : AttrStore} {a : Attribute} {name : Text} (h : entryKey a.name.data ≠ name) :
    (s.setFromBody a).1.isAttributeSet name = s.isAttributeSet name := by
  exact (C08_untouched s [.bodyEntry a] name (by simpa [Write.target] using h)).2.2

private theorem counted_set {levels : Nat} {t t' : Tally} {bs : List Block} (h : Counted levels t bs t')
    (hs : ∀ b ∈ bs, ∀ a, b.kind = .docAttr a → entryKey a.name.data ≠ "sectnums".toList) :
    ∀ b ∈ bs, ∀ l c ty i n, b.kind = .section l c ty i n →
      (n.isSome = true ↔ ty ≠ .discrete ∧ l ≤ levels ∧ t.attrs.isAttributeSet "sectnums".toList = true) := by
  induction h with
  | nil => nofun
  | entry hk _ ih =>
    have := ih fun b hb => hs b (List.mem_cons_of_mem _ hb)
    rw [setFromBody_other (hs _ (by simp) _ hk)] at this
    intro x hx l c ty i n hk'
    rcases List.mem_cons.mp hx with rfl | hx
    · rw [hk] at hk'; cases hk'
    · exact this x hx l c ty i n hk'
  | other h _ _ ih =>
    intro x hx l c ty i n hk'
    rcases List.mem_cons.mp hx with rfl | hx
    · exact absurd ⟨_, _, _, _, _, hk'⟩ h
    · exact ih (fun b hb => hs b (List.mem_cons_of_mem _ hb)) x hx l c ty i n hk'
  | plain hk h _ ih =>
    intro x hx l c ty i n hk'
    rcases List.mem_cons.mp hx with rfl | hx
    · rw [hk] at hk'; cases hk'
      constructor
      · nofun
      · rintro ⟨a, b, c⟩
        rcases h with h | h | h
        · exact absurd h a
        · omega
        · rw [h] at c; cases c
    · exact ih (fun b hb => hs b (List.mem_cons_of_mem _ hb)) x hx l c ty i n hk'
  | normal hk h1 h2 _ _ ih =>
    intro x hx l c ty i n hk'
    rcases List.mem_cons.mp hx with rfl | hx
    · rw [hk] at hk'; cases hk'
      exact ⟨fun _ => ⟨nofun, h1, h2⟩, fun _ => rfl⟩
    · exact ih (fun b hb => hs b (List.mem_cons_of_mem _ hb)) x hx l c ty i n hk'
  | appendix hk h1 h2 _ _ ih =>
    intro x hx l c ty i n hk'
    rcases List.mem_cons.mp hx with rfl | hx
    · rw [hk] at hk'; cases hk'
      exact ⟨fun _ => ⟨nofun, h1, h2⟩, fun _ => rfl⟩
    · exact ih (fun b hb => hs b (List.mem_cons_of_mem _ hb)) x hx l c ty i n hk'

/-- Exactly these sections have a number, as long as no attribute entry in the body is about `sectnums`: those that are no
discrete headings and not too deep, if `sectnums` is set behind the header. -/
theorem C17_document_numbered {c : Config} {fuel : Nat} {p p' : ParserState} (hu : Used c fuel (fun _ => True) p)
    {text : Text} {d : Document} {map : SourceMap} (h : c.parse fuel p text = .ok (d, map, p'))
    (hs : ∀ x, InDoc d x → ∀ a, x.kind = .docAttr a → entryKey a.name.data ≠ "sectnums".toList)
    {x : Block} (hx : InDoc d x) {l : Nat} {title : Content} {ty : SectionType} {id : Option Text}
    {n : Option SectionNumber} (hk : x.kind = .section l title ty id n) {store : AttrStore}
    (hb : BehindHeader c fuel p text store) {levels : Nat} (hl : NumberedLevels store levels) :
    n.isSome = true ↔ ty ≠ .discrete ∧ l ≤ levels ∧ store.attributeValue "sectnums".toList ≠ .unset := by
  obtain ⟨store', ⟨t1, m1, mi1, w1, e1, f1⟩, h2, _⟩ := counted_parse hu h
  obtain ⟨t2, m2, mi2, w2, e2, f2⟩ := hb
  rw [e1] at e2
  cases e2
  rw [f1] at f2
  cases f2
  rw [levels_iff.mpr hl] at h2
  rw [← C08_is_set_iff_not_unset]
  exact counted_set h2 (fun b hb => hs b (mem_inDoc hb)) x (inDoc_mem hx) l title ty id n hk

/-! ### C60: the types of sections -/

private theorem typed_parse {c : Config} {fuel : Nat} {P : Document → Prop} {p p' : ParserState} (hu : Used c fuel P p)
    {text : Text} {d : Document} {map : SourceMap} (h : c.parse fuel p text = .ok (d, map, p')) :
    ∃ t, Typed .normal d.blocks t := by
  obtain ⟨_, _, _, h⟩ := counted_parse hu h
  exact ⟨_, h⟩

omit [Uni] in
private theorem typed_all {t t' : SectionType} {bs : List Block} (h : Typed t bs t') :
    ∀ b ∈ bs, ∀ x, Within x b → ∀ l c ty i n, x.kind = .section l c ty i n →
      (ty = .discrete ↔ DiscreteStyle x) ∧
      (l = 1 → ¬ DiscreteStyle x → ty = if x.fields.style = some "appendix".toList then .appendix else .normal) := by
  induction h with
  | nil => nofun
  | @first t t1 t2 b c ty i n bs hk hd ht _ _ ih1 ih2 =>
    intro b' hb x hx
    rcases List.mem_cons.mp hb with rfl | hb
    · rcases hx.cases with rfl | ⟨z, hz, hx⟩
      · intro l' c' ty' i' n' hk'
        rw [hk] at hk'; cases hk'
        refine ⟨⟨fun e => ?_, fun e => absurd e hd⟩, fun _ _ => ht⟩
        rw [ht] at e
        split at e <;> cases e
      · exact ih1 z hz x hx
    · exact ih2 b' hb x hx
  | @deeper t t1 t2 b l c i n bs hk hl hd ht _ _ ih1 ih2 =>
    intro b' hb x hx
    rcases List.mem_cons.mp hb with rfl | hb
    · rcases hx.cases with rfl | ⟨z, hz, hx⟩
      · intro l' c' ty' i' n' hk'
        rw [hk] at hk'; cases hk'
        exact ⟨⟨fun e => absurd e ht, fun e => absurd e hd⟩, fun h => absurd h hl⟩
      · exact ih1 z hz x hx
    · exact ih2 b' hb x hx
  | @discrete t t1 t2 b l c i n bs hk hd _ _ ih1 ih2 =>
    intro b' hb x hx
    rcases List.mem_cons.mp hb with rfl | hb
    · rcases hx.cases with rfl | ⟨z, hz, hx⟩
      · intro l' c' ty' i' n' hk'
        rw [hk] at hk'; cases hk'
        exact ⟨⟨fun _ => hd, fun _ => rfl⟩, fun _ h => absurd hd h⟩
      · exact ih1 z hz x hx
    · exact ih2 b' hb x hx
  | @other t t1 t2 b bs hn _ _ ih1 ih2 =>
    intro b' hb x hx
    rcases List.mem_cons.mp hb with rfl | hb
    · rcases hx.cases with rfl | ⟨z, hz, hx⟩
      · intro l' c' ty' i' n' hk'
        exact absurd ⟨_, _, _, _, _, hk'⟩ hn
      · exact ih1 z hz x hx
    · exact ih2 b' hb x hx

/-- A heading is a discrete one exactly if its style says so. -/
theorem C60_discrete {c : Config} {fuel : Nat} {p p' : ParserState} (hu : Used c fuel (fun _ => True) p)
    {text : Text} {d : Document} {map : SourceMap} (h : c.parse fuel p text = .ok (d, map, p')) {x : Block}
    (hx : InDoc d x) {ty : SectionType} (hk : type? x = some ty) : ty = .discrete ↔ DiscreteStyle x := by
  obtain ⟨t, ht⟩ := typed_parse hu h
  obtain ⟨b, hb, hx⟩ := hx
  unfold type? at hk
  split at hk
  · rename_i hk'
    cases hk
    exact (typed_all ht b hb x hx _ _ _ _ _ hk').1
  · cases hk

/-- A section of level 1, at any depth, is an appendix exactly if its style says so, and otherwise a normal section. -/
theorem C60_topmost {c : Config} {fuel : Nat} {p p' : ParserState} (hu : Used c fuel (fun _ => True) p)
    {text : Text} {d : Document} {map : SourceMap} (h : c.parse fuel p text = .ok (d, map, p')) {x : Block}
    (hx : InDoc d x) (ht : IsTopmost x) :
    (type? x = some .appendix ↔ x.fields.style = some "appendix".toList) ∧
      (type? x = some .normal ↔ x.fields.style ≠ some "appendix".toList) := by
  obtain ⟨t, h1⟩ := typed_parse hu h
  obtain ⟨b, hb, hx⟩ := hx
  obtain ⟨c, ty, i, n, hk, hn⟩ := ht
  obtain ⟨h2, h3⟩ := typed_all h1 b hb x hx _ _ _ _ _ hk
  have e : type? x = some ty := by unfold type?; rw [hk]
  have h3 := h3 rfl fun hd => hn (h2.mpr hd)
  rw [e, h3]
  by_cases hs : x.fields.style = some "appendix".toList
  · rw [if_pos hs]
    exact ⟨⟨fun _ => hs, fun _ => rfl⟩, ⟨fun h => (by cases h), fun h => absurd hs h⟩⟩
  · rw [if_neg hs]
    exact ⟨⟨fun h => (by cases h), fun h => absurd h hs⟩, ⟨fun _ => hs, fun _ => rfl⟩⟩

omit [Uni] in
private theorem typed_quiet {t t' : SectionType} {bs : List Block} (h : Typed t bs t') :
    (∀ b ∈ bs, ∀ x, Within x b → ¬ IsTopmost x) → t' = t ∧
      ∀ b ∈ bs, ∀ x, Within x b → ∀ ty, type? x = some ty → ty ≠ .discrete → ty = t := by
  have self : ∀ {b : Block} {l c t i n}, b.kind = .section l c t i n → ∀ ty, type? b = some ty → ty = t := by
    intro b l c t i n hk ty h
    unfold type? at h
    rw [hk] at h
    cases h
    rfl
  induction h with
  | nil => exact fun _ => ⟨rfl, nofun⟩
  | @first t t1 t2 b c ty i n bs hk hd ht _ _ ih1 ih2 =>
    intro hq
    refine absurd ⟨c, ty, i, n, hk, ?_⟩ (hq b (by simp) b (.self _))
    rw [ht]; split <;> nofun
  | @deeper t t1 t2 b l c i n bs hk hl hd ht _ _ ih1 ih2 =>
    intro hq
    obtain ⟨rfl, i2⟩ := ih1 fun z hz x hx => hq b (by simp) x (.child hz hx)
    obtain ⟨rfl, j2⟩ := ih2 fun z hz x hx => hq z (by simp [hz]) x hx
    refine ⟨rfl, fun b' hb x hx => ?_⟩
    rcases List.mem_cons.mp hb with rfl | hb
    · rcases hx.cases with rfl | ⟨z, hz, hx⟩
      · exact fun ty h _ => self hk ty h
      · exact i2 z hz x hx
    · exact j2 b' hb x hx
  | @discrete t t1 t2 b l c i n bs hk hd _ _ ih1 ih2 =>
    intro hq
    obtain ⟨rfl, i2⟩ := ih1 fun z hz x hx => hq b (by simp) x (.child hz hx)
    obtain ⟨rfl, j2⟩ := ih2 fun z hz x hx => hq z (by simp [hz]) x hx
    refine ⟨rfl, fun b' hb x hx => ?_⟩
    rcases List.mem_cons.mp hb with rfl | hb
    · rcases hx.cases with rfl | ⟨z, hz, hx⟩
      · exact fun ty h hn => absurd (self hk ty h) hn
      · exact i2 z hz x hx
    · exact j2 b' hb x hx
  | @other t t1 t2 b bs hn _ _ ih1 ih2 =>
    intro hq
    obtain ⟨rfl, i2⟩ := ih1 fun z hz x hx => hq b (by simp) x (.child hz hx)
    obtain ⟨rfl, j2⟩ := ih2 fun z hz x hx => hq z (by simp [hz]) x hx
    refine ⟨rfl, fun b' hb x hx => ?_⟩
    rcases List.mem_cons.mp hb with rfl | hb
    · rcases hx.cases with rfl | ⟨z, hz, hx⟩
      · intro ty h _
        unfold type? at h
        split at h
        · rename_i hk; exact absurd ⟨_, _, _, _, _, hk⟩ hn
        · cases h
      · exact i2 z hz x hx
    · exact j2 b' hb x hx

omit [Uni] in
private theorem typed_top {t' : SectionType} {bs : List Block} (h : Typed .normal bs t')
    (hq : ∀ b ∈ bs, ∀ y ∈ b.children, ∀ x, Within x y → ¬ IsTopmost x) :
    ∀ b ∈ bs, ∀ x, Within x b → ∀ ty, type? x = some ty → ty ≠ .discrete →
      (IsTopmost b → type? b = some ty) ∧ (¬ IsTopmost b → ty = .normal) := by
  induction bs with
  | nil => nofun
  | cons b bs ih =>
    have rest : Typed .normal bs t' → ∀ b ∈ bs, ∀ x, Within x b → ∀ ty, type? x = some ty → ty ≠ .discrete →
        (IsTopmost b → type? b = some ty) ∧ (¬ IsTopmost b → ty = .normal) :=
      fun h => ih h fun b hb => hq b (by simp [hb])
    have hc := hq b (by simp)
    have notTop : ∀ {l c t i n}, b.kind = .section l c t i n → l ≠ 1 ∨ t = .discrete → ¬ IsTopmost b := by
      rintro l c t i n hk h ⟨c', t', i', n', hk', hn⟩
      rw [hk] at hk'; cases hk'
      rcases h with h | h
      · exact h rfl
      · exact hn h
    have quiet : ∀ {s1 s2}, Typed s1 b.children s2 → s2 = s1 ∧ ∀ z ∈ b.children, ∀ x, Within x z → ∀ ty,
        type? x = some ty → ty ≠ .discrete → ty = s1 := fun h => typed_quiet h hc
    intro b' hb x hx
    generalize hs : SectionType.normal = s at h
    cases h with
    | @first _ t1 _ _ c ty i n _ hk hd ht h1 h2 =>
      subst hs
      rcases List.mem_cons.mp hb with rfl | hb
      · have e : type? b' = some ty := by unfold type?; rw [hk]
        have top : IsTopmost b' := ⟨c, ty, i, n, hk, by rw [ht]; split <;> nofun⟩
        rcases hx.cases with rfl | ⟨z, hz, hx⟩
        · exact fun ty' h _ => ⟨fun _ => h, fun h => absurd top h⟩
        · intro ty' h hn
          obtain rfl := (quiet h1).2 z hz x hx ty' h hn
          exact ⟨fun _ => e, fun h => absurd top h⟩
      · exact rest h2 b' hb x hx
    | @deeper _ t1 _ _ l c i n _ hk hl hd ht h1 h2 =>
      subst hs
      obtain ⟨rfl, q⟩ := quiet h1
      rcases List.mem_cons.mp hb with rfl | hb
      · have nt := notTop hk (Or.inl hl)
        rcases hx.cases with rfl | ⟨z, hz, hx⟩
        · intro ty' h _
          refine ⟨fun h => absurd h nt, fun _ => ?_⟩
          unfold type? at h; rw [hk] at h; cases h; rfl
        · exact fun ty' h hn => ⟨fun h => absurd h nt, fun _ => q z hz x hx ty' h hn⟩
      · exact rest h2 b' hb x hx
    | @discrete _ t1 _ _ l c i n _ hk hd h1 h2 =>
      subst hs
      obtain ⟨rfl, q⟩ := quiet h1
      rcases List.mem_cons.mp hb with rfl | hb
      · have nt := notTop hk (Or.inr rfl)
        rcases hx.cases with rfl | ⟨z, hz, hx⟩
        · intro ty' h hn
          unfold type? at h; rw [hk] at h; cases h; exact absurd rfl hn
        · exact fun ty' h hn => ⟨fun h => absurd h nt, fun _ => q z hz x hx ty' h hn⟩
      · exact rest h2 b' hb x hx
    | @other _ t1 _ _ _ hn h1 h2 =>
      subst hs
      obtain ⟨rfl, q⟩ := quiet h1
      rcases List.mem_cons.mp hb with rfl | hb
      · have nt : ¬ IsTopmost b' := fun ⟨_, _, _, _, hk, _⟩ => hn ⟨_, _, _, _, _, hk⟩
        rcases hx.cases with rfl | ⟨z, hz, hx⟩
        · intro ty' h _
          unfold type? at h
          split at h
          · rename_i hk; exact absurd ⟨_, _, _, _, _, hk⟩ hn
          · cases h
        · exact fun ty' h hn => ⟨fun h => absurd h nt, fun _ => q z hz x hx ty' h hn⟩
      · exact rest h2 b' hb x hx

/-- The sections in a section of level 1 are of its type, and other sections are normal ones.
Missing: documents with a section of level 1 in another block (in a delimited block, say), which ends an appendix around it
(`C60_appendix_ends`). -/
theorem C60_inherited_partial {c : Config} {fuel : Nat} {p p' : ParserState} (hu : Used c fuel (fun _ => True) p)
    {text : Text} {d : Document} {map : SourceMap} (h : c.parse fuel p text = .ok (d, map, p'))
    (hq : ∀ b ∈ d.blocks, ∀ y ∈ b.children, ∀ x, Within x y → ¬ IsTopmost x) {b x : Block} (hb : b ∈ d.blocks)
    (hx : Within x b) {ty : SectionType} (hk : type? x = some ty) (hn : ty ≠ .discrete) :
    (IsTopmost b → type? b = some ty) ∧ (¬ IsTopmost b → ty = .normal) := by
  obtain ⟨t, ht⟩ := typed_parse hu h
  exact typed_top ht hq b hb x hx ty hk hn

omit [Uni] in
/-- The full claim is false: behind a delimited block with a section of level 1 in it, the sections in an appendix are
normal sections (and numbered so). -/
theorem C60_appendix_ends : letI := asciiUni
    ∃ text d map p', (Config.default .checked).parse 40 .default text = .ok (d, map, p') ∧
      ∃ x y, InDoc d x ∧ y ∈ x.children ∧ type? x = some .appendix ∧ type? y = some .normal := by
  letI := asciiUni
  have h : parsed ((Config.default .checked).parse 40 .default
      "[appendix]\n== A\n\n====\n== B\n====\n\n=== C".toList) (fun d =>
      d.blocks.any fun x => type? x == some .appendix && x.children.any fun y => type? y == some .normal) = true := by
    decide +kernel
  obtain ⟨d, map, p', h1, h2⟩ := parsed_spec h
  simp only [List.any_eq_true, Bool.and_eq_true] at h2
  obtain ⟨x, hx, k1, y, hy, k2⟩ := h2
  exact ⟨_, d, map, p', h1, x, y, ⟨x, hx, .self _⟩, hy, eq_of_beq k1, eq_of_beq k2⟩

/-! ### C07 for documents -/

/-- The attribute entries among blocks. -/
def entriesIn (bs : List Block) : List Attribute :=
  bs.filterMap fun b => match b.kind with
    | .docAttr a => some a
    | _ => none

private theorem counted_attrs {levels : Nat} {t t' : Tally} {bs : List Block} (h : Counted levels t bs t') :
    t'.attrs = (attrRun t.attrs ((entriesIn bs).map .bodyEntry)).1 := by
  have skip : ∀ {b : Block} {bs}, ¬ IsEntry b → entriesIn (b :: bs) = entriesIn bs := by
    intro b bs hb
    unfold entriesIn
    rw [List.filterMap_cons_none]
    split
    · rename_i a hk; exact absurd ⟨a, hk⟩ hb
    · rfl
  have sec : ∀ {b : Block} {l c t i n}, b.kind = .section l c t i n → ¬ IsEntry b := by
    rintro b l c t i n hk ⟨a, h⟩
    rw [hk] at h; cases h
  induction h with
  | nil => rfl
  | @entry t t' b a bs hk _ ih =>
    have : entriesIn (b :: bs) = a :: entriesIn bs := by
      unfold entriesIn; rw [List.filterMap_cons_some (b := a)]; rw [hk]
    rw [this, List.map_cons, ← run_cons]
    exact ih
  | other _ h _ ih => rw [skip h]; exact ih
  | plain hk _ _ ih => rw [skip (sec hk)]; exact ih
  | normal hk _ _ _ _ ih => rw [skip (sec hk)]; exact ih
  | appendix hk _ _ _ _ ih => rw [skip (sec hk)]; exact ih

/-- The attributes behind a document are the effect of the header and then of the attribute entries among its blocks, in
document order, and of nothing else. -/
theorem C07_document {c : Config} {fuel : Nat} {p p' : ParserState} (hu : Used c fuel (fun _ => True) p)
    {text : Text} {d : Document} {map : SourceMap} (h : c.parse fuel p text = .ok (d, map, p')) :
    ∃ store, BehindHeader c fuel p text store ∧
      p'.store = (attrRun store ((entriesIn (preorderAll d.blocks)).map .bodyEntry)).1 := by
  obtain ⟨store, h1, h2, _⟩ := counted_parse hu h
  exact ⟨store, h1, counted_attrs h2⟩

/-- An attribute only the program may set keeps its value through the parse of any document.
Missing: the names that lines of the header define without an entry (`C09_doctitle_overwritten`). -/
theorem C09_document_partial [LawfulUni] {c : Config} {fuel : Nat} {p p' : ParserState}
    (hu : Used c fuel (fun _ => True) p) {text : Text} {d : Document} {map : SourceMap}
    (h : c.parse fuel p text = .ok (d, map, p')) {name : Text} {v : IVal}
    (hlock : cellOf p.store name = some (v, .apiOnly))
    (hn : name ∉ ["doctitle".toList, "revnumber".toList, "revdate".toList, "revremark".toList])
    (ha : ∀ base ∈ ["author", "authorinitials", "firstname", "middlename", "lastname", "email"], ∀ i,
      name ≠ suffixed base.toList (i + 1)) :
    cellOf p'.store name = some (v, .apiOnly) ∧ p'.store.attributeValue name = p.store.attributeValue name := by
  obtain ⟨store, ⟨t, m, mi, w, _, h1⟩, h2⟩ := C07_document hu h
  obtain ⟨k1, k2⟩ := C09_other_names_partial h1 hlock hn ha
  obtain ⟨q1, q2, _⟩ := C07_apiOnly_locked store name v ((entriesIn (preorderAll d.blocks)).map .bodyEntry) k1
    (by intro w hw; obtain ⟨a, _, rfl⟩ := List.mem_map.mp hw; trivial)
  rw [h2]
  exact ⟨q1, q2.trans k2⟩

omit [Uni] in
/-- Non-vacuity: entries for a locked attribute in the header, in the body and in a delimited block in a section. -/
example : letI := asciiUni
    ∃ d map p', (Config.default .checked).parse 60
        { ParserState.default with store := AttrStore.default.withIntrinsic "foo".toList "x".toList .apiOnly }
        "= T\n:foo: 1\n\n:foo: 2\n\n== A\n\n====\n:foo!:\n====\n".toList = .ok (d, map, p') ∧
      (entriesIn (preorderAll d.blocks)).length = 2 := by
  letI := asciiUni
  have h : parsed ((Config.default .checked).parse 60
        { ParserState.default with store := AttrStore.default.withIntrinsic "foo".toList "x".toList .apiOnly }
        "= T\n:foo: 1\n\n:foo: 2\n\n== A\n\n====\n:foo!:\n====\n".toList)
      (fun d => (entriesIn (preorderAll d.blocks)).length == 2) = true := by
    decide +kernel
  obtain ⟨d, map, p', h1, h2⟩ := parsed_spec h
  exact ⟨d, map, p', h1, by simpa using h2⟩

/-- The sections of blocks in document order, with their levels, types and numbers. -/
private def outline (bs : List Block) : List (Nat × SectionType × Option SectionNumber) :=
  bs.filterMap fun b => match b.kind with
    | .section l _ t _ n => some (l, t, n)
    | _ => none

omit [Uni] in
/-- Non-vacuity: normal and discrete headings, an appendix, sections that are too deep, and an attribute entry that ends the
numbering. -/
example : letI := asciiUni
    parsed ((Config.default .checked).parse 60 .default
        "= T\n:sectnums:\n:sectnumlevels: 2\n\n== A\n\n=== B\n\n==== C\n\n[discrete]\n== D\n\n[appendix]\n== E\n\n=== F\n\n== G\n\n:sectnums!:\n\n=== H".toList)
      (fun d => outline (preorderAll d.blocks) ==
        [(1, .normal, some ⟨.normal, [1]⟩), (2, .normal, some ⟨.normal, [1, 1]⟩), (3, .normal, none), (1, .discrete, none),
         (1, .appendix, some ⟨.appendix, [1]⟩), (2, .appendix, some ⟨.appendix, [1, 1]⟩),
         (1, .normal, some ⟨.normal, [2]⟩), (2, .normal, none)]) = true := by
  decide +kernel

end Adoc.Props
