import Verif.Lemmas.Written
import Verif.Lemmas.AuthorLine
import Verif.Props.Outline
import Verif.Props.Prose
import Verif.Props.Attrlist
/-!
# C62: written outlines are read back
-/

namespace Adoc.Props
open Adoc Span Spec Lemmas
variable [Uni]

/-- The first line of a written text. -/
private theorem headLine_unlines {l : Text} {ls : List Text} (h : CleanLine l) :
    HeadLine (unlines (l :: ls)) l (unlines ls) := by
  refine ⟨l, ['\n'], ⟨by rw [unlines_cons]; simp, h.single, Or.inl rfl, ?_⟩, ⟨[], by simp, by simp, ?_⟩⟩
  · rintro ⟨r, e⟩; exact absurd (last_of_end e) h.cr
  · rintro ⟨r, e⟩; exact absurd (last_of_end e) h.space

private theorem firstLine_unlines {l : Text} {ls : List Text} (h : CleanLine l) :
    FirstLine (unlines (l :: ls)) l ['\n'] (unlines ls) := by
  refine ⟨by rw [unlines_cons]; simp, h.single, Or.inl rfl, ?_⟩
  rintro ⟨r, e⟩; exact absurd (last_of_end e) h.cr

/-- A line with which the body of a document can begin. -/
private def Opens (l : Text) : Prop :=
  l ≠ [] ∧ ¬ IsComment l ∧ (¬ ∃ y, l = ':' :: y) ∧ (¬ ∃ y, l = '=' :: ' ' :: y) ∧ ¬ Blank l

private theorem opens_of {c : Char} {r : Text} (h : c ∉ ['/', ':', '=', ' ', '\t']) : Opens (c :: r) := by
  refine ⟨by simp, ?_, ?_, ?_, fun hb => ?_⟩
  · rintro ⟨x, e, _⟩; cases e; revert h; decide
  · rintro ⟨y, e⟩; cases e; revert h; decide
  · rintro ⟨y, e⟩; cases e; revert h; decide
  · rcases hb c (by simp) with rfl | rfl <;> revert h <;> decide

private theorem opens_fence {c : Char} {ls : List Text} (h : c ∈ ['/', '-', '.', '+', '*', '_']) : Opens (fence c ls) := by
  unfold fence
  rw [show List.replicate (ls.flatten.length + 4) c = c :: c :: c :: c :: List.replicate ls.flatten.length c from by
    simp [List.replicate_succ]]
  refine ⟨by simp, ?_, ?_, ?_, fun hb => ?_⟩
  · rintro ⟨x, e, hx⟩; cases e; exact hx rfl
  · rintro ⟨y, e⟩; cases e; revert h; decide
  · rintro ⟨y, e⟩; cases e
  · rcases hb c (by simp) with rfl | rfl <;> revert h <;> decide

private theorem label_opens {label : Label} (h : label ≠ {}) (ls : List Text) : ∃ l r, labelLines label ++ ls = l :: r ∧ Opens l := by
  obtain ⟨t, as, an⟩ := label
  unfold labelLines
  cases t with
  | some t => exact ⟨_, _, rfl, opens_of (by decide)⟩
  | none =>
    cases an with
    | some i => exact ⟨_, _, rfl, opens_of (by decide)⟩
    | none =>
      cases as with
      | some as => exact ⟨_, _, rfl, opens_of (by decide)⟩
      | none => exact absurd rfl h

private theorem leaf_opens {b : Leaf} (h : Writable b) : ∃ l ls, b.written = l :: ls ∧ Opens l := by
  cases h with
  | @para t h1 h2 =>
    rw [Leaf.written]
    cases hs : splitChar '\n' t with
    | nil => exact absurd hs (splitChar_ne_nil _ _)
    | cons l ls =>
      have hl : l ∈ splitChar '\n' t := by rw [hs]; simp
      obtain ⟨c, r, rfl, hw, hc, _⟩ := prose_head h1 hl (h2 l hl)
      refine ⟨_, _, rfl, opens_of ?_⟩
      intro hm
      simp only [List.mem_cons, List.not_mem_nil, or_false] at hm
      rcases hm with rfl | rfl | rfl | rfl | rfl <;> first | (revert hc; decide) | (revert hw; decide)
  | verbatim hc h =>
    rw [Leaf.written]
    exact ⟨_, _, rfl, opens_fence (by rcases hc with rfl | rfl | rfl | rfl <;> decide)⟩
  | @brk ty => cases ty <;> rw [Leaf.written] <;> exact ⟨_, _, rfl, opens_of (by decide)⟩
  | @media ty target attrs h1 h2 h3 h4 h5 =>
    rw [Leaf.written]
    refine ⟨_, _, rfl, ?_⟩
    unfold mediaLine
    cases ty
    · rw [show (macroName .image).toList = 'i' :: "mage".toList by decide]; exact opens_of (by decide)
    · rw [show (macroName .video).toList = 'v' :: "ideo".toList by decide]; exact opens_of (by decide)
    · rw [show (macroName .audio).toList = 'a' :: "udio".toList by decide]; exact opens_of (by decide)
  | @container x bs hc h =>
    rw [Leaf.written]
    exact ⟨_, _, rfl, opens_fence (by rcases contextMark_mem x with h | h <;> rw [h] <;> decide)⟩
  | @discrete label n t ht hs _ _ _ =>
    rw [Leaf.written]
    exact label_opens (by rintro rfl; rcases hs with h | h <;> cases h) _
  | @labelled label b ht hne hu h _ =>
    rw [Leaf.written]
    exact label_opens hne _

private theorem heading_opens {n : Nat} (h : 1 ≤ n) (t : Text) : ∃ l ls, (Token.heading n t {}).written = l :: ls ∧ Opens l := by
  obtain ⟨k, rfl⟩ : ∃ k, n = k + 1 := ⟨n - 1, by omega⟩
  refine ⟨_, _, rfl, ?_⟩
  rw [show List.replicate (k + 1 + 1) '=' ++ ' ' :: t = '=' :: '=' :: (List.replicate k '=' ++ ' ' :: t) from by
    simp [List.replicate_succ]]
  refine ⟨by simp, ?_, ?_, ?_, fun hb => ?_⟩
  · rintro ⟨x, e, hx⟩; cases e
  · rintro ⟨y, e⟩; cases e
  · rintro ⟨y, e⟩; cases e
  · have := hb '=' (by simp); revert this; decide

private theorem tokens_ok {leaves : List Leaf} {secs : List Sec} (h1 : ∀ b ∈ leaves, Writable b) (h2 : SecsWritable 1 5 secs) :
    ∀ x ∈ leaves.map Token.leaf ++ Sec.allTokens 1 secs,
      (∃ b, x = .leaf b ∧ Writable b) ∨ ∃ k t label, x = .heading k t label ∧ 1 ≤ k ∧ k ≤ 5 ∧
        ProseTitle t ∧ WritableHead label := by
  intro x hx
  rw [List.mem_append] at hx
  rcases hx with hx | hx
  · obtain ⟨b, hb, rfl⟩ := List.mem_map.mp hx
    exact Or.inl ⟨b, rfl, h1 b hb⟩
  · exact secs_tokens h2 x hx

private theorem token_clean {x : Token}
    (h : (∃ b, x = .leaf b ∧ Writable b) ∨ ∃ k t label, x = .heading k t label ∧ 1 ≤ k ∧ k ≤ 5 ∧
      ProseTitle t ∧ WritableHead label) :
    (∀ l ∈ x.written, CleanLine l) ∧ ∃ l ls, x.written = l :: ls ∧ Opens l := by
  rcases h with ⟨b, rfl, hb⟩ | ⟨k, t, label, rfl, h1, _, ht, hl⟩
  · exact ⟨written_clean hb, leaf_opens hb⟩
  · refine ⟨fun l h => ?_, ?_⟩
    · rw [Token.written, List.mem_append, List.mem_singleton] at h
      rcases h with h | rfl
      · exact label_clean hl.toWritableLabel l h
      · exact heading_clean ht
    · by_cases hne : label = {}
      · subst hne; exact heading_opens h1 t
      · exact label_opens hne _

private theorem separate_head {p : List Text} {ps : List (List Text)} {l : Text} {ls : List Text} (h : p = l :: ls) :
    ∃ r, separate (p :: ps) = l :: r := by
  subst h
  cases ps with
  | nil => exact ⟨_, rfl⟩
  | cons q qs => exact ⟨_, rfl⟩

private theorem body_ok {leaves : List Leaf} {secs : List Sec} (h1 : ∀ b ∈ leaves, Writable b) (h2 : SecsWritable 1 5 secs) :
    (∀ l ∈ bodyLines leaves secs, CleanLine l) ∧ (bodyLines leaves secs = [] ∨ ∃ l r, bodyLines leaves secs = l :: r ∧ Opens l) := by
  have hx := tokens_ok h1 h2
  unfold bodyLines
  generalize leaves.map Token.leaf ++ Sec.allTokens 1 secs = xs at hx
  constructor
  · intro l hl
    rcases separate_mem hl with rfl | ⟨p, hp, hl⟩
    · exact clean_nil
    · obtain ⟨x, hx', rfl⟩ := List.mem_map.mp hp
      exact (token_clean (hx x hx')).1 l hl
  · cases xs with
    | nil => exact Or.inl rfl
    | cons x xs =>
      obtain ⟨l, ls, e, ho⟩ := (token_clean (hx x (by simp))).2
      obtain ⟨r, hr⟩ := separate_head (ps := xs.map Token.written) e
      exact Or.inr ⟨l, r, hr, ho⟩

private theorem skipEmpty_body {ls : List Text} (h1 : ∀ l ∈ ls, CleanLine l) (h2 : ls = [] ∨ ∃ l r, ls = l :: r ∧ Opens l) :
    SkipEmpty (unlines ls) (unlines ls) := by
  refine .stop fun l sep rest hf hne hb => ?_
  rcases h2 with rfl | ⟨l', r, rfl, ho⟩
  · exact hne rfl
  · have := hf.det (firstLine_unlines (h1 l' (by simp)))
    rw [this.1] at hb
    exact ho.2.2.2.2 hb

private theorem no_header {ls : List Text} (h1 : ∀ l ∈ ls, CleanLine l) (h2 : ls = [] ∨ ∃ l r, ls = l :: r ∧ Opens l) :
    HeaderReads .start (unlines ls) [] .start (unlines ls) := by
  refine .stop fun hne l s' r hl => ?_
  rcases h2 with rfl | ⟨l', r', rfl, ho⟩
  · exact hne rfl
  · have hh := headLine_unlines (ls := r') (h1 l' (by simp))
    cases hl with
    | blank h => exact ho.1 (hh.det h).1
    | comment h hc => rw [← (hh.det h).1] at hc; exact ho.2.1 hc
    | entry h => exact ho.2.2.1 (h.head hh)
    | title h _ _ =>
      exact ho.2.2.2.1 ⟨_, (hh.det h).1⟩

/-- The title does not change whether another attribute is set. -/
private theorem doctitle_other [LawfulUni] (s : AttrStore) (v : Text) :
    (s.setByValueFromHeader "doctitle".toList v).isAttributeSet "hardbreaks-option".toList =
      s.isAttributeSet "hardbreaks-option".toList := by
  have : AttrStore.remapAttrName "doctitle".toList = "doctitle".toList := by
    unfold AttrStore.remapAttrName
    rw [LawfulUni.lower _ (by decide)]
    decide
  unfold AttrStore.setByValueFromHeader
  rw [this]
  unfold AttrStore.isAttributeSet AttrStore.put
  simp only [AMap.get_insert]
  rw [if_neg (by decide)]

/-- Prose is rendered as it is. -/
theorem prose_renders [LawfulUni] {c : Config} {f : Nat} {store : AttrStore} {g : Group}
    (hs : store.isAttributeSet "hardbreaks-option".toList = false) (hg : Step.callouts ∉ g.steps) :
    ∀ as, FineAttrs as → ∀ t, Prose t → (renders (c.env (f + 1)) store).text as g t t := by
  intro as has t ht source
  refine C63_text _ _ f hg ht fun _ hh => ?_
  rcases hh with h | ⟨a, h, ho⟩
  · rw [show store.isAttributeSet "hardbreaks-option".toList = true from h] at hs; cases hs
  · cases as with
    | none => cases h
    | some as =>
      cases h
      unfold Attrlist.hasOption at ho
      rw [List.contains_iff_mem] at ho
      exact writable_options (has as rfl) source ho

theorem prose_ahead [LawfulUni] {c : Config} {f : Nat} {store : AttrStore} :
    ∀ t, Prose t → (renders (c.env (f + 1)) store).ahead t := fun t ht =>
  ⟨t, prose_renders (c := ⟨c.ar, Html.renderer, c.primary, '/', c.includes⟩) (f := f) (store := AttrStore.default) (g := .normal)
    (by decide +kernel) (by decide) none nofun t ht (Span.new [])⟩

private theorem attrs_read (as : List ElemAttr) (hne : as ≠ []) (ha : ∀ a ∈ as, WritableAttr a) (source : Span)
    (hs : source.data = List.intercalate [','] (as.map quotedAttr)) (nrm : Text → Res Text) (st : AttrStore) (ctx : AttrlistCtx) :
    Attrlist.parse nrm st source ctx = .ok (attrlistOf as source, []) := by
  have hp : ∀ e ∈ as.map (fun a => (a.name, a.value)), Plain e := by
    intro e he
    obtain ⟨a, hm, rfl⟩ := List.mem_map.mp he
    have h := ha a hm
    exact ⟨fun n hn => ⟨(h.name n hn).1, (h.name n hn).2.1⟩, h.value, h.chars.1, h.chars.2.1, h.chars.2.2.1⟩
  have he : (as.map (fun a => (a.name, a.value))).map compose1 = as.map quotedAttr := by
    rw [List.map_map]; rfl
  have hb : ((as.map (fun a => (a.name, a.value))).map fun e => (⟨e.1, e.2, []⟩ : ElemAttr)) = as := by
    rw [List.map_map]
    conv => rhs; rw [← List.map_id as]
    refine List.map_congr_left fun a hm => ?_
    show (⟨a.name, a.value, []⟩ : ElemAttr) = a
    rw [← (ha a hm).shorthand]
  have hr := C33_roundtrip nrm st ctx source _ (by simpa using hne) hp (by rw [he]; exact hs)
  rw [hb] at hr
  exact hr

private theorem label_read (as : List ElemAttr) (ha : WritableAttrs as) (source : Span)
    (hs : source.data = List.intercalate [','] (as.map blockAttr)) (nrm : Text → Res Text) (st : AttrStore) (ctx : AttrlistCtx) :
    Attrlist.parse nrm st source ctx = .ok (attrlistOf as source, []) := by
  obtain ⟨a, rest, rfl, h1, h2⟩ := ha
  have hrest : rest.map blockAttr = rest.map quotedAttr := List.map_congr_left fun x hx => writable_quoted (h2 x hx)
  rw [List.map_cons, hrest] at hs
  rcases h1 with h1 | h1
  · rw [writable_quoted h1] at hs
    exact attrs_read (a :: rest) nofun (by
      intro x hx
      rcases List.mem_cons.mp hx with rfl | hx
      · exact h1
      · exact h2 x hx) source hs nrm st ctx
  · rw [writable_short h1] at hs
    obtain ⟨style, items, k1, _, _, rfl⟩ := h1
    have he : (rest.map (fun a => (a.name, a.value))).map compose1 = rest.map quotedAttr := by
      rw [List.map_map]; rfl
    have hb : ((rest.map (fun a => (a.name, a.value))).map fun e => (⟨e.1, e.2, []⟩ : ElemAttr)) = rest := by
      rw [List.map_map]
      conv => rhs; rw [← List.map_id rest]
      refine List.map_congr_left fun a hm => ?_
      show (⟨a.name, a.value, []⟩ : ElemAttr) = a
      rw [← (h2 a hm).shorthand]
    have hp : ∀ e ∈ rest.map (fun a => (a.name, a.value)), Plain e := by
      intro e he
      obtain ⟨a, hm, rfl⟩ := List.mem_map.mp he
      have h := h2 a hm
      exact ⟨fun n hn => ⟨(h.name n hn).1, (h.name n hn).2.1⟩, h.value, h.chars.1, h.chars.2.1, h.chars.2.2.1⟩
    have hr := shorthand_list k1 _ hp nrm st ctx source rfl (by rw [he]; exact hs)
    rw [hb] at hr
    rw [hr]
    have hw := (C35_shorthand_items none style items (fun c hc => (k1.1 c hc).1)
      (fun i hi => ⟨(k1.2.1 i hi).1, fun c hc => ((k1.2.1 i hi).2.2 c hc).1⟩)).2
    rw [List.filter_eq_nil_iff.mpr (by
      intro i hi
      rw [List.isEmpty_iff]
      exact (k1.2.1 i hi).2.1)] at hw
    rw [hw]
    rfl

/-- Attributes are read as they are written. -/
theorem attrs_renders {c : Config} {f : Nat} {store : AttrStore} : ∀ as : List ElemAttr, WritableAttrs as →
    (renders (c.env (f + 1)) store).attrs (List.intercalate [','] (as.map blockAttr)) as :=
  fun as ha source hs => ⟨label_read as ha source hs _ _ _, _, label_read as ha source hs _ _ _⟩

/-- Attributes in brackets behind a macro are read as they are written. -/
theorem attrs_inner {c : Config} {f : Nat} {store : AttrStore} : ∀ as : List ElemAttr, (∀ a ∈ as, WritableAttr a) →
    (renders (c.env (f + 1)) store).inner (List.intercalate [','] (as.map quotedAttr)) as := by
  intro as ha source hs
  cases as with
  | nil =>
    have hd : source.data = [] := hs
    unfold Attrlist.parse
    simp only [bind, Except.bind, hd]
    rfl
  | cons a as => exact attrs_read (a :: as) nofun ha source hs _ _ _

/-- Attributes that are written do not make headings discrete. -/
theorem attrs_headed {c : Config} {f : Nat} {store : AttrStore} : ∀ as : List ElemAttr, WritableAttrs as →
    (∀ x ∈ ["discrete", "float"], styleOf (some as) ≠ some x.toList) →
    (renders (c.env (f + 1)) store).headed (List.intercalate [','] (as.map blockAttr)) := by
  intro as ha hst source al ws hs h
  rw [label_read as ha source hs] at h
  cases h
  exact ⟨hst "discrete" (by simp), hst "float" (by simp)⟩

/-- Headings with the style of discrete ones are taken for such. -/
theorem attrs_discrete {c : Config} {f : Nat} {store : AttrStore} : ∀ as : List ElemAttr, WritableAttrs as →
    (styleOf (some as) = some "discrete".toList ∨ styleOf (some as) = some "float".toList) →
    (renders (c.env (f + 1)) store).discrete (List.intercalate [','] (as.map blockAttr)) := by
  intro as ha hst source al ws hs h
  rw [label_read as ha source hs] at h
  cases h
  exact hst

/-- Without substitutions a text is rendered as it is. -/
theorem passed_renders {c : Config} {f : Nat} {store : AttrStore} (as : Option (List ElemAttr)) (t : Text) :
    ∃ r, (renders (c.env (f + 1)) store).text as .none t r := by
  refine ⟨t, fun source => ?_⟩
  have h : ∀ al, substitutions (f + 1) c.renderer c.sep store .none al t = .ok t := by
    intro al
    unfold substitutions
    rw [Group.apply]
    rfl
  exact h (as.map (attrlistOf · source))

/-- The lines of a written body stand for the outline. -/
theorem written_layout [LawfulUni] {c : Config} {f : Nat} {store : AttrStore} {leaves : List Leaf} {secs : List Sec}
    (hs : store.isAttributeSet "hardbreaks-option".toList = false) (h1 : ∀ b ∈ leaves, Writable b) (h2 : SecsWritable 1 5 secs) :
    Layout (renders (c.env (f + 1)) store) true (leaves.map Token.leaf ++ Sec.allTokens 1 secs)
      (lines (unlines (bodyLines leaves secs))) := by
  rw [lines_unlines (body_ok h1 h2).1]
  refine layout_separate (fun x hx => ?_) true
  rcases tokens_ok h1 h2 x hx with ⟨b, rfl, hb⟩ | ⟨k, t, label, rfl, g1, g2, g3, g4⟩
  · exact leaf_readable (fun as has g hg => prose_renders hs (by rcases hg with rfl | rfl | rfl <;> decide) as has) prose_ahead attrs_renders attrs_discrete
      attrs_inner (fun _ h => h) passed_renders hb none nofun (Or.inl rfl) (Or.inr nofun)
  · refine heading_readable (fun as has g hg => prose_renders hs ?_ as has) prose_ahead attrs_renders attrs_headed (fun _ h => h) g1 g2 g3 g4
    rcases hg with rfl | rfl | rfl <;> decide

/-- What is written has a header and a body that stands for the outline. -/
theorem written_reads [LawfulUni] {c : Config} {fuel : Nat} {store₀ : AttrStore} {title : Option Text} {leaves : List Leaf}
    {secs : List Sec} (hb : store₀.isAttributeSet "hardbreaks-option".toList = false) (hf : 0 < fuel)
    (h0 : ∀ t, title = some t → ProseTitle t) (h1 : ∀ b ∈ leaves, Writable b) (h2 : SecsWritable 1 5 secs) :
    ∃ hls stage rest body store,
      (∀ l ∈ splitChar '\n' (documentText title leaves secs),
        (¬ ∃ r, l = "include::".toList ++ r) ∧ ¬ ∃ r, l = "if".toList ++ r) ∧
      HeaderReads .start (documentText title leaves secs) hls stage rest ∧ SkipEmpty rest body ∧
      HeaderEffect (fun s t => (c.env fuel).subs s .header none t) c.renderer store₀ hls store ∧
      Layout (renders (c.env fuel) store) true (leaves.map Token.leaf ++ Sec.allTokens 1 secs) (lines body) ∧
      stage ≠ .revised ∧ (∀ n k, HLine.entry n k ∉ hls) ∧
      ∀ cs, HeaderShows (fun s t => (c.env fuel).subs s .header none t) c.renderer store₀ hls cs → cs.title = title := by
  obtain ⟨b1, b2⟩ := body_ok h1 h2
  obtain ⟨f, rfl⟩ : ∃ f, fuel = f + 1 := ⟨fuel - 1, by omega⟩
  have hcl : ∀ l ∈ titleLines title ++ bodyLines leaves secs, CleanLine l := by
    intro l hl
    rw [List.mem_append] at hl
    rcases hl with hl | hl
    · cases title with
      | none => cases hl
      | some t =>
        rw [titleLines, List.mem_cons, List.mem_singleton] at hl
        rcases hl with rfl | rfl
        · exact heading_clean (n := 0) (h0 t rfl)
        · exact clean_nil
    · exact b1 l hl
  have hd : ∀ l ∈ splitChar '\n' (documentText title leaves secs),
      (¬ ∃ r, l = "include::".toList ++ r) ∧ ¬ ∃ r, l = "if".toList ++ r := by
    intro l hl
    rw [documentText, splitChar_unlines hcl, List.mem_append, List.mem_singleton] at hl
    rcases hl with hl | rfl
    · exact (hcl l hl).directive
    · exact clean_nil.directive
  have hR := fun store (g : Group) hs hg t ht => prose_renders (c := c) (f := f) (store := store) (g := g) hs hg none nofun t ht (Span.new [])
  have hlay := fun store hs => written_layout (c := c) (f := f) (store := store) hs h1 h2
  cases title with
  | none =>
    have ht : documentText none leaves secs = unlines (bodyLines leaves secs) := rfl
    rw [ht] at hd ⊢
    refine ⟨[], .start, _, _, store₀, hd, no_header b1 b2, skipEmpty_body b1 b2, .nil, hlay _ hb, by decide, by simp, ?_⟩
    intro cs h
    cases h
    rfl
  | some t =>
    have htp := h0 t rfl
    have ht : documentText (some t) leaves secs = unlines (('=' :: ' ' :: t) :: [] :: bodyLines leaves secs) := rfl
    rw [ht] at hd ⊢
    have hct : CleanLine ('=' :: ' ' :: t) := heading_clean (n := 0) htp
    have hh := headLine_unlines (ls := [] :: bodyLines leaves secs) hct
    have hreads : HeaderReads .start (unlines (('=' :: ' ' :: t) :: [] :: bodyLines leaves secs)) [.title t] .titled
        (unlines ([] :: bodyLines leaves secs)) := by
      refine .line (by rw [unlines_cons]; simp) (.title (sp := []) hh (by simp [Blank]) ?_) (.stop fun _ l s' r hl => ?_)
      · intro x hx
        obtain ⟨y, r, rfl, hw⟩ := htp.solid.first
        cases hx
        constructor <;> rintro rfl <;> revert hw <;> decide
      · have hh := headLine_unlines (ls := bodyLines leaves secs) clean_nil
        cases hl with
        | comment h hc =>
          obtain ⟨x, e, _⟩ := hc
          rw [← (hh.det h).1] at e
          cases e
        | entry h => exact hh.nil_not_entry h
        | author h => exact h.2.1 (hh.det h.1).1.symm
    have hskip : SkipEmpty (unlines ([] :: bodyLines leaves secs)) (unlines (bodyLines leaves secs)) :=
      .skip (by rw [unlines_cons]; simp) (firstLine_unlines clean_nil) (by simp [Blank]) (skipEmpty_body b1 b2)
    have hsub : (c.env (f + 1)).subs store₀ .header none t = .ok t := hR store₀ .header hb (by decide) t htp.prose
    refine ⟨[.title t], .titled, _, _, _, hd, hreads, hskip, .cons (.title hsub) .nil,
      hlay _ ((doctitle_other _ _).trans hb), by decide, by simp, ?_⟩
    intro cs h
    cases h with
    | cons _ g1 g2 =>
      cases g1 with
      | title g =>
        rw [hsub] at g
        cases g
        rfl

omit [Uni] in
theorem outline_quiet {d : Document} {ids : List Text} {ks : List WarningType} {hls : List HLine} {stage : Stage} (hs : stage ≠ .revised)
    (hn : ∀ n k, HLine.entry n k ∉ hls) (h : ∃ hw ws, d.warnings.map Warning.warning = hw ++ ws ∧ Apart ids ws ks ∧
      ∀ w ∈ hw, (w = .documentHeaderNotTerminated ∧ stage = .revised) ∨
        (∃ n, w = .attributeValueIsLocked n) ∧ ∃ n k, HLine.entry n k ∈ hls) :
    Apart ids (d.warnings.map Warning.warning) ks := by
  obtain ⟨hw, ws, e, ha, h⟩ := h
  rw [e, show hw = [] from ?_, List.nil_append]
  · exact ha
  refine List.eq_nil_iff_forall_not_mem.mpr fun w hw => ?_
  rcases h w hw with h | ⟨_, n, k, h⟩
  · exact hs h.2
  · exact hn n k h

/-- C62. What is written is read: write down a title, blocks and sections, as deeply nested as you like, with `documentText`,
and parse the text; the document has just this title, these blocks and these sections, each with its text, and the only warnings
are about the levels that are skipped and about ids that are used already. -/
theorem C62_roundtrip [LawfulUni] {c : Config} {fuel : Nat} {p : ParserState} {title : Option Text} {leaves : List Leaf}
    {secs : List Sec} (hc : c.primary = none) (hp : p.num.topmost = .normal)
    (hb : p.store.isAttributeSet "hardbreaks-option".toList = false)
    (hf : (documentText title leaves secs).length < fuel) (h0 : ∀ t, title = some t → ProseTitle t)
    (h1 : ∀ b ∈ leaves, Writable b) (h2 : SecsWritable 1 5 secs) :
    ∃ d p' store, c.parse fuel p (documentText title leaves secs) = .ok (d, [], p') ∧
      Apart (Leaf.allIds leaves ++ Sec.allIds secs) (d.warnings.map Warning.warning) (Sec.allSkips 1 secs) ∧ d.header.title = title ∧
      DocumentShows (renders (c.env fuel) store) leaves secs d.blocks := by
  obtain ⟨hls, stage, rest, body, store, g1, g2, g3, g4, g5, g6, g7, g8⟩ := written_reads (c := c) (fuel := fuel) hb (by omega) h0 h1 h2
  obtain ⟨d, p', k1, k2, k3, k4⟩ := C62_outline hc g1 hp hf g2 g3 g4 (flat_allTokens h2) g5
  exact ⟨d, p', store, k1, outline_quiet g6 g7 k4, g8 _ k3, k2⟩

omit [Uni] in
theorem line_test {l : Text} {c : Char} {r : Text} (h : l = c :: r) (h1 : c ∉ ['i', '.', '-', '/', '=', ':'])
    (h2 : isWhite c = false) (h3 : '\n' ∉ l) (h4 : ∃ x, l.getLast? = some x ∧ isWhite x = false) : ProseLine l := by
  obtain ⟨x, hx, hw⟩ := h4
  have ht : ∀ y, l.getLast? = some y → isWhite y = false := fun y hy => by rw [hx] at hy; cases hy; exact hw
  refine ⟨clean_of (c := c) (by rw [h]; rfl) (by rintro rfl; exact h1 (by decide)) h3 ?_ ?_, ⟨⟨c, r, h, h2⟩, ht⟩, ?_⟩
  · intro e; have := ht _ e; revert this; decide
  · intro e; have := ht _ e; revert this; decide
  · intro y hy e
    rw [h] at e
    cases e
    exact h1 (List.mem_cons_of_mem _ hy)

/-- Non-vacuity: a document with a title, a preamble, nested blocks and a section with a subsection; an id is given twice. -/
example : letI := asciiUni
    ∃ d p' store, (Config.default .checked).parse 1000 ParserState.default (documentText (some "Two words".toList)
        [.para "Read me\nfirst.".toList, .brk .page,
          .labelled ⟨some "The rules".toList, some [⟨none, "verse.old".toList, [0, 5]⟩, ⟨some "id".toList, "rules".toList, []⟩], some ⟨"creed".toList, some "our, creed".toList⟩⟩
            (.container "quote".toList [.labelled ⟨none, some [⟨none, "pass".toList, [0]⟩], none⟩ (.verbatim '-' ["a  <b>".toList, [], "----".toList]),
              .labelled ⟨none, some [⟨none, "literal".toList, [0]⟩], none⟩ (.para "So be it".toList),
              .media .image "a.png".toList [], .media .video "b.mp4".toList [⟨some "poster".toList, "p".toList, []⟩]])]
        [.mk "Part".toList [.para "Text".toList, .labelled ⟨none, some [⟨none, "discrete".toList, [0]⟩], none⟩ (.discrete 3 "Aside".toList)] [.mk "Deeper".toList [] [] {} 2], .mk "More".toList [] [] ⟨some "On top".toList,
          some [⟨none, "appendix".toList, [0]⟩, ⟨some "id".toList, "rules".toList, []⟩], none⟩]) = .ok (d, [], p') ∧
      Apart ["creed".toList, "rules".toList, "rules".toList] (d.warnings.map Warning.warning) [.sectionHeadingLevelSkipped 1 4] ∧ d.header.title = some "Two words".toList ∧
      DocumentShows (renders ((Config.default .checked).env 1000) store)
        [.para "Read me\nfirst.".toList, .brk .page,
          .labelled ⟨some "The rules".toList, some [⟨none, "verse.old".toList, [0, 5]⟩, ⟨some "id".toList, "rules".toList, []⟩], some ⟨"creed".toList, some "our, creed".toList⟩⟩
            (.container "quote".toList [.labelled ⟨none, some [⟨none, "pass".toList, [0]⟩], none⟩ (.verbatim '-' ["a  <b>".toList, [], "----".toList]),
              .labelled ⟨none, some [⟨none, "literal".toList, [0]⟩], none⟩ (.para "So be it".toList),
              .media .image "a.png".toList [], .media .video "b.mp4".toList [⟨some "poster".toList, "p".toList, []⟩]])]
        [.mk "Part".toList [.para "Text".toList, .labelled ⟨none, some [⟨none, "discrete".toList, [0]⟩], none⟩ (.discrete 3 "Aside".toList)] [.mk "Deeper".toList [] [] {} 2], .mk "More".toList [] [] ⟨some "On top".toList,
          some [⟨none, "appendix".toList, [0]⟩, ⟨some "id".toList, "rules".toList, []⟩], none⟩] d.blocks := by
  letI := asciiUni
  have hti : ∀ t, isProse t = true → '\n' ∉ t → Solid t → ProseTitle t := fun t h1 h2 h3 => ⟨isProse_iff.mp h1, h2, h3⟩
  have hso : ∀ (c : Char) (r : Text) (x : Char), isWhite c = false → (c :: r).getLast? = some x → isWhite x = false →
      Solid (c :: r) := by
    intro c r x h1 h2 h3
    exact ⟨⟨c, r, rfl, h1⟩, fun y hy => by rw [h2] at hy; cases hy; exact h3⟩
  refine C62_roundtrip rfl rfl (by decide) (by decide +kernel) ?_ ?_ ?_
  · intro t h
    cases h
    exact hti _ (by decide +kernel) (by decide) (hso _ _ 's' (by decide) rfl (by decide))
  · intro b hb
    simp only [List.mem_cons, List.not_mem_nil, or_false] at hb
    rcases hb with rfl | rfl | rfl
    · refine .para (isProse_iff.mp (by decide +kernel)) ?_
      intro l hl
      rw [show splitChar '\n' "Read me\nfirst.".toList = ["Read me".toList, "first.".toList] by decide] at hl
      simp only [List.mem_cons, List.not_mem_nil, or_false] at hl
      rcases hl with rfl | rfl
      · exact line_test rfl (by decide) (by decide) (by decide) ⟨'e', rfl, by decide⟩
      · exact line_test rfl (by decide) (by decide) (by decide) ⟨'.', rfl, by decide⟩
    · exact .brk
    · refine .labelled ⟨?_, ?_, ?_⟩ nofun nofun (.container (Or.inl rfl) ?_) (Or.inr (by decide))
      · intro t ht
        cases ht
        exact ⟨hti _ (by decide +kernel) (by decide) (hso _ _ 's' (by decide) rfl (by decide)), by decide⟩
      · intro as has
        cases has
        refine ⟨_, _, rfl, Or.inr ⟨"verse".toList, [('.', "old".toList)], ⟨?_, ?_, by decide⟩, by decide, by decide⟩, fun a ha => ?_⟩
        · unfold ShortWord Delim; decide
        · unfold ShortWord Delim; decide
        · rw [List.mem_singleton] at ha
          subst ha
          refine ⟨fun n hn => ?_, nofun, by decide, rfl⟩
          cases hn
          exact ⟨⟨'i', _, rfl, by unfold Letter Digit; decide, by unfold Letter Digit; decide⟩, by decide, by decide⟩
      · intro i hi
        cases hi
        exact ⟨⟨'c', "reed".toList, rfl, by decide, by decide⟩, by decide, by decide⟩
      intro b hb
      simp only [List.mem_cons, List.not_mem_nil, or_false] at hb
      rcases hb with rfl | rfl | rfl | rfl
      · refine .labelled ⟨nofun, ?_, nofun⟩ nofun nofun (.verbatim (by decide) ?_) (Or.inr (by decide))
        · intro as has
          cases has
          refine ⟨_, _, rfl, Or.inr ⟨"pass".toList, [], ⟨?_, by simp, by decide⟩, by decide, by decide⟩, nofun⟩
          unfold ShortWord Delim; decide
        intro l hl
        simp only [List.mem_cons, List.not_mem_nil, or_false] at hl
        rcases hl with rfl | rfl | rfl
        · exact clean_of (c := 'a') rfl (by decide) (by decide) (by decide) (by decide)
        · exact clean_nil
        · exact clean_of (c := '-') rfl (by decide) (by decide) (by decide) (by decide)
      · refine .labelled ⟨nofun, ?_, nofun⟩ nofun nofun (.para (isProse_iff.mp (by decide +kernel)) ?_) (Or.inl ⟨_, rfl⟩)
        · intro as has
          cases has
          refine ⟨_, _, rfl, Or.inr ⟨"literal".toList, [], ⟨?_, by simp, by decide⟩, by decide, by decide⟩, nofun⟩
          unfold ShortWord Delim; decide
        intro l hl
        rw [show splitChar '\n' "So be it".toList = ["So be it".toList] by decide, List.mem_singleton] at hl
        subst hl
        exact line_test rfl (by decide) (by decide) (by decide) ⟨'t', rfl, by decide⟩
      · exact .media nofun (by decide) (by decide) (by decide) (by simp)
      · refine .media nofun (by decide) (by decide) (by decide) fun a ha => ?_
        rw [List.mem_singleton] at ha
        subst ha
        refine ⟨fun n hn => ?_, nofun, by decide, rfl⟩
        cases hn
        exact ⟨⟨'p', _, rfl, by unfold Letter Digit; decide, by unfold Letter Digit; decide⟩, by decide, by decide⟩
  · refine .cons (by decide) (by decide) (hti _ (by decide +kernel) (by decide) (hso _ _ 't' (by decide) rfl (by decide))) ?_
      (.cons (by decide) (by decide) (hti _ (by decide +kernel) (by decide) (hso _ _ 'r' (by decide) rfl (by decide))) (by simp) .nil .nil ⟨⟨nofun, nofun, nofun⟩, by decide⟩)
      (.cons (by decide) (by decide) (hti _ (by decide +kernel) (by decide) (hso _ _ 'e' (by decide) rfl (by decide))) (by simp) .nil .nil
        ⟨⟨?_, ?_, nofun⟩, by decide⟩) ⟨⟨nofun, nofun, nofun⟩, by decide⟩
    rotate_left
    · intro t ht
      cases ht
      exact ⟨hti _ (by decide +kernel) (by decide) (hso _ _ 'p' (by decide) rfl (by decide)), by decide⟩
    · intro as has
      cases has
      refine ⟨_, _, rfl, Or.inr ⟨"appendix".toList, [], ⟨?_, by simp, by decide⟩, by decide, by decide⟩, fun a ha => ?_⟩
      · unfold ShortWord Delim; decide
      rw [List.mem_singleton] at ha
      subst ha
      refine ⟨fun n hn => ?_, nofun, by decide, rfl⟩
      cases hn
      exact ⟨⟨'i', _, rfl, by unfold Letter Digit; decide, by unfold Letter Digit; decide⟩, by decide, by decide⟩
    intro b hb
    simp only [List.mem_cons, List.not_mem_nil, or_false] at hb
    rcases hb with rfl | rfl
    rotate_left
    · refine .discrete ⟨nofun, ?_, nofun⟩ (by decide) (by decide) (by decide)
        (hti _ (by decide +kernel) (by decide) (hso _ _ 'e' (by decide) rfl (by decide)))
      intro as has
      cases has
      refine ⟨_, _, rfl, Or.inr ⟨"discrete".toList, [], ⟨?_, by simp, by decide⟩, by decide, by decide⟩, nofun⟩
      unfold ShortWord Delim; decide
    refine .para (isProse_iff.mp (by decide +kernel)) ?_
    intro l hl
    rw [show splitChar '\n' "Text".toList = ["Text".toList] by decide, List.mem_singleton] at hl
    subst hl
    exact line_test rfl (by decide) (by decide) (by decide) ⟨'t', rfl, by decide⟩

end Adoc.Props
