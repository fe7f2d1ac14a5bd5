import Verif.Lemmas.Identified
import Verif.Lemmas.Parse
import Verif.Props.Section
/-!
# C76: which ids are generated for sections
-/

namespace Adoc.Props
open Adoc Adoc.Spec Span

variable [Uni] [LawfulUni]

/-- The id for a title is the one the rules of `IdFor` give, for every prefix, separator and title. -/
theorem C76_exact (pre sep title out : Text) : sectionId pre sep title = .ok out ↔ IdFor pre sep title out :=
  sectionId_iff

omit [Uni] [LawfulUni] in
/-- Non-vacuity: markup, an escaped tag, references and separators. -/
example : letI := asciiUni
    sectionId ['_'] ['_'] "A <b>C</b> -- d&#8217;e &lt;i&gt;. (F)".toList = .ok "_a_c_de_f".toList ∧
    sectionId [] "-+".toList " A (b) ".toList = .ok "a-b".toList ∧
    sectionId "id".toList [] "A-b. c".toList = .ok "idabc".toList := by
  decide +kernel

/-- With attributes: the prefix is the value of `idprefix`, the separator that of `idseparator`. -/
theorem C76_attributes (s : AttrStore) (title out : Text) : generateSectionId s title = .ok out ↔ IdOf s title out :=
  generateSectionId_iff

omit [Uni] [LawfulUni] in
private theorem refsAll_preamble {bs bs' : List Block} {src : Span} (h : withPreamble bs src = .ok bs') :
    refsAll bs' = refsAll bs := by
  rcases withPreamble_spec bs src with ⟨front, first, back, ⟨rfl, _⟩, hp⟩ | ⟨_, hp⟩
  · rw [hp] at h
    cases hpo : preambleOf front src with
    | error x => rw [hpo] at h; cases h
    | ok b =>
      rw [hpo] at h
      rw [← Except.ok.inj h]
      obtain ⟨s, rfl⟩ := preambleOf_shape hpo
      rw [refsAll_append, refsAll, refs]
      simp [ownRef, Block.kind]
  · rw [hp] at h
    rw [← Except.ok.inj h]

/-- Every section of a document, wherever it is nested, has the id `Identified` says: none if it has an id of its own or if
`sectids` is not set at its heading, and otherwise the id for its title as it is rendered, or, if a block in front of it or in
it has this id, the first free one of the id with `-2`, `-3`, ... at its end. -/
theorem C76_document {c : Config} {fuel : Nat} {p p' : ParserState} {text : Text} {d : Document} {map : SourceMap}
    (hp : p.catalog = none ∨ p.catalog = some Catalog.new) (h : c.parse fuel p text = .ok (d, map, p')) :
    ∃ store, BehindHeader c fuel p text store ∧
      ∀ pre b post l title t i n, preorderAll d.blocks = pre ++ b :: post → b.kind = .section l title t i n →
        Identified (refsAll d.blocks) (attrsBehind store pre) (attrsBehind store (pre ++ preorder b)) b title i := by
  obtain ⟨t, ht, hd⟩ := c.parse_parts h
  obtain ⟨mi, hw, store, bs, rest, ws, sw, q, k1, k2, k3, k4, k5, k6, k7, k8⟩ := document_run hd
  have hc : (p.fresh).catalog = some Catalog.new := by
    unfold ParserState.fresh
    rcases hp with hp | hp <;> simp [hp]
  have main := run_identified k2 ((header_aligned k1).of_lineSuf (discardEmptyLines_lineSuf mi.after)) Catalog.new [] hc
    knows_new []
  rw [List.nil_append, List.append_nil, ← refsAll_preamble k3] at main
  refine ⟨store, ⟨t, map, mi, hw, ht, k1⟩, fun pre b post l title ty i n he hk => ?_⟩
  have all : Everywhere (NamedIn (refsAll d.blocks)) store d.blocks := by
    rcases withPreamble_spec bs mi.after with ⟨front, first, back, ⟨rfl, _⟩, hp⟩ | ⟨_, hp⟩
    · rw [hp] at k3
      cases hq : preambleOf front mi.after with
      | error x => rw [hq] at k3; cases k3
      | ok x =>
        rw [hq] at k3
        obtain ⟨k, rfl⟩ := preambleOf_front hq
        have e1 : d.blocks = .mk .preamble (mi.after.takeN k) {} front :: first :: back := (Except.ok.inj k3).symm
        rw [e1] at main ⊢
        exact .cons (attrsBehind_skip (not_entry_mk (fun _ h => (by cases h))) _ _) rfl (fun _ _ _ _ _ h => by cases h)
          main.split.1 main.split.2
    · rw [hp] at k3
      injection k3 with k3
      rw [k3] at main
      exact main
  exact all pre b post he l title ty i n hk

/-- The ids generated for the sections of a document. -/
private def ids (bs : List Block) : List (Option Text) :=
  bs.filterMap fun b => match b.kind with
    | .section _ _ _ i _ => some i
    | _ => none

omit [Uni] [LawfulUni] in
/-- Non-vacuity: ids of their own, taken ids, other prefixes and separators, and no ids.  (The inner of two sections with
one title has the id, the outer one the number.) -/
example : letI := asciiUni
    parsed ((Config.default .checked).parse 80 .default
        "== A *b*\n\n== A b\n\n[#x]\n== C\n\n:!sectids:\n\n== D\n\n:sectids:\n:idprefix:\n:idseparator: -\n\n== E & F -- g\n\n=== E & F -- g.\n".toList)
      (fun d => ids (preorderAll d.blocks) ==
        [some "_a_b".toList, some "_a_b-2".toList, none, none, some "e-fg-2".toList, some "e-fg".toList]) = true := by
  decide +kernel

open Classical in
omit [LawfulUni] in
private theorem bared_words {t u : Text} (ht : Bared t u) : ∀ (n : Nat) (w : Text), w.length ≤ n → '<' ∉ w → '&' ∉ w →
    ((∀ c ∈ w.getLast?, ForId c) ∨ t = []) → Bared (w ++ t) (w.filter (fun c => decide (ForId c)) ++ u) := by
  intro n
  induction n with
  | zero =>
    intro w hn _ _ _
    rw [List.length_eq_zero_iff.mp (by omega : w.length = 0)]
    exact ht
  | succ n ih =>
    intro w hn h1 h2 hl
    cases w with
    | nil => exact ht
    | cons c w =>
      by_cases hc : ForId c
      · rw [List.filter_cons_of_pos (by simpa using hc)]
        refine .keep hc (ih w (by simpa using hn) (fun h => h1 (by simp [h])) (fun h => h2 (by simp [h])) ?_)
        rcases hl with hl | hl
        · cases w with
          | nil => exact Or.inl nofun
          | cons d w => exact Or.inl fun x hx => hl x (by rw [List.getLast?_cons_cons]; exact hx)
        · exact Or.inr hl
      · -- the run of characters that are not for ids
        let f : Char → Bool := fun c => !decide (ForId c)
        have hfc : f c = true := by simp [f, hc]
        have hsplit : c :: w = (c :: w).takeWhile f ++ (c :: w).dropWhile f := List.takeWhile_append_dropWhile.symm
        have hx : (c :: w).takeWhile f = c :: w.takeWhile f := by rw [List.takeWhile_cons, if_pos hfc]
        have hd : (c :: w).dropWhile f = w.dropWhile f := by rw [List.dropWhile_cons, if_pos hfc]
        have hall : ∀ x ∈ (c :: w).takeWhile f, ¬ ForId x := by
          intro x hx
          have := List.all_takeWhile (p := f) (l := c :: w)
          rw [List.all_eq_true] at this
          simpa [f] using this x hx
        have hrest : ∀ x, ((c :: w).dropWhile f).head? = some x → ForId x := by
          intro x hx
          have := List.head?_dropWhile_not f (c :: w)
          rw [hx] at this
          simpa [f] using this
        have hf : (c :: w).filter (fun c => decide (ForId c)) = ((c :: w).dropWhile f).filter (fun c => decide (ForId c)) := by
          conv => lhs; rw [hsplit]
          rw [List.filter_append, List.filter_eq_nil_iff.mpr (fun x hx => by simpa using hall x hx), List.nil_append]
        have hlen : ((c :: w).dropWhile f).length ≤ n := by
          rw [hd]
          have : (w.dropWhile f).length ≤ w.length := (List.dropWhile_sublist f).length_le
          simp only [List.length_cons] at hn
          omega
        have hmem : ∀ y, y ∉ c :: w → y ∉ (c :: w).dropWhile f := fun y hy h => hy ((List.dropWhile_sublist f).subset h)
        have hlast : (∀ x ∈ ((c :: w).dropWhile f).getLast?, ForId x) ∨ t = [] := by
          rcases hl with hl | hl
          · refine Or.inl fun x hx => hl x ?_
            rw [hsplit, List.getLast?_append, hx]
            rfl
          · exact Or.inr hl
        have main := ih _ hlen (hmem _ h1) (hmem _ h2) hlast
        have happ : c :: w ++ t = (c :: w).takeWhile f ++ ((c :: w).dropWhile f ++ t) := by rw [← List.append_assoc, ← hsplit]
        rw [hf, happ]
        refine .run (by rw [hx]; simp) ?_ hall ?_ main
        · rintro ⟨x, r, hm, e⟩
          rw [hx, List.cons_append] at e
          have hne : ∀ y z, x = y :: z → c = y := by
            rintro y z rfl
            exact (List.cons.inj e).1
          rcases hm with ⟨y, _, _, hy⟩ | ⟨y, _, hy⟩ | hy
          · exact h1 (by rw [hne '<' _ hy]; simp)
          · exact h2 (by rw [hne '&' _ hy]; simp)
          · cases hy with
            | name _ _ _ _ => exact h2 (by rw [hne '&' _ rfl]; simp)
            | decimal _ _ _ => exact h2 (by rw [hne '&' _ rfl]; simp)
            | hex _ _ _ => exact h2 (by rw [hne '&' _ rfl]; simp)
        · intro x hx'
          cases hdw : (c :: w).dropWhile f with
          | cons d r =>
            rw [hdw] at hx'
            exact hrest x (by rw [hdw]; exact hx')
          | nil =>
            -- then the last character is not for ids
            rw [hdw, List.append_nil] at hsplit
            rcases hl with hl | hl
            · exfalso
              have hg : (c :: w).getLast? = some ((c :: w).getLast nofun) := List.getLast?_eq_some_getLast _
              refine hall ((c :: w).getLast nofun) ?_ (hl _ hg)
              rw [← hsplit]
              exact List.getLast_mem _
            · rw [hdw, hl] at hx'
              cases hx'

private theorem charRef_plain {x t : Text} (h : IsCharRef x) (hne : x ≠ "&lt;".toList) : ¬ EscapedTagAhead (x ++ t) := by
  rintro ⟨y, r, ⟨z, _, rfl⟩, e⟩
  have hlen : 4 ≤ x.length := by
    cases h with
    | name h1 _ _ _ => simp; omega
    | decimal h1 _ _ => simp; omega
    | hex h1 _ _ => simp
  have h4 : x.take 4 = "&lt;".toList := by
    have := congrArg (List.take 4) e
    rw [List.take_append_of_le_length hlen] at this
    rw [this]
    rfl
  have key : ∀ a : Text, x = a ++ [';'] → ';' ∉ a → x = "&lt;".toList := by
    intro a ha hs
    have hx : x = "&lt;".toList ++ x.drop 4 := by rw [← h4, List.take_append_drop]
    by_cases hd : x.drop 4 = []
    · rw [hx, hd]; rfl
    · exfalso
      obtain ⟨l, b, hb⟩ : ∃ l b, x.drop 4 = l ++ [b] := ⟨_, _, (List.dropLast_concat_getLast hd).symm⟩
      rw [hb, ha, ← List.append_assoc] at hx
      have := (List.append_inj' hx rfl).1
      exact hs (by rw [this]; simp)
  refine hne ?_
  cases h with
  | @name a d _ h2 _ h5 =>
    refine key ('&' :: a ++ d) rfl ?_
    simp only [List.cons_append, List.mem_cons, List.mem_append]
    rintro (h | h | h)
    · revert h; decide
    · have := (h2 _ h).1; revert this; decide
    · have := h5 _ h
      rw [LawfulUni.nd ';' (by decide)] at this
      revert this; decide
  | decimal _ _ _ => cases h4
  | hex _ _ _ => cases h4

open Classical in
private theorem bared_pieces {ps : List (Text × Text)} {last : Text} (h : ∀ p ∈ ps, ('<' ∉ p.1 ∧ '&' ∉ p.1) ∧
      (∀ c ∈ p.1.getLast?, ForId c) ∧ (p.2 = [] ∨ IsTag p.2 ∨ IsCharRef p.2 ∧ p.2 ≠ "&lt;".toList)) (hl : '<' ∉ last ∧ '&' ∉ last) :
    Bared (ps.flatMap (fun p => p.1 ++ p.2) ++ last) ((ps.flatMap Prod.fst ++ last).filter fun c => decide (ForId c)) := by
  induction ps with
  | nil =>
    have := bared_words .nil last.length last (Nat.le_refl _) hl.1 hl.2 (Or.inr rfl)
    simpa using this
  | cons p ps ih =>
    obtain ⟨⟨h1, h2⟩, h3, h4⟩ := h p (by simp)
    have ih := ih fun q hq => h q (List.mem_cons_of_mem _ hq)
    rw [List.flatMap_cons, List.flatMap_cons, List.append_assoc, List.append_assoc, List.append_assoc, List.filter_append]
    refine bared_words ?_ p.1.length p.1 (Nat.le_refl _) h1 h2 (Or.inl h3)
    rcases h4 with h4 | h4 | ⟨h4, h5⟩
    · rw [h4]; exact ih
    · exact .tag h4 ih
    · exact .charRef h4 (charRef_plain h4 h5) ih

/-- Titles of which the same is left have the same id. -/
private theorem same_id {pre sep title plain g : Text} (e1 : Bared (Uni.toLowercase title) g)
    (e2 : Bared (Uni.toLowercase plain) g) : sectionId pre sep title = sectionId pre sep plain := by
  obtain ⟨body, hb, _⟩ := C20_well_formed pre sep plain
  rw [hb]
  rw [sectionId_iff] at hb ⊢
  generalize pre ++ body = out at hb
  cases hb with
  | joined hg =>
    cases bared_unique hg e2
    exact .joined e1
  | separate hg hu hp =>
    cases bared_unique hg e2
    exact .separate e1 hu hp
  | bare hg hu hp hv =>
    cases bared_unique hg e2
    exact .bare e1 hu hp hv

/-- The markup of a title does not show in its id: words and the same words with tags and character references between them have the
same id, if none of these stands right behind a character that is not for ids.
Missing: titles with such a character right in front of a tag (`C76_leak`). -/
theorem C76_markup_partial (pre sep : Text) {title plain : Text} (ps : List (Text × Text)) (last : Text)
    (h : ∀ p ∈ ps, ('<' ∉ p.1 ∧ '&' ∉ p.1) ∧ (∀ c ∈ p.1.getLast?, ForId c) ∧
      (IsTag p.2 ∨ IsCharRef p.2 ∧ p.2 ≠ "&lt;".toList)) (hl : '<' ∉ last ∧ '&' ∉ last)
    (h1 : Uni.toLowercase title = ps.flatMap (fun p => p.1 ++ p.2) ++ last)
    (h2 : Uni.toLowercase plain = ps.flatMap Prod.fst ++ last) :
    sectionId pre sep title = sectionId pre sep plain := by
  have e1 := bared_pieces (last := last) (fun p hp => ⟨(h p hp).1, (h p hp).2.1, Or.inr (h p hp).2.2⟩) hl
  have e2 := bared_pieces (ps := ps.map fun p => (p.1, [])) (last := last) (by
    intro p hp
    obtain ⟨q, hq, rfl⟩ := List.mem_map.mp hp
    exact ⟨(h q hq).1, (h q hq).2.1, .inl rfl⟩) hl
  rw [← h1] at e1
  have e3 : (ps.map fun p => (p.1, ([] : Text))).flatMap (fun p => p.1 ++ p.2) = ps.flatMap Prod.fst := by
    simp [List.flatMap_map]
  have e4 : (ps.map fun p => (p.1, ([] : Text))).flatMap Prod.fst = ps.flatMap Prod.fst := by
    simp [List.flatMap_map]
  rw [e3, e4] at e2
  exact same_id e1 (by rw [h2]; exact e2)

omit [Uni] [LawfulUni] in
/-- Non-vacuity: the title `(A) *B*'s C!`. -/
example : letI := asciiUni
    let ps := [("(a) ".toList, "<strong>".toList), (['b'], "</strong>".toList), ([], "&#8217;".toList)]
    (∀ p ∈ ps, ('<' ∉ p.1 ∧ '&' ∉ p.1) ∧ (∀ c ∈ p.1.getLast?, ForId c) ∧
      (IsTag p.2 ∨ IsCharRef p.2 ∧ p.2 ≠ "&lt;".toList)) ∧
    Uni.toLowercase "(A) <strong>B</strong>&#8217;s C!".toList = ps.flatMap (fun p => p.1 ++ p.2) ++ "s c!".toList ∧
    Uni.toLowercase "(A) Bs C!".toList = ps.flatMap Prod.fst ++ "s c!".toList := by
  letI := asciiUni
  refine ⟨?_, by decide, by decide⟩
  intro p hp
  simp only [List.mem_cons, List.not_mem_nil, or_false] at hp
  rcases hp with rfl | rfl | rfl
  · exact ⟨by decide, by unfold ForId; decide, .inl ⟨"strong".toList, by decide, by decide, by decide⟩⟩
  · exact ⟨by decide, by unfold ForId; decide, .inl ⟨"/strong".toList, by decide, by decide, by decide⟩⟩
  · exact ⟨by decide, nofun, .inr ⟨.decimal (d := "8217".toList) (by decide) (by decide) (by decide), by decide⟩⟩

/-- C76, why only partially: behind characters that are not for ids (`x`) a tag always shows; the title has the id of the title with
what is in the tag, and with the rest of the tag, as text. -/
theorem C76_leaks (pre sep : Text) {title shown w x y r : Text} {c d : Char} (hw : '<' ∉ w ∧ '&' ∉ w)
    (hl : ∀ c ∈ w.getLast?, ForId c) (hc : c ≠ '<' ∧ c ≠ '&') (hx : ∀ a ∈ c :: x, ¬ ForId a) (hd : ForId d)
    (h1 : Uni.toLowercase title = w ++ (c :: x ++ '<' :: (d :: y ++ r)))
    (h2 : Uni.toLowercase shown = w ++ (d :: y ++ r)) : sectionId pre sep title = sectionId pre sep shown := by
  obtain ⟨g, hg⟩ := Re.replaceAll_total (re := invalidSectionIdRe) (rep := fun _ => .ok [])
    (fun _ _ _ _ _ => ⟨[], rfl⟩) (d :: y ++ r)
  have hb := replaced_bared (Re.replaceAll_ok hg)
  have hlt : ¬ ForId '<' := by
    unfold ForId
    rw [LawfulUni.word '<' (by decide)]
    decide
  have hrun : Bared (c :: x ++ '<' :: (d :: y ++ r)) g := by
    rw [show c :: x ++ '<' :: (d :: y ++ r) = (c :: x ++ ['<']) ++ (d :: y ++ r) by simp]
    refine .run (by simp) ?_ ?_ (fun a ha => by cases ha; exact hd) hb
    · rintro ⟨z, r', hm, e⟩
      have hne : ∀ a b, z = a :: b → c = a := by
        rintro a b rfl
        exact (List.cons.inj e).1
      rcases hm with ⟨v, _, _, hv⟩ | ⟨v, _, hv⟩ | hv
      · exact hc.1 (hne '<' _ hv)
      · exact hc.2 (hne '&' _ hv)
      · cases hv with
        | name _ _ _ _ => exact hc.2 (hne '&' _ rfl)
        | decimal _ _ _ => exact hc.2 (hne '&' _ rfl)
        | hex _ _ _ => exact hc.2 (hne '&' _ rfl)
    · intro a ha
      rcases List.mem_append.mp ha with ha | ha
      · exact hx a ha
      · rw [List.mem_singleton.mp ha]; exact hlt
  have e1 := bared_words hrun w.length w (Nat.le_refl _) hw.1 hw.2 (Or.inl hl)
  have e2 := bared_words hb w.length w (Nat.le_refl _) hw.1 hw.2 (Or.inl hl)
  rw [← h1] at e1
  rw [← h2] at e2
  exact same_id e1 e2

omit [Uni] [LawfulUni] in
/-- Non-vacuity: the title `A (*b*)` has the id of one with the text `strong>b`. -/
example : letI := asciiUni
    ∃ w x y r c d, ('<' ∉ w ∧ '&' ∉ w) ∧ (∀ c ∈ w.getLast?, ForId c) ∧ (c ≠ '<' ∧ c ≠ '&') ∧ (∀ a ∈ c :: x, ¬ ForId a) ∧ ForId d ∧
      Uni.toLowercase "A (<strong>b</strong>)".toList = w ++ (c :: x ++ '<' :: (d :: y ++ r)) ∧
      Uni.toLowercase "A strong>b</strong>)".toList = w ++ (d :: y ++ r) := by
  letI := asciiUni
  refine ⟨"a ".toList, [], "trong".toList, ">b</strong>)".toList, '(', 's', by decide, ?_, by decide, ?_, ?_, by decide, by decide⟩ <;>
    unfold ForId <;> decide

omit [Uni] [LawfulUni] in
/-- The code: the markup shows when a bracket or another sign stands in front of it: the id for `A (*b*)` is `_a_strongb`. -/
theorem C76_leak : letI := asciiUni
    parsed ((Config.default .checked).parse 60 .default "== A (*b*)\n\n== A b\n".toList)
      (fun d => ids (preorderAll d.blocks) == [some "_a_strongb".toList, some "_a_b".toList]) = true := by
  decide +kernel

end Adoc.Props
