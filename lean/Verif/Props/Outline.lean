import Verif.Lemmas.OutlineLoop
import Verif.Lemmas.Forest
import Verif.Props.HeaderComplete
import Verif.Props.Preprocessor
/-!
# C62: documents written from an outline
-/

namespace Adoc.Props
open Adoc Span Spec

variable [Uni]

/-! ### The pieces -/

omit [Uni] in
private theorem shows_kind {R : Rendering} {as : Option (List ElemAttr)} {f : Meta} {l : Leaf} {b : Block}
    (h : ShowsOne R as f l b) : (IsSection b ↔ l.isDiscrete = true) ∧ ¬ IsEntry b := by
  have other : ∀ {as : Option (List ElemAttr)} {f : Meta} {l : Leaf} {b : Block}, (∀ label l', l ≠ .labelled label l') →
      ShowsOne R as f l b → (IsSection b ↔ l.isDiscrete = true) ∧ ¬ IsEntry b := by
    intro as f l b hl h
    cases h with
    | labelled _ _ _ _ _ => exact absurd rfl (hl _ _)
    | discrete => exact ⟨⟨fun _ => rfl, fun _ => ⟨_, _, _, _, _, rfl⟩⟩, by rintro ⟨a, h⟩; cases h⟩
    | _ => exact ⟨⟨(by rintro ⟨l, t, ty, i, n, h⟩; cases h), nofun⟩, (by rintro ⟨a, h⟩; cases h)⟩
  by_cases hl : ∀ label l', l ≠ .labelled label l'
  · exact other hl h
  · cases h with
    | labelled _ _ _ h1 h2 => rw [Leaf.isDiscrete]; exact other h1 h2
    | _ => exact absurd (fun label y he => by cases he) hl

omit [Uni] in
private theorem shows_kinds {R : Rendering} {ls : List Leaf} : ∀ {bs : List Block}, Shows R ls bs →
    (∀ b ∈ bs, ¬ IsEntry b) ∧ (ls = [] ↔ bs = []) ∧ ((∀ l ∈ ls, l.isDiscrete = false) → ∀ b ∈ bs, ¬ IsSection b) ∧
      ((∀ l ∈ ls.head?, l.isDiscrete = true) → ∀ b ∈ bs.head?, IsSection b) := by
  induction ls with
  | nil => intro bs h; cases h; simp
  | cons l ls ih =>
    intro bs h
    cases h with
    | cons h1 h2 =>
      obtain ⟨k1, k2⟩ := shows_kind h1
      obtain ⟨i1, _, i3, _⟩ := ih h2
      refine ⟨?_, by simp, ?_, ?_⟩
      · rintro b (_ | ⟨_, hb⟩)
        · exact k2
        · exact i1 b hb
      · rintro hn b (_ | ⟨_, hb⟩)
        · rw [k1, hn l (by simp)]; nofun
        · exact i3 (fun l hl => hn l (List.mem_cons_of_mem _ hl)) b hb
      · intro hh b hb
        cases hb
        exact k1.mpr (hh l rfl)

omit [Uni] in
private theorem shows_append {R : Rendering} : ∀ {a b : List Leaf} {bs : List Block}, Shows R (a ++ b) bs →
    ∃ xs ys, bs = xs ++ ys ∧ Shows R a xs ∧ Shows R b ys
  | [], _, bs, h => ⟨[], bs, rfl, .nil, h⟩
  | _ :: _, _, _, h => by
    cases h with
    | cons h1 h2 =>
      obtain ⟨xs, ys, rfl, h3, h4⟩ := shows_append h2
      exact ⟨_ :: xs, ys, rfl, .cons h1 h3, h4⟩

omit [Uni] in
private theorem leaves_split : ∀ ls : List Leaf, ∃ front rest, ls = front ++ rest ∧ (∀ l ∈ front, l.isDiscrete = false) ∧
    ∀ l ∈ rest.head?, l.isDiscrete = true
  | [] => ⟨[], [], rfl, nofun, nofun⟩
  | l :: ls => by
    cases h : l.isDiscrete with
    | true => exact ⟨[], l :: ls, rfl, nofun, fun x hx => by cases hx; exact h⟩
    | false =>
      obtain ⟨front, rest, rfl, h1, h2⟩ := leaves_split ls
      refine ⟨l :: front, rest, rfl, ?_, h2⟩
      rintro x (_ | ⟨_, hx⟩)
      · exact h
      · exact h1 x hx

omit [Uni] in
private theorem sections_kinds {R : Rendering} {n : Nat} {ty : SectionType} {secs : List Sec} {ss : List Block}
    (h : SectionsShow R n ty secs ss) :
    (∀ b ∈ ss, IsSection b) ∧ (secs = [] ↔ ss = []) := by
  induction h with
  | nil => simp
  | cons _ _ _ _ _ _ _ ih => exact ⟨by
      rintro b (_ | ⟨_, hb⟩)
      · exact ⟨_, _, _, _, _, rfl⟩
      · exact ih.1 b hb, by simp⟩

private theorem raw_groups (fuel : Nat) (r : Renderer) (sep : Char) (store : AttrStore) (c : Char) (t : Text) :
    ∃ out, ∀ al, substitutions (fuel + 1) r sep store (rawBlockKind c).2.2 al t = .ok out := by
  have key : ∀ g : Group, g = .pass ∨ g = .none ∨ g = .verbatim →
      ∃ out, ∀ al, substitutions (fuel + 1) r sep store g al t = .ok out := by
    rintro g (rfl | rfl | rfl)
    · refine ⟨t, fun al => ?_⟩
      unfold substitutions
      rw [Group.apply]
      rfl
    · refine ⟨t, fun al => ?_⟩
      unfold substitutions
      rw [Group.apply]
      rfl
    · obtain ⟨out, ho⟩ : ∃ out, substitutions (fuel + 1) r sep store .verbatim none t = .ok out := by
        unfold substitutions
        rw [Group.apply]
        exact ⟨_, by rw [if_neg (by decide)]; simp only [Group.steps, applySteps, Step.apply, applySpecialCharacters_eq]; rfl⟩
      refine ⟨out, fun al => Eq.trans ?_ ho⟩
      unfold substitutions
      rw [Group.apply, Group.apply]
      rfl
  refine key _ ?_
  unfold rawBlockKind
  split
  · first | exact Or.inl rfl | exact Or.inr (Or.inl rfl) | exact Or.inr (Or.inr rfl)
  · split
    · first | exact Or.inl rfl | exact Or.inr (Or.inl rfl) | exact Or.inr (Or.inr rfl)
    · split
      · first | exact Or.inl rfl | exact Or.inr (Or.inl rfl) | exact Or.inr (Or.inr rfl)
      · first | exact Or.inl rfl | exact Or.inr (Or.inl rfl) | exact Or.inr (Or.inr rfl)

omit [Uni] in
private theorem first_unique {P : Block → Prop} {a b a' b' : List Block} {x x' : Block}
    (h : a ++ x :: b = a' ++ x' :: b') (h1 : ∀ y ∈ a, ¬ P y) (h2 : P x) (h3 : ∀ y ∈ a', ¬ P y) (h4 : P x') :
    a = a' ∧ x = x' ∧ b = b' := by
  induction a generalizing a' with
  | nil =>
    cases a' with
    | nil => cases h; exact ⟨rfl, rfl, rfl⟩
    | cons y a' => cases h; exact absurd h2 (h3 _ (by simp))
  | cons y a ih =>
    cases a' with
    | nil => cases h; exact absurd h4 (h1 _ (by simp))
    | cons z a' =>
      rw [List.cons_append, List.cons_append, List.cons.injEq] at h
      obtain ⟨rfl, h⟩ := h
      obtain ⟨rfl, rfl, rfl⟩ := ih h (fun y hy => h1 y (List.mem_cons_of_mem _ hy)) fun y hy => h3 y (List.mem_cons_of_mem _ hy)
      exact ⟨rfl, rfl, rfl⟩

omit [Uni] in
theorem _root_.Adoc.lines_length (t : Text) : (lines t).length ≤ t.length := by
  have hs : ∀ t : Text, (splitChar '\n' t).length ≤ t.length + 1 := by
    intro t
    induction t with
    | nil => simp [splitChar]
    | cons c t ih =>
      rw [splitChar]
      split
      · simpa using ih
      · cases hx : splitChar '\n' t with
        | nil => simp
        | cons y ys => rw [hx] at ih; simp only [List.length_cons] at ih ⊢; omega
  unfold lines rawLines
  rw [List.length_map]
  split
  · have := hs t; rw [List.length_dropLast]; omega
  · rename_i h
    induction t with
    | nil => exact absurd (by decide) h
    | cons c t ih =>
      rw [splitChar] at h ⊢
      split
      · rename_i hc
        rw [if_pos hc] at h
        have : (splitChar '\n' t).getLast? ≠ some [] := by
          intro h'
          apply h
          cases hx : splitChar '\n' t with
          | nil => rw [hx] at h'; cases h'
          | cons y ys => rw [hx] at h'; rw [List.getLast?_cons_cons]; exact h'
        have := ih this
        simpa using this
      · rename_i hc
        rw [if_neg hc] at h
        have := hs t
        cases hx : splitChar '\n' t with
        | nil => simp
        | cons y ys => rw [hx] at this; simpa using this

private theorem preamble_shows {R : Rendering} {leaves : List Leaf} {secs : List Sec} {bs ss out : List Block} {src : Span}
    (h1 : Shows R leaves bs) (h2 : SectionsShow R 1 .normal secs ss) (h : withPreamble (bs ++ ss) src = .ok out) :
    DocumentShows R leaves secs out := by
  obtain ⟨b1, b2⟩ := sections_kinds h2
  obtain ⟨front, rest, rfl, hf, hr⟩ := leaves_split leaves
  obtain ⟨xs, ys, rfl, hx, hy⟩ := shows_append h1
  obtain ⟨x1, x2, x3, _⟩ := shows_kinds hx
  obtain ⟨_, y2, _, y4⟩ := shows_kinds hy
  replace x3 := x3 hf
  have htail : ∀ b ∈ (ys ++ ss).head?, IsSection b := by
    intro b hb
    cases ys with
    | cons y ys => cases hb; exact y4 hr _ rfl
    | nil =>
      cases ss with
      | nil => cases hb
      | cons s ss => cases hb; exact b1 _ (by simp)
  have hnil : ys ++ ss = [] ↔ rest = [] ∧ secs = [] := by rw [List.append_eq_nil_iff, y2, b2]
  rw [List.append_assoc] at h
  have plain : (front = [] ∨ rest = [] ∧ secs = []) → out = xs ++ (ys ++ ss) → DocumentShows R (front ++ rest) secs out := by
    rintro h3 rfl
    rw [← List.append_assoc]
    exact .plain hf hr h3 h1 h2
  generalize htl : ys ++ ss = tail at h htail hnil
  rcases withPreamble_spec (xs ++ tail) src with ⟨front', first, back, ⟨he, hs, hn, y, hy', hye⟩, hw⟩ | ⟨hno, hw⟩
  · cases tail with
    | nil =>
      rw [List.append_nil] at he
      exact absurd hs (x3 first (by rw [he]; simp))
    | cons t tail =>
      obtain ⟨rfl, rfl, rfl⟩ := first_unique he x3 (htail t rfl) hn hs
      rw [hw] at h
      cases hp : preambleOf xs src with
      | error x => rw [hp] at h; cases h
      | ok q =>
        rw [hp] at h
        obtain ⟨v, rfl⟩ := preambleOf_shape hp
        cases h
        rw [← htl]
        refine .preamble hf hr ?_ ?_ hx hy h2
        · intro h0; rw [x2.mp h0] at hy'; cases hy'
        · by_cases hr0 : rest = []
          · exact Or.inr fun hs0 => absurd (hnil.mpr ⟨hr0, hs0⟩) (by simp)
          · exact Or.inl hr0
  · rw [hw] at h
    cases h
    refine plain ?_ (by rw [htl])
    by_cases hx0 : xs = []
    · exact Or.inl (x2.mpr hx0)
    · cases tail with
      | nil => exact Or.inr (hnil.mp rfl)
      | cons t tail =>
        obtain ⟨x, xs', rfl⟩ := List.exists_cons_of_ne_nil hx0
        exact absurd ⟨_, t, tail, rfl, htail t rfl, x3, x, by simp, x1 x (by simp)⟩ hno

/-- C62. Whoever writes a document by the rules gets what they wrote: if the text consists of a header with the lines `hls` and
a body in which the lines stand for some blocks and then for sections (`Layout`), the document is parsed, it shows these blocks
and sections with their text rendered by the attributes of the header, its header shows what the header lines say, and the
warnings are those about the end of the header and locked attributes, and then, apart from warnings that a given id is used
already, one for every first subsection of a section that is more than one level deeper.  (An outline with its text: `C62_roundtrip`.) -/
theorem C62_outline {c : Config} {fuel : Nat} {p : ParserState} {text rest body : Text} {hls : List HLine} {stage : Stage}
    {store : AttrStore} {leaves : List Leaf} {secs : List Sec} {tokens : List Token} (hc : c.primary = none)
    (hd : ∀ l ∈ splitChar '\n' text, (¬ ∃ r, l = "include::".toList ++ r) ∧ ¬ ∃ r, l = "if".toList ++ r)
    (hp : p.num.topmost = .normal) (hf : text.length < fuel)
    (h1 : HeaderReads .start text hls stage rest) (h2 : SkipEmpty rest body)
    (h3 : HeaderEffect (fun s t => (c.env fuel).subs s .header none t) c.renderer p.store hls store)
    (h4 : Flat 1 5 secs tokens) (h5 : Layout (renders (c.env fuel) store) true (leaves.map .leaf ++ tokens) (lines body)) :
    ∃ d p', c.parse fuel p text = .ok (d, [], p') ∧ DocumentShows (renders (c.env fuel) store) leaves secs d.blocks ∧
      HeaderShows (fun s t => (c.env fuel).subs s .header none t) c.renderer p.store hls (contentsOf d.header) ∧
      ∃ hw ws, d.warnings.map Warning.warning = hw ++ ws ∧
        Apart (Leaf.allIds leaves ++ Sec.allIds secs) ws (Sec.allSkips 1 secs) ∧
        ∀ w ∈ hw, (w = .documentHeaderNotTerminated ∧ stage = .revised) ∨
          (∃ n, w = .attributeValueIsLocked n) ∧ ∃ n k, HLine.entry n k ∈ hls := by
  obtain ⟨mi, hw, hm⟩ := C47_complete (source := Span.new text) h1 h3
  obtain ⟨ls', st', rest', g1, g2, _, _, _, _, _, _, gw, _⟩ := C47_reads hm
  obtain ⟨rfl, rfl, rfl⟩ := g1.det h1
  have hb := g2.det h2
  have hlay := h5
  rw [← hb] at hlay
  obtain ⟨ls', st', rest', g4, g5⟩ := C47_contents hm
  obtain ⟨rfl, rfl, rfl⟩ := g4.det h1
  obtain ⟨ls', st', rest', g6, g7⟩ := C47_quiet hm
  obtain ⟨rfl, rfl, rfl⟩ := g6.det h1
  obtain ⟨f, rfl⟩ : ∃ f, fuel = f + 1 := ⟨fuel - 1, by omega⟩
  have hlen : (lines mi.after.discardEmptyLines.data).length < f + 1 := by
    obtain ⟨k, _, hk⟩ := (discardEmptyLines_suf mi.after).trans (header_suf hm)
    have h5 := lines_length mi.after.discardEmptyLines.data
    rw [hk, dropN_data, List.length_drop] at h5
    rw [hk]
    have h6 : (Span.new text).data = text := rfl
    rw [h6] at h5
    rw [dropN_data, h6]
    omega
  have hal : Aligned mi.after.discardEmptyLines := (header_aligned hm).of_lineSuf (discardEmptyLines_lineSuf _)
  have hv := fun ch t => raw_groups f c.renderer c.sep store ch t
  obtain ⟨bs, s1, n1, p1, wsl, k1, k2, k3, k4, k5, k7, k6⟩ := leaves_loop (e := c.env (f + 1)) (store := store) hv (f + 1) leaves tokens
    mi.after.discardEmptyLines .never [] [] [] { p.fresh with store := store, sectnumlevels := sectnumlevelsOf store } rfl
    (Or.inl rfl) hal (by rw [lines_discardEmptyLines]; exact layout_drop hlay) hlen
  obtain ⟨ss, s2, p2, ws2, sw2, m1, m2, m3, m4, m5, mw, msw, m6⟩ := sections_loop (e := c.env (f + 1)) (store := store) hv h4 n1 [] s1 .never bs
    wsl [] p1 .normal (k7.still ⟨rfl, hp⟩) (fun _ => rfl) (Or.inl ⟨rfl, rfl⟩)
    (hal.of_lineSuf k3) (by rw [List.append_nil]; exact k2) k4
  rw [List.nil_append, List.nil_append, m6] at k6
  have hrun := parseBlocksUntil_run (source := mi.after) k6
  obtain ⟨out, ho⟩ := withPreamble_total hrun
  refine ⟨⟨mi.item, out, (Span.new text).trimTrailingWhitespace, hw ++ (wsl ++ ws2), p2.catalog⟩, { p2 with catalog := none }, ?_,
    preamble_shows k1 m1 ho, g5, hw.map Warning.warning, (wsl ++ ws2).map Warning.warning, by rw [List.map_append], ?_, ?_⟩
  · unfold Config.parse parseDocument
    rw [hc, C12_untouched hd]
    simp only [bind, Except.bind]
    unfold Document.parse parseBlocksUntil
    simp only [bind, Except.bind]
    have e : p.fresh.store = p.store := rfl
    rw [e, hm]
    simp only [k6, ho, List.nil_append]
  · rw [List.map_append]
    exact apart_append (apart_warned k7.warned) mw
  · intro w' hw0
    obtain ⟨w, hw', rfl⟩ := List.mem_map.mp hw0
    rcases (C47_warnings hm w hw').2 with h | h
    · exact Or.inl ⟨h, (gw w hw' h).1⟩
    · refine Or.inr ⟨h, Classical.byContradiction fun hn => ?_⟩
      have := g7 (fun n k hk => hn ⟨n, k, hk⟩) w hw'
      obtain ⟨n, h⟩ := h
      rw [h] at this
      cases this

omit [Uni] in
/-- C62. Headings and blocks can be written in any order: there is one outline, and only one, that is written like this. -/
theorem C62_forest {ts : List Token} (h : ∀ n t lab, Token.heading n t lab ∈ ts → 1 ≤ n ∧ n ≤ 5) :
    ∃ (leaves : List Leaf) (secs : List Sec) (tokens : List Token), ts = leaves.map .leaf ++ tokens ∧ Flat 1 5 secs tokens ∧
      ∀ (leaves' : List Leaf) secs' tokens', ts = leaves'.map .leaf ++ tokens' → Flat 1 5 secs' tokens' → leaves' = leaves ∧ secs' = secs := by
  obtain ⟨leaves, rest, rfl, hr⟩ := leaves_first ts
  obtain ⟨secs, ps, qs, rfl, hf, hb⟩ := forest_exists rest.length 1 5 rest (Nat.le_refl _)
    (fun m t lab hm => (h m t lab (by simp [hm])).2) (by
      intro x qs e
      obtain ⟨m, t, lab, rfl⟩ := hr x qs e
      exact ⟨m, t, lab, rfl, by have := (h m t lab (by rw [e]; simp)).2; omega⟩)
  have hq : qs = [] := by
    cases qs with
    | nil => rfl
    | cons x qs =>
      obtain ⟨m, t, lab, rfl, hm⟩ := hb _ _ rfl
      have := (h m t lab (by simp)).1
      omega
  subst hq
  rw [List.append_nil] at hr ⊢
  have hnil : Behind 1 [] := nofun
  refine ⟨leaves, secs, ps, rfl, hf, fun leaves' secs' tokens' e hf' => ?_⟩
  obtain ⟨e1, e2⟩ := leaves_unique e hr (by simpa using headed_flat hf' hnil)
  subst e2
  obtain ⟨e3, _⟩ := forest_unique hf hf' rfl hnil hnil
  exact ⟨e1.symm, e3.symm⟩

omit [Uni] in
private theorem layout_levels {R : Rendering} : ∀ {ts : List Token} {ls : List Text}, Layout R false ts ls →
    ∀ n t lab, Token.heading n t lab ∈ ts → 1 ≤ n ∧ n ≤ 5
  | [], _, _, _, _, _, hm => by cases hm
  | x :: ts, ls, h, n, t, lab, hm => by
    obtain ⟨k, ls', rest, b, _, htk, hrest⟩ := layout_strip h
    rcases List.mem_cons.mp hm with rfl | hm
    · cases htk with
      | heading _ hh _ => exact ⟨hh.1, hh.2.1⟩
    · exact layout_levels (layout_drop hrest) n t lab hm

/-- C62. So every document whose lines stand for headings and blocks, in whatever order, is parsed, and its blocks and sections
are those of the one outline that is written in this order. -/
theorem C62_any_order {c : Config} {fuel : Nat} {p : ParserState} {text rest body : Text} {hls : List HLine} {stage : Stage}
    {store : AttrStore} {ts : List Token} (hc : c.primary = none)
    (hd : ∀ l ∈ splitChar '\n' text, (¬ ∃ r, l = "include::".toList ++ r) ∧ ¬ ∃ r, l = "if".toList ++ r)
    (hp : p.num.topmost = .normal) (hf : text.length < fuel)
    (h1 : HeaderReads .start text hls stage rest) (h2 : SkipEmpty rest body)
    (h3 : HeaderEffect (fun s t => (c.env fuel).subs s .header none t) c.renderer p.store hls store)
    (h5 : Layout (renders (c.env fuel) store) true ts (lines body)) :
    ∃ d p', ∃ (leaves : List Leaf) (secs : List Sec) (tokens : List Token), ts = leaves.map .leaf ++ tokens ∧ Flat 1 5 secs tokens ∧
      c.parse fuel p text = .ok (d, [], p') ∧ DocumentShows (renders (c.env fuel) store) leaves secs d.blocks := by
  obtain ⟨leaves, secs, tokens, rfl, g1, _⟩ := C62_forest (layout_levels (layout_drop h5))
  obtain ⟨d, p', g2, g3, _⟩ := C62_outline hc hd hp hf h1 h2 h3 g1 h5
  exact ⟨d, p', leaves, secs, tokens, rfl, g1, g2, g3⟩

omit [Uni] in
/-- Headings of levels 3, 1, 4, 2 and 1: levels are skipped in front of the first and of the third. -/
example : Flat 1 5
    [.mk ['a'] [] [] {} 2, .mk ['b'] [.brk .page] [.mk ['c'] [] [] {} 2, .mk ['d'] [] []], .mk ['e'] [] []]
    [.heading 3 ['a'], .heading 1 ['b'], .leaf (.brk .page), .heading 4 ['c'], .heading 2 ['d'], .heading 1 ['e']] ∧
    Sec.allSkips 1 [.mk ['a'] [] [] {} 2, .mk ['b'] [.brk .page] [.mk ['c'] [] [] {} 2, .mk ['d'] [] []], .mk ['e'] [] []] =
      [.sectionHeadingLevelSkipped 1 4] := by
  refine ⟨?_, by simp [Sec.allSkips, Sec.skips, firstSkip]⟩
  exact .cons (ps := []) (by decide) .nil (.cons (ps := [.heading 4 ['c'], .heading 2 ['d']]) (by decide)
    (.cons (ps := []) (by decide) .nil (.cons (ps := []) (qs := []) (by decide) .nil .nil))
    (.cons (ps := []) (qs := []) (by decide) .nil .nil))

end Adoc.Props
