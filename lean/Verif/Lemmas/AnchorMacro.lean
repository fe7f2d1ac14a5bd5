import Verif.Lemmas.LinkMacro
/-!
# Anchors against their specification
-/

namespace Adoc
open Adoc.Spec Re
variable [Uni]

theorem m_anchorId {n : Nat} {k : RS → Option RS} {s z : RS} (h : m (anchorIdRe n) k s = some z) :
    ∃ id r, s.rest = id ++ r ∧ AnchorId id ∧ k ⟨prevAfter s.prev id, r, (n, id) :: s.caps⟩ = some z := by
  rw [anchorIdRe, m_cap] at h
  simp only [cat] at h
  rw [m_seq] at h
  obtain ⟨c, r, e, hc, h1⟩ := m_cls_some h
  obtain ⟨b, r1, e1, hb, h2, _⟩ := m_star_greedy h1
  simp only at e1
  subst e1
  have htk := take_used (c :: b) r1
  rw [List.cons_append] at htk
  simp only [e, htk] at h2
  refine ⟨c :: b, r1, by rw [e]; rfl, ⟨c, b, rfl, by simpa [or_assoc] using hc, ?_⟩, by rw [prevAfter_cons]; exact h2⟩
  intro d hd
  simpa [or_assoc] using hb d hd

theorem anchorId_rel {n : Nat} {id : Text} (h : AnchorId id) (pv : Option Char) (r : Text) (caps : List (Nat × Text)) :
    Rel (anchorIdRe n) ⟨pv, id ++ r, caps⟩ ⟨prevAfter pv id, r, (n, id) :: caps⟩ := by
  obtain ⟨c, b, rfl, hc, hb⟩ := h
  refine rel_cap_iff.mpr ⟨⟨prevAfter pv (c :: b), r, caps⟩, c :: b, ?_, rfl, rfl⟩
  simp only [cat]
  refine rel_seq_iff.mpr ⟨⟨some c, b ++ r, caps⟩, rel_cls_iff.mpr ⟨c, _, rfl, by simpa [or_assoc] using hc, rfl⟩,
    rel_star_cls_iff.mpr ⟨b, r, rfl, fun d hd => by simpa [or_assoc] using hb d hd, by rw [prevAfter_cons]⟩⟩

theorem anchorId_char [LawfulUni] {id : Text} (h : AnchorId id) {c : Char} (hc : c.toNat < 128) (hn : isAsciiAlpha c = false)
    (hd : isAsciiDigit c = false) (hs : c ∉ ['_', '-', ':', '.']) : c ∉ id := by
  obtain ⟨d, b, rfl, h1, h2⟩ := h
  have ha : Uni.isAlphabetic c = false := by rw [LawfulUni.alpha _ hc]; exact hn
  have hnd : Uni.isNd c = false := by rw [LawfulUni.nd _ (by omega)]; exact hd
  intro hm
  rcases List.mem_cons.mp hm with rfl | hm
  · rw [ha] at h1
    apply hs
    rcases h1 with h1 | rfl | rfl
    · cases h1
    · simp
    · simp
  · have := h2 c hm
    rw [ha, hnd] at this
    rcases this with h | h | h
    · cases h
    · cases h
    · exact hs h

/-- `[[id]]` and `[[id,text]]` -/
def anchorBrackets : Re :=
  cat [lit "[[".toList, anchorIdRe 2, opt (cat [chr ',', star true (cls isWhite), cap 3 (plusLazy dot)]), lit "]]".toList]

/-- `anchor:id[text]` -/
def anchorNamed : Re :=
  cat [lit "anchor:".toList, anchorIdRe 4, chr '[',
    alt (chr ']') (cat [cap 5 (cat [star false dot, cls (· != '\\')]), chr ']'])]

theorem inlineAnchorRe_eq : inlineAnchorRe = .seq (opt (cap 1 (chr '\\'))) (alt anchorBrackets anchorNamed) := rfl

theorem closing_rel (pv : Option Char) (r : Text) (caps : List (Nat × Text)) :
    Rel (lit "]]".toList) ⟨pv, "]]".toList ++ r, caps⟩ ⟨some ']', r, caps⟩ := rel_lit_iff.mpr ⟨_, rfl, rfl⟩

theorem refText_rel {n : Nat} {t : Text} (h : t ≠ [] ∧ '\n' ∉ t) (pv : Option Char) (r : Text) (caps : List (Nat × Text)) :
    Rel (cap n (plusLazy dot)) ⟨pv, t ++ r, caps⟩ ⟨prevAfter pv t, r, (n, t) :: caps⟩ := by
  refine rel_cap_iff.mpr ⟨⟨prevAfter pv t, r, caps⟩, t, ?_, rfl, rfl⟩
  cases t with
  | nil => exact absurd rfl h.1
  | cons c b =>
    have hall : ∀ x ∈ c :: b, (x != '\n') = true := by
      intro x hx
      simp only [bne_iff_ne, ne_eq]
      rintro rfl
      exact h.2 hx
    refine rel_seq_iff.mpr ⟨⟨some c, b ++ r, caps⟩, rel_cls_iff.mpr ⟨c, _, rfl, hall c (by simp), rfl⟩,
      rel_star_cls_iff.mpr ⟨b, r, rfl, fun x hx => hall x (by simp [hx]), by rw [prevAfter_cons]⟩⟩

/-- The group of the text of an anchor. -/
def refGroup (o : Option Text) (caps : List (Nat × Text)) : List (Nat × Text) :=
  match o with
  | some t => (3, t) :: caps
  | none => caps

theorem anchorBrackets_sound {s z : RS} (h : m anchorBrackets some s = some z) :
    ∃ id rest o, AnchorId id ∧ AnchorRest rest o z.rest ∧ s.rest = "[[".toList ++ id ++ rest ++ "]]".toList ++ z.rest ∧
      z.caps = refGroup o ((2, id) :: s.caps) := by
  simp only [anchorBrackets, cat] at h
  rw [m_seq] at h
  obtain ⟨r, e, h1⟩ := m_lit_some h
  rw [m_seq] at h1
  obtain ⟨id, r1, e1, hid, h2⟩ := m_anchorId h1
  simp only at e1
  subst e1
  rw [m_seq] at h2
  rcases m_opt_some h2 with h3 | ⟨_, h3⟩
  · rw [m_seq] at h3
    obtain ⟨r2, e2, h4⟩ := m_chr_some h3
    simp only at e2
    subst e2
    rw [m_seq] at h4
    obtain ⟨space, r3, e3, hs, h5, hmax⟩ := m_star_greedy h4
    simp only at e3
    subst e3
    obtain ⟨text, r4, e4, ht, h6, hmin⟩ := m_plusLazy (p := (· != '\n')) h5
    simp only at e4
    subst e4
    obtain ⟨r5, e5, hz⟩ := m_lit_some h6
    simp only at e5
    subst e5
    cases hz
    have okt : ∀ {t : Text}, (t ≠ [] ∧ ∀ c ∈ t, (c != '\n') = true) ↔ (t ≠ [] ∧ '\n' ∉ t) := by
      intro t
      constructor
      · exact fun h => ⟨h.1, fun hm => by have := h.2 _ hm; revert this; decide⟩
      · refine fun h => ⟨h.1, fun c hc => ?_⟩
        simp only [bne_iff_ne, ne_eq]
        rintro rfl; exact h.2 hc
    refine ⟨id, ',' :: space ++ text, some text, hid, .some ⟨hs, okt.mp ht, ⟨_, rfl⟩, ?_⟩ ?_, by rw [e]; simp, rfl⟩
    · rintro b r' hb hl hok ⟨x, rfl⟩
      have := hmin b _ hb hl (okt.mpr hok)
      have h8 := m_complete _ some _ _ (closing_rel (prevAfter (prevAfter (some ',') space) b) x
        ((3, b) :: (2, id) :: s.caps)) rfl
      simp only at this
      rw [this] at h8
      cases h8
    · rintro s' t' r' he hl ⟨g1, g2, ⟨x, rfl⟩, _⟩
      have := hmax s' (t' ++ ("]]".toList ++ x)) (by rw [← List.append_assoc, he]; simp) hl g1
      have h8 := m_complete (.seq (cap 3 (plusLazy dot)) (lit "]]".toList)) some _ _
        (rel_seq_iff.mpr ⟨_, refText_rel (n := 3) g2 (prevAfter (some ',') s') ("]]".toList ++ x) ((2, id) :: s.caps),
          closing_rel _ _ _⟩) rfl
      rw [m_seq] at h8
      simp only at this
      rw [this] at h8
      cases h8
  · obtain ⟨r5, e5, hz⟩ := m_lit_some h3
    simp only at e5
    subst e5
    cases hz
    exact ⟨id, [], none, hid, .none, by rw [e]; simp, rfl⟩

theorem anchorNamed_sound {s z : RS} (h : m anchorNamed some s = some z) :
    ∃ id text, AnchorId id ∧ Enclosed text ∧ '\n' ∉ text.dropLast ∧
      s.rest = "anchor:".toList ++ id ++ '[' :: text ++ [']'] ++ z.rest ∧
      z.caps = if text = [] then (4, id) :: s.caps else (5, text) :: (4, id) :: s.caps := by
  simp only [anchorNamed, cat] at h
  rw [m_seq] at h
  obtain ⟨r, e, h1⟩ := m_lit_some h
  rw [m_seq] at h1
  obtain ⟨id, r1, e1, hid, h2⟩ := m_anchorId h1
  simp only at e1
  subst e1
  rw [m_seq] at h2
  obtain ⟨r2, e2, h3⟩ := m_chr_some h2
  simp only at e2
  subst e2
  rcases m_alt_some h3 with h4 | ⟨h0, h4⟩
  · obtain ⟨r5, e5, hz⟩ := m_chr_some h4
    simp only at e5
    subst e5
    cases hz
    refine ⟨id, [], hid, ⟨?_, by simp⟩, by simp, by rw [e]; simp, rfl⟩
    intro a b he; simp at he
  · have h5 : r2.head? ≠ some ']' := by
      intro hr
      cases r2 with
      | nil => cases hr
      | cons c r => cases hr; rw [m_chr, if_pos rfl] at h0; cases h0
    rw [m_seq] at h4
    obtain ⟨t, r3, e3, hne, ht, hdot, hz⟩ := m_enclosed (n := 5) (p := (· != '\n')) (s := ⟨some '[', r2, (4, id) :: s.caps⟩) h5 h4
    simp only at e3
    subst e3
    cases hz
    refine ⟨id, t, hid, ht, ?_, by rw [e]; simp, by rw [if_neg hne]⟩
    intro hm
    have := hdot _ hm
    revert this; decide

theorem anchor_rel {piece id : Text} {o : Option Text} {behind : Text} (h : Anchor piece id o behind) (pv : Option Char)
    (caps : List (Nat × Text)) : ∃ z, Rel (alt anchorBrackets anchorNamed) ⟨pv, piece ++ behind, caps⟩ z := by
  cases h with
  | @brackets _ rest _ _ h1 h2 =>
    have h3 : ∀ pv caps, ∃ z, Rel (.seq (opt (cat [chr ',', star true (cls isWhite), cap 3 (plusLazy dot)])) (lit "]]".toList))
        ⟨pv, rest ++ "]]".toList ++ behind, caps⟩ z := by
      intro pv caps
      cases h2 with
      | none => exact ⟨_, rel_seq_iff.mpr ⟨_, rel_opt_iff.mpr (.inr rfl), closing_rel _ _ _⟩⟩
      | @some space text _ g1 g2 =>
        refine ⟨_, rel_seq_iff.mpr ⟨⟨prevAfter (prevAfter (some ',') space) text, "]]".toList ++ behind, (3, text) :: caps⟩,
          rel_opt_iff.mpr (.inl ?_), closing_rel _ _ _⟩⟩
        simp only [cat]
        refine rel_seq_iff.mpr ⟨⟨some ',', space ++ (text ++ ("]]".toList ++ behind)), caps⟩, rel_chr_iff.mpr ⟨_, by simp, rfl⟩,
          rel_seq_iff.mpr ⟨⟨prevAfter (some ',') space, text ++ ("]]".toList ++ behind), caps⟩,
            rel_star_cls_iff.mpr ⟨space, _, rfl, g1.1, rfl⟩, refText_rel g1.2.1 _ _ _⟩⟩
    obtain ⟨z, hz⟩ := h3 (prevAfter (some '[') id) ((2, id) :: caps)
    refine ⟨z, rel_alt_iff.mpr (.inl ?_)⟩
    simp only [anchorBrackets, cat] at hz ⊢
    exact rel_seq_iff.mpr ⟨⟨some '[', id ++ (rest ++ "]]".toList ++ behind), caps⟩, rel_lit_iff.mpr ⟨_, by simp, rfl⟩,
      rel_seq_iff.mpr ⟨_, anchorId_rel h1 _ _ _, hz⟩⟩
  | empty h1 =>
    refine ⟨⟨some ']', behind, (4, id) :: caps⟩, rel_alt_iff.mpr (.inr ?_)⟩
    simp only [anchorNamed, cat]
    refine rel_seq_iff.mpr ⟨⟨some ':', id ++ ("[]".toList ++ behind), caps⟩, rel_lit_iff.mpr ⟨_, by simp, rfl⟩,
      rel_seq_iff.mpr ⟨_, anchorId_rel h1 _ _ _, rel_seq_iff.mpr ⟨_, rel_chr_iff.mpr ⟨_, rfl, rfl⟩,
        rel_alt_iff.mpr (.inl (rel_chr_iff.mpr ⟨_, rfl, rfl⟩))⟩⟩⟩
  | @named _ text _ h1 h2 h3 h4 =>
    refine ⟨⟨some ']', behind, (5, text) :: (4, id) :: caps⟩, rel_alt_iff.mpr (.inr ?_)⟩
    simp only [anchorNamed, cat]
    refine rel_seq_iff.mpr ⟨⟨some ':', id ++ ('[' :: (text ++ ']' :: behind)), caps⟩, rel_lit_iff.mpr ⟨_, by simp, rfl⟩,
      rel_seq_iff.mpr ⟨_, anchorId_rel h1 _ _ _, rel_seq_iff.mpr ⟨_, rel_chr_iff.mpr ⟨_, rfl, rfl⟩,
        rel_alt_iff.mpr (.inr (rel_seq_iff.mpr ⟨_, enclosed_rel (p := (· != '\n')) h3 h2 ?_ _ _ _,
          rel_chr_iff.mpr ⟨_, rfl, rfl⟩⟩))⟩⟩⟩
    intro c hc
    simp only [bne_iff_ne, ne_eq]
    rintro rfl
    exact h4 hc

theorem renders_anchor (e : Env) : RendersIf inlineAnchorRe (anchorReplacer e) (AnchorAt e) := by
  refine RendersIf.of ?_ ?_
  · intro pv t s h
    rw [inlineAnchorRe_eq, m_seq] at h
    have core : ∀ {s0 z : RS}, m (alt anchorBrackets anchorNamed) some s0 = some z →
        ∃ piece id o, s0.rest = piece ++ z.rest ∧ Anchor piece id o z.rest ∧ piece ≠ [] ∧
          ∀ u, (∀ v, (1, v) ∉ s0.caps) → (∀ v, (2, v) ∉ s0.caps) → (∀ v, (3, v) ∉ s0.caps) → (∀ v, (5, v) ∉ s0.caps) →
            anchorReplacer e ⟨u, z.caps⟩ = .ok (e.r.anchor id o) := by
      intro s0 z h
      have nf : ∀ {n : Nat}, (∀ v, (n, v) ∉ s0.caps) → s0.caps.find? (fun p => p.1 == n) = none := by
        intro n hn
        rw [List.find?_eq_none]
        rintro ⟨a, v⟩ hm ha
        have : a = n := by simpa using ha
        subst this
        exact hn v hm
      rcases m_alt_some h with h1 | ⟨_, h1⟩
      · obtain ⟨id, rest, o, g1, g2, g3, g4⟩ := anchorBrackets_sound h1
        refine ⟨"[[".toList ++ id ++ rest ++ "]]".toList, id, o, g3, .brackets g1 g2, by simp, ?_⟩
        intro u n1 n2 n3 n5
        rw [g4]
        unfold anchorReplacer
        cases o with
        | none => simp [Match.get, refGroup, nf n1, nf n3]
        | some t => simp [Match.get, refGroup, nf n1]
      · obtain ⟨id, text, g1, g2, g3, g4, g5⟩ := anchorNamed_sound h1
        by_cases ht : text = []
        · subst ht
          rw [if_pos rfl] at g5
          refine ⟨"anchor:".toList ++ id ++ "[]".toList, id, none, by rw [g4]; simp, .empty g1, by simp, ?_⟩
          intro u n1 n2 n3 n5
          rw [g5]
          unfold anchorReplacer
          simp [Match.get, Match.at!, Res.ofOption, nf n1, nf n2, nf n5, bind, Except.bind]
        · rw [if_neg ht] at g5
          refine ⟨"anchor:".toList ++ id ++ '[' :: text ++ [']'], id, some (Spec.unescape ']' text), by rw [g4],
            .named g1 ht g2 g3, by simp, ?_⟩
          intro u n1 n2 n3 n5
          rw [g5]
          unfold anchorReplacer
          simp [Match.get, Match.at!, Res.ofOption, nf n1, nf n2, bind, Except.bind, unescape_eq]
    rcases m_opt_some h with h | ⟨_, h⟩
    · rw [m_cap] at h
      obtain ⟨r, e1, h1⟩ := m_chr_some h
      obtain ⟨piece, id, o, g1, g2, _, _⟩ := core h1
      simp only at e1 g1
      subst g1
      refine ⟨'\\' :: piece, by rw [e1]; rfl, by simp, ?_⟩
      intro x hx
      have hcap : (1, ['\\']) ∈ s.caps := by
        have htk := take_used ['\\'] (piece ++ s.rest)
        rw [List.singleton_append] at htk
        simp only [e1, htk] at h1
        obtain ⟨s', hrel, hs'⟩ := m_sound _ _ _ _ h1
        cases hs'
        obtain ⟨l, hl⟩ := hrel.caps_grow
        rw [hl]; simp
      obtain ⟨w, hw⟩ := get_of_mem (mt := ⟨'\\' :: piece, s.caps⟩) hcap
      unfold anchorReplacer at hx
      rw [if_pos (by rw [hw]; rfl)] at hx
      cases hx
      exact .escaped g2
    · obtain ⟨piece, id, o, g1, g2, g3, g4⟩ := core h
      refine ⟨piece, g1, g3, ?_⟩
      intro x hx
      rw [g4 piece (by simp) (by simp) (by simp) (by simp)] at hx
      cases hx
      exact .anchor g2
  · intro pv mt b x h
    rw [inlineAnchorRe_eq]
    cases h with
    | anchor h =>
      obtain ⟨z, hz⟩ := anchor_rel h pv []
      exact ⟨z, rel_seq_iff.mpr ⟨_, rel_opt_iff.mpr (.inr rfl), hz⟩⟩
    | escaped h =>
      obtain ⟨z, hz⟩ := anchor_rel h (some '\\') [(1, ['\\'])]
      refine ⟨z, rel_seq_iff.mpr ⟨⟨some '\\', x ++ b, [(1, ['\\'])]⟩, rel_opt_iff.mpr (.inl ?_), hz⟩⟩
      exact rel_cap_iff.mpr ⟨⟨some '\\', x ++ b, []⟩, ['\\'], rel_chr_iff.mpr ⟨_, rfl, rfl⟩, rfl, rfl⟩

omit [Uni] in
theorem shortest_unique {ok ends : Text → Prop} {a b x y : Text} (h : Shortest ok ends a x) (h' : Shortest ok ends b y)
    (e : a ++ x = b ++ y) : a = b := by
  rcases Nat.lt_trichotomy a.length b.length with hl | hl | hl
  · exact absurd h.2.1 (h'.2.2 a x e hl h.1)
  · exact (List.append_inj e hl).1
  · exact absurd h'.2.1 (h.2.2 b y e.symm hl h'.1)

omit [Uni] in
theorem anchorRest_det {u v : Text} {o o' : Option Text} {b b' : Text} (h : AnchorRest u o b) (h' : AnchorRest v o' b')
    (e : u ++ "]]".toList ++ b = v ++ "]]".toList ++ b') : u = v ∧ o = o' := by
  cases h with
  | none =>
    cases h' with
    | none => exact ⟨rfl, rfl⟩
    | some => exact absurd (congrArg List.head? e) (by simp)
  | @some s t _ h1 h2 =>
    cases h' with
    | none => exact absurd (congrArg List.head? e) (by simp)
    | @some s' t' _ g1 g2 =>
      have e2 : s ++ t ++ "]]".toList ++ b = s' ++ t' ++ "]]".toList ++ b' := (List.cons.inj e).2
      have hs : s = s' := by
        rcases Nat.lt_trichotomy s.length s'.length with hl | hl | hl
        · exact absurd g1 (h2 s' t' ("]]".toList ++ b') (by rw [e2, List.append_assoc _ "]]".toList]) hl)
        · simp only [List.append_assoc] at e2
          exact (List.append_inj e2 hl).1
        · exact absurd h1 (g2 s t ("]]".toList ++ b) (by rw [← e2, List.append_assoc _ "]]".toList]) hl)
      subst hs
      simp only [List.append_assoc] at e2
      have := shortest_unique h1.2 g1.2 (List.append_cancel_left e2)
      subst this
      exact ⟨rfl, rfl⟩

theorem anchor_det [LawfulUni] {p p' id id' : Text} {o o' : Option Text} {b b' : Text} (h : Anchor p id o b)
    (h' : Anchor p' id' o' b') (e : p ++ b = p' ++ b') : p = p' ∧ id = id' ∧ o = o' := by
  have named : ∀ {i i' t t' b b' : Text}, AnchorId i → AnchorId i' → Enclosed t → Enclosed t' →
      "anchor:".toList ++ i ++ '[' :: t ++ [']'] ++ b = "anchor:".toList ++ i' ++ '[' :: t' ++ [']'] ++ b' → i = i' ∧ t = t' := by
    intro i i' t t' b b' h1 h2 h3 h4 e
    simp only [List.append_assoc] at e
    have e2 := List.append_cancel_left e
    simp only [List.cons_append] at e2
    have := until_inj (anchorId_char h1 (c := '[') (by decide) (by decide) (by decide) (by decide))
      (anchorId_char h2 (by decide) (by decide) (by decide) (by decide)) e2
    subst this
    have e3 := (List.cons.inj (List.append_cancel_left e2)).2
    exact ⟨rfl, (h3.inj h4 e3).1⟩
  have en : Enclosed [] := ⟨fun a b he => by simp at he, by simp⟩
  cases h with
  | @brackets _ rest _ _ h1 h2 =>
    cases h' with
    | @brackets _ rest' _ _ g1 g2 =>
      have e2 : id ++ (rest ++ "]]".toList ++ b) = id' ++ (rest' ++ "]]".toList ++ b') := by
        have := congrArg (List.drop 2) e
        simpa using this
      have stop : ∀ {r : Text} {o : Option Text} {b : Text}, AnchorRest r o b → ∃ c x, r ++ "]]".toList ++ b = c :: x ∧
          c.toNat < 128 ∧ isAsciiAlpha c = false ∧ isAsciiDigit c = false ∧ c ∉ ['_', '-', ':', '.'] := by
        intro r o b h
        cases h with
        | none => exact ⟨']', _, rfl, by decide⟩
        | some _ _ => exact ⟨',', _, rfl, by decide⟩
      obtain ⟨c, x, hc, c1, c2, c3, c4⟩ := stop h2
      obtain ⟨d, y, hd, d1, d2, d3, d4⟩ := stop g2
      have hid : id = id' := by
        rw [hc, hd] at e2
        have n1 : d ∉ id := anchorId_char h1 d1 d2 d3 d4
        have n2 : c ∉ id' := anchorId_char g1 c1 c2 c3 c4
        rcases Nat.lt_trichotomy id.length id'.length with hl | hl | hl
        · exfalso
          have hp : id ++ [c] <+: id' := List.prefix_of_prefix_length_le (l₃ := id ++ c :: x) ⟨x, by simp⟩ ⟨d :: y, e2.symm⟩
            (by simp; omega)
          obtain ⟨w, hw⟩ := hp
          exact n2 (by rw [← hw]; simp)
        · exact (List.append_inj e2 hl).1
        · exfalso
          have hp : id' ++ [d] <+: id := List.prefix_of_prefix_length_le (l₃ := id ++ c :: x) ⟨y, by rw [e2]; simp⟩ ⟨c :: x, rfl⟩
            (by simp; omega)
          obtain ⟨w, hw⟩ := hp
          exact n1 (by rw [← hw]; simp)
      subst hid
      obtain ⟨rfl, rfl⟩ := anchorRest_det h2 g2 (List.append_cancel_left e2)
      exact ⟨rfl, rfl, rfl⟩
    | empty g1 => exact absurd (congrArg List.head? e) (by simp)
    | named g1 g2 g3 g4 => exact absurd (congrArg List.head? e) (by simp)
  | empty h1 =>
    cases h' with
    | brackets g1 g2 => exact absurd (congrArg List.head? e) (by simp)
    | empty g1 =>
      obtain ⟨rfl, _⟩ := named (t := []) (t' := []) h1 g1 en en (by simpa using e)
      exact ⟨rfl, rfl, rfl⟩
    | named g1 g2 g3 g4 =>
      obtain ⟨rfl, ht⟩ := named (t := []) h1 g1 en g3 (by simpa using e)
      exact absurd ht.symm g2
  | named h1 h2 h3 h4 =>
    cases h' with
    | brackets g1 g2 => exact absurd (congrArg List.head? e) (by simp)
    | empty g1 =>
      obtain ⟨rfl, ht⟩ := named (t' := []) h1 g1 h3 en (by simpa using e)
      exact absurd ht h2
    | named g1 g2 g3 g4 =>
      obtain ⟨rfl, rfl⟩ := named h1 g1 h3 g3 e
      exact ⟨rfl, rfl, rfl⟩

theorem determined_anchor [LawfulUni] (e : Env) : Determined (AnchorAt e) := by
  have first : ∀ {p id : Text} {o : Option Text} {b : Text}, Anchor p id o b → p ≠ [] ∧ p.head? ≠ some '\\' := by
    intro p id o b h
    cases h <;> simp
  intro pv m b x m' b' x' h h' eq
  have head : ∀ {p id : Text} {o : Option Text} {b : Text}, Anchor p id o b → (p ++ b).head? ≠ some '\\' := by
    intro p id o b h
    obtain ⟨h1, h2⟩ := first h
    cases p with
    | nil => exact absurd rfl h1
    | cons c p => exact h2
  cases h with
  | anchor h =>
    refine ⟨(first h).1, ?_⟩
    cases h' with
    | anchor h' =>
      obtain ⟨rfl, rfl, rfl⟩ := anchor_det h h' eq
      exact ⟨rfl, rfl⟩
    | escaped h' => exact absurd (by rw [eq]; rfl) (head h)
  | escaped h =>
    refine ⟨by simp, ?_⟩
    cases h' with
    | anchor h' => exact absurd (by rw [← eq]; rfl) (head h')
    | escaped h' =>
      obtain ⟨rfl, rfl, rfl⟩ := anchor_det h h' (List.cons.inj eq).2
      exact ⟨rfl, rfl⟩

end Adoc
