import Verif.Model.Macros
import Verif.Lemmas.Captures
import Verif.Props.Attrlist
/-!
# When the replacers of inline macros fail
-/

namespace Adoc
open Re
variable [Uni]

theorem inlineAttrlist_ok (store : AttrStore) (t : Text) : ∃ a, inlineAttrlist store t = .ok a := by
  obtain ⟨r, hr⟩ := Props.C33_inline_total (fun _ => .error .panic) store (Span.new t)
  exact ⟨r.1, by unfold inlineAttrlist; rw [hr]; rfl⟩

theorem stripScheme_ok (t : Text) : ∃ x, stripScheme t = .ok x :=
  replaceAll_total (fun _ _ _ _ _ => ⟨_, rfl⟩) t

theorem stripScheme_ne (t : Text) (f : Fail) : stripScheme t ≠ .error f := by
  obtain ⟨x, hx⟩ := stripScheme_ok t
  rw [hx]; exact fun h => by cases h

theorem bareText_ok (e : Env) (t : Text) : ∃ x, bareText e t = .ok x := by
  unfold bareText
  split
  · exact stripScheme_ok t
  · exact ⟨_, rfl⟩

theorem bareText_ne (e : Env) (t : Text) (f : Fail) : bareText e t ≠ .error f := by
  obtain ⟨x, hx⟩ := bareText_ok e t
  rw [hx]; exact fun h => by cases h

theorem extract_ok (e : Env) (t : Text) : ∃ x, extractAttributesFromText e t = .ok x := by
  unfold extractAttributesFromText
  obtain ⟨a, ha⟩ := inlineAttrlist_ok e.store t
  rw [ha]
  simp only [bind, Except.bind]
  split <;> exact ⟨_, rfl⟩

theorem extract_ne (e : Env) (t : Text) (f : Fail) : extractAttributesFromText e t ≠ .error f := by
  obtain ⟨x, hx⟩ := extract_ok e t
  rw [hx]; exact fun h => by cases h

theorem emailReplacer_ok (e : Env) {pv : Option Char} {t : Text} {mt : Match} {s : RS}
    (h : matchAt inlineEmailRe pv t = some (mt, s)) : ∃ x, emailReplacer e mt = .ok x := by
  unfold emailReplacer
  split
  · split <;> exact ⟨_, rfl⟩
  · obtain ⟨v, hv⟩ := matchAt_at h 2 rfl
    obtain ⟨a, ha⟩ := inlineAttrlist_ok e.store []
    rw [hv, ha]
    exact ⟨_, rfl⟩

theorem anchorReplacer_ok (e : Env) {pv : Option Char} {t : Text} {mt : Match} {s : RS}
    (h : matchAt inlineAnchorRe pv t = some (mt, s)) : ∃ x, anchorReplacer e mt = .ok x := by
  unfold anchorReplacer
  split
  · exact ⟨_, rfl⟩
  · cases hg : mt.get 2 with
    | some id => exact ⟨_, rfl⟩
    | none =>
      obtain ⟨n, hn, v, hv⟩ := matchAt_covers h [2, 4] rfl
      simp only [List.mem_cons, List.not_mem_nil, or_false] at hn
      rcases hn with rfl | rfl
      · rw [hg] at hv; cases hv
      · simp only [Match.at!, hv]
        exact ⟨_, rfl⟩

/-- Splits a computation that uses only link texts and attribute lists, which never fail. -/
macro "links" : tactic => `(tactic| repeat' first
  | exact ⟨_, rfl⟩
  | exact absurd (by assumption) (bareText_ne _ _ _)
  | exact absurd (by assumption) (extract_ne _ _ _)
  | exact absurd (by assumption) (stripScheme_ne _ _)
  | split)

/-- A link is turned into a panic exactly when it ends with `&gt;` but does not begin with `&lt;`, and is not escaped. -/
theorem linkReplacer_iff (e : Env) {pv : Option Char} {t : Text} {mt : Match} {s : RS}
    (h : matchAt inlineLinkRe pv t = some (mt, s)) :
    ((∃ x, linkReplacer e mt = .ok x) ∨ linkReplacer e mt = .error .panic) ∧
    (linkReplacer e mt = .error .panic ↔
      (mt.get 6).isSome = true ∧ mt.get 2 = none ∧ ∀ x, mt.get 3 = some x → startsWith x ['\\'] = false) := by
  obtain ⟨c1, h1⟩ := matchAt_get h 1 rfl
  obtain ⟨c3, h3⟩ := matchAt_get h 3 rfl
  have a1 : mt.at! 1 = .ok c1 := by unfold Match.at!; rw [h1]; rfl
  have a3 : mt.at! 3 = .ok c3 := by unfold Match.at!; rw [h3]; rfl
  obtain ⟨al, hal⟩ := inlineAttrlist_ok e.store []
  have ok : ∀ {r : Res Text} {P : Prop}, (∃ x, r = .ok x) → ¬ P → ((∃ x, r = .ok x) ∨ r = .error .panic) ∧
      (r = .error .panic ↔ P) := by
    rintro r P ⟨x, rfl⟩ hp
    exact ⟨.inl ⟨x, rfl⟩, ⟨(fun h => by cases h), fun h => absurd h hp⟩⟩
  unfold linkReplacer
  simp only [bind, Except.bind, hal, a1, a3]
  by_cases hA : (mt.get 2).isSome = true ∧ (mt.get 5).isNone = true
  · rw [if_pos hA]
    refine ok ?_ (by rintro ⟨-, h2, -⟩; rw [h2] at hA; simp at hA)
    by_cases hb : startsWith c1 ['\\'] = true
    · rw [if_pos hb]; exact ⟨_, rfl⟩
    rw [if_neg hb]
    by_cases hb : startsWith c3 ['\\'] = true
    · rw [if_pos hb]; exact ⟨_, rfl⟩
    rw [if_neg hb]
    cases mt.get 6 with
    | none => exact ⟨_, rfl⟩
    | some suf =>
      obtain ⟨b, hb⟩ := bareText_ok e (c3 ++ suf)
      simp only [hb]
      exact ⟨_, rfl⟩
  rw [if_neg hA]
  by_cases hb : startsWith c3 ['\\'] = true
  · rw [if_pos hb]
    exact ok ⟨_, rfl⟩ (by rintro ⟨-, -, h⟩; rw [h c3 h3] at hb; cases hb)
  rw [if_neg hb]
  cases h6 : mt.get 6 with
  | some suf =>
    have h4 : mt.get 4 = none := by
      rcases matchAt_excl h 4 6 (by decide) (by decide) rfl with h | h
      · exact h
      · rw [h6] at h; cases h
    have h5 : mt.get 5 = none := by
      rcases matchAt_excl h 5 6 (by decide) (by decide) rfl with h | h
      · exact h
      · rw [h6] at h; cases h
    have h7 : mt.at! 7 = .error .panic := by
      rcases matchAt_excl h 6 7 (by decide) (by decide) rfl with h | h
      · rw [h6] at h; cases h
      · unfold Match.at!; rw [h]; rfl
    have h2 : mt.get 2 = none := by
      cases h2 : mt.get 2 with
      | none => rfl
      | some x => rw [h2, h5] at hA; simp at hA
    simp only [h4, h7]
    refine ⟨.inr trivial, fun _ => ⟨rfl, h2, fun x hx => ?_⟩, fun _ => trivial⟩
    rw [h3] at hx
    cases hx
    simpa using hb
  | none =>
    refine ok ?_ (by rintro ⟨h, -⟩; cases h)
    have h8 : mt.get 5 = none → ∃ x, mt.at! 8 = .ok x := by
      intro h5
      obtain ⟨n, hn, v, hv⟩ := matchAt_covers h [5, 6, 8] rfl
      simp only [List.mem_cons, List.not_mem_nil, or_false] at hn
      rcases hn with rfl | rfl | rfl
      · rw [h5] at hv; cases hv
      · rw [h6] at hv; cases hv
      · exact ⟨v, by unfold Match.at!; rw [hv]; rfl⟩
    cases h4 : mt.get 4 with
    | some x =>
      simp only
      cases h5 : mt.get 5 with
      | some a => simp only; links
      | none =>
        obtain ⟨tl, ht⟩ := h8 h5
        simp only [ht]
        links
    | none =>
      have h7 : ∃ x, mt.at! 7 = .ok x := by
        obtain ⟨n, hn, v, hv⟩ := matchAt_covers h [4, 6, 7] rfl
        simp only [List.mem_cons, List.not_mem_nil, or_false] at hn
        rcases hn with rfl | rfl | rfl
        · rw [h4] at hv; cases hv
        · rw [h6] at hv; cases hv
        · exact ⟨v, by unfold Match.at!; rw [hv]; rfl⟩
      obtain ⟨x, hx⟩ := h7
      simp only [hx]
      cases h5 : mt.get 5 with
      | some a => simp only; links
      | none =>
        obtain ⟨tl, ht⟩ := h8 h5
        simp only [ht]
        links

/-- A link macro is turned into a panic exactly when it is not escaped and its target is empty or one character. -/
theorem linkMacroReplacer_iff (e : Env) (mt : Match) :
    ((∃ x, linkMacroReplacer e mt = .ok x) ∨ linkMacroReplacer e mt = .error .panic) ∧
    (linkMacroReplacer e mt = .error .panic ↔ startsWith mt.text ['\\'] = false ∧ mt.get 3 = none) := by
  have ok : ∀ {r : Res Text} {P : Prop}, (∃ x, r = .ok x) → ¬ P → ((∃ x, r = .ok x) ∨ r = .error .panic) ∧
      (r = .error .panic ↔ P) := by
    rintro r P ⟨x, rfl⟩ hp
    exact ⟨.inl ⟨x, rfl⟩, ⟨(fun h => by cases h), fun h => absurd h hp⟩⟩
  obtain ⟨al, hal⟩ := inlineAttrlist_ok e.store []
  unfold linkMacroReplacer
  by_cases hb : startsWith mt.text ['\\'] = true
  · rw [if_pos hb]
    exact ok ⟨_, rfl⟩ (by rw [hb]; rintro ⟨h, -⟩; cases h)
  rw [if_neg hb]
  cases h3 : mt.get 3 with
  | none =>
    have a3 : mt.at! 3 = .error .panic := by unfold Match.at!; rw [h3]; rfl
    simp only [bind, Except.bind, a3]
    exact ⟨.inr trivial, fun _ => ⟨by simpa using hb, trivial⟩, fun _ => trivial⟩
  | some c3 =>
    have a3 : mt.at! 3 = .ok c3 := by unfold Match.at!; rw [h3]; rfl
    refine ok ?_ (by rintro ⟨-, h⟩; cases h)
    simp only [bind, Except.bind, a3, hal]
    clear ok hb h3 a3
    generalize (mt.get 5).getD [] = t0
    generalize (if (mt.get 1).isSome = true then "mailto:".toList ++ c3 else c3) = target
    generalize (mt.get 1).isSome = m
    links

/-- Images and icons fail only for an empty target, or when the renderer fails. -/
theorem imageReplacer_error (e : Env) (mt : Match) (f : Fail) (h2 : ∃ v, mt.get 2 = some v)
    (h : imageReplacer e mt = .error f) :
    startsWith mt.text ['\\'] = false ∧
    ((mt.get 1 = none ∧ f = .panic) ∨ (∃ p, e.r.image e.toPEnv p = .error f) ∨ ∃ p, e.r.icon e.toPEnv p = .error f) := by
  unfold imageReplacer at h
  by_cases hb : startsWith mt.text ['\\'] = true
  · rw [if_pos hb] at h; cases h
  rw [if_neg hb] at h
  refine ⟨by simpa using hb, ?_⟩
  cases h1 : mt.get 1 with
  | none =>
    have a1 : mt.at! 1 = .error .panic := by unfold Match.at!; rw [h1]; rfl
    simp only [bind, Except.bind, a1] at h
    cases h
    exact .inl ⟨rfl, rfl⟩
  | some target =>
    right
    have a1 : mt.at! 1 = .ok target := by unfold Match.at!; rw [h1]; rfl
    obtain ⟨v, hv⟩ := h2
    have a2 : mt.at! 2 = .ok v := by unfold Match.at!; rw [hv]; rfl
    obtain ⟨al, hal⟩ := inlineAttrlist_ok e.store v
    simp only [bind, Except.bind, a1, a2, hal] at h
    split at h
    · exact .inl ⟨_, h⟩
    · exact .inr ⟨_, h⟩

theorem rest_of_opt_chr {c : Char} {s s' : RS} (h : Rel (opt (chr c)) s s') :
    s.rest = s'.rest ∨ s.rest = c :: s'.rest := by
  rcases rel_opt_iff.mp h with h | h
  · obtain ⟨r, h1, rfl⟩ := rel_chr_iff.mp h
    exact .inr h1
  · exact .inl (by rw [h])

/-- An image macro whose target is missing. -/
theorem image_noTarget {pv : Option Char} {t : Text} {mt : Match} {s : RS}
    (h : matchAt inlineImageRe pv t = some (mt, s)) (h1 : mt.get 1 = none) :
    ∃ a b, (t = a ++ "image:[".toList ++ b ∨ t = a ++ "icon:[".toList ++ b) := by
  obtain ⟨hr, _, _, hc⟩ := matchAt_sound h
  unfold inlineImageRe at hr
  simp only [cat] at hr
  obtain ⟨x1, r1, hr⟩ := rel_seq_iff.mp hr
  obtain ⟨x2, r2, hr⟩ := rel_seq_iff.mp hr
  obtain ⟨x3, r3, hr⟩ := rel_seq_iff.mp hr
  obtain ⟨x4, r4, hr⟩ := rel_seq_iff.mp hr
  obtain ⟨x5, r5, hr⟩ := rel_seq_iff.mp hr
  obtain ⟨x6, r6, hr⟩ := rel_seq_iff.mp hr
  have e1 := rest_of_opt_chr r1
  obtain ⟨y2, e2, rfl⟩ := rel_chr_iff.mp r2
  obtain ⟨y4, e4, rfl⟩ := rel_chr_iff.mp r4
  obtain ⟨y6, e6, rfl⟩ := rel_chr_iff.mp r6
  have e5 : x5.rest = y4 := by
    rcases rel_opt_iff.mp r5 with r5 | r5
    · exfalso
      obtain ⟨z, u, _, _, rfl⟩ := rel_cap_iff.mp r5
      obtain ⟨l, hl⟩ := hr.caps_grow
      obtain ⟨w, hw⟩ := get_of_mem (mt := mt) (n := 1) (v := u) (by rw [hc, hl]; simp)
      rw [h1] at hw
      cases hw
    · rw [r5]
  have e3 : y2 = "mage".toList ++ x3.rest ∨ y2 = "con".toList ++ x3.rest := by
    rcases rel_alt_iff.mp r3 with r3 | r3 <;> obtain ⟨y3, e3, rfl⟩ := rel_lit_iff.mp r3
    · exact .inl e3
    · exact .inr e3
  have e : ∀ a, t = a ++ x1.rest → ∃ a b, (t = a ++ "image:[".toList ++ b ∨ t = a ++ "icon:[".toList ++ b) := by
    intro a ha
    rw [e2] at ha
    rw [e5] at e6
    rw [e6] at e4
    refine ⟨a, y6, ?_⟩
    rcases e3 with e3 | e3
    · left; rw [ha, e3, e4]; simp
    · right; rw [ha, e3, e4]; simp
  rcases e1 with e1 | e1
  · exact e [] (by simpa using e1)
  · exact e ['\\'] (by simpa using e1)

/-- A link that ends with `&gt;`. -/
theorem link_gt {pv : Option Char} {t : Text} {mt : Match} {s : RS}
    (h : matchAt inlineLinkRe pv t = some (mt, s)) (h6 : (mt.get 6).isSome = true) :
    ∃ a b, t = a ++ "&gt;".toList ++ b := by
  obtain ⟨hr, _, _, hc⟩ := matchAt_sound h
  obtain ⟨v, hv⟩ := Option.isSome_iff_exists.mp h6
  have hm : (6, v) ∈ s.caps := by rw [← hc]; exact mem_of_get (by decide) hv
  unfold inlineLinkRe at hr
  simp only [cat] at hr
  obtain ⟨x1, r1, hr⟩ := rel_seq_iff.mp hr
  obtain ⟨x2, r2, hr⟩ := rel_seq_iff.mp hr
  have no : ∀ v, (6, v) ∉ x2.caps := fun v hv =>
    List.not_mem_nil (r1.sets (n := 6) (by decide) (r2.sets (n := 6) (by decide) hv))
  simp only [oneOf] at hr
  rcases rel_alt_iff.mp hr with hr | hr
  · exact absurd (hr.sets (n := 6) (by decide) hm) (no v)
  rcases rel_alt_iff.mp hr with hr | hr
  · obtain ⟨x3, r3, r4⟩ := rel_seq_iff.mp hr
    obtain ⟨y, e, -⟩ := rel_lit_iff.mp r4
    obtain ⟨u1, e1, -⟩ := r1.consumes
    obtain ⟨u2, e2, -⟩ := r2.consumes
    obtain ⟨u3, e3, -⟩ := r3.consumes
    simp only at e1
    exact ⟨u1 ++ u2 ++ u3, y, by rw [e1, e2, e3, e]; simp⟩
  · exact absurd (hr.sets (n := 6) (by decide) hm) (no v)

/-- A link macro whose target is not taken as one: it is a single character. -/
theorem linkMacro_noTarget {pv : Option Char} {t : Text} {mt : Match} {s : RS}
    (h : matchAt inlineLinkMacroRe pv t = some (mt, s)) (h3 : mt.get 3 = none) :
    ∃ a c b, (t = a ++ "link:".toList ++ c :: '[' :: b ∨ t = a ++ "mailto:".toList ++ c :: '[' :: b) := by
  obtain ⟨hr, _, _, hc⟩ := matchAt_sound h
  unfold inlineLinkMacroRe at hr
  simp only [cat] at hr
  obtain ⟨x1, r1, hr⟩ := rel_seq_iff.mp hr
  obtain ⟨x2, r2, hr⟩ := rel_seq_iff.mp hr
  obtain ⟨x3, r3, hr⟩ := rel_seq_iff.mp hr
  obtain ⟨x4, r4, hr⟩ := rel_seq_iff.mp hr
  obtain ⟨x5, r5, hr⟩ := rel_seq_iff.mp hr
  have e1 := rest_of_opt_chr r1
  obtain ⟨y3, e3, rfl⟩ := rel_chr_iff.mp r3
  obtain ⟨y5, e5, rfl⟩ := rel_chr_iff.mp r5
  have e2 : x1.rest = "link".toList ++ x2.rest ∨ x1.rest = "mailto".toList ++ x2.rest := by
    rcases rel_alt_iff.mp r2 with r2 | r2
    · obtain ⟨y, e, rfl⟩ := rel_lit_iff.mp r2
      exact .inl e
    · obtain ⟨z, u, r, _, rfl⟩ := rel_cap_iff.mp r2
      obtain ⟨y, e, rfl⟩ := rel_lit_iff.mp r
      exact .inr e
  have e4 : ∃ c, y3 = c :: x4.rest := by
    rcases rel_alt_iff.mp r4 with r4 | r4
    · obtain ⟨z, r6, r7⟩ := rel_seq_iff.mp r4
      obtain ⟨w, u, r8, _, rfl⟩ := rel_cap_iff.mp r6
      cases rel_eps_iff.mp r8
      obtain ⟨c, y, e, _, rfl⟩ := rel_cls_iff.mp r7
      exact ⟨c, e⟩
    · exfalso
      obtain ⟨z, u, _, _, rfl⟩ := rel_cap_iff.mp r4
      obtain ⟨l, hl⟩ := hr.caps_grow
      obtain ⟨w, hw⟩ := get_of_mem (mt := mt) (n := 3) (v := u) (by rw [hc, hl]; simp)
      rw [h3] at hw
      cases hw
  obtain ⟨c, e4⟩ := e4
  have e : ∀ a, t = a ++ x1.rest →
      ∃ a c b, (t = a ++ "link:".toList ++ c :: '[' :: b ∨ t = a ++ "mailto:".toList ++ c :: '[' :: b) := by
    intro a ha
    rw [e5] at e4
    rw [e4] at e3
    refine ⟨a, c, y5, ?_⟩
    rcases e2 with e2 | e2
    · left; rw [ha, e2, e3]; simp
    · right; rw [ha, e2, e3]; simp
  rcases e1 with e1 | e1
  · exact e [] (by simpa using e1)
  · exact e ['\\'] (by simpa using e1)

end Adoc
