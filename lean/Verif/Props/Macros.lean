import Verif.Lemmas.Macros
import Verif.Spec.Macros
import Verif.Props.Html
import Verif.Lemmas.Preprocessor
/-!
# C46: inline macros never panic (false in general)

Five kinds of macros are replaced one after the other: images and icons, links, link macros, e-mail addresses and
anchors.  For each the theorems say exactly which matches lead to a panic, and what the text must contain for that.
-/

namespace Adoc.Props
open Adoc Adoc.Spec Adoc.Re

theorem occurs_of_suffix {n t t' : Text} (hs : t' <:+ t) (h : Occurs n t') : Occurs n t := by
  obtain ⟨u, rfl⟩ := hs
  obtain ⟨a, b, rfl⟩ := h
  exact ⟨u ++ a, b, by simp⟩

variable [Uni]

theorem not_occurs {n t : Text} (h : ¬ Occurs n t) : containsSub t n = false := by
  cases hc : containsSub t n with
  | false => rfl
  | true => exact absurd (containsSub_iff.mp hc) h

/-! ### Match by match -/

/-- An e-mail address is always replaced. -/
theorem C46_email_total (e : Env) {pv : Option Char} {t : Text} {mt : Match} {s : RS}
    (h : matchAt inlineEmailRe pv t = some (mt, s)) : ∃ x, emailReplacer e mt = .ok x := emailReplacer_ok e h

/-- An anchor is always replaced. -/
theorem C46_anchor_total (e : Env) {pv : Option Char} {t : Text} {mt : Match} {s : RS}
    (h : matchAt inlineAnchorRe pv t = some (mt, s)) : ∃ x, anchorReplacer e mt = .ok x := anchorReplacer_ok e h

/-- A link is replaced, or leads to a panic; it does exactly when it ends with `&gt;` (group 6) without having begun with
`&lt;` (group 2) and its scheme (group 3) is not escaped. -/
theorem C46_link_iff (e : Env) {pv : Option Char} {t : Text} {mt : Match} {s : RS}
    (h : matchAt inlineLinkRe pv t = some (mt, s)) :
    ((∃ x, linkReplacer e mt = .ok x) ∨ linkReplacer e mt = .error .panic) ∧
    (linkReplacer e mt = .error .panic ↔
      (mt.get 6).isSome = true ∧ mt.get 2 = none ∧ ∀ x, mt.get 3 = some x → startsWith x ['\\'] = false) :=
  linkReplacer_iff e h

/-- A link macro is replaced, or leads to a panic; it does exactly when it is not escaped and its target was not taken as
one (group 3); its target then is a single character. -/
theorem C46_link_macro_iff (e : Env) {pv : Option Char} {t : Text} {mt : Match} {s : RS}
    (h : matchAt inlineLinkMacroRe pv t = some (mt, s)) :
    ((∃ x, linkMacroReplacer e mt = .ok x) ∨ linkMacroReplacer e mt = .error .panic) ∧
    (linkMacroReplacer e mt = .error .panic ↔ startsWith mt.text ['\\'] = false ∧ mt.get 3 = none) ∧
    (mt.get 3 = none → ShortTarget t) := by
  refine ⟨(linkMacroReplacer_iff e mt).1, (linkMacroReplacer_iff e mt).2, fun h3 => ?_⟩
  obtain ⟨a, c, b, hc⟩ := linkMacro_noTarget h h3
  refine ⟨c, ?_⟩
  rcases hc with rfl | rfl
  · exact .inl ⟨a, b, by simp⟩
  · exact .inr ⟨a, b, by simp⟩

/-- An image or icon fails only without a target (group 1), in which case this is a panic, or when the renderer fails. -/
theorem C46_image (e : Env) {pv : Option Char} {t : Text} {mt : Match} {s : RS} {f : Fail}
    (h : matchAt inlineImageRe pv t = some (mt, s)) (hf : imageReplacer e mt = .error f) :
    startsWith mt.text ['\\'] = false ∧
    ((EmptyTarget t ∧ f = .panic) ∨ (∃ p, e.r.image e.toPEnv p = .error f) ∨ ∃ p, e.r.icon e.toPEnv p = .error f) := by
  obtain ⟨h1, h2⟩ := imageReplacer_error e mt f (matchAt_get h 2 rfl) hf
  refine ⟨h1, ?_⟩
  rcases h2 with ⟨h2, rfl⟩ | h2
  · refine .inl ⟨?_, rfl⟩
    obtain ⟨a, b, hc⟩ := image_noTarget h h2
    rcases hc with rfl | rfl
    · exact .inl ⟨a, b, rfl⟩
    · exact .inr ⟨a, b, rfl⟩
  · exact .inr h2

/-- Every image or icon without a target that is not escaped leads to a panic. -/
theorem C46_image_panics (e : Env) (mt : Match) (hb : startsWith mt.text ['\\'] = false) (h1 : mt.get 1 = none) :
    imageReplacer e mt = .error .panic := by
  have a1 : mt.at! 1 = .error .panic := by unfold Match.at!; rw [h1]; rfl
  unfold imageReplacer
  rw [if_neg (by rw [hb]; simp)]
  simp only [bind, Except.bind, a1]

/-- The HTML renderer fails for an image exactly when it is an SVG that is to be inline or interactive; it never fails for
an icon. -/
theorem C46_svg_iff (p : PEnv) (i : ImageParams) (f : Fail) :
    (Html.image p i = .error f ↔ f = .panic ∧
      ((i.attrlist.namedAttribute "format".toList).map ElemAttr.value = some "svg".toList ∨ Occurs ".svg".toList i.target) ∧
      (i.attrlist.hasOption "inline".toList = true ∨ i.attrlist.hasOption "interactive".toList = true)) ∧
    ∀ j, ∃ x, Html.icon p j = .ok x := by
  refine ⟨?_, fun j => ⟨_, rfl⟩⟩
  unfold Html.image
  simp only
  by_cases h : (i.attrlist.namedAttribute "format".toList).map ElemAttr.value = some "svg".toList ∨
      containsSub i.target ".svg".toList = true
  · have h' := h
    rw [containsSub_iff] at h'
    rw [if_pos h]
    by_cases h1 : i.attrlist.hasOption "inline".toList = true
    · rw [if_pos h1]
      exact ⟨(fun h => by cases h; exact ⟨rfl, h', .inl h1⟩), fun h => by rw [h.1]⟩
    · rw [if_neg h1]
      by_cases h2 : i.attrlist.hasOption "interactive".toList = true
      · rw [if_pos h2]
        exact ⟨(fun h => by cases h; exact ⟨rfl, h', .inr h2⟩), fun h => by rw [h.1]⟩
      · rw [if_neg h2]
        exact ⟨(fun h => by cases h), fun h => by rcases h.2.2 with h | h <;> contradiction⟩
  · have h' := h
    rw [containsSub_iff] at h'
    rw [if_neg h]
    exact ⟨(fun h => by cases h), fun hh => absurd hh.2.1 h'⟩

/-! ### Text by text -/

theorem images_ok (e : Env) (t : Text) (h : ¬ EmptyTarget t) (hr : NeverFails e.r) :
    ∃ x, replaceAll inlineImageRe (imageReplacer e) t = .ok x := by
  cases hx : replaceAll inlineImageRe (imageReplacer e) t with
  | ok x => exact ⟨x, rfl⟩
  | error f =>
    obtain ⟨pv, t', mt, s, hm, hs, hf⟩ := replaceAll_error hx
    rcases (C46_image e hm hf).2 with ⟨he, -⟩ | ⟨p, he⟩ | ⟨p, he⟩
    · exact absurd (he.imp (occurs_of_suffix hs) (occurs_of_suffix hs)) h
    · obtain ⟨x, hx⟩ := (hr e.toPEnv).1 p
      rw [hx] at he; cases he
    · obtain ⟨x, hx⟩ := (hr e.toPEnv).2 p
      rw [hx] at he; cases he

theorem links_ok (e : Env) (t : Text) (h : ¬ Occurs "&gt;".toList t) :
    ∃ x, replaceAll inlineLinkRe (linkReplacer e) t = .ok x := by
  cases hx : replaceAll inlineLinkRe (linkReplacer e) t with
  | ok x => exact ⟨x, rfl⟩
  | error f =>
    obtain ⟨pv, t', mt, s, hm, hs, hf⟩ := replaceAll_error hx
    rcases (C46_link_iff e hm).1 with ⟨x, hx⟩ | hp
    · rw [hx] at hf; cases hf
    · exact absurd (occurs_of_suffix hs (link_gt hm ((C46_link_iff e hm).2.mp hp).1)) h

theorem linkMacros_ok (e : Env) (t : Text) (h : ¬ ShortTarget t) :
    ∃ x, replaceAll inlineLinkMacroRe (linkMacroReplacer e) t = .ok x := by
  cases hx : replaceAll inlineLinkMacroRe (linkMacroReplacer e) t with
  | ok x => exact ⟨x, rfl⟩
  | error f =>
    obtain ⟨pv, t', mt, s, hm, hs, hf⟩ := replaceAll_error hx
    obtain ⟨h1, h2, h3⟩ := C46_link_macro_iff e hm
    rcases h1 with ⟨x, hx⟩ | hp
    · rw [hx] at hf; cases hf
    · obtain ⟨c, hc⟩ := h3 (h2.mp hp).2
      exact absurd ⟨c, hc.imp (occurs_of_suffix hs) (occurs_of_suffix hs)⟩ h

theorem emails_ok (e : Env) (t : Text) : ∃ x, replaceAll inlineEmailRe (emailReplacer e) t = .ok x := by
  cases hx : replaceAll inlineEmailRe (emailReplacer e) t with
  | ok x => exact ⟨x, rfl⟩
  | error f =>
    obtain ⟨pv, t', mt, s, hm, hs, hf⟩ := replaceAll_error hx
    obtain ⟨x, hx⟩ := emailReplacer_ok e hm
    rw [hx] at hf; cases hf

theorem anchors_ok (e : Env) (t : Text) : ∃ x, replaceAll inlineAnchorRe (anchorReplacer e) t = .ok x := by
  cases hx : replaceAll inlineAnchorRe (anchorReplacer e) t with
  | ok x => exact ⟨x, rfl⟩
  | error f =>
    obtain ⟨pv, t', mt, s, hm, hs, hf⟩ := replaceAll_error hx
    obtain ⟨x, hx⟩ := anchorReplacer_ok e hm
    rw [hx] at hf; cases hf

/-- One of the replacements of `applyMacros`: done only when `c` holds of the original text. -/
def when (c : Bool) (re : Re) (rep : Match → Res Text) (r : Text) : Res Text := if c then replaceAll re rep r else .ok r

theorem applyMacros_eq (e : Env) (t : Text) :
    applyMacros e t =
      (when (t.contains '[' && t.contains ':' && (containsSub t "image:".toList || containsSub t "icon:".toList))
        inlineImageRe (imageReplacer e) t).bind fun r =>
      (when (t.contains ':' && containsSub t "://".toList) inlineLinkRe (linkReplacer e) r).bind fun r =>
      (when (t.contains '[' && t.contains ':' && (containsSub t "link:".toList || containsSub t "ilto:".toList))
        inlineLinkMacroRe (linkMacroReplacer e) r).bind fun r =>
      (when (t.contains '@') inlineEmailRe (emailReplacer e) r).bind fun r =>
      when ((t.contains '[' && containsSub t "[[".toList) || (t.contains '[' && t.contains ':' && containsSub t "or:".toList))
        inlineAnchorRe (anchorReplacer e) r := by
  unfold applyMacros when
  simp only [bind]
  generalize (t.contains '[' && t.contains ':' && (containsSub t "image:".toList || containsSub t "icon:".toList)) = c1
  generalize (t.contains ':' && containsSub t "://".toList) = c2
  generalize (t.contains '[' && t.contains ':' && (containsSub t "link:".toList || containsSub t "ilto:".toList)) = c3
  generalize t.contains '@' = c4
  cases c1 <;> cases c2 <;> cases c3 <;> cases c4 <;> rfl

/-- Replacing macros never runs forever: whatever the text, when it fails this is a panic of its own or a failure of the
renderer. -/
theorem C46_failures (e : Env) (t : Text) (f : Fail) (h : applyMacros e t = .error f) :
    f = .panic ∨ (∃ p, e.r.image e.toPEnv p = .error f) ∨ ∃ p, e.r.icon e.toPEnv p = .error f := by
  have img : ∀ t f, replaceAll inlineImageRe (imageReplacer e) t = .error f →
      f = .panic ∨ (∃ p, e.r.image e.toPEnv p = .error f) ∨ ∃ p, e.r.icon e.toPEnv p = .error f := by
    intro t f hx
    obtain ⟨pv, t', mt, s, hm, -, hf⟩ := replaceAll_error hx
    rcases (C46_image e hm hf).2 with ⟨-, he⟩ | he
    · exact .inl he
    · exact .inr he
  have lnk : ∀ t f, replaceAll inlineLinkRe (linkReplacer e) t = .error f → f = .panic := by
    intro t f hx
    obtain ⟨pv, t', mt, s, hm, -, hf⟩ := replaceAll_error hx
    rcases (C46_link_iff e hm).1 with ⟨x, hx⟩ | hp
    · rw [hx] at hf; cases hf
    · rw [hp] at hf; cases hf; rfl
  have mac : ∀ t f, replaceAll inlineLinkMacroRe (linkMacroReplacer e) t = .error f → f = .panic := by
    intro t f hx
    obtain ⟨pv, t', mt, s, hm, -, hf⟩ := replaceAll_error hx
    rcases (C46_link_macro_iff e hm).1 with ⟨x, hx⟩ | hp
    · rw [hx] at hf; cases hf
    · rw [hp] at hf; cases hf; rfl
  have err : ∀ {α β} {x : Res α} {k : α → Res β} {f}, x.bind k = .error f →
      x = .error f ∨ ∃ y, x = .ok y ∧ k y = .error f := by
    intro α β x k f hx
    cases x with
    | error g => left; exact congrArg _ (by cases hx; rfl)
    | ok y => exact .inr ⟨y, rfl, hx⟩
  have wh : ∀ {c re rep r f}, when c re rep r = .error f → replaceAll re rep r = .error f := by
    intro c re rep r f hx
    cases c with
    | true => exact hx
    | false => cases hx
  rw [applyMacros_eq] at h
  rcases err h with h | ⟨r1, -, h⟩
  · exact img _ _ (wh h)
  rcases err h with h | ⟨r2, -, h⟩
  · exact .inl (lnk _ _ (wh h))
  rcases err h with h | ⟨r3, -, h⟩
  · exact .inl (mac _ _ (wh h))
  rcases err h with h | ⟨r4, -, h⟩
  · obtain ⟨x, hx⟩ := emails_ok e r3
    rw [wh h] at hx; cases hx
  · obtain ⟨x, hx⟩ := anchors_ok e r4
    rw [wh h] at hx; cases hx

/-- **Macros never panic**, for a text
* without image and icon macros, or, if the renderer does not fail for any, without one whose target is missing;
* without `://`, or else without image and icon macros and without `&gt;`;
* without link and mail macros, or else without any of the above and without a target of one character.

Missing: texts in which a macro comes after the output of another one (the second and third conditions then would have to
speak about that output), and of course the texts of the findings below. -/
theorem C46_returns_partial (e : Env) (t : Text)
    (images : (¬ Occurs "image:".toList t ∧ ¬ Occurs "icon:".toList t) ∨ (¬ EmptyTarget t ∧ NeverFails e.r))
    (links : ¬ Occurs "://".toList t ∨
      (¬ Occurs "image:".toList t ∧ ¬ Occurs "icon:".toList t ∧ ¬ Occurs "&gt;".toList t))
    (macros : (¬ Occurs "link:".toList t ∧ ¬ Occurs "ilto:".toList t) ∨
      (¬ Occurs "image:".toList t ∧ ¬ Occurs "icon:".toList t ∧ ¬ Occurs "://".toList t ∧ ¬ ShortTarget t)) :
    ∃ x, applyMacros e t = .ok x := by
  rw [applyMacros_eq]
  generalize hc1 : (t.contains '[' && t.contains ':' && (containsSub t "image:".toList || containsSub t "icon:".toList)) = c1
  generalize hc2 : (t.contains ':' && containsSub t "://".toList) = c2
  generalize hc3 : (t.contains '[' && t.contains ':' && (containsSub t "link:".toList || containsSub t "ilto:".toList)) = c3
  have n1 : (¬ Occurs "image:".toList t ∧ ¬ Occurs "icon:".toList t) → c1 = false := by
    rintro ⟨h1, h2⟩
    rw [← hc1, not_occurs h1, not_occurs h2, Bool.or_self, Bool.and_false]
  have n2 : ¬ Occurs "://".toList t → c2 = false := by
    intro h1
    rw [← hc2, not_occurs h1, Bool.and_false]
  have n3 : (¬ Occurs "link:".toList t ∧ ¬ Occurs "ilto:".toList t) → c3 = false := by
    rintro ⟨h1, h2⟩
    rw [← hc3, not_occurs h1, not_occurs h2, Bool.or_self, Bool.and_false]
  have s1 : ∃ r, when c1 inlineImageRe (imageReplacer e) t = .ok r ∧ (c1 = false → r = t) := by
    cases c1 with
    | false => exact ⟨t, rfl, fun _ => rfl⟩
    | true =>
      rcases images with h | ⟨h1, h2⟩
      · cases n1 h
      · obtain ⟨x, hx⟩ := images_ok e t h1 h2
        exact ⟨x, hx, (fun h => by cases h)⟩
  obtain ⟨r1, h1, e1⟩ := s1
  have s2 : ∃ r, when c2 inlineLinkRe (linkReplacer e) r1 = .ok r ∧ (c2 = false → r = r1) := by
    cases c2 with
    | false => exact ⟨r1, rfl, fun _ => rfl⟩
    | true =>
      rcases links with h | ⟨i1, i2, i3⟩
      · cases n2 h
      · obtain ⟨x, hx⟩ := links_ok e t i3
        exact ⟨x, by rw [e1 (n1 ⟨i1, i2⟩)]; exact hx, (fun h => by cases h)⟩
  obtain ⟨r2, h2, e2⟩ := s2
  have s3 : ∃ r, when c3 inlineLinkMacroRe (linkMacroReplacer e) r2 = .ok r := by
    cases c3 with
    | false => exact ⟨r2, rfl⟩
    | true =>
      rcases macros with h | ⟨i1, i2, i3, i4⟩
      · cases n3 h
      · rw [e2 (n2 i3), e1 (n1 ⟨i1, i2⟩)]
        exact linkMacros_ok e t i4
  obtain ⟨r3, h3⟩ := s3
  simp only [h1, Except.bind, h2, h3]
  unfold when
  generalize t.contains '@' = c4
  have s4 : ∃ r, (if c4 = true then replaceAll inlineEmailRe (emailReplacer e) r3 else .ok r3) = .ok r := by
    cases c4 with
    | false => exact ⟨r3, rfl⟩
    | true => exact emails_ok e r3
  obtain ⟨r4, h4⟩ := s4
  rw [h4]
  simp only
  split
  · exact anchors_ok e r4
  · exact ⟨r4, rfl⟩

/-- The hypotheses of `C46_returns_partial` can be met with the HTML renderer by a text that has macros of three kinds in
it, and the result is not the text. -/
example :
    letI := asciiUni
    let t := "see link:a.html[A], jo@example.org and [[here]]".toList
    (¬ Occurs "image:".toList t ∧ ¬ Occurs "icon:".toList t ∧ ¬ Occurs "://".toList t ∧ ¬ ShortTarget t) ∧
    applyMacros htmlEnv t =
      .ok ("see <a href=\"a.html\">A</a>, <a href=\"mailto:jo@example.org\">jo@example.org</a> and " ++
        "<a id=\"here\"></a>").toList := by
  refine ⟨⟨?_, ?_, ?_, ?_⟩, by decide +kernel⟩
  · intro h; exact absurd (containsSub_iff.mpr h) (by decide +kernel)
  · intro h; exact absurd (containsSub_iff.mpr h) (by decide +kernel)
  · intro h; exact absurd (containsSub_iff.mpr h) (by decide +kernel)
  · rintro ⟨c, ⟨a, b, h⟩ | ⟨a, b, h⟩⟩
    · have hd : ∀ i < 60, ("see link:a.html[A], jo@example.org and [[here]]".toList.drop i).take 5 = "link:".toList →
          ("see link:a.html[A], jo@example.org and [[here]]".toList.drop (i + 6)).head? ≠ some '[' := by decide +kernel
      have hl := congrArg List.length h
      rw [h] at hd
      simp at hl
      refine hd a.length (by omega) (by simp) ?_
      simp
    · have hm : containsSub "see link:a.html[A], jo@example.org and [[here]]".toList "mailto:".toList = true :=
        containsSub_iff.mpr ⟨a, [c, '['] ++ b, by rw [h]; simp⟩
      exact absurd hm (by decide +kernel)

/-! ### Findings -/

/-- Texts for which replacing macros panics: no target, a target of one character, a link followed by `>`, an inline SVG. -/
theorem C46_panics :
    letI := asciiUni
    applyMacros htmlEnv "image:[x]".toList = .error .panic ∧
    applyMacros htmlEnv "icon:[]".toList = .error .panic ∧
    applyMacros htmlEnv "link:x[text]".toList = .error .panic ∧
    applyMacros htmlEnv "mailto:x[]".toList = .error .panic ∧
    applyMacros htmlEnv "https://example.org&gt;".toList = .error .panic ∧
    applyMacros htmlEnv "image:a.svg[opts=inline]".toList = .error .panic ∧
    applyMacros htmlEnv "image:a.png[format=svg,opts=interactive]".toList = .error .panic := by
  decide +kernel

/-- The same through the substitutions of an ordinary paragraph, where `>` becomes `&gt;`. -/
theorem C46_panics_normal :
    letI := asciiUni
    Group.apply 2 htmlEnv .normal none "a (https://example.org>)".toList = .error .panic ∧
    Group.apply 2 htmlEnv .normal none "an image:[x]".toList = .error .panic ∧
    Group.apply 2 htmlEnv .normal none "a link:x[text]".toList = .error .panic := by
  decide +kernel

end Adoc.Props
