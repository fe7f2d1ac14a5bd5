import Verif.Lemmas.MacroFails
import Verif.Props.Macros
import Verif.Props.Path
/-!
# C65: inline macros
-/

namespace Adoc.Props
open Adoc Adoc.Spec Re
variable [Uni]

private theorem occurs_contains {n t : Text} : containsSub t n = true ↔ Occurs n t := containsSub_iff

private theorem when_of {c : Bool} {C : Prop} {re : Re} {rep : Match → Res Text} {P : Option Char → Text → Text → Text → Prop}
    {t u : Text} (hc : c = true ↔ C) (hr : RendersIf re rep P) (h : when c re rep t = .ok u) : When C P t u := by
  unfold when at h
  by_cases hb : c = true
  · rw [if_pos hb] at h
    exact .inl ⟨hc.mp hb, hr.rewrites (replaceAll_ok h)⟩
  · rw [if_neg hb] at h
    cases h
    exact .inr ⟨fun h => hb (hc.mpr h), rfl⟩

omit [Uni] in
private theorem when_det {C : Prop} {P : Option Char → Text → Text → Text → Prop} {t u v : Text} (hd : Determined P)
    (h : When C P t u) (h' : When C P t v) : u = v := by
  rcases h with ⟨hc, h⟩ | ⟨hc, rfl⟩
  · rcases h' with ⟨_, h'⟩ | ⟨hc', _⟩
    · exact Adoc.Rewrites.det hd h h'
    · exact absurd hc hc'
  · rcases h' with ⟨hc', _⟩ | ⟨_, rfl⟩
    · exact absurd hc' hc
    · rfl

omit [Uni] in
private theorem colon_of {n t : Text} (hn : ':' ∈ n) (h : Occurs n t) : t.contains ':' = true := by
  obtain ⟨a, b, rfl⟩ := h
  rw [List.contains_iff_mem]
  simp [hn]

omit [Uni] in
private theorem bracket_of {n t : Text} (hn : '[' ∈ n) (h : Occurs n t) : t.contains '[' = true := by
  obtain ⟨a, b, rfl⟩ := h
  rw [List.contains_iff_mem]
  simp [hn]

private theorem when_fails {c : Bool} {C : Prop} {re : Re} {rep : Match → Res Text}
    {P : Option Char → Text → Text → Text → Prop} {F : Option Char → Text → Text → Fail → Prop} {t : Text} {f : Fail}
    (hc : c = true ↔ C) (hr : RendersIf re rep P) (hf : FailsIf re rep P F) (hd : Determined P) :
    when c re rep t = .error f ↔ FailsWhen C P F t f := by
  unfold when FailsWhen
  by_cases hb : c = true
  · rw [if_pos hb, replaceAll_fails hr hf hd]
    exact ⟨fun h => ⟨hc.mp hb, h⟩, fun h => h.2⟩
  · rw [if_neg hb]
    exact ⟨(fun h => by cases h), fun h => absurd (hc.mpr h.1) hb⟩

private theorem when_safe {c : Bool} {C : Prop} {re : Re} {rep : Match → Res Text}
    {P : Option Char → Text → Text → Text → Prop} {F : Option Char → Text → Text → Fail → Prop} {t u : Text}
    (hc : c = true ↔ C) (hr : RendersIf re rep P) (hf : FailsIf re rep P F) (hd : Determined P) :
    when c re rep t = .ok u ↔ WhenSafe C P F t u := by
  constructor
  · intro h
    refine ⟨when_of hc hr h, fun f hx => ?_⟩
    rw [(when_fails hc hr hf hd).mpr hx] at h
    cases h
  · rintro ⟨h1, h2⟩
    cases hx : when c re rep t with
    | ok v => rw [when_det hd h1 (when_of hc hr hx)]
    | error f => exact absurd ((when_fails hc hr hf hd).mp hx) (h2 f)

private theorem if_images {t : Text} :
    (t.contains '[' && t.contains ':' && (containsSub t "image:".toList || containsSub t "icon:".toList)) = true ↔
      '[' ∈ t ∧ (Occurs "image:".toList t ∨ Occurs "icon:".toList t) := by
  rw [Bool.and_eq_true, Bool.and_eq_true, Bool.or_eq_true, occurs_contains, occurs_contains, List.contains_iff_mem]
  exact ⟨fun h => ⟨h.1.1, h.2⟩, fun h => ⟨⟨h.1, h.2.elim (colon_of (by decide)) (colon_of (by decide))⟩, h.2⟩⟩

private theorem if_links {t : Text} : (t.contains ':' && containsSub t "://".toList) = true ↔ Occurs "://".toList t := by
  rw [Bool.and_eq_true, occurs_contains]
  exact ⟨fun h => h.2, fun h => ⟨colon_of (by decide) h, h⟩⟩

private theorem if_linkMacros {t : Text} :
    (t.contains '[' && t.contains ':' && (containsSub t "link:".toList || containsSub t "ilto:".toList)) = true ↔
      '[' ∈ t ∧ (Occurs "link:".toList t ∨ Occurs "ilto:".toList t) := by
  rw [Bool.and_eq_true, Bool.and_eq_true, Bool.or_eq_true, occurs_contains, occurs_contains, List.contains_iff_mem]
  exact ⟨fun h => ⟨h.1.1, h.2⟩, fun h => ⟨⟨h.1, h.2.elim (colon_of (by decide)) (colon_of (by decide))⟩, h.2⟩⟩

/-- **Images, icons, links, link macros, e-mail addresses and anchors are rendered as described, and all other text is kept**:
whatever the text, the attributes and the renderer, the result of the macros step is the one of the specification. -/
theorem C65_macros [LawfulUni] (e : Env) {t out : Text} (h : applyMacros e t = .ok out) : MacrosBecome e t out := by
  have bind_ok : ∀ {x : Res Text} {f : Text → Res Text} {y : Text}, x.bind f = .ok y → ∃ a, x = .ok a ∧ f a = .ok y := by
    intro x f y h
    cases x with
    | error z => cases h
    | ok a => exact ⟨a, rfl, h⟩
  rw [applyMacros_eq] at h
  obtain ⟨t1, h1, g1⟩ := bind_ok h
  obtain ⟨t2, h2, g2⟩ := bind_ok g1
  obtain ⟨t3, h3, g3⟩ := bind_ok g2
  obtain ⟨t4, h4, h5⟩ := bind_ok g3
  refine ⟨t1, t2, t3, t4, when_of ?_ (renders_image e) h1, when_of ?_ (renders_link e) h2, when_of ?_ (renders_linkMacro e) h3,
    when_of ?_ (renders_mail e) h4, when_of ?_ (renders_anchor e) h5⟩
  · exact if_images
  · exact if_links
  · exact if_linkMacros
  · exact List.contains_iff_mem
  · rw [Bool.or_eq_true, Bool.and_eq_true, Bool.and_eq_true, Bool.and_eq_true, occurs_contains, occurs_contains]
    constructor
    · rintro (h | h)
      · exact .inl h.2
      · exact .inr ⟨List.contains_iff_mem.mp h.1.1, h.2⟩
    · rintro (h | h)
      · exact .inl ⟨bracket_of (by decide) h, h⟩
      · exact .inr ⟨⟨List.contains_iff_mem.mpr h.1, colon_of (by decide) h.2⟩, h.2⟩

/-- There is just one such result: the specification leaves nothing open. -/
theorem C65_unique [LawfulUni] {e : Env} {t u v : Text} (h : MacrosBecome e t u) (h' : MacrosBecome e t v) : u = v := by
  obtain ⟨t1, t2, t3, t4, h1, h2, h3, h4, h5⟩ := h
  obtain ⟨u1, u2, u3, u4, g1, g2, g3, g4, g5⟩ := h'
  cases when_det (determined_image e) h1 g1
  cases when_det (determined_link e) h2 g2
  cases when_det (determined_linkMacro e) h3 g3
  cases when_det (determined_mail e) h4 g4
  exact when_det (determined_anchor e) h5 g5

/-- So the result of the specification is the result of the macros step, unless that fails (claim C46 says when it does). -/
theorem C65_exact [LawfulUni] (e : Env) {t out u : Text} (h : applyMacros e t = .ok out) : MacrosBecome e t u ↔ u = out :=
  ⟨fun hu => C65_unique hu (C65_macros e h), fun hu => hu ▸ C65_macros e h⟩

/-- **The macros step fails exactly if the text has an image, link or link macro that fails**: an image or icon without a
target or that the renderer refuses, a link that an angle bracket closes and none opened, or a link macro whose target is a
single character.  Which of them comes first does not depend on anything else. -/
theorem C46_exact [LawfulUni] (e : Env) (t : Text) (f : Fail) : applyMacros e t = .error f ↔ MacrosFail e t f := by
  have split : ∀ {x : Res Text} {k : Text → Res Text} {f : Fail}, x.bind k = .error f ↔
      x = .error f ∨ ∃ y, x = .ok y ∧ k y = .error f := by
    intro x k f
    cases x with
    | error g => simp [Except.bind]
    | ok y => simp [Except.bind]
  have nomail : ∀ {c : Bool} {t : Text} {f : Fail}, when c inlineEmailRe (emailReplacer e) t ≠ .error f := by
    intro c t f h
    cases c with
    | false => cases h
    | true => obtain ⟨x, hx⟩ := emails_ok e t; exact absurd (hx.symm.trans h) (by simp)
  have noanchor : ∀ {c : Bool} {t : Text} {f : Fail}, when c inlineAnchorRe (anchorReplacer e) t ≠ .error f := by
    intro c t f h
    cases c with
    | false => cases h
    | true => obtain ⟨x, hx⟩ := anchors_ok e t; exact absurd (hx.symm.trans h) (by simp)
  rw [applyMacros_eq]
  simp only [split, nomail, noanchor, and_false, exists_false, or_false]
  simp only [when_fails if_images (renders_image e) (fails_image e) (determined_image e),
    when_safe if_images (renders_image e) (fails_image e) (determined_image e),
    when_fails if_links (renders_link e) (fails_link e) (determined_link e),
    when_safe if_links (renders_link e) (fails_link e) (determined_link e),
    when_fails if_linkMacros (renders_linkMacro e) (fails_linkMacro e) (determined_linkMacro e)]
  exact Iff.rfl

/-- **The macros step succeeds with a result exactly if the specification gives this result and nothing in the text fails.** -/
theorem C65_iff [LawfulUni] (e : Env) (t out : Text) :
    applyMacros e t = .ok out ↔ MacrosBecome e t out ∧ ∀ f, ¬ MacrosFail e t f := by
  constructor
  · intro h
    refine ⟨C65_macros e h, fun f hf => ?_⟩
    rw [(C46_exact e t f).mpr hf] at h
    cases h
  · rintro ⟨h1, h2⟩
    cases hx : applyMacros e t with
    | ok v => rw [C65_unique h1 (C65_macros e hx)]
    | error f => exact absurd ((C46_exact e t f).mp hx) (h2 f)

/-- Non-vacuity of `C46_exact`: a link that fails, behind an image that is rendered. -/
example : letI := asciiUni; MacrosFail htmlEnv "image:my_cat.png[] see https://example.org&gt;".toList .panic := by
  letI := asciiUni
  refine (C46_exact htmlEnv _ _).mp ?_
  decide +kernel

/-- Non-vacuity: every kind of macro, and each of them escaped. -/
example : letI := asciiUni
    MacrosBecome htmlEnv
      ("image:my_cat.png[] \\image:ab[] http://a.org[A^] https://b.org/x?, (irc://c.d); &lt;ftp://e.f&gt; \\http://g.h " ++
        "link:i.html[I,role=j] \\link:k[] mailto:l@m.no[L,Hi you] \\p@q.rs t@u.vw [[x,y]] \\anchor:z[Z]").toList
      ("<span class=\"image\"><img src=\"my_cat.png\" alt=\"my cat\"></span> image:ab[] " ++
        "<a href=\"http://a.org\" target=\"_blank\" rel=\"noopener\">A</a> " ++
        "<a href=\"https://b.org/x\" class=\"bare\">https://b.org/x</a>?, " ++
        "(<a href=\"irc://c.d\" class=\"bare\">irc://c.d</a>); <a href=\"ftp://e.f\" class=\"bare\">ftp://e.f</a> http://g.h " ++
        "<a href=\"i.html\" class=\"j\">I</a> link:k[] <a href=\"mailto:l@m.no?subject=Hi%20you\">L</a> " ++
        "p@q.rs <a href=\"mailto:t@u.vw\">t@u.vw</a> <a id=\"x\"></a> anchor:z[Z]").toList := by
  letI := asciiUni
  refine C65_macros htmlEnv ?_
  decide +kernel

end Adoc.Props
