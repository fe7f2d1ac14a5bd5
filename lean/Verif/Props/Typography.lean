import Verif.Lemmas.Typography
import Verif.Props.Path
/-!
# C59: typographic replacements
-/

namespace Adoc.Props
open Adoc Adoc.Spec Re

variable [Uni]

/-- The expressions of the code and the replacements of the specification, one by one. -/
private inductive Aligned (r : Renderer) : List (CharRepl × Re) → List (Option Char → Text → Text → Text → Prop) → Prop
  | nil : Aligned r [] []
  | cons {ty re rs P Ps} : Renders re (charReplacer r ty) P → Determined P → Aligned r rs Ps →
      Aligned r ((ty, re) :: rs) (P :: Ps)

private theorem sign_plain {r : Renderer} {w : Text} {ty : CharRepl} (hb : '\\' ∉ w) (hw : w ≠ [])
    (h : ∀ mt : Match, '\\' ∉ mt.text → mt.caps = [] → charReplacer r ty mt = .ok (r.charRepl ty)) :
    Renders (cat [opt (chr '\\'), lit w]) (charReplacer r ty) (Sign w (r.charRepl ty)) ∧ Determined (Sign w (r.charRepl ty)) :=
  ⟨renders_sign hb hw (fun _ h => charReplacer_escaped h) h, determined_sign hb hw⟩

omit [Uni] in
private theorem plain_of {r : Renderer} {ty : CharRepl} {mt : Match} (h : '\\' ∉ mt.text) (hc : mt.caps = [])
    (h1 : ty ≠ .emDashWithoutSpace) (h2 : ∀ n, ty ≠ .characterReference n) : charReplacer r ty mt = .ok (r.charRepl ty) := by
  unfold charReplacer
  rw [if_neg (by simpa using h)]
  cases ty with
  | emDashWithoutSpace => exact absurd rfl h1
  | characterReference n => exact absurd rfl (h2 n)
  | typographicApostrophe =>
    have hg : ∀ n, n ≠ 0 → mt.get n = none := by
      intro n hn
      unfold Match.get
      rw [hc]
      simp [hn]
    simp only [hg 1 (by simp), hg 2 (by simp)]
    simp
  | _ => rfl

private theorem aligned [LawfulUni] (r : Renderer) : Aligned r replacements (typography r.charRepl) := by
  have sg : ∀ {w : Text} {ty : CharRepl} {rs Ps}, '\\' ∉ w → w ≠ [] → ty ≠ .emDashWithoutSpace → (∀ n, ty ≠ .characterReference n) →
      Aligned r rs Ps → Aligned r ((ty, cat [opt (chr '\\'), lit w]) :: rs) (Sign w (r.charRepl ty) :: Ps) := by
    intro w ty rs Ps hb hw h1 h2 ha
    obtain ⟨a, b⟩ := sign_plain (r := r) (ty := ty) hb hw fun mt hm hc => plain_of hm hc h1 h2
    exact .cons a b ha
  refine sg (by decide) (by decide) (by decide) nofun ?_
  refine sg (by decide) (by decide) (by decide) nofun ?_
  refine sg (by decide) (by decide) (by decide) nofun ?_
  refine .cons (renders_spaced r) (determined_spaced _) ?_
  refine .cons (renders_wordDash r) (determined_wordDash _) ?_
  refine sg (by decide) (by decide) (by decide) nofun ?_
  refine sg (by decide) (by decide) (by decide) nofun ?_
  refine .cons (renders_inner r) (determined_inner _) ?_
  refine sg (by decide) (by decide) (by decide) nofun ?_
  refine sg (by decide) (by decide) (by decide) nofun ?_
  refine sg (by decide) (by decide) (by decide) nofun ?_
  refine sg (by decide) (by decide) (by decide) nofun ?_
  exact .cons (renders_reference r) (determined_reference _) .nil

private theorem loop_typeset {r : Renderer} {rs : List (CharRepl × Re)} {Ps : List (Option Char → Text → Text → Text → Prop)}
    (h : Aligned r rs Ps) : ∀ t, ∃ out, applyReplacements r rs t = .ok out ∧ Typeset Ps t out := by
  induction h with
  | nil => intro t; exact ⟨t, rfl, .nil⟩
  | @cons ty re rs P Ps h1 _ _ ih =>
    intro t
    obtain ⟨u, hu, hr⟩ := h1.replaceAll t
    obtain ⟨out, ho, hs⟩ := ih u
    refine ⟨out, ?_, .cons hr hs⟩
    unfold applyReplacements
    simp only [hu, bind, Except.bind]
    exact ho

private theorem typeset_det {r : Renderer} {rs : List (CharRepl × Re)} {Ps : List (Option Char → Text → Text → Text → Prop)}
    (h : Aligned r rs Ps) : ∀ {t u v}, Typeset Ps t u → Typeset Ps t v → u = v := by
  induction h with
  | nil => intro t u v h h'; cases h; cases h'; rfl
  | cons _ hd _ ih =>
    intro t u v h h'
    cases h with
    | cons h1 h2 =>
      cases h' with
      | cons h3 h4 =>
        have := Rewrites.det hd h1 h3
        subst this
        exact ih h2 h4

private theorem search_none_at {re : Re} : ∀ {t : Text} {pv : Option Char}, search re pv t = none →
    ∀ a b, t = a ++ b → matchAt re (prevAfter pv a) b = none
  | [], pv, h, a, b, e => by
    obtain ⟨rfl, rfl⟩ := List.append_eq_nil_iff.mp e.symm
    unfold search at h
    rw [prevAfter_nil]
    simpa using h
  | c :: t, pv, h, a, b, e => by
    unfold search at h
    cases hm : matchAt re pv (c :: t) with
    | some y => rw [hm] at h; cases h
    | none =>
      rw [hm] at h
      simp only [Option.map_eq_none_iff] at h
      cases a with
      | nil => rw [← show c :: t = b from e]; exact hm
      | cons d a =>
        cases e
        rw [prevAfter_cons]
        exact search_none_at h a b rfl

/-- The pieces of text that the code looks for before it tries any replacement. -/
private def clues : List Text := ["&".toList, "'".toList, "--".toList, "...".toList, "(C)".toList, "(R)".toList, "(TM)".toList]

private theorem clue_found {u : Text} (hu : u ∈ clues) (pv : Option Char) (b : Text) :
    ∃ s, Rel replaceableTextSniffRe ⟨pv, u ++ b, []⟩ s := by
  have paren : ∀ {k : Text}, (k = ['C'] ∨ k = ['R'] ∨ k = ['T', 'M']) → ∃ s, Rel replaceableTextSniffRe ⟨pv, '(' :: k ++ ')' :: b, []⟩ s := by
    intro k hk
    suffices h : ∀ pv', ∃ s, Rel (cat [cls (fun c => c == 'C' || c == 'R' || c == 'T'), opt (chr 'M'), chr ')']) ⟨pv', k ++ ')' :: b, []⟩ s by
      obtain ⟨s, h⟩ := h (some '(')
      exact ⟨s, rel_alt_iff.mpr (Or.inr (rel_alt_iff.mpr (Or.inr (rel_alt_iff.mpr (Or.inr (rel_seq_iff.mpr
        ⟨_, rel_chr_iff.mpr ⟨k ++ ')' :: b, rfl, rfl⟩, h⟩))))))⟩
    intro pv'
    rcases hk with rfl | rfl | rfl
    · exact ⟨_, rel_seq_iff.mpr ⟨_, rel_cls_iff.mpr ⟨'C', ')' :: b, rfl, rfl, rfl⟩, rel_seq_iff.mpr ⟨_, rel_opt_iff.mpr (Or.inr rfl),
        rel_chr_iff.mpr ⟨b, rfl, rfl⟩⟩⟩⟩
    · exact ⟨_, rel_seq_iff.mpr ⟨_, rel_cls_iff.mpr ⟨'R', ')' :: b, rfl, rfl, rfl⟩, rel_seq_iff.mpr ⟨_, rel_opt_iff.mpr (Or.inr rfl),
        rel_chr_iff.mpr ⟨b, rfl, rfl⟩⟩⟩⟩
    · exact ⟨_, rel_seq_iff.mpr ⟨_, rel_cls_iff.mpr ⟨'T', 'M' :: ')' :: b, rfl, rfl, rfl⟩, rel_seq_iff.mpr ⟨_,
        rel_opt_iff.mpr (Or.inl (rel_chr_iff.mpr ⟨')' :: b, rfl, rfl⟩)), rel_chr_iff.mpr ⟨b, rfl, rfl⟩⟩⟩⟩
  unfold clues at hu
  simp only [List.mem_cons, List.not_mem_nil, or_false] at hu
  rcases hu with rfl | rfl | rfl | rfl | rfl | rfl | rfl
  · exact ⟨_, rel_alt_iff.mpr (Or.inl (rel_cls_iff.mpr ⟨'&', b, rfl, rfl, rfl⟩))⟩
  · exact ⟨_, rel_alt_iff.mpr (Or.inl (rel_cls_iff.mpr ⟨'\'', b, rfl, rfl, rfl⟩))⟩
  · exact ⟨_, rel_alt_iff.mpr (Or.inr (rel_alt_iff.mpr (Or.inl (rel_lit_iff.mpr ⟨b, rfl, rfl⟩))))⟩
  · exact ⟨_, rel_alt_iff.mpr (Or.inr (rel_alt_iff.mpr (Or.inr (rel_alt_iff.mpr (Or.inl (rel_lit_iff.mpr ⟨b, rfl, rfl⟩))))))⟩
  · exact paren (Or.inl rfl)
  · exact paren (Or.inr (Or.inl rfl))
  · exact paren (Or.inr (Or.inr rfl))

/-- Every piece that is replaced has a clue in it. -/
private def Clued (P : Option Char → Text → Text → Text → Prop) : Prop :=
  ∀ pv m b x, P pv m b x → ∃ a u z, m = a ++ u ++ z ∧ u ∈ clues

omit [Uni] in
private theorem clued_sign {w new : Text} (h : ∃ a u z, w = a ++ u ++ z ∧ u ∈ clues) : Clued (Sign w new) := by
  obtain ⟨a, u, z, e, hu⟩ := h
  rintro pv m b x (⟨rfl, _⟩ | ⟨rfl, _⟩)
  · exact ⟨a, u, z, e, hu⟩
  · exact ⟨'\\' :: a, u, z, by rw [e]; rfl, hu⟩

private theorem all_clued (r : CharRepl → Text) : ∀ P ∈ typography r, Clued P := by
  unfold typography
  simp only [List.forall_mem_cons, List.not_mem_nil, false_imp_iff, implies_true, and_true]
  refine ⟨clued_sign ⟨[], "(C)".toList, [], by decide, by decide⟩, clued_sign ⟨[], "(R)".toList, [], by decide, by decide⟩,
    clued_sign ⟨[], "(TM)".toList, [], by decide, by decide⟩, ?_, ?_, clued_sign ⟨[], "...".toList, [], by decide, by decide⟩,
    clued_sign ⟨['`'], "'".toList, [], by decide, by decide⟩, ?_, clued_sign ⟨['-'], "&".toList, "gt;".toList, by decide, by decide⟩,
    clued_sign ⟨['='], "&".toList, "gt;".toList, by decide, by decide⟩, clued_sign ⟨[], "&".toList, "lt;-".toList, by decide, by decide⟩,
    clued_sign ⟨[], "&".toList, "lt;=".toList, by decide, by decide⟩, ?_⟩
  · rintro pv m b x ⟨a, c, rfl, _⟩
    exact ⟨a, "--".toList, c, rfl, by decide⟩
  · rintro pv m b x ⟨c, _, ⟨rfl, _⟩ | ⟨rfl, _⟩⟩
    · exact ⟨[c], "--".toList, [], rfl, by decide⟩
    · exact ⟨[c, '\\'], "--".toList, [], rfl, by decide⟩
  · rintro pv m b x ⟨c, d, _, _, ⟨rfl, _⟩ | ⟨rfl, _⟩⟩
    · exact ⟨[c], "'".toList, [d], rfl, by decide⟩
    · exact ⟨[c, '\\'], "'".toList, [d], rfl, by decide⟩
  · rintro pv m b x ⟨n, _, ⟨rfl, _⟩ | ⟨rfl, _⟩⟩
    · exact ⟨[], "&".toList, "amp;".toList ++ n ++ [';'], rfl, by decide⟩
    · exact ⟨['\\'], "&".toList, "amp;".toList ++ n ++ [';'], rfl, by decide⟩

private theorem typeset_same {Ps : List (Option Char → Text → Text → Text → Prop)} {t : Text} (hc : ∀ P ∈ Ps, Clued P)
    (h : isMatch replaceableTextSniffRe t = false) : Typeset Ps t t := by
  induction Ps with
  | nil => exact .nil
  | cons P Ps ih =>
    refine .cons (Rewrites.same fun a m b x pv e hp => ?_) (ih fun Q hQ => hc Q (by simp [hQ]))
    obtain ⟨a', u, z, rfl, hu⟩ := hc P (by simp) _ _ _ _ hp
    have hs : search replaceableTextSniffRe none t = none := by
      unfold isMatch at h
      simpa using h
    have hn := search_none_at hs (a ++ a') (u ++ (z ++ b)) (by rw [e]; simp)
    obtain ⟨s, hs⟩ := clue_found hu (prevAfter none (a ++ a')) (z ++ b)
    exact matchAt_none.mp hn s hs

/-- The typographic replacements of any renderer: `(C)`, `(R)`, `(TM)`, dashes, ellipses, apostrophes, arrows and character
references are replaced one kind after the other, each from the left to the right through the whole text; a backslash in
front of one of them is removed instead; everything else is kept.  And they always succeed, with this result only. -/
theorem C59_typography [LawfulUni] (r : Renderer) (t out : Text) :
    applyCharacterReplacements r t = .ok out ↔ Typeset (typography r.charRepl) t out := by
  obtain ⟨out', h1, h2⟩ : ∃ out, applyCharacterReplacements r t = .ok out ∧ Typeset (typography r.charRepl) t out := by
    unfold applyCharacterReplacements
    cases hm : isMatch replaceableTextSniffRe t with
    | false => exact ⟨t, by simp, typeset_same (all_clued _) hm⟩
    | true =>
      obtain ⟨out, ho, hs⟩ := loop_typeset (aligned r) t
      exact ⟨out, by simpa using ho, hs⟩
  constructor
  · intro h
    rw [h1] at h
    cases h
    exact h2
  · intro h
    rw [h1, typeset_det (aligned r) h h2]

/-- They never fail. -/
theorem C59_total [LawfulUni] (r : Renderer) (t : Text) : ∃ out, applyCharacterReplacements r t = .ok out := by
  unfold applyCharacterReplacements
  split
  · exact ⟨t, rfl⟩
  · obtain ⟨out, ho, _⟩ := loop_typeset (aligned r) t
    exact ⟨out, ho⟩

/-- Non-vacuity: replaced and escaped forms. -/
example : letI := asciiUni
    ∃ out, Typeset (typography Html.renderer.charRepl) "(C) \\(R) it's -- a--b... &amp;copy; \\&amp;amp;".toList out ∧
      out = "&#169; (R) it&#8217;s&#8201;&#8212;&#8201;a&#8212;&#8203;b&#8230;&#8203; &copy; &amp;amp;".toList := by
  letI := asciiUni
  refine ⟨_, (C59_typography Html.renderer _ _).mp ?_, rfl⟩
  decide +kernel

/-- Asciidoctor's rule, and the documentation's, is that two dashes are a dash only between two characters of words.  Here
it is enough that one stands in front: the assertion meant to look at what follows looks back at the dashes. -/
theorem C59_dash_before_anything : letI := asciiUni
    applyCharacterReplacements Html.renderer "yes--, no".toList = .ok "yes&#8212;&#8203;, no".toList := by
  letI := asciiUni
  decide +kernel

end Adoc.Props
