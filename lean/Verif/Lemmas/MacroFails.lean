import Verif.Lemmas.InlineLink
/-!
# Inline macros that fail, against their specification
-/

namespace Adoc
open Adoc.Spec Re
variable [Uni]

/-- When the replacer fails, `F` says so, and what `F` says is matched; `F` excludes `P` and itself. -/
structure FailsIf (re : Re) (rep : Match → Res Text) (P : Option Char → Text → Text → Text → Prop)
    (F : Option Char → Text → Text → Fail → Prop) : Prop where
  sound : ∀ pv t mt s f, matchAt re pv t = some (mt, s) → rep mt = .error f → F pv mt.text s.rest f
  complete : ∀ pv m b f, F pv m b f → ∃ s, Rel re ⟨pv, m ++ b, []⟩ s
  excl : ∀ pv m b f m' b' x, F pv m b f → P pv m' b' x → m ++ b ≠ m' ++ b'
  det : ∀ pv m b f m' b' f', F pv m b f → F pv m' b' f' → m ++ b = m' ++ b' → f = f'

variable {re : Re} {rep : Match → Res Text} {P : Option Char → Text → Text → Text → Prop}
  {F : Option Char → Text → Text → Fail → Prop}

theorem none_of (hr : RendersIf re rep P) (hf : FailsIf re rep P F) {pv : Option Char} {t : Text}
    (h : ∀ mt s, matchAt re pv t = some (mt, s) → mt.text = []) : ∀ m b, t = m ++ b → (∀ x, ¬ P pv m b x) ∧ ∀ g, ¬ F pv m b g := by
  have no : ∀ m b, t = m ++ b → ¬ ∃ s, Rel re ⟨pv, m ++ b, []⟩ s := by
    rintro m b rfl ⟨s, hs⟩
    cases hm : matchAt re pv (m ++ b) with
    | none => exact matchAt_none.mp hm s hs
    | some y => exact (hr.sound _ _ _ _ hm).1 (h _ _ hm)
  exact fun m b e => ⟨fun x hx => no m b e (hr.complete _ _ _ _ hx), fun g hg => no m b e (hf.complete _ _ _ _ hg)⟩

theorem replLoop_breaks (hr : RendersIf re rep P) (hf : FailsIf re rep P F) : ∀ (fuel : Nat) (pv : Option Char) (t : Text)
    (e : Bool) (dest : Text) (err : Fail), t.length < fuel →
      replLoop re (pureRep rep) fuel () pv t e dest = .error err → Breaks P F pv t err := by
  intro fuel
  induction fuel with
  | zero => intro pv t e dest err hl h; omega
  | succ fuel ih =>
    intro pv t e dest err hl h
    rw [replLoop] at h
    cases hm : matchAt re pv t with
    | none =>
      rw [hm] at h
      cases t with
      | nil => cases h
      | cons c cs =>
        exact .miss (none_of hr hf (by rw [hm]; intro _ _ h; cases h)) (ih _ _ _ _ _ (by simpa using hl) h)
    | some p =>
      obtain ⟨mt, s'⟩ := p
      obtain ⟨_, ht, ep, _⟩ := matchAt_sound hm
      have hne := (hr.sound _ _ _ _ hm).1
      have hlen : t.length = mt.text.length + s'.rest.length := by rw [ht]; simp
      have : 0 < mt.text.length := List.length_pos_iff.mpr hne
      rw [hm] at h
      simp only at h
      rw [if_pos hne] at h
      cases hx : rep mt with
      | error e2 =>
        simp only [pureRep, hx, Except.map] at h
        cases h
        rw [ht]
        exact .here (hf.sound _ _ _ _ _ hm hx)
      | ok x =>
        simp only [pureRep, hx, Except.map] at h
        have := ih _ _ _ _ _ (by omega) h
        rw [ep, prevAfter_ne hne] at this
        rw [ht]
        exact .hit ((hr.sound _ _ _ _ hm).2 x hx) this

theorem Breaks.ne_nil (hr : RendersIf re rep P) (hf : FailsIf re rep P F) {pv : Option Char} {f : Fail} :
    ¬ Breaks P F pv [] f := by
  intro h
  have no : ∀ m b, [] = m ++ b → ¬ ∃ s, Rel re ⟨pv, m ++ b, []⟩ s := by
    intro m b e hs
    rw [← e] at hs
    obtain ⟨s, hs⟩ := hs
    cases hm : matchAt re pv [] with
    | none => exact matchAt_none.mp hm s hs
    | some y =>
      obtain ⟨_, e, _⟩ := matchAt_sound hm
      exact (hr.sound _ _ _ _ hm).1 (List.append_eq_nil_iff.mp e.symm).1
  generalize ht : ([] : Text) = t at h
  cases h with
  | here h => exact no _ _ ht (hf.complete _ _ _ _ h)
  | hit h => exact no _ _ ht (hr.complete _ _ _ _ h)
  | miss => cases ht

/-- A replacement that succeeds meets nothing that fails. -/
theorem replaced_not_breaks (hr : RendersIf re rep P) (hf : FailsIf re rep P F) (hd : Determined P) {pv : Option Char}
    {e : Bool} {t out : Text} (h : Replaced re rep pv e t out) : ∀ f, ¬ Breaks P F pv t f := by
  induction h with
  | done _ => exact fun f => Breaks.ne_nil hr hf
  | doneEmpty hm _ => exact fun f => Breaks.ne_nil hr hf
  | @skip pv e c cs out hn _ ih =>
    have none := none_of hr hf (pv := pv) (t := c :: cs) (fun mt s h => (hn mt s h).1)
    intro f hb
    generalize ht : c :: cs = t at hb
    cases hb with
    | here h => exact (none _ _ ht).2 _ h
    | hit h => exact (none _ _ ht).1 _ h
    | miss _ h => cases ht; exact ih _ h
  | @hit pv e t mt s x out hm hne hx _ ih =>
    obtain ⟨_, hp⟩ := hr.sound _ _ _ _ hm
    obtain ⟨_, e, ep, _⟩ := matchAt_sound hm
    rw [ep, prevAfter_ne hne] at ih
    have hp := hp x hx
    intro f hb
    rw [e] at hb
    generalize ht : mt.text ++ s.rest = t' at hb
    cases hb with
    | here h => exact hf.excl _ _ _ _ _ _ _ h hp ht.symm
    | hit h hb =>
      obtain ⟨_, e1, _⟩ := hd _ _ _ _ _ _ _ hp h ht
      rw [← e1] at hb ht
      rw [List.append_cancel_left ht] at ih
      exact ih _ hb
    | miss h => exact (h _ _ ht.symm).1 _ hp
  | hitEmpty hm he _ _ => exact absurd he (hr.sound _ _ _ _ hm).1

theorem breaks_det (hf : FailsIf re rep P F) (hd : Determined P) {pv : Option Char} {t : Text} {f g : Fail}
    (h : Breaks P F pv t f) (h' : Breaks P F pv t g) : f = g := by
  induction h with
  | here h =>
    generalize ht : (_ : Text) ++ _ = t at h'
    cases h' with
    | here h' => exact hf.det _ _ _ _ _ _ _ h h' ht
    | hit h' => exact absurd ht (hf.excl _ _ _ _ _ _ _ h h')
    | miss h' => exact absurd h ((h' _ _ ht.symm).2 _)
  | hit h _ ih =>
    generalize ht : (_ : Text) ++ _ = t at h'
    cases h' with
    | here h' => exact absurd ht.symm (hf.excl _ _ _ _ _ _ _ h' h)
    | hit h' hb =>
      obtain ⟨_, e1, _⟩ := hd _ _ _ _ _ _ _ h h' ht
      rw [← e1] at hb ht
      rw [← List.append_cancel_left ht] at hb
      exact ih hb
    | miss h' => exact absurd h ((h' _ _ ht.symm).1 _)
  | miss h _ ih =>
    generalize ht : (_ : Char) :: _ = t at h'
    cases h' with
    | here h' => exact absurd h' ((h _ _ ht).2 _)
    | hit h' => exact absurd h' ((h _ _ ht).1 _)
    | miss _ hb => cases ht; exact ih hb

/-- The replacement fails exactly if the search comes to something that fails. -/
theorem replaceAll_fails (hr : RendersIf re rep P) (hf : FailsIf re rep P F) (hd : Determined P) (t : Text) (f : Fail) :
    replaceAll re rep t = .error f ↔ Breaks P F none t f := by
  have fwd : ∀ g, replaceAll re rep t = .error g → Breaks P F none t g := by
    intro g h
    unfold replaceAll replaceAllS at h
    cases hl : replLoop re (fun (_ : Unit) mt dest => (rep mt).map fun x => ((), dest ++ x)) (t.length + 1) () none t true []
      with
    | ok r => rw [hl] at h; cases h
    | error e2 =>
      rw [hl] at h
      cases h
      exact replLoop_breaks hr hf _ _ _ _ _ _ (Nat.lt_succ_self _) hl
  refine ⟨fwd f, fun h => ?_⟩
  cases hx : replaceAll re rep t with
  | ok out => exact absurd h (replaced_not_breaks hr hf hd (replaceAll_ok hx) f)
  | error g => rw [breaks_det hf hd h (fwd g hx)]

/-- As `RendersIf.of`. -/
theorem FailsIf.sound_of
    (sound : ∀ pv t s, m re some ⟨pv, t, []⟩ = some s → ∃ u, t = u ++ s.rest ∧
      ∀ f, matchAt re pv t = some (⟨u, s.caps⟩, s) → rep ⟨u, s.caps⟩ = .error f → F pv u s.rest f) :
    ∀ pv t mt s f, matchAt re pv t = some (mt, s) → rep mt = .error f → F pv mt.text s.rest f := by
  intro pv t mt s f h hf
  have h0 := h
  unfold matchAt at h
  cases hm : m re some ⟨pv, t, []⟩ with
  | none => rw [hm] at h; cases h
  | some z =>
    rw [hm] at h
    simp only [Option.map_some, Option.some.injEq, Prod.mk.injEq] at h
    obtain ⟨rfl, rfl⟩ := h
    obtain ⟨u, hu, hx⟩ := sound pv t z hm
    have ht : t.take (t.length - z.rest.length) = u := by rw [hu, take_used]
    rw [ht] at hf h0 ⊢
    exact hx f h0 hf

/-! ### Images -/

omit [Uni] in
theorem open_imageTarget {t : Text} (h : ImageTarget t ∨ t = []) : '[' ∉ t := by
  rcases h with h | rfl
  · exact h.inside.1
  · simp

/-- What fails as an image. -/
theorem imageFails_shape {e : Env} {pv : Option Char} {piece b : Text} {f : Fail} (h : ImageFails e pv piece b f) :
    ∃ name target attrs, piece = name ++ target ++ '[' :: attrs ++ [']'] ∧ (name = "image:".toList ∨ name = "icon:".toList) ∧
      Enclosed attrs ∧ ((target = [] ∧ f = .panic) ∨ (ImageTarget target ∧ ∃ a, inlineAttrlist e.store attrs = .ok a ∧
        ((name = "image:".toList ∧ ∃ alt, AltText target (a.namedOrPositional "alt".toList 1) alt ∧ e.r.image e.toPEnv
          { target := target
            alt := alt
            width := (a.namedOrPositional "width".toList 2).map ElemAttr.value
            height := (a.namedOrPositional "height".toList 3).map ElemAttr.value
            attrlist := a } = .error f) ∨
         (name = "icon:".toList ∧ ∃ alt, AltText target (a.namedAttribute "alt".toList) alt ∧ e.r.icon e.toPEnv
          { target := target
            alt := alt
            size := (a.namedOrPositional "size".toList 1).map ElemAttr.value
            attrlist := a } = .error f)))) := by
  cases h with
  | noTarget h1 h2 => exact ⟨_, [], _, by simp, h1, h2, .inl ⟨rfl, rfl⟩⟩
  | image h1 h2 h3 h4 h5 => exact ⟨_, _, _, rfl, .inl rfl, h2, .inr ⟨h1, _, h3, .inl ⟨rfl, _, h4, h5⟩⟩⟩
  | icon h1 h2 h3 h4 h5 => exact ⟨_, _, _, rfl, .inr rfl, h2, .inr ⟨h1, _, h3, .inr ⟨rfl, _, h4, h5⟩⟩⟩

theorem fails_image (e : Env) : FailsIf inlineImageRe (imageReplacer e) (ImageAt e) (ImageFails e) := by
  refine ⟨FailsIf.sound_of ?_, ?_, ?_, ?_⟩
  · intro pv t s h
    rw [inlineImageRe_eq, m_seq] at h
    have hn : ∀ {name : Text}, name = "image:".toList ∨ name = "icon:".toList → ∃ n, name = 'i' :: n := by
      rintro _ (rfl | rfl) <;> exact ⟨_, rfl⟩
    rcases m_opt_some h with h | ⟨_, h⟩
    · obtain ⟨r, e1, h⟩ := m_chr_some h
      obtain ⟨name, target, attrs, h1, h2, h3, h4⟩ := imageCore_sound h
      simp only at e1 h2
      subst h2
      refine ⟨'\\' :: (name ++ target ++ '[' :: attrs ++ [']']), by rw [e1]; simp, ?_⟩
      intro f _ hx
      unfold imageReplacer at hx
      rw [if_pos (by simp [startsWith])] at hx
      cases hx
    · obtain ⟨name, target, attrs, h1, h2, h3, h4⟩ := imageCore_sound h
      simp only at h2 h4
      refine ⟨name ++ target ++ '[' :: attrs ++ [']'], by rw [h2], ?_⟩
      intro f _ hx
      unfold imageReplacer at hx
      rw [if_neg (by obtain ⟨n, rfl⟩ := hn h1; simp [startsWith])] at hx
      rcases h4 with ⟨rfl, hcaps⟩ | ⟨h4, hcaps⟩
      · rw [hcaps] at hx
        cases hx
        rw [List.append_nil]
        exact .noTarget h1 h3
      · rw [hcaps] at hx
        simp only [Match.at!, Match.get, bind, Except.bind, Res.ofOption] at hx
        have g1 : ((2, attrs) :: [(1, target)]).find? (fun p => p.1 == 1) = some (1, target) := rfl
        have g2 : ((2, attrs) :: [(1, target)]).find? (fun p => p.1 == 2) = some (2, attrs) := rfl
        simp only [g1, g2, Option.map_some, if_neg (show ¬ (1 : Nat) = 0 by decide), if_neg (show ¬ (2 : Nat) = 0 by decide)] at hx
        obtain ⟨a, ha⟩ := inlineAttrlist_ok e.store attrs
        rw [ha] at hx
        simp only at hx
        rcases h1 with rfl | rfl
        · rw [if_pos (by rfl)] at hx
          exact .image h4 h3 ha (altText_of target _) hx
        · rw [if_neg (by simp only [List.append_assoc]; exact Bool.eq_false_iff.mp rfl)] at hx
          exact .icon h4 h3 ha (altText_of target _) hx
  · intro pv m b f h
    rw [inlineImageRe_eq]
    obtain ⟨name, target, attrs, rfl, hn, ha, ht⟩ := imageFails_shape h
    obtain ⟨z, hz⟩ := imageCore_rel hn (ht.symm.imp (·.1) (·.1)) ha pv b []
    exact ⟨z, rel_seq_iff.mpr ⟨_, rel_opt_iff.mpr (.inr rfl), hz⟩⟩
  · intro pv m b f m' b' x h h' eq
    obtain ⟨name, target, attrs, rfl, hn, ha, ht⟩ := imageFails_shape h
    cases h' with
    | @image n' t' a' _ l' _ g1 g2 g3 g4 =>
      have hn' : n' = "image:".toList ∨ n' = "icon:".toList := by
        cases g4 with
        | image _ _ => exact .inl rfl
        | icon _ _ => exact .inr rfl
      obtain ⟨rfl, rfl, rfl⟩ := image_parts hn hn' (open_imageTarget (ht.symm.imp (·.1) (·.1))) g1.inside.1 ha g2 eq
      rcases ht with ⟨rfl, _⟩ | ⟨_, a, h3, h4⟩
      · exact absurd g1.long (by simp)
      · rw [h3] at g3
        cases g3
        generalize hk : name = k at g4
        cases g4 with
        | image ga g4 =>
          rcases h4 with ⟨_, alt, h5, h6⟩ | ⟨h4, _⟩
          · cases altText_det ga h5
            rw [g4] at h6; cases h6
          · exact absurd (hk.symm.trans h4) (by decide)
        | icon ga g4 =>
          rcases h4 with ⟨h4, _⟩ | ⟨_, alt, h5, h6⟩
          · exact absurd (hk.symm.trans h4) (by decide)
          · cases altText_det ga h5
            rw [g4] at h6; cases h6
    | escaped g1 g2 g3 =>
      rcases hn with rfl | rfl <;> exact absurd (List.cons.inj eq).1 (by decide)
  · intro pv m b f m' b' f' h h' eq
    obtain ⟨name, target, attrs, rfl, hn, ha, ht⟩ := imageFails_shape h
    obtain ⟨name', target', attrs', rfl, hn', ha', ht'⟩ := imageFails_shape h'
    obtain ⟨rfl, rfl, rfl⟩ := image_parts hn hn' (open_imageTarget (ht.symm.imp (·.1) (·.1)))
      (open_imageTarget (ht'.symm.imp (·.1) (·.1))) ha ha' eq
    rcases ht with ⟨rfl, rfl⟩ | ⟨k, a, h3, h4⟩
    · rcases ht' with ⟨_, rfl⟩ | ⟨k', _⟩
      · rfl
      · exact absurd k'.long (by simp)
    · rcases ht' with ⟨rfl, _⟩ | ⟨k', a', h3', h4'⟩
      · exact absurd k.long (by simp)
      · rw [h3] at h3'
        cases h3'
        rcases h4 with ⟨rfl, alt, h5, h6⟩ | ⟨rfl, alt, h5, h6⟩
        · rcases h4' with ⟨_, alt', h5', h6'⟩ | ⟨h4', _⟩
          · cases altText_det h5 h5'
            rw [h6] at h6'; cases h6'; rfl
          · exact absurd h4' (by decide)
        · rcases h4' with ⟨h4', _⟩ | ⟨_, alt', h5', h6'⟩
          · exact absurd h4' (by decide)
          · cases altText_det h5 h5'
            rw [h6] at h6'; cases h6'; rfl

/-! ### Links -/

theorem fails_link (e : Env) : FailsIf inlineLinkRe (linkReplacer e) (LinkAt e) LinkFails := by
  refine ⟨FailsIf.sound_of ?_, ?_, ?_, ?_⟩
  · intro pv t s h
    rw [inlineLinkRe_eq, m_seq] at h
    obtain ⟨s1, r1, h1⟩ := m_sound _ _ _ _ h
    obtain ⟨lead, r, e1, hl, rfl⟩ := linkLead_iff.mp r1
    simp only at e1 hl
    subst e1
    rw [m_seq] at h1
    obtain ⟨s2, r2, h2⟩ := m_sound _ _ _ _ h1
    obtain ⟨esc, sch, r', e2, hesc, hs, rfl⟩ := linkScheme_iff.mp r2
    simp only at e2
    subst e2
    obtain ⟨f, e3, hf, hcaps⟩ := linkEnd_sound h2
    simp only at e3 hcaps
    subst e3
    refine ⟨lead ++ esc ++ sch ++ f.text, by simp, ?_⟩
    intro g hm hx
    obtain ⟨k1, k2⟩ := linkReplacer_iff e hm
    rcases k1 with ⟨y, k1⟩ | k1
    · rw [k1] at hx; cases hx
    have hg : g = .panic := by rw [k1] at hx; cases hx; rfl
    obtain ⟨k3, k4, k5⟩ := k2.mp k1
    rw [hcaps, List.append_nil] at k3 k4 k5
    have g3 : (Match.mk (lead ++ esc ++ sch ++ f.text) (f.groups ++ (3, esc ++ sch) :: (1, lead) :: leadGroup lead)).get 3 = some (esc ++ sch) := by
      cases f <;> rfl
    have g2 : (Match.mk (lead ++ esc ++ sch ++ f.text) (f.groups ++ (3, esc ++ sch) :: (1, lead) :: leadGroup lead)).get 2 =
        (leadGroup lead).head?.map Prod.snd := by
      have : ∀ l, (leadGroup l).find? (fun p => p.1 == 2) = (leadGroup l).head? := by
        intro l; unfold leadGroup; split <;> rfl
      cases f <;> simp [Match.get, LinkEnd.groups, this]
    have no6 : (leadGroup lead).find? (fun p => p.1 == 6) = none := by
      unfold leadGroup; split <;> rfl
    have k5 := k5 _ g3
    rw [g2] at k4
    have hlead : lead ≠ "&lt;".toList ∧ lead ≠ "\\&lt;".toList := by
      constructor
      · rintro rfl; exact absurd k4 (by decide)
      · rintro rfl; exact absurd k4 (by decide)
    rcases hesc with rfl | rfl
    · cases f with
      | brackets t w =>
        exfalso
        simp [Match.get, LinkEnd.groups, no6] at k3
      | bare t =>
        exfalso
        simp [Match.get, LinkEnd.groups, no6] at k3
      | angle t => exact ⟨lead, sch, t, by simp [LinkEnd.text], hl, hlead.1, hlead.2, hs, hf, hg⟩
    · exact absurd k5 (by simp [startsWith])
  · rintro pv mt b f ⟨lead, sch, t, rfl, hl, _, _, hs, hf, _⟩
    rw [inlineLinkRe_eq]
    obtain ⟨z, hz⟩ := linkEnd_rel hf (prevAfter (prevAfter pv lead) ([] ++ sch)) ((3, [] ++ sch) :: ((1, lead) :: leadGroup lead ++ []))
    exact ⟨z, rel_seq_iff.mpr ⟨_, linkLead_iff.mpr ⟨lead, [] ++ sch ++ ((LinkEnd.angle t).text ++ b), by simp [LinkEnd.text], hl, rfl⟩,
      rel_seq_iff.mpr ⟨_, linkScheme_iff.mpr ⟨[], sch, (LinkEnd.angle t).text ++ b, rfl, .inl rfl, hs, rfl⟩, hz⟩⟩⟩
  · rintro pv m b f m' b' x ⟨lead, sch, t, rfl, hl, hl1, hl2, hs, hf, _⟩ ⟨lead', esc', sch', f', rfl, hl', hesc', hs', hf', hb⟩ eq
    have eq' : lead ++ [] ++ sch ++ ((LinkEnd.angle t).text ++ b) = lead' ++ esc' ++ sch' ++ (f'.text ++ b') := by
      simpa [LinkEnd.text] using eq
    have := lead_det hl hl' (.inl rfl) hesc' hs hs' eq'
    subst this
    have eq2 : [] ++ sch ++ ((LinkEnd.angle t).text ++ b) = esc' ++ sch' ++ (f'.text ++ b') := by
      simp only [List.append_assoc] at eq' ⊢
      exact List.append_cancel_left eq'
    obtain ⟨rfl, rfl, eq3⟩ := scheme_det (.inl rfl) hesc' hs hs' eq2
    have := follows_det hf hf' eq3
    subst this
    cases hb with
    | escapedAngle _ h => exact hl2 h
    | escaped _ _ h => cases h
    | angle h => exact hl1 h
  · rintro pv m b f m' b' f' ⟨_, _, _, _, _, _, _, _, _, rfl⟩ ⟨_, _, _, _, _, _, _, _, _, rfl⟩ _
    rfl

/-! ### Link macros -/

theorem linkMacroCore_sound {s0 z : RS} (h : m (.seq (alt (lit "link".toList) (cap 1 (lit "mailto".toList)))
        (.seq (chr ':') (.seq macroTarget macroTail))) some s0 = some z) :
    ∃ name caps target text, (name = "link:".toList ∨ name = "mailto:".toList) ∧
      (caps = s0.caps ∨ caps = (1, "mailto".toList) :: s0.caps) ∧
      s0.rest = name ++ target ++ '[' :: text ++ [']'] ++ z.rest ∧ Enclosed text ∧
      ((MacroTarget target ∧ z.caps = textGroup text :: (3, target) :: caps) ∨
      (target.length = 1 ∧ z.caps = textGroup text :: (2, []) :: caps)) := by
  rw [m_seq] at h
  have fin : ∀ {pv : Option Char} {w r : Text} {caps : List (Nat × Text)},
      m (.seq (chr ':') (.seq macroTarget macroTail)) some ⟨pv, r, caps⟩ = some z → s0.rest = w ++ r →
      (w ++ [':'] = "link:".toList ∨ w ++ [':'] = "mailto:".toList) →
      (caps = s0.caps ∨ caps = (1, "mailto".toList) :: s0.caps) →
      ∃ name caps target text, (name = "link:".toList ∨ name = "mailto:".toList) ∧
      (caps = s0.caps ∨ caps = (1, "mailto".toList) :: s0.caps) ∧
      s0.rest = name ++ target ++ '[' :: text ++ [']'] ++ z.rest ∧ Enclosed text ∧
      ((MacroTarget target ∧ z.caps = textGroup text :: (3, target) :: caps) ∨
      (target.length = 1 ∧ z.caps = textGroup text :: (2, []) :: caps)) := by
    intro pv w r caps h1 e1 hn hc
    rw [m_seq] at h1
    obtain ⟨r2, e2, h2⟩ := m_chr_some h1
    rw [m_seq] at h2
    obtain ⟨target, text, h3, h4, h5⟩ := macroTarget_sound h2
    simp only at e2 h3
    subst e2 h3
    exact ⟨w ++ [':'], caps, target, text, hn, hc, by rw [e1]; simp, h4, h5⟩
  rcases m_alt_some h with h1 | ⟨_, h1⟩
  · obtain ⟨r, er, hr⟩ := m_lit_some h1
    exact fin hr er (.inl rfl) (.inl rfl)
  · rw [m_cap] at h1
    obtain ⟨r, er, hr⟩ := m_lit_some h1
    rw [er, take_used] at hr
    exact fin hr er (.inr rfl) (.inr rfl)

theorem fails_linkMacro (e : Env) : FailsIf inlineLinkMacroRe (linkMacroReplacer e) (LinkMacroAt e) LinkMacroFails := by
  refine ⟨FailsIf.sound_of ?_, ?_, ?_, ?_⟩
  · intro pv t s h
    rw [inlineLinkMacroRe_eq, m_seq] at h
    rcases m_opt_some h with h | ⟨_, h⟩
    · obtain ⟨r, e1, h⟩ := m_chr_some h
      obtain ⟨name, caps, target, text, h1, _, h2, h3, h4⟩ := linkMacroCore_sound h
      simp only at e1 h2
      subst h2
      refine ⟨'\\' :: (name ++ target ++ '[' :: text ++ [']']), by rw [e1]; simp, ?_⟩
      intro f _ hx
      unfold linkMacroReplacer at hx
      rw [if_pos (by simp [startsWith])] at hx
      cases hx
    · obtain ⟨name, caps, target, text, h1, hc, h2, h3, h4⟩ := linkMacroCore_sound h
      simp only at h2 hc
      refine ⟨name ++ target ++ '[' :: text ++ [']'], by rw [h2], ?_⟩
      intro f _ hx
      obtain ⟨k1, k2⟩ := linkMacroReplacer_iff e ⟨name ++ target ++ '[' :: text ++ [']'], s.caps⟩
      rcases k1 with ⟨y, k1⟩ | k1
      · rw [k1] at hx; cases hx
      have hf : f = .panic := by rw [k1] at hx; cases hx; rfl
      obtain ⟨_, k3⟩ := k2.mp k1
      rcases h4 with ⟨h4, hcaps⟩ | ⟨h4, hcaps⟩
      · exfalso
        rw [hcaps, textGroup] at k3
        by_cases ht : text = [] <;> simp [Match.get, ht] at k3
      · exact ⟨name, target, text, h1, h4, h3, rfl, hf⟩
  · rintro pv mt b f ⟨name, target, text, hn, ht, hx, rfl, _⟩
    rw [inlineLinkMacroRe_eq]
    rcases hn with rfl | rfl
    · obtain ⟨z, hz⟩ := macroTarget_rel (.inr ht) hx (some ':') b []
      exact ⟨z, rel_seq_iff.mpr ⟨_, rel_opt_iff.mpr (.inr rfl),
        rel_seq_iff.mpr ⟨⟨some 'k', ':' :: (target ++ '[' :: text ++ [']'] ++ b), []⟩,
        rel_alt_iff.mpr (.inl (rel_lit_iff.mpr ⟨_, rfl, rfl⟩)), rel_seq_iff.mpr ⟨_, rel_chr_iff.mpr ⟨_, rfl, rfl⟩, hz⟩⟩⟩⟩
    · obtain ⟨z, hz⟩ := macroTarget_rel (.inr ht) hx (some ':') b [(1, "mailto".toList)]
      exact ⟨z, rel_seq_iff.mpr ⟨_, rel_opt_iff.mpr (.inr rfl),
        rel_seq_iff.mpr ⟨⟨some 'o', ':' :: (target ++ '[' :: text ++ [']'] ++ b), [(1, "mailto".toList)]⟩,
        rel_alt_iff.mpr (.inr (rel_cap_iff.mpr ⟨⟨some 'o', ':' :: (target ++ '[' :: text ++ [']'] ++ b), []⟩,
          "mailto".toList, rel_lit_iff.mpr ⟨_, rfl, rfl⟩, rfl, rfl⟩)),
        rel_seq_iff.mpr ⟨_, rel_chr_iff.mpr ⟨_, rfl, rfl⟩, hz⟩⟩⟩⟩
  · rintro pv m b f m' b' x ⟨name, target, text, hn, ht, hx, rfl, _⟩ h' eq
    have strip : ∀ {n : Text} {t a b t' a' b' : Text}, n ++ t ++ '[' :: a ++ [']'] ++ b = n ++ t' ++ '[' :: a' ++ [']'] ++ b' →
        t ++ '[' :: a ++ [']'] ++ b = t' ++ '[' :: a' ++ [']'] ++ b' := by
      intro n t a b t' a' b' e
      simp only [List.append_assoc] at e ⊢
      exact List.append_cancel_left e
    have done : ∀ {t' a' : Text}, MacroTarget t' → Enclosed a' →
        target ++ '[' :: text ++ [']'] ++ b = t' ++ '[' :: a' ++ [']'] ++ b' → False := by
      intro t' a' g1 g2 e
      obtain ⟨rfl, _⟩ := linkMacro_parts (.inr ht) (.inl g1) hx g2 e
      have := g1.1
      omega
    cases h' with
    | link g1 g2 g3 =>
      rcases hn with rfl | rfl
      · exact done g1 g2 (strip eq)
      · exact absurd (congrArg List.head? eq) (by simp)
    | mail g1 g2 g3 =>
      rcases hn with rfl | rfl
      · exact absurd (congrArg List.head? eq) (by simp)
      · exact done g1 g2 (strip eq)
    | escaped g1 g2 g3 =>
      rcases hn with rfl | rfl <;> exact absurd (congrArg List.head? eq) (by simp)
  · rintro pv m b f m' b' f' ⟨_, _, _, _, _, _, _, rfl⟩ ⟨_, _, _, _, _, _, _, rfl⟩ _
    rfl

end Adoc
