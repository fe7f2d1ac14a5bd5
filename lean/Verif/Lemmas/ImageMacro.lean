import Verif.Lemmas.Search
import Verif.Lemmas.Macros
import Verif.Lemmas.FileStem
/-!
# Image and icon macros against their specification
-/

namespace Adoc
open Adoc.Spec Re

theorem replaceChar_map (c d : Char) (t : Text) : replaceChar c [d] t = t.map fun x => if x = c then d else x := by
  unfold replaceChar
  induction t with
  | nil => rfl
  | cons x t ih =>
    rw [List.flatMap_cons, ih, List.map_cons]
    by_cases h : x = c <;> simp [h]

theorem normalize_eq (t : Text) :
    normalizeTextLfEscapedBracket t = Spec.unescape ']' (t.map fun c => if c = '\n' then ' ' else c) := by
  rw [normalizeTextLfEscapedBracket, unescape_eq _ (by decide), replaceChar_map]

theorem altText_of (target : Text) (given : Option ElemAttr) : AltText target given
    (match given with
      | some v => normalizeTextLfEscapedBracket v.value
      | none => basename (target.map fun c => if c = '_' ∨ c = '-' then ' ' else c)) := by
  cases given with
  | none => exact .inr ⟨rfl, fileStem_iff.mpr rfl⟩
  | some a => exact .inl ⟨a, rfl, normalize_eq _⟩

theorem altText_det {target u v : Text} {given : Option ElemAttr} (h : AltText target given u) (h' : AltText target given v) : u = v := by
  rcases h with ⟨a, rfl, rfl⟩ | ⟨rfl, h⟩
  · rcases h' with ⟨a', e, rfl⟩ | ⟨e, h'⟩
    · cases e; rfl
    · cases e
  · rcases h' with ⟨a', e, rfl⟩ | ⟨e, h'⟩
    · cases e
    · exact (fileStem_iff.mp h).symm.trans (fileStem_iff.mp h')

variable [Uni]

/-- The expression behind the optional backslash. -/
def imageCore : Re :=
  cat [chr 'i', alt (lit "mage".toList) (lit "con".toList), chr ':',
    opt (cap 1 (cat [cls (fun c => c != ':' && !isWhite c && c != '[' && c != '\n'),
      star false (cls fun c => c != '[' && c != '\n'), cls (fun c => !isWhite c && c != '[' && c != '\n')])),
    chr '[', bracketed 2, chr ']']

omit [Uni] in
theorem inlineImageRe_eq : inlineImageRe = .seq (opt (chr '\\')) imageCore := rfl

theorem imageCore_sound {s z : RS} (h : m imageCore some s = some z) :
    ∃ name target attrs, (name = "image:".toList ∨ name = "icon:".toList) ∧
      s.rest = name ++ target ++ '[' :: attrs ++ [']'] ++ z.rest ∧ Enclosed attrs ∧
      ((target = [] ∧ z.caps = (2, attrs) :: s.caps) ∨ (ImageTarget target ∧ z.caps = (2, attrs) :: (1, target) :: s.caps)) := by
  rw [imageCore] at h
  have e : ∀ a b c d : Re, ∀ l, cat (a :: b :: c :: d :: chr '[' :: l) =
    .seq a (.seq b (.seq c (.seq d (cat (chr '[' :: l))))) := fun _ _ _ _ _ => rfl
  rw [e, m_seq] at h
  have h' := m_chr_some h; clear h
  obtain ⟨r1, e1, h⟩ := h'
  rw [m_seq] at h
  have hname : ∃ w r2, (w = "mage".toList ∨ w = "con".toList) ∧ r1 = w ++ r2 ∧
      m (.seq (chr ':') (.seq (opt (cap 1 (cat [cls (fun c => c != ':' && !isWhite c && c != '[' && c != '\n'),
        star false (cls fun c => c != '[' && c != '\n'), cls (fun c => !isWhite c && c != '[' && c != '\n')])))
        (cat [chr '[', bracketed 2, chr ']']))) some ⟨prevAfter (some 'i') w, r2, s.caps⟩ = some z := by
    rcases m_alt_some h with h | ⟨_, h⟩
    · obtain ⟨r, er, hr⟩ := m_lit_some h
      exact ⟨_, r, .inl rfl, er, hr⟩
    · obtain ⟨r, er, hr⟩ := m_lit_some h
      exact ⟨_, r, .inr rfl, er, hr⟩
  clear h
  obtain ⟨w, r2, hw, e2, h⟩ := hname
  rw [m_seq] at h
  have h' := m_chr_some h; clear h
  obtain ⟨r3, e3, h⟩ := h'
  simp only at e3
  subst e3
  subst e2
  rw [m_seq] at h
  have hn : ('i' :: w ++ [':'] = "image:".toList ∨ 'i' :: w ++ [':'] = "icon:".toList) := by
    rcases hw with rfl | rfl
    · left; rfl
    · right; rfl
  have h' := m_opt_some h; clear h
  rcases h' with h | ⟨_, h⟩
  · rw [m_cap] at h
    simp only [cat] at h
    rw [m_seq] at h
    have h' := m_cls_some h; clear h
    obtain ⟨c, r4, e4, hc, h⟩ := h'
    simp only at e4
    subst e4
    rw [m_seq] at h
    have h' := m_star_lazy h; clear h
    obtain ⟨b, r5, e5, hb, h, _⟩ := h'
    simp only at e5
    subst e5
    have h' := m_cls_some h; clear h
    obtain ⟨d, r6, e6, hd, h⟩ := h'
    simp only at e6
    subst e6
    have htk := take_used (c :: (b ++ [d])) r6
    simp only [List.cons_append, List.append_assoc, List.nil_append] at htk
    simp only [htk] at h
    obtain ⟨attrs, r7, e7, ha, hz⟩ := m_bracketed (n := 2) (by simp only [cat]; exact h)
    simp only at e7
    subst e7
    subst hz
    refine ⟨_, c :: (b ++ [d]), attrs, hn, ?_, ha, .inr ⟨⟨by simp, ?_, ?_, ?_, ?_⟩, rfl⟩⟩
    · rw [e1]; simp
    · intro x hx
      cases hx
      simp only [bne_iff_ne, ne_eq, Bool.and_eq_true, Bool.not_eq_true'] at hc
      exact ⟨hc.1.1.1, hc.1.1.2⟩
    · intro x hx
      rw [← List.cons_append, List.getLast?_append] at hx
      cases hx
      simp only [bne_iff_ne, ne_eq, Bool.and_eq_true, Bool.not_eq_true'] at hd
      exact hd.1.1
    · intro hm
      simp only [List.mem_cons, List.mem_append, List.not_mem_nil, or_false] at hm
      rcases hm with rfl | hm | rfl
      · revert hc; decide
      · have := hb _ hm; revert this; decide
      · revert hd; decide
    · intro hm
      simp only [List.mem_cons, List.mem_append, List.not_mem_nil, or_false] at hm
      rcases hm with rfl | hm | rfl
      · revert hc; decide
      · have := hb _ hm; revert this; decide
      · revert hd; decide
  · obtain ⟨attrs, r7, e7, ha, hz⟩ := m_bracketed h
    simp only at e7
    subst e7
    subst hz
    refine ⟨_, [], attrs, hn, ?_, ha, .inl ⟨rfl, rfl⟩⟩
    rw [e1]; simp

theorem imageCore_rel {name target attrs : Text} (hn : name = "image:".toList ∨ name = "icon:".toList)
    (ht : ImageTarget target ∨ target = []) (ha : Enclosed attrs) (pv : Option Char) (r : Text) (caps : List (Nat × Text)) :
    ∃ z, Rel imageCore ⟨pv, name ++ target ++ '[' :: attrs ++ [']'] ++ r, caps⟩ z := by
  have hb : ∀ pv caps, Rel (cat [chr '[', bracketed 2, chr ']']) ⟨pv, '[' :: attrs ++ ']' :: r, caps⟩
      ⟨some ']', r, (2, attrs) :: caps⟩ := fun pv caps => bracketed_rel ha pv r caps
  have hrest : ∀ w, name = 'i' :: w ++ [':'] → name ++ target ++ '[' :: attrs ++ [']'] ++ r =
      'i' :: (w ++ ':' :: (target ++ ('[' :: attrs ++ ']' :: r))) := by
    intro w e; rw [e]; simp
  have hw : ∃ w, name = 'i' :: w ++ [':'] ∧ (w = "mage".toList ∨ w = "con".toList) := by
    rcases hn with rfl | rfl
    · exact ⟨_, rfl, .inl rfl⟩
    · exact ⟨_, rfl, .inr rfl⟩
  obtain ⟨w, hw1, hw2⟩ := hw
  rw [hrest w hw1]
  have e : ∀ a b c d : Re, ∀ l, cat (a :: b :: c :: d :: chr '[' :: l) =
    .seq a (.seq b (.seq c (.seq d (cat (chr '[' :: l))))) := fun _ _ _ _ _ => rfl
  rw [imageCore, e]
  have h3 : ∀ pv, ∃ z, Rel (.seq (opt (cap 1 (cat [cls (fun c => c != ':' && !isWhite c && c != '[' && c != '\n'),
        star false (cls fun c => c != '[' && c != '\n'), cls (fun c => !isWhite c && c != '[' && c != '\n')])))
        (cat [chr '[', bracketed 2, chr ']'])) ⟨pv, target ++ ('[' :: attrs ++ ']' :: r), caps⟩ z := by
    intro pv
    rcases ht with ht | rfl
    · refine ⟨_, rel_seq_iff.mpr ⟨⟨prevAfter pv target, '[' :: attrs ++ ']' :: r, (1, target) :: caps⟩, ?_, hb _ _⟩⟩
      refine rel_opt_iff.mpr (.inl (rel_cap_iff.mpr ⟨⟨prevAfter pv target, '[' :: attrs ++ ']' :: r, caps⟩, target, ?_, rfl, rfl⟩))
      obtain ⟨h1, h2, h3, h4, h5⟩ := ht
      cases target with
      | nil => simp at h1
      | cons c b =>
        rcases List.eq_nil_or_concat b with rfl | ⟨b, d, rfl⟩
        · simp at h1
        · rw [List.concat_eq_append] at *
          simp only [cat]
          have hc := h2 c rfl
          have hd : isWhite d = false := h3 d (by rw [← List.cons_append, List.getLast?_append]; rfl)
          have hin : ∀ x ∈ c :: (b ++ [d]), x ≠ '[' ∧ x ≠ '\n' := fun x hx =>
            ⟨fun e => h4 (e ▸ hx), fun e => h5 (e ▸ hx)⟩
          refine rel_seq_iff.mpr ⟨⟨some c, b ++ [d] ++ ('[' :: attrs ++ ']' :: r), caps⟩,
            rel_cls_iff.mpr ⟨c, _, rfl, ?_, rfl⟩, rel_seq_iff.mpr ⟨⟨prevAfter (some c) b, d :: ('[' :: attrs ++ ']' :: r), caps⟩,
            rel_star_cls_iff.mpr ⟨b, _, by simp, ?_, rfl⟩, rel_cls_iff.mpr ⟨d, _, rfl, ?_, ?_⟩⟩⟩
          · have := hin c (by simp)
            simp [hc.1, hc.2, this.1, this.2]
          · intro x hx
            have := hin x (by simp [hx])
            simp [this.1, this.2]
          · have := hin d (by simp)
            simp [hd, this.1, this.2]
          · rw [prevAfter_cons]
            simp [prevAfter]
    · exact ⟨_, rel_seq_iff.mpr ⟨_, rel_opt_iff.mpr (.inr rfl), hb _ _⟩⟩
  obtain ⟨z, hz⟩ := h3 (some ':')
  refine ⟨z, rel_seq_iff.mpr ⟨_, rel_chr_iff.mpr ⟨_, rfl, rfl⟩, rel_seq_iff.mpr ⟨⟨prevAfter (some 'i') w, _, caps⟩, ?_,
    rel_seq_iff.mpr ⟨_, rel_chr_iff.mpr ⟨_, rfl, rfl⟩, hz⟩⟩⟩⟩
  rcases hw2 with rfl | rfl
  · exact rel_alt_iff.mpr (.inl (rel_lit_iff.mpr ⟨_, rfl, rfl⟩))
  · exact rel_alt_iff.mpr (.inr (rel_lit_iff.mpr ⟨_, rfl, rfl⟩))

theorem renders_image (e : Env) : RendersIf inlineImageRe (imageReplacer e) (ImageAt e) := by
  refine RendersIf.of ?_ ?_
  · intro pv t s h
    rw [inlineImageRe_eq, m_seq] at h
    have hn : ∀ {name : Text}, name = "image:".toList ∨ name = "icon:".toList → ∃ n, name = 'i' :: n := by
      rintro _ (rfl | rfl) <;> exact ⟨_, rfl⟩
    rcases m_opt_some h with h | ⟨_, h⟩
    · obtain ⟨r, e1, h⟩ := m_chr_some h
      obtain ⟨name, target, attrs, h1, h2, h3, h4⟩ := imageCore_sound h
      simp only at e1 h2
      subst h2
      refine ⟨'\\' :: (name ++ target ++ '[' :: attrs ++ [']']), by rw [e1]; simp, by simp, ?_⟩
      intro x hx
      unfold imageReplacer at hx
      rw [if_pos (by simp [startsWith])] at hx
      cases hx
      refine .escaped h1 ?_ h3
      rcases h4 with ⟨h4, _⟩ | ⟨h4, _⟩
      · exact .inr h4
      · exact .inl h4
    · obtain ⟨name, target, attrs, h1, h2, h3, h4⟩ := imageCore_sound h
      simp only at h2 h4
      refine ⟨name ++ target ++ '[' :: attrs ++ [']'], by rw [h2], by simp, ?_⟩
      intro x hx
      unfold imageReplacer at hx
      rw [if_neg (by obtain ⟨n, rfl⟩ := hn h1; simp [startsWith])] at hx
      rcases h4 with ⟨h4, hcaps⟩ | ⟨h4, hcaps⟩
      · rw [hcaps] at hx
        cases hx
      · rw [hcaps] at hx
        simp only [Match.at!, Match.get, bind, Except.bind, Res.ofOption] at hx
        have g1 : ((2, attrs) :: [(1, target)]).find? (fun p => p.1 == 1) = some (1, target) := rfl
        have g2 : ((2, attrs) :: [(1, target)]).find? (fun p => p.1 == 2) = some (2, attrs) := rfl
        simp only [g1, g2, Option.map_some, if_neg (show ¬ (1 : Nat) = 0 by decide), if_neg (show ¬ (2 : Nat) = 0 by decide)] at hx
        cases ha : inlineAttrlist e.store attrs with
        | error f => rw [ha] at hx; cases hx
        | ok a =>
          rw [ha] at hx
          simp only at hx
          refine .image h4 h3 ha ?_
          rcases h1 with rfl | rfl
          · rw [if_pos (by rfl)] at hx
            exact .image (altText_of target _) hx
          · rw [if_neg (by simp only [List.append_assoc]; exact Bool.eq_false_iff.mp rfl)] at hx
            exact .icon (altText_of target _) hx
  · intro pv m b x h
    rw [inlineImageRe_eq]
    cases h with
    | @image name target attrs _ a _ h1 h2 h3 h4 =>
      have hn : name = "image:".toList ∨ name = "icon:".toList := by
        cases h4 with
        | image _ _ => exact .inl rfl
        | icon _ _ => exact .inr rfl
      obtain ⟨z, hz⟩ := imageCore_rel hn (.inl h1) h2 pv b []
      exact ⟨z, rel_seq_iff.mpr ⟨_, rel_opt_iff.mpr (.inr rfl), hz⟩⟩
    | @escaped name target attrs _ h1 h2 h3 =>
      obtain ⟨z, hz⟩ := imageCore_rel h1 h2 h3 (some '\\') b []
      exact ⟨z, rel_seq_iff.mpr ⟨_, rel_opt_iff.mpr (.inl (rel_chr_iff.mpr ⟨_, rfl, rfl⟩)), by simpa using hz⟩⟩

omit [Uni] in
/-- The parts of an image macro can be told from its text. -/
theorem image_parts {n n' t t' a a' b b' : Text} (hn : n = "image:".toList ∨ n = "icon:".toList)
    (hn' : n' = "image:".toList ∨ n' = "icon:".toList) (ht : '[' ∉ t) (ht' : '[' ∉ t') (ha : Enclosed a) (ha' : Enclosed a')
    (e : n ++ t ++ '[' :: a ++ [']'] ++ b = n' ++ t' ++ '[' :: a' ++ [']'] ++ b') : n = n' ∧ t = t' ∧ a = a' := by
  have key : ∀ {n : Text}, t ++ '[' :: a ++ ']' :: b = t' ++ '[' :: a' ++ ']' :: b' → n = n ∧ t = t' ∧ a = a' := by
    intro n e
    simp only [List.append_assoc, List.cons_append] at e
    have h1 := until_inj ht ht' e
    subst h1
    have e2 := List.append_cancel_left e
    exact ⟨rfl, rfl, (ha.inj ha' (List.cons.inj e2).2).1⟩
  rcases hn with rfl | rfl <;> rcases hn' with rfl | rfl
  · refine key ?_
    simp only [List.append_assoc] at e
    have := List.append_cancel_left e
    simpa using this
  · exfalso
    simp only [List.append_assoc] at e
    have := congrArg (fun l => (l.drop 1).head?) e
    revert this
    simp
  · exfalso
    simp only [List.append_assoc] at e
    have := congrArg (fun l => (l.drop 1).head?) e
    revert this
    simp
  · refine key ?_
    simp only [List.append_assoc] at e
    have := List.append_cancel_left e
    simpa using this

theorem determined_image (e : Env) : Determined (ImageAt e) := by
  have name : ∀ {t a n new}, ImageBecomes e t a n new → n = "image:".toList ∨ n = "icon:".toList := by
    intro t a n new h
    cases h with
    | image _ _ => exact .inl rfl
    | icon _ _ => exact .inr rfl
  have first : ∀ {n : Text}, (n = "image:".toList ∨ n = "icon:".toList) → ∃ r, n = 'i' :: r := by
    rintro _ (rfl | rfl) <;> exact ⟨_, rfl⟩
  have open_ : ∀ {t : Text}, (ImageTarget t ∨ t = []) → '[' ∉ t := by
    rintro t (h | rfl)
    · exact h.inside.1
    · simp
  intro pv m b x m' b' x' h h' eq
  refine ⟨?_, ?_⟩
  · cases h <;> simp
  · cases h with
    | @image n t a _ l _ h1 h2 h3 h4 =>
      cases h' with
      | @image n' t' a' _ l' _ g1 g2 g3 g4 =>
        obtain ⟨rfl, rfl, rfl⟩ := image_parts (name h4) (name g4) h1.inside.1 g1.inside.1 h2 g2 eq
        refine ⟨rfl, ?_⟩
        rw [h3] at g3
        cases g3
        generalize hn : n = k at h4 g4
        cases h4 with
        | image ha h4 =>
          generalize hk : "image:".toList = k at g4
          cases g4 with
          | image ga g4 =>
            have := altText_det ha ga
            subst this
            rw [h4] at g4; cases g4; rfl
          | icon ga g4 => exact absurd hk (by decide)
        | icon ha h4 =>
          generalize hk : "icon:".toList = k at g4
          cases g4 with
          | image ga g4 => exact absurd hk (by decide)
          | icon ga g4 =>
            have := altText_det ha ga
            subst this
            rw [h4] at g4; cases g4; rfl
      | @escaped n' t' a' _ g1 g2 g3 =>
        obtain ⟨r, rfl⟩ := first (name h4)
        exact absurd (List.cons.inj eq).1 (by decide)
    | @escaped n t a _ h1 h2 h3 =>
      cases h' with
      | @image n' t' a' _ l' _ g1 g2 g3 g4 =>
        obtain ⟨r, rfl⟩ := first (name g4)
        exact absurd (List.cons.inj eq).1 (by decide)
      | @escaped n' t' a' _ g1 g2 g3 =>
        obtain ⟨rfl, rfl, rfl⟩ := image_parts h1 g1 (open_ h2) (open_ g2) h3 g3 (List.cons.inj eq).2
        exact ⟨rfl, rfl⟩

end Adoc
