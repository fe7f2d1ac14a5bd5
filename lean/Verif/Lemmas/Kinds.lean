import Verif.Lemmas.Made
import Verif.Lemmas.Media
import Verif.Spec.Kinds
import Verif.Model.IsBlock
import Verif.Props.Heading
import Verif.Props.Attribute
/-!
# What lines begin
-/

namespace Adoc
open Span Spec

/-! ### A line has one form -/

theorem rawDelim_head {c : Char} {l : Text} (h : RawDelim c l) : ∃ r, l = c :: c :: c :: c :: r ∧ ∀ x ∈ r, x = c := by
  obtain ⟨_, n, rfl⟩ := h
  exact ⟨List.replicate n c, rfl, fun x hx => List.eq_of_mem_replicate hx⟩

theorem repl_head (n : Nat) (c : Char) : List.replicate (n + 4) c = c :: c :: c :: c :: List.replicate n c := rfl

/-- What the lines of each form begin with. -/
def Opening (l : Text) : Form → Prop
  | .verbatim _ _ => ∃ c r, l = c :: c :: c :: c :: r ∧ (c = '/' ∨ c = '-' ∨ c = '.' ∨ c = '+')
  | .container _ => l = ['-', '-'] ∨ ∃ c n, l = List.replicate (n + 4) c ∧ (c = '=' ∨ c = '*' ∨ c = '_')
  | .media _ _ _ => ∃ c r, l = c :: r ∧ (c = 'i' ∨ c = 'v')
  | .heading _ _ => (∃ c, (c = '=' ∨ c = '#') ∧ l.head? = some c) ∧ ∃ c ∈ l, c = ' ' ∨ c = '\t'
  | .brk _ => ∃ x ∈ ["'''", "---", "- - -", "***", "* * *", "<<<"], l = x.toList
  | .text => True

theorem lineForm_opening {l : Text} {f : Form} (h : LineForm l f) : Opening l f := by
  cases h with
  | verbatim h =>
    obtain ⟨r, e, _⟩ := rawDelim_head h
    exact ⟨_, r, e, h.1⟩
  | container h =>
    rcases h with ⟨rfl, _⟩ | ⟨n, ⟨rfl, _⟩ | ⟨rfl, _⟩ | ⟨rfl, _⟩⟩
    · exact Or.inl rfl
    · exact Or.inr ⟨_, n, rfl, by simp⟩
    · exact Or.inr ⟨_, n, rfl, by simp⟩
    · exact Or.inr ⟨_, n, rfl, by simp⟩
  | @media ty target attrs h hn =>
    obtain ⟨rfl, _⟩ := h
    cases ty with
    | image => exact ⟨'i', _, rfl, Or.inl rfl⟩
    | video => exact ⟨'v', _, rfl, Or.inr rfl⟩
    | audio => exact absurd rfl hn
  | heading h =>
    obtain ⟨_, _, m, gap, hm, hg, hb, _, rfl⟩ := h
    refine ⟨⟨m, hm, rfl⟩, ?_⟩
    cases gap with
    | nil => exact absurd rfl hg
    | cons c r => exact ⟨c, by simp, hb c (by simp)⟩
  | @brk ty h =>
    cases ty with
    | thematic =>
      obtain ⟨x, hx, e⟩ := h
      refine ⟨x, ?_, e⟩
      simp only [List.mem_cons, List.not_mem_nil, or_false] at hx ⊢
      rcases hx with h | h | h | h | h <;> simp [h]
    | page => exact ⟨"<<<", by simp, h⟩
  | text => trivial

theorem breakLine_det {l : Text} {a b : BreakType} (h : BreakLine l a) (h' : BreakLine l b) : a = b := by
  have := breakType_iff.mpr h
  rw [breakType_iff.mpr h'] at this
  exact (Option.some.inj this).symm

theorem compoundLine_det {l a b : Text} (h : CompoundLine l a) (h' : CompoundLine l b) : a = b := by
  have := (compoundLine_iff.mpr h).1
  rw [(compoundLine_iff.mpr h').1] at this
  exact (Option.some.inj this).symm

theorem rawDelim_det {l : Text} {a b : Char} (h : RawDelim a l) (h' : RawDelim b l) : a = b := by
  obtain ⟨r, e, _⟩ := rawDelim_head h
  obtain ⟨r', e', _⟩ := rawDelim_head h'
  rw [e] at e'
  exact (List.cons.inj e').1

theorem split_at {c : Char} {a b x y : Text} (h : a ++ c :: b = x ++ c :: y) (ha : c ∉ a) (hx : c ∉ x) : a = x ∧ b = y := by
  induction a generalizing x with
  | nil =>
    cases x with
    | nil => simpa using h
    | cons d x => simp at h; exact absurd (by simp [h.1]) hx
  | cons d a ih =>
    cases x with
    | nil => simp at h; exact absurd (by simp [h.1]) ha
    | cons e x =>
      simp only [List.cons_append, List.cons.injEq] at h
      obtain ⟨rfl, h⟩ := h
      obtain ⟨rfl, rfl⟩ := ih h (fun hc => ha (by simp [hc])) (fun hc => hx (by simp [hc]))
      exact ⟨rfl, rfl⟩

theorem mediaLine_det {l t a t' a' : Text} {ty ty' : MediaType} (h : MediaLine l ty t a) (h' : MediaLine l ty' t' a') :
    ty = ty' ∧ t = t' ∧ a = a' := by
  obtain ⟨e, _, n⟩ := h
  obtain ⟨e', _, n'⟩ := h'
  have hn : ∀ ty, ':' ∉ (macroName ty).toList := by intro ty; cases ty <;> decide
  rw [e] at e'
  simp only [List.append_assoc, List.cons_append] at e'
  obtain ⟨e1, e2⟩ := split_at e' (hn ty) (hn ty')
  have hty : ty = ty' := by
    have := mediaType_iff.mpr e1
    rw [mediaType_iff.mpr rfl] at this
    exact Option.some.inj this
  refine ⟨hty, ?_⟩
  simp only [List.cons.injEq, true_and] at e2
  obtain ⟨e3, e4⟩ := split_at e2 n n'
  exact ⟨e3, List.append_cancel_right e4⟩

theorem opening_cross {l : Text} {f g : Form} (o : Opening l f) (o' : Opening l g) (hf : f ≠ .text) (hg : g ≠ .text)
    (hlt : f.ctorIdx < g.ctorIdx) : False := by
  have brk : ∀ {l : Text}, (∃ x ∈ ["'''", "---", "- - -", "***", "* * *", "<<<"], l = x.toList) →
      l = "'''".toList ∨ l = "---".toList ∨ l = "- - -".toList ∨ l = "***".toList ∨ l = "* * *".toList ∨ l = "<<<".toList := by
    rintro l ⟨x, hx, rfl⟩
    simp only [List.mem_cons, List.not_mem_nil, or_false] at hx
    rcases hx with rfl | rfl | rfl | rfl | rfl | rfl <;> simp
  cases f with
  | text => exact hf rfl
  | verbatim _ _ =>
    obtain ⟨c, r, rfl, hc⟩ := o
    cases g with
    | text => exact hg rfl
    | verbatim _ _ => simp [Form.ctorIdx] at hlt
    | container _ =>
      rcases o' with h | ⟨d, n, h, hd⟩
      · simp at h
      · rw [repl_head] at h
        have := (List.cons.inj h).1
        subst this
        rcases hc with rfl | rfl | rfl | rfl <;> revert hd <;> decide
    | media _ _ _ =>
      obtain ⟨d, r, h, hd⟩ := o'
      have := (List.cons.inj h).1
      subst this
      rcases hc with rfl | rfl | rfl | rfl <;> revert hd <;> decide
    | heading _ _ =>
      obtain ⟨⟨d, hd, h⟩, _⟩ := o'
      have := Option.some.inj h
      subst this
      rcases hc with rfl | rfl | rfl | rfl <;> revert hd <;> decide
    | brk _ =>
      rcases brk o' with h | h | h | h | h | h <;> simp at h
      obtain ⟨rfl, h, _⟩ := h
      cases h
      obtain ⟨rfl, h, _⟩ := h
      cases h
  | container _ =>
    cases g with
    | text => exact hg rfl
    | verbatim _ _ => simp [Form.ctorIdx] at hlt
    | container _ => simp [Form.ctorIdx] at hlt
    | media _ _ _ =>
      obtain ⟨d, r, rfl, hd⟩ := o'
      rcases o with h | ⟨c, n, h, hc⟩
      · have := (List.cons.inj h).1
        subst this
        revert hd; decide
      · rw [repl_head] at h
        have := (List.cons.inj h).1
        subst this
        rcases hc with rfl | rfl | rfl <;> revert hd <;> decide
    | heading _ _ =>
      obtain ⟨⟨d, hd, h⟩, x, hx, hb⟩ := o'
      rcases o with rfl | ⟨c, n, rfl, hc⟩
      · have := Option.some.inj h
        subst this
        revert hd; decide
      · have := List.eq_of_mem_replicate hx
        subst this
        rcases hc with rfl | rfl | rfl <;> revert hb <;> decide
    | brk _ =>
      rcases o with rfl | ⟨c, n, rfl, hc⟩
      · rcases brk o' with h | h | h | h | h | h <;> revert h <;> decide
      · rw [repl_head] at o'
        rcases brk o' with h | h | h | h | h | h <;> simp at h
        obtain ⟨rfl, h, _⟩ := h
        cases h
        obtain ⟨rfl, h, _⟩ := h
        cases h
  | media _ _ _ =>
    obtain ⟨c, r, rfl, hc⟩ := o
    cases g with
    | text => exact hg rfl
    | verbatim _ _ => simp [Form.ctorIdx] at hlt
    | container _ => simp [Form.ctorIdx] at hlt
    | media _ _ _ => simp [Form.ctorIdx] at hlt
    | heading _ _ =>
      obtain ⟨⟨d, hd, h⟩, _⟩ := o'
      have := Option.some.inj h
      subst this
      rcases hc with rfl | rfl <;> revert hd <;> decide
    | brk _ =>
      rcases hc with rfl | rfl <;> rcases brk o' with h | h | h | h | h | h <;> simp at h
  | heading _ _ =>
    obtain ⟨⟨d, hd, h⟩, _⟩ := o
    cases g with
    | text => exact hg rfl
    | verbatim _ _ => simp [Form.ctorIdx] at hlt
    | container _ => simp [Form.ctorIdx] at hlt
    | media _ _ _ => simp [Form.ctorIdx] at hlt
    | heading _ _ => simp [Form.ctorIdx] at hlt
    | brk _ =>
      rcases hd with rfl | rfl <;> rcases brk o' with rfl | rfl | rfl | rfl | rfl | rfl <;> revert h <;> decide
  | brk _ =>
    cases g with
    | text => exact hg rfl
    | _ => simp [Form.ctorIdx] at hlt

theorem lineForm_text {l : Text} {f : Form} (h : LineForm l .text) (h' : LineForm l f) : f = .text := by
  cases h with
  | text h1 h2 h3 h4 h5 =>
    cases h' with
    | verbatim h => exact absurd ⟨_, h⟩ h1
    | container h => exact absurd ⟨_, h⟩ h2
    | media h hn => exact absurd ⟨_, _, _, h, hn⟩ h3
    | heading h => exact absurd ⟨_, _, h⟩ h4
    | brk h => exact absurd ⟨_, h⟩ h5
    | text => rfl

theorem lineForm_unique {l : Text} {f g : Form} (h : LineForm l f) (h' : LineForm l g) : f = g := by
  by_cases hf : f = .text
  · subst hf; exact (lineForm_text h h').symm
  by_cases hg : g = .text
  · subst hg; exact lineForm_text h' h
  have o := lineForm_opening h
  have o' := lineForm_opening h'
  rcases Nat.lt_trichotomy f.ctorIdx g.ctorIdx with hlt | he | hlt
  · exact absurd (opening_cross o o' hf hg hlt) id
  · cases h with
    | verbatim h =>
      cases h' <;> first | (simp [Form.ctorIdx] at he; done) | skip
      rename_i h'
      rw [rawDelim_det h h']
    | container h =>
      cases h' <;> first | (simp [Form.ctorIdx] at he; done) | skip
      rename_i h'
      rw [compoundLine_det h h']
    | media h _ =>
      cases h' <;> first | (simp [Form.ctorIdx] at he; done) | skip
      rename_i h' _
      obtain ⟨rfl, rfl, rfl⟩ := mediaLine_det h h'
      rfl
    | heading h =>
      cases h' <;> first | (simp [Form.ctorIdx] at he; done) | skip
      rename_i h'
      obtain ⟨rfl, rfl⟩ := Props.heading_unique h h'
      rfl
    | brk h =>
      cases h' <;> first | (simp [Form.ctorIdx] at he; done) | skip
      rename_i h'
      rw [breakLine_det h h']
    | text => exact absurd rfl hf
  · exact absurd (opening_cross o' o hg hf hlt) id

theorem lineForm_exists (l : Text) : ∃ f, LineForm l f := by
  by_cases h1 : ∃ c, RawDelim c l
  · exact ⟨_, .verbatim h1.choose_spec⟩
  by_cases h2 : ∃ context, CompoundLine l context
  · exact ⟨_, .container h2.choose_spec⟩
  by_cases h3 : ∃ ty target attrs, MediaLine l ty target attrs ∧ ty ≠ .audio
  · obtain ⟨_, _, _, h, hn⟩ := h3; exact ⟨_, .media h hn⟩
  by_cases h4 : ∃ n title, Heading n title l
  · obtain ⟨_, _, h⟩ := h4; exact ⟨_, .heading h⟩
  by_cases h5 : ∃ ty, BreakLine l ty
  · exact ⟨_, .brk h5.choose_spec⟩
  · exact ⟨_, .text h1 h2 h3 h4 h5⟩

variable [Uni]

/-! ### The lines blocks begin with -/

omit [Uni] in
theorem headD_lines (s : Span) : (lines s.data).headD [] = s.takeNormalizedLine.item.data := by
  by_cases h : s.data = []
  · obtain ⟨w, hw, _⟩ := normLine_rest s
    rw [h] at hw
    rw [(List.append_eq_nil_iff.mp hw.symm).1, h]
    rfl
  · rw [lines_cons s h]; rfl

omit [Uni] in
/-- A line that begins with none of the markers. -/
theorem unmarked {s : Span} {c : Char} {r : Text} (hd : s.data = c :: r) (hc : isMarker c = false) :
    ∀ d, isMarker d = true → s.takeNormalizedLine.item.data.head? ≠ some d := by
  intro d hm h
  obtain ⟨w, hw, _⟩ := normLine_rest s
  cases hl : s.takeNormalizedLine.item.data with
  | nil => rw [hl] at h; cases h
  | cons x y =>
    rw [hl] at h hw
    cases h
    rw [hd] at hw
    have := (List.cons.inj hw).1
    subst this
    rw [hc] at hm
    cases hm

theorem fast_form {s : Span} {c : Char} {r : Text} (hd : s.data = c :: r) (hc : isMarker c = false)
    (hn : containsSub s.takeLine.item.data [':', ':'] = false) :
    MetaItems [] (lines s.data) [] (lines s.data) ∧ LineForm ((lines s.data).headD []) .text ∧ ¬ BodyEntry s.data := by
  have hu := unmarked hd hc
  refine ⟨.stop ?_, ?_, ?_⟩
  · intro l rest i hl hm
    have : l = s.takeNormalizedLine.item.data := by
      rw [← headD_lines, hl]; rfl
    subst this
    generalize s.takeNormalizedLine.item.data = l at hm hu
    cases hm with
    | title _ _ _ => exact absurd rfl (hu '.' (by decide))
    | anchor _ _ => exact absurd rfl (hu '[' (by decide))
    | anchorText _ _ _ => exact absurd rfl (hu '[' (by decide))
    | attrs _ _ _ => exact absurd rfl (hu '[' (by decide))
  · rw [headD_lines]
    have hmed : ¬ ∃ ty target attrs, MediaLine s.takeNormalizedLine.item.data ty target attrs ∧ ty ≠ .audio := by
      rintro ⟨ty, target, attrs, ⟨e, _⟩, _⟩
      have : containsSub s.takeLine.item.data [':', ':'] = true := by
        rw [containsSub_iff]
        obtain ⟨w, hw, _⟩ := trimEndP_spec (· == ' ') s.takeLine.item.data
        rw [← normLine_item_data, e] at hw
        exact ⟨(macroName ty).toList, target ++ '[' :: attrs ++ [']'] ++ w, by rw [hw]; simp⟩
      rw [this] at hn
      cases hn
    generalize s.takeNormalizedLine.item.data = l at hu hmed
    refine .text ?_ ?_ hmed ?_ ?_
    · rintro ⟨c, h⟩
      obtain ⟨r, rfl, _⟩ := rawDelim_head h
      rcases h.1 with rfl | rfl | rfl | rfl <;> exact absurd rfl (hu _ (by decide))
    · rintro ⟨x, ⟨rfl, _⟩ | ⟨n, ⟨rfl, _⟩ | ⟨rfl, _⟩ | ⟨rfl, _⟩⟩⟩
      · exact absurd rfl (hu '-' (by decide))
      · exact absurd rfl (hu '=' (by decide))
      · exact absurd rfl (hu '*' (by decide))
      · exact absurd rfl (hu '_' (by decide))
    · rintro ⟨n, t, _, _, m, gap, hm, _, _, _, rfl⟩
      rcases hm with rfl | rfl <;> exact absurd rfl (hu _ (by decide))
    · rintro ⟨ty, h⟩
      cases ty with
      | thematic =>
        obtain ⟨x, hx, rfl⟩ := h
        simp only [List.mem_cons, List.not_mem_nil, or_false] at hx
        rcases hx with rfl | rfl | rfl | rfl | rfl <;> exact absurd rfl (hu _ (by decide))
      | page => subst h; exact absurd rfl (hu '<' (by decide))
  · rintro ⟨c', sep, rest, u, n, k, hx, ⟨sp, hu', _, _⟩, he, _⟩
    have hx := hx.eq
    have : u.head? = some ':' := by cases he <;> rfl
    cases u with
    | nil => cases this
    | cons y ys =>
      cases this
      rw [hx, hu'] at hd
      have := (List.cons.inj hd).1
      subst this
      revert hc; decide

theorem fallback_form {e : BlockEnv} {p : ParserState} {m : BlockMetadata} {sw : List Warning}
    (hsuf : Suf m.blockStart m.source) (hd : NoDelimiter e p m) (hm : mediaAt e p m = .ok none) (hh : HeadingFree e m sw)
    (hb : breakAt m = .ok none) : LineForm m.line .text := by
  refine .text ?_ ?_ ?_ ?_ ?_
  · rintro ⟨c, hc⟩
    have h0 := hd.raw
    rcases rawBlock_spec (subs := e.subs) (store := p.store) rfl hc hsuf with
      ⟨_, _, _, body, _, _, _, _, _, _, _, _, _, _, _, h⟩ | ⟨_, _, _, _, _, _, _, _, _, _, _, h⟩
    · rw [h] at h0
      generalize e.subs _ _ _ _ = a at h0
      cases a <;> cases h0
    · rw [h] at h0; cases h0
  · rintro ⟨x, hx⟩
    exact hd.compound ⟨x, compoundLine_iff.mpr hx⟩
  · rintro ⟨ty, target, attrs, h, hn⟩
    unfold mediaAt at hm
    rw [if_pos] at hm
    · exact media_found h hm
    · rw [Bool.or_eq_true, startsWith_iff, startsWith_iff]
      obtain ⟨e, _⟩ := h
      cases ty with
      | image => exact Or.inl ⟨target ++ '[' :: attrs ++ [']'], by rw [e]; simp [macroName]⟩
      | video => exact Or.inr ⟨target ++ '[' :: attrs ++ [']'], by rw [e]; simp [macroName]⟩
      | audio => exact absurd rfl hn
  · rintro ⟨n, t, h⟩
    have hs : (startsWith m.line ['='] || startsWith m.line ['#']) = true := by
      obtain ⟨_, _, c, gap, hc, _, _, _, e⟩ := h
      rw [Bool.or_eq_true, startsWith_iff, startsWith_iff]
      rcases hc with rfl | rfl
      · exact Or.inl ⟨_, by rw [e, List.replicate_succ]; rfl⟩
      · exact Or.inr ⟨_, by rw [e, List.replicate_succ]; rfl⟩
    rcases hh with ⟨_, h0⟩ | h0
    · exact h0 hs
    · rw [discard_marked hs] at h0
      obtain ⟨_, _, h1⟩ := Props.C22_recognised e.ar h
      rw [h1] at h0
      cases h0
  · rintro ⟨ty, h⟩
    have ht := breakType_iff.mpr h
    unfold breakAt at hb
    rw [if_pos] at hb
    · unfold Break.parse at hb
      simp only at hb
      unfold BlockMetadata.line at ht
      rw [ht] at hb
      simp only [bind, Except.bind] at hb
      generalize Res.ofOption (Span.trimRemainder? _ _) = a at hb
      cases a with
      | error x => cases hb
      | ok src =>
        simp only at hb
        generalize trimmedLength _ = a at hb
        cases a <;> cases hb
    · cases ty with
      | thematic =>
        obtain ⟨x, hx, e⟩ := h
        rw [e]
        simp only [List.mem_cons, List.not_mem_nil, or_false] at hx
        rcases hx with rfl | rfl | rfl | rfl | rfl <;> decide
      | page => rw [show m.line = _ from h]; decide

theorem noEntry {e : BlockEnv} {p : ParserState} {s : Span} (h : bodyEntryAt e p s = .ok none) : ¬ BodyEntry s.data := by
  rintro ⟨c, sep, rest, u, n, k, hx, hu, he, l, sep', rest', hl, hc⟩
  have hi : s.takeLine.item.data = l := (takeLine_data hl.eq hl.takeLine_eq).1
  unfold bodyEntryAt at h
  simp only [hi] at h
  rw [if_pos] at h
  · obtain ⟨nm, vs, _, _, _, _, h5⟩ := parse_entry (hdr := e.subs p.store .header none) hx hu he
    rw [h5] at h
    cases hk : kindValue (e.subs p.store .header none) k with
    | error x => rw [hk] at h; cases h
    | ok v => rw [hk] at h; cases h
  · rw [Bool.and_eq_true, Bool.or_eq_true, startsWith_iff, endsWith_iff, containsSub_iff]
    refine ⟨?_, ?_⟩
    · have hh : s.data.head? = some ':' := by
        obtain ⟨sp, hsp, _⟩ := hu
        rw [hx.eq, hsp]
        cases he <;> rfl
      cases l with
      | nil =>
        have heq := hl.eq
        rw [heq] at hh
        rcases hl.term with rfl | rfl | ⟨rfl, rfl | rfl⟩ <;> simp at hh
      | cons x y =>
        rw [hl.eq] at hh
        cases hh
        exact ⟨y, rfl⟩
    · rcases hc with ⟨r, hr⟩ | ⟨a, b, hab⟩
      · exact Or.inl ⟨r, hr⟩
      · exact Or.inr ⟨a, b, by rw [hab]; simp⟩

/-- How the beginning of a block tells what it is. -/
structure Begun (T : Span) (x : Block) (s body : Span) (k : Nat) (is : List MetaItem) (rest : List Text) : Prop where
  within : Sub s T
  aligned : Aligned s
  start : body = s ∨ body = s.discardEmptyLines
  source : x.source = body.takeN k
  items : MetaItems [] (lines body.data) is rest
  entry : body = s → ¬ BodyEntry body.data
  form : (x.declaredStyle = some "literal".toList ∧ formOf x.kind = some .text) ∨
    (x.declaredStyle ≠ some "literal".toList ∧ ∃ f, LineForm (rest.headD []) f ∧ formOf x.kind = some f)
  described : Describes is x.fields ∨
    (is ≠ [] ∧ NoParagraph rest ∧ formOf x.kind = some .text ∧ x.fields.titleSource = none ∧ x.fields.anchor = none ∧
      x.fields.attrlist = none)

theorem meta_begun {e : BlockEnv} {p : ParserState} {s : Span} {m : BlockMetadata} {mw : List Warning}
    (h : BlockMetadata.parse e.subs p.store s = .ok (m, mw)) :
    ∃ is, MetaItems [] (lines m.source.data) is (lines m.blockStart.data) ∧ Describes is m.fields := by
  obtain ⟨is, h1, _, h2, h3, h4⟩ := Props.C27_reads h
  refine ⟨is, ?_, h2, ?_, h4⟩
  · rw [meta_source h, lines_discardEmptyLines]; exact h1
  · rw [← h3]
    cases m.fields.anchor <;> rfl

theorem ahead_begun {e : BlockEnv} {p : ParserState} {T s : Span} {m : BlockMetadata} {mw : List Warning} {b : Block} {k : Nat}
    {f : Form} (ha : Ahead e p s m mw) (hs : Sub s T) (hal : Aligned s) (hsrc : b.source = m.source.takeN k)
    (hfields : b.fields = m.fields ∨ b.fields = { m.fields with anchorReftext := none }) (hf : LineForm m.line f)
    (hk : formOf b.kind = some f) : ∃ s body k is rest, Begun T b s body k is rest := by
  obtain ⟨is, h1, h2⟩ := meta_begun ha.parse
  have hst : b.declaredStyle = m.fields.style := by
    unfold Block.declaredStyle Meta.style
    have : b.fields.attrlist = m.fields.attrlist := by rcases hfields with h | h <;> rw [h]
    rw [this]
    cases m.fields.attrlist <;> rfl
  refine ⟨s, m.source, k, is, _, hs, hal, Or.inr (meta_source ha.parse), hsrc, h1, ?_, ?_, ?_⟩
  · intro he; rw [he]; exact noEntry ha.entry
  · right
    refine ⟨by rw [hst]; exact ha.style, f, ?_, hk⟩
    rw [headD_lines]; exact hf
  · left
    rcases hfields with h | h <;> rw [h]
    · exact h2
    · exact ⟨h2.title, h2.anchor, h2.attrs⟩

omit [Uni] in
theorem white_lines {raw : Text} (h : trimEnd raw = []) : ∀ l ∈ lines raw, ∀ c ∈ l, isWhite c = true := by
  obtain ⟨w, hw, hall⟩ := trimEndP_spec isWhite raw
  change raw = trimEnd raw ++ w at hw
  rw [h, List.nil_append] at hw
  subst hw
  have hs : ∀ (t : Text), ∀ l ∈ splitChar '\n' t, ∀ c ∈ l, c ∈ t := by
    intro t
    induction t with
    | nil => intro l hl c hc; simp [splitChar] at hl; subst hl; cases hc
    | cons d ds ih =>
      intro l hl c hc
      unfold splitChar at hl
      split at hl
      · rcases List.mem_cons.mp hl with rfl | hl
        · cases hc
        · exact List.mem_cons_of_mem _ (ih l hl c hc)
      · split at hl
        · rename_i q qs hq
          rcases List.mem_cons.mp hl with rfl | hl
          · rcases List.mem_cons.mp hc with rfl | hc
            · exact List.mem_cons_self
            · exact List.mem_cons_of_mem _ (ih q (by rw [hq]; simp) c hc)
          · exact List.mem_cons_of_mem _ (ih l (by rw [hq]; simp [hl]) c hc)
        · simp at hl; subst hl; simp at hc; simp [hc]
  intro l hl c hc
  obtain ⟨r, hr, rfl⟩ := List.mem_map.mp hl
  have hr' : r ∈ splitChar '\n' raw := by
    unfold rawLines at hr
    split at hr
    · exact List.dropLast_subset _ hr
    · exact hr
  have hcr : c ∈ r := by
    unfold tidy at hc
    obtain ⟨w, hw, _⟩ := trimEndP_spec (· == ' ') (if endsWith r ['\r'] then r.dropLast else r)
    have : c ∈ (if endsWith r ['\r'] then r.dropLast else r) := by rw [hw]; exact List.mem_append_left _ hc
    split at this
    · exact List.dropLast_subset _ this
    · exact this
  exact List.all_eq_true.mp hall c (hs raw r hr' c hcr)

omit [Uni] in
theorem simple_none {subs : Subs} {store : AttrStore} {m : BlockMetadata}
    (h : SimpleBlock.parse subs store m = .ok none) : NoParagraph (lines m.blockStart.data) := by
  obtain ⟨k, raw, taken, texts, _, h2, _, _, h5, _, h7⟩ := parseLines_spec subs store m.blockStart m.fields.attrlist
  unfold SimpleBlock.parse at h
  simp only [bind, Except.bind] at h
  rw [h7] at h
  by_cases h0 : trimEnd raw = []
  · exact ⟨taken, _, h5, fun l hl => white_lines h0 l (h2 ▸ hl)⟩
  · rw [if_neg h0] at h
    generalize subs _ _ _ _ = a at h
    cases a with
    | error x => cases h
    | ok r =>
      simp only [Except.map] at h
      generalize Res.ofOption (Span.trimRemainder? _ _) = a at h
      cases a <;> cases h

theorem made_begun {e : BlockEnv} {T : Span} {b : Block} (h : Made e T b) (hne : ¬ IsEntry b) (hnp : b.kind ≠ .preamble) :
    ∃ s body k is rest, Begun T b s body k is rest := by
  cases h with
  | preamble => exact absurd rfl hnp
  | compound hm ho hs hal =>
    exact ahead_begun hm hs hal rfl (Or.inl rfl) (.container (compoundLine_iff.mp ⟨ho.kind, ho.delim⟩)) rfl
  | @«section» _ _ _ s m mw mi _ _ _ _ title _ id _ _ _ ty num cbs hm hi ht hc hs hal =>
    refine ahead_begun hm hs hal rfl (Or.inl rfl) (f := .heading mi.item.1 mi.item.2.data) (.heading ?_) rfl
    rw [discard_marked hi] at ht
    refine Props.C22_only_headings_partial ?_ ht
    rintro hind
    unfold BlockMetadata.line at hi
    cases hl : m.blockStart.takeNormalizedLine.item.data with
    | nil => rw [hl] at hind; rcases hind with h | h <;> cases h
    | cons x y => rw [hl] at hind hi; rcases hind with h | h <;> cases h <;> revert hi <;> simp [startsWith]
  | leaf h hs hal =>
    generalize hr : (some (⟨b, _⟩ : MI Block)) = r at h
    cases h with
    | fast hf =>
      cases hr
      obtain ⟨c, r, mi, h1, h2, h3, hp, rfl, rfl⟩ := fast_some hf
      obtain ⟨_, k, h4⟩ := parseLines_lineSuf hp
      obtain ⟨g1, g2, g3⟩ := fast_form h1 h2 h3
      exact ⟨_, _, k, [], _, hs, hal, Or.inl rfl, h4, g1, fun _ => g3, Or.inr ⟨nofun, _, g2, rfl⟩, Or.inl ⟨rfl, rfl, rfl⟩⟩
    | entry hb => cases hr; exact absurd ⟨_, rfl⟩ hne
    | raw hm hp =>
      cases hr
      obtain ⟨_, k, g2⟩ := raw_lineSuf hp
      obtain ⟨c, h1, h2, h3⟩ := rawBlock_shape hp
      exact ahead_begun hm hs hal g2 (Or.inl rfl) (.verbatim h1) (by simp only [Block.kind, formOf]; rw [h2, h3])
    | media hm hp =>
      cases hr
      obtain ⟨h1, h2⟩ := mediaAt_some hp
      obtain ⟨_, k, g2⟩ := media_lineSuf h2
      have h3 := (media_reads h2).1
      exact ahead_begun hm hs hal g2 (Or.inr rfl) (.media h3 (not_audio h1 h3)) rfl
    | brk hm _ hp =>
      cases hr
      have hp := breakAt_some hp
      obtain ⟨_, k, g2⟩ := break_lineSuf hp
      refine ahead_begun hm hs hal g2 (Or.inr rfl) (.brk ?_) rfl
      rw [← breakType_iff]
      unfold Break.parse at hp
      simp only at hp
      unfold BlockMetadata.line
      split at hp
      · cases hp
      · rename_i ty hty
        rw [hty]
        simp only [bind, Except.bind] at hp
        generalize Res.ofOption (Span.trimRemainder? _ _) = a at hp
        cases a with
        | error x => cases hp
        | ok src =>
          simp only at hp
          generalize trimmedLength _ = a at hp
          cases a with
          | error x => cases hp
          | ok => cases hp; rfl
    | simple hfb hp =>
      subst hr
      obtain ⟨m', sb, h1, h2, rfl, h3, _⟩ := parseSimple_some hp
      obtain ⟨_, k, g2⟩ := simple_lineSuf h2
      rw [h1] at g2
      rcases h3 with ⟨rfl, _⟩ | ⟨rfl, hlit, hem, hno, _⟩
      · cases hfb with
        | other ha hd hm hh hb =>
          exact ahead_begun ha hs hal g2 (Or.inl rfl) (fallback_form (meta_suf ha.parse).2 hd hm hh hb) rfl
        | literal hpm hst hfast hent =>
          obtain ⟨is, i1, i2⟩ := meta_begun hpm
          refine ⟨_, _, k, is, _, hs, hal, Or.inr (meta_source hpm), g2, i1, fun he => by rw [he]; exact noEntry hent, ?_,
            Or.inl i2⟩
          left
          refine ⟨?_, rfl⟩
          rw [← hst]
          simp only [Block.declaredStyle, Block.fields, Meta.style]
          cases m'.fields.attrlist <;> rfl
      · cases hfb with
        | literal _ _ _ _ => cases hlit
        | other ha hd hm hh hb =>
          obtain ⟨is, i1, i2⟩ := meta_begun ha.parse
          refine ⟨_, _, k, is, _, hs, hal, Or.inr (meta_source ha.parse), g2, i1, fun he => by rw [he]; exact noEntry ha.entry,
            Or.inr ⟨nofun, .text, ?_, rfl⟩, Or.inr ⟨?_, simple_none hno, rfl, rfl, rfl, rfl⟩⟩
          · rw [headD_lines]; exact fallback_form (meta_suf ha.parse).2 hd hm hh hb
          · rintro rfl
            unfold BlockMetadata.isEmpty at hem
            have ha' : _ = none := i2.attrs
            have hti : _ = none := i2.title
            rw [Option.map_eq_none_iff] at ha' hti
            rw [ha'] at hem
            rcases (Props.C27_values ha.parse).1 with ⟨_, ht⟩ | ⟨_, _, ht, _⟩
            · rw [ht] at hem; cases hem
            · rw [hti] at ht; cases ht

/-! ### Blank lines in front of a block -/

omit [Uni] in
theorem discard_blank (n : Nat) (s : Span) : discardEmptyLinesAux n s = s ∨ (discardEmptyLinesAux n s).data = [] ∨
    ∃ a w, s.data = a ++ w ++ '\n' :: (discardEmptyLinesAux n s).data ∧ (a = [] ∨ ∃ a', a = a' ++ ['\n']) ∧
      ∀ c ∈ w, c = ' ' ∨ c = '\t' ∨ c = '\r' := by
  induction n generalizing s with
  | zero => exact Or.inl rfl
  | succ n ih =>
    unfold discardEmptyLinesAux
    split
    · exact Or.inl rfl
    · cases ht : s.takeEmptyLine with
      | none => exact Or.inl rfl
      | some l =>
        simp only
        unfold takeEmptyLine at ht
        simp only at ht
        split at ht
        · rename_i hb
          cases ht
          obtain ⟨line, sep, rest, hl, e⟩ := takeLine_shape s
          obtain ⟨h1, h2⟩ := takeLine_data hl.eq e
          rw [h1] at hb
          have hblank : ∀ c ∈ line, c = ' ' ∨ c = '\t' ∨ c = '\r' := by
            intro c hc
            have := List.all_eq_true.mp hb c hc
            simp [isBlank] at this
            rcases this with h | h <;> simp [h]
          have hs : rest = [] ∨ ∃ w, line ++ sep = w ++ ['\n'] ∧ ∀ c ∈ w, c = ' ' ∨ c = '\t' ∨ c = '\r' := by
            rcases hl.sep with rfl | ⟨rfl, _⟩ | ⟨_, h⟩ | ⟨_, h, _⟩
            · right
              refine ⟨line ++ ['\r'], by simp, fun c hc => ?_⟩
              rcases List.mem_append.mp hc with hc | hc
              · exact hblank c hc
              · simp at hc; simp [hc]
            · exact Or.inr ⟨line, rfl, hblank⟩
            · exact Or.inl h
            · exact Or.inl h
          rcases ih s.takeLine.after with h | h | ⟨a, w, h, ha, hw⟩
          · rw [h, h2]
            rcases hs with hs | ⟨w, hs, hw⟩
            · exact Or.inr (Or.inl hs)
            · refine Or.inr (Or.inr ⟨[], w, ?_, Or.inl rfl, hw⟩)
              rw [hl.eq, hs]; simp
          · exact Or.inr (Or.inl h)
          · rcases hs with hs | ⟨w', hs, _⟩
            · rw [h2, hs] at h; simp at h
            · refine Or.inr (Or.inr ⟨w' ++ '\n' :: a, w, ?_, ?_, hw⟩)
              · rw [hl.eq, hs, ← h2]
                conv => lhs; rw [h]
                simp
              · right
                rcases ha with rfl | ⟨a', rfl⟩
                · exact ⟨w', rfl⟩
                · exact ⟨w' ++ '\n' :: a', by simp⟩
        · cases ht

end Adoc
