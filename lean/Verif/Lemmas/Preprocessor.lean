import Verif.Spec.Preprocessor
import Verif.Lemmas.Attribute
import Verif.Lemmas.SourceMap
import Verif.Lemmas.RegexRel
import Verif.Props.Steps
import Verif.Props.Attrlist
/-! # Lemmas about the preprocessor -/

set_option linter.unusedSectionVars false
namespace Adoc
open Spec Span Re

variable [Uni]

/-! ### Include directives -/

theorem rel_include {l : Text} {s : RS} (hl : '\n' ∉ l) (h : Rel includeDirectiveRe ⟨none, l, []⟩ s) :
    ∃ target attrs, IncludeLine l target attrs ∧ s.rest = [] ∧
      s.caps = (match attrs with | some a => [(2, a), (1, target)] | none => [(1, target)]) := by
  unfold includeDirectiveRe at h
  simp only [cat] at h
  rw [rel_seq_iff] at h
  obtain ⟨x0, h0, h⟩ := h
  obtain ⟨_, rfl⟩ := rel_bot_iff.mp h0
  rw [rel_seq_iff] at h
  obtain ⟨x1, h1, h⟩ := h
  obtain ⟨r1, e1, rfl⟩ := rel_lit_iff.mp h1
  simp only at e1
  rw [rel_seq_iff] at h
  obtain ⟨x2, h2, h⟩ := h
  obtain ⟨y, target, h2', e2, rfl⟩ := rel_cap_iff.mp h2
  simp only at e2
  rw [rel_seq_iff] at h
  obtain ⟨x3, h3, h⟩ := h
  obtain ⟨r3, e3, rfl⟩ := rel_chr_iff.mp h3
  simp only at e3
  rw [rel_seq_iff] at h
  obtain ⟨x4, h4, h⟩ := h
  rw [rel_seq_iff] at h
  obtain ⟨x5, h5, h6⟩ := h
  obtain ⟨r5, e5, rfl⟩ := rel_chr_iff.mp h5
  obtain ⟨e6, rfl⟩ := rel_eot_iff.mp h6
  simp only at e6
  subst e6
  -- the target
  have ht : target ≠ [] ∧ '[' ∉ target ∧ (∀ c r, target = c :: r → isWhite c = false) ∧
      (∀ c r, target = r ++ [c] → isWhite c = false) ∧ y.caps = [] := by
    rw [rel_seq_iff] at h2'
    obtain ⟨z, h7, h8⟩ := h2'
    obtain ⟨c, r, e7, e8, rfl⟩ := rel_cls_iff.mp h7
    simp only at e7
    simp only [Bool.and_eq_true, Bool.not_eq_true', bne_iff_ne, ne_eq] at e8
    rcases rel_opt_iff.mp h8 with h8 | rfl
    · rw [rel_seq_iff] at h8
      obtain ⟨w, h9, h10⟩ := h8
      obtain ⟨u, r', e9, e10, rfl⟩ := rel_star_cls_iff.mp h9
      obtain ⟨d, r'', e11, e12, rfl⟩ := rel_cls_iff.mp h10
      simp only at e9 e11 e2
      simp only [Bool.and_eq_true, Bool.not_eq_true', bne_iff_ne, ne_eq] at e12
      have etar : target = c :: u ++ [d] := by
        rw [e7, e9, e11] at e2
        have : c :: u ++ [d] ++ r'' = target ++ r'' := by rw [← e2]; simp
        exact (List.append_cancel_right this).symm
      refine ⟨by rw [etar]; simp, ?_, ?_, ?_, rfl⟩
      · rw [etar]
        intro hm
        simp only [List.cons_append, List.mem_cons, List.mem_append, List.not_mem_nil, or_false] at hm
        rcases hm with hm | hm | hm
        · exact e8.2 hm.symm
        · have := e10 _ hm; simp at this
        · exact e12.2 hm.symm
      · intro x q hq; rw [etar] at hq; cases hq; exact e8.1
      · intro x q hq; rw [etar] at hq
        have := (List.append_inj' hq rfl).2
        cases this; exact e12.1
    · simp only at e2
      have etar : target = [c] := by
        rw [e7] at e2
        have : [c] ++ r = target ++ r := by rw [← e2]; rfl
        exact (List.append_cancel_right this).symm
      refine ⟨by rw [etar]; simp, by rw [etar]; simp; exact fun h => e8.2 h.symm, ?_, ?_, rfl⟩
      · intro x q hq; rw [etar] at hq; cases hq; exact e8.1
      · intro x q hq; rw [etar] at hq
        have := (List.append_inj' (s₁ := []) hq rfl).2
        cases this; exact e8.1
  obtain ⟨t1, t2, t3, t4, t5⟩ := ht
  have el : l = "include::".toList ++ target ++ '[' :: r3 := by rw [e1, e2, e3]; simp
  rcases rel_opt_iff.mp h4 with h4 | rfl
  · obtain ⟨z, a, h7, e7, rfl⟩ := rel_cap_iff.mp h4
    simp only at e7 e5
    refine ⟨target, some a, ⟨⟨a, by rw [el, e7, e5]; simp, Or.inr ⟨rfl, ?_⟩⟩, t1, t2, t3, t4⟩, rfl, ?_⟩
    · rw [rel_seq_iff] at h7
      obtain ⟨w, h8, h9⟩ := h7
      obtain ⟨c, r, e8, e9, rfl⟩ := rel_cls_iff.mp h8
      simp only at e8
      obtain ⟨u, r', hu, e10, _, rfl⟩ := rel_plus_cls_iff.mp h9
      simp only at e10 e7
      have ea : a = c :: u := by
        rw [e8, e10] at e7
        have : (c :: u) ++ r' = a ++ r' := e7
        exact (List.append_cancel_right this).symm
      rw [ea]
      refine ⟨?_, ?_⟩
      · cases u with
        | nil => exact absurd rfl hu
        | cons _ _ => simp
      · simp; simpa using e9
    · simp only
      have : z.caps = [(1, target)] := by
        rw [rel_seq_iff] at h7
        obtain ⟨w, h8, h9⟩ := h7
        obtain ⟨c, r, e8, e9, rfl⟩ := rel_cls_iff.mp h8
        obtain ⟨u, r', hu, e10, _, rfl⟩ := rel_plus_cls_iff.mp h9
        simp only [t5]
      rw [this]
  · simp only at e5
    refine ⟨target, none, ⟨⟨[], by rw [el, e5]; simp, Or.inl ⟨rfl, rfl⟩⟩, t1, t2, t3, t4⟩, rfl, ?_⟩
    simp only [t5]

theorem include_rel {l target : Text} {attrs : Option Text} (hl : '\n' ∉ l) (h : IncludeLine l target attrs) :
    ∃ s, Rel includeDirectiveRe ⟨none, l, []⟩ s := by
  obtain ⟨⟨inner, rfl, hi⟩, t1, t2, t3, t4⟩ := h
  unfold includeDirectiveRe
  simp only [cat]
  have htar : ∀ pv cs rest, ∃ pv', Rel (.seq (cls fun c => !isWhite c && c != '[')
      (opt (.seq (.star true (cls (· != '['))) (cls fun c => !isWhite c && c != '['))))
      ⟨pv, target ++ rest, cs⟩ ⟨pv', rest, cs⟩ := by
    intro pv cs rest
    cases target with
    | nil => exact absurd rfl t1
    | cons c r =>
      have hc : (!isWhite c && c != '[') = true := by
        have := t3 c r rfl
        simp [this]; rintro rfl; exact t2 (by simp)
      rcases List.eq_nil_or_concat r with rfl | ⟨u, d, rfl⟩
      · exact ⟨some c, .seq (.cls hc) (rel_opt_iff.mpr (Or.inr rfl))⟩
      · rw [List.concat_eq_append] at *
        have hd : (!isWhite d && d != '[') = true := by
          have := t4 d (c :: u) (by simp)
          simp [this]; rintro rfl; exact t2 (by simp)
        refine ⟨some d, .seq (.cls hc) (rel_opt_iff.mpr (Or.inl (.seq (rel_star_cls_iff.mpr
          ⟨u, d :: rest, by simp, ?_, rfl⟩) (.cls hd))))⟩
        intro x hx
        simp; rintro rfl; exact t2 (by simp [hx])
  obtain ⟨pv', htar⟩ := htar (prevAfter none "include::".toList) [] ('[' :: inner ++ [']'])
  have hinner : ∃ s, Rel (opt (cap 2 (.seq (cls (· != ']')) (plus dot)))) ⟨some '[', inner ++ [']'], [(1, target)]⟩ s ∧
      s.rest = [']'] := by
    rcases hi with ⟨_, rfl⟩ | ⟨_, h2, h3⟩
    · exact ⟨_, rel_opt_iff.mpr (Or.inr rfl), rfl⟩
    · cases inner with
      | nil => simp at h2
      | cons c u =>
        refine ⟨_, rel_opt_iff.mpr (Or.inl (rel_cap_iff.mpr ⟨_, c :: u, .seq (.cls (cs := u ++ [']']) ?_)
          (rel_plus_cls_iff.mpr ⟨u, [']'], ?_, rfl, ?_, rfl⟩), rfl, rfl⟩)), rfl⟩
        · simpa using h3
        · intro hu; subst hu; simp at h2
        · intro x hx
          simp; rintro rfl
          exact hl (by simp [hx])
  obtain ⟨s, hs, hr⟩ := hinner
  refine ⟨⟨some ']', [], s.caps⟩, .seq (.bot rfl) (.seq (rel_lit_iff.mpr ⟨target ++ '[' :: inner ++ [']'], by simp, rfl⟩)
    (.seq (rel_cap_iff.mpr ⟨_, target, by simpa using htar, by simp, rfl⟩)
    (.seq (rel_chr_iff.mpr ⟨inner ++ [']'], rfl, rfl⟩) (.seq hs (.seq (rel_chr_iff.mpr ⟨[], hr, rfl⟩)
      (.eot rfl))))))⟩

theorem captures_include {l : Text} (hl : '\n' ∉ l) :
    (∀ mt, captures includeDirectiveRe l = some mt → ∃ target attrs, IncludeLine l target attrs ∧
      mt.get 1 = some target ∧ mt.get 2 = attrs) ∧
    (captures includeDirectiveRe l = none → ∀ target attrs, ¬ IncludeLine l target attrs) := by
  have hs : captures includeDirectiveRe l = (matchAt includeDirectiveRe none l).map fun r => r.1 := by
    unfold captures
    have : includeDirectiveRe = .seq .bot (cat [lit "include::".toList,
      cap 1 (cat [cls (fun c => !isWhite c && c != '['),
        opt (cat [star true (cls (· != '[')), cls (fun c => !isWhite c && c != '[')])]),
      chr '[', opt (cap 2 (cat [cls (· != ']'), plus dot])), chr ']', eot]) := rfl
    rw [this, search_bot]
    cases matchAt _ none l <;> rfl
  rw [hs]
  constructor
  · intro mt h
    cases hm : matchAt includeDirectiveRe none l with
    | none => rw [hm] at h; cases h
    | some r =>
      rw [hm] at h
      have h := Option.some.inj h
      obtain ⟨mt', s⟩ := r
      simp only at h
      subst h
      obtain ⟨h1, _, _, h4⟩ := matchAt_sound hm
      obtain ⟨target, attrs, h5, _, h6⟩ := rel_include hl h1
      refine ⟨target, attrs, h5, ?_, ?_⟩ <;> (simp only [Match.get, h4, h6]; cases attrs <;> rfl)
  · intro h target attrs hi
    obtain ⟨s, hs⟩ := include_rel hl hi
    rw [Option.map_eq_none_iff] at h
    exact matchAt_none.mp h s hs

theorem Spec.IncludeLine.det {l t t' : Text} {a a' : Option Text} (h : IncludeLine l t a) (h' : IncludeLine l t' a') :
    t = t' ∧ a = a' := by
  obtain ⟨⟨i, e, hi⟩, _, h2, _, _⟩ := h
  obtain ⟨⟨i', e', hi'⟩, _, h2', _, _⟩ := h'
  have e := e.symm.trans e'
  simp only [List.append_assoc] at e
  have e := List.append_cancel_left e
  have key : ∀ {x y p q : Text}, '[' ∉ x → '[' ∉ y → x ++ '[' :: p = y ++ '[' :: q → x = y ∧ p = q := by
    intro x
    induction x with
    | nil =>
      intro y p q _ hy h
      cases y with
      | nil => simp at h; exact ⟨rfl, h⟩
      | cons c y => simp at h; exact absurd (by rw [← h.1]; simp) hy
    | cons c x ih =>
      intro y p q hx hy h
      cases y with
      | nil => simp at h; exact absurd (by rw [h.1]; simp) hx
      | cons d y =>
        simp only [List.cons_append, List.cons.injEq] at h
        obtain ⟨h3, h4⟩ := ih (fun h => hx (by simp [h])) (fun h => hy (by simp [h])) h.2
        exact ⟨by rw [h.1, h3], h4⟩
  obtain ⟨rfl, e3⟩ := key h2 h2' e
  have e4 := List.append_cancel_right e3
  subst e4
  refine ⟨rfl, ?_⟩
  rcases hi with ⟨rfl, h3⟩ | ⟨rfl, h3, _⟩ <;> rcases hi' with ⟨rfl, h4⟩ | ⟨rfl, h4, _⟩
  · rfl
  · rw [h3] at h4; simp at h4
  · rw [h4] at h3; simp at h3
  · rfl

theorem Spec.IncludeLine.starts {l t : Text} {a : Option Text} (h : IncludeLine l t a) :
    startsWith l "include::".toList = true := by
  obtain ⟨⟨i, rfl, _⟩, _⟩ := h
  rw [startsWith_iff]
  exact ⟨t ++ '[' :: i ++ [']'], by simp⟩

theorem inlineAttrlist_total (store : AttrStore) (a : Text) : ∃ al, inlineAttrlist store a = .ok al := by
  obtain ⟨r, h⟩ := Props.C33_inline_total (fun _ => .error .panic) store (Span.new a)
  exact ⟨r.1, by unfold inlineAttrlist; rw [h]; rfl⟩

theorem applyAttributes_iff {s : AttrStore} {t out : Text} : applyAttributes s t = .ok out ↔
    Expands (fun n => s.hasAttribute n = true) (attrText s) t out := by
  obtain ⟨o, h1, h2⟩ := Props.C30_expands s t
  have h2 : Expands (fun n => s.hasAttribute n = true) (attrText s) t o := h2
  rw [h1]
  constructor
  · rintro ⟨rfl⟩; exact h2
  · intro h; rw [Expands.det h2 h]

/-- The test for a directive. -/
theorem includeAt_spec (st : PState) {l : Text} (hl : '\n' ∉ l) :
    (includeAt st l = .ok none ∧ ∀ target attrs, ¬ IncludeLine l target attrs) ∨
    (∃ target attrs target' al, includeAt st l = .ok (some (target', al)) ∧ IncludeLine l target attrs ∧
      Expands (fun n => st.store.hasAttribute n = true) (attrText st.store) target target' ∧
      IncludeAttrs st.store attrs al) := by
  unfold includeAt
  by_cases hs : startsWith l "include::".toList = true
  · rw [if_pos hs]
    obtain ⟨h1, h2⟩ := captures_include hl
    cases hc : captures includeDirectiveRe l with
    | none => exact Or.inl ⟨rfl, h2 hc⟩
    | some mt =>
      right
      obtain ⟨target, attrs, h3, h4, h5⟩ := h1 mt hc
      obtain ⟨target', h6, h7⟩ := Props.C30_expands st.store target
      simp only [Match.at!, h4, h5, Res.ofOption, bind, Except.bind, h6]
      cases attrs with
      | none => exact ⟨target, none, target', _, rfl, h3, h7, .none⟩
      | some a =>
        obtain ⟨al, h8⟩ := inlineAttrlist_total st.store a
        simp only [h8]
        exact ⟨target, some a, target', al, rfl, h3, h7, .some h8⟩
  · rw [if_neg hs]
    exact Or.inl ⟨rfl, fun target attrs h => hs h.starts⟩


/-! ### Attribute entries -/

/-- What the reader has learnt. -/
def PState.reading (st : PState) : Reading := ⟨st.store, st.inDocumentHeader, st.canHaveAttribute⟩

theorem containsSub_iff {t n : Text} : containsSub t n = true ↔ ∃ a b, t = a ++ n ++ b := by
  induction t with
  | nil =>
    rw [containsSub]
    constructor
    · intro h; exact ⟨[], [], by simp at h; simp [h]⟩
    · rintro ⟨a, b, h⟩; simp at h; simp [h]
  | cons c cs ih =>
    rw [containsSub, Bool.or_eq_true, ih, isPrefixOf_iff]
    constructor
    · rintro (⟨r, h⟩ | ⟨a, b, h⟩)
      · exact ⟨[], r, by simpa using h⟩
      · exact ⟨c :: a, b, by simp [h]⟩
    · rintro ⟨a, b, h⟩
      cases a with
      | nil => exact Or.inl ⟨b, by simpa using h⟩
      | cons d a =>
        simp only [List.cons_append, List.cons.injEq] at h
        exact Or.inr ⟨a, b, h.2⟩

theorem stripEnd_iff {t b : Text} : StripEnd t b ↔ b = trimEnd t := by
  unfold trimEnd
  constructor
  · rintro ⟨w, rfl, h1, h2⟩
    rw [trimEndP_append_all (by simpa using h1), trimEndP_eq_self]
    intro c r hc; exact h2 c r hc
  · rintro rfl
    obtain ⟨w, h1, h2⟩ := trimEndP_spec isWhite t
    exact ⟨w, h1, by simpa using h2, trimEndP_last isWhite t⟩

theorem kindValue_ok {hdr : Text → Res Text} {k : EntryKind} {v : IVal} : kindValue hdr k = .ok v ↔ EntryValue hdr k v := by
  cases k with
  | unset => exact ⟨fun h => by cases h; exact .unset, fun h => by cases h; rfl⟩
  | set => exact ⟨fun h => by cases h; exact .set, fun h => by cases h; rfl⟩
  | value raw =>
    have hk : kindValue hdr (.value raw) = (hdr (joinValue raw)).map IVal.value := rfl
    rw [hk]
    constructor
    · intro h
      cases hx : hdr (joinValue raw) with
      | error e => rw [hx] at h; cases h
      | ok x => rw [hx] at h; cases h; exact .value hx
    · intro h
      cases h with | value h => rw [h]; rfl

/-- The test for an entry. -/
theorem entryAt_spec (env : PreEnv) (st : PState) (s : Span) {l lsep lrest : Text} (hl : FirstLine s.data l lsep lrest) :
    (entryAt env st s l = .ok none ∧ NoEntry st.reading s.data l) ∨
    (∃ c sep rest name kind, EntryAt st.reading s.data l c sep rest name kind ∧
      ((∃ a v, entryAt env st s l = .ok (some a) ∧ EntryValue (env.hdr st.store) kind v ∧ a.item.name.data = name ∧
        a.item.value = v ∧ a.item.source.data = trimEnd c ∧ a.after = s.dropN (c.length + sep.length)) ∨
       (∃ e, entryAt env st s l = .error e ∧ ∀ v, ¬ EntryValue (env.hdr st.store) kind v))) := by
  unfold entryAt
  by_cases hc : (st.canHaveAttribute && startsWith l [':'] && (endsWith l [':'] || containsSub l ": ".toList)) = true
  · rw [if_pos hc]
    simp only [Bool.and_eq_true, Bool.or_eq_true] at hc
    obtain ⟨⟨h1, h2⟩, h3⟩ := hc
    obtain ⟨c, sep, rest, hx⟩ := extent_exists s.data
    obtain ⟨u, hu⟩ := stripSpaces_exists c
    by_cases he : ∃ n k, Entry u n k
    · obtain ⟨n, k, he⟩ := he
      right
      refine ⟨c, sep, rest, n, k, ⟨h1, ?_, ?_, hx, u, hu, he⟩, ?_⟩
      · obtain ⟨r, hr⟩ := startsWith_iff.mp h2; exact ⟨r, hr⟩
      · rcases h3 with h3 | h3
        · exact Or.inl (endsIn_iff.mp h3)
        · exact Or.inr (containsSub_iff.mp h3)
      · obtain ⟨nm, vs, _, e1, _, _, e2⟩ := parse_entry (hdr := env.hdr st.store) hx hu he
        rw [e2]
        cases hk : kindValue (env.hdr st.store) k with
        | error e =>
          right
          refine ⟨e, rfl, fun v hv => ?_⟩
          rw [kindValue_ok.mpr hv] at hk; cases hk
        | ok v =>
          left
          refine ⟨_, v, rfl, kindValue_ok.mp hk, e1, rfl, ?_, rfl⟩
          simp only [takeN_data]
          obtain ⟨w, h4, _⟩ := trimEndP_spec isWhite c
          unfold trimEnd
          generalize trimEndP isWhite c = b at h4
          rw [hx.eq, h4, List.append_assoc, List.append_assoc, List.take_left]
    · left
      refine ⟨parse_no_entry hx hu (fun n k h => he ⟨n, k, h⟩), ?_⟩
      rintro c' sep' rest' n k ⟨_, _, _, hx', u', hu', he'⟩
      obtain ⟨rfl, _, _⟩ := hx.det hx'
      rw [hu.det hu'] at he
      exact he ⟨n, k, he'⟩
  · rw [if_neg hc]
    left
    refine ⟨rfl, ?_⟩
    rintro c sep rest n k ⟨h1, ⟨r, h2⟩, h3, _⟩
    apply hc
    simp only [Bool.and_eq_true, Bool.or_eq_true]
    refine ⟨⟨h1, startsWith_iff.mpr ⟨r, h2⟩⟩, ?_⟩
    rcases h3 with h3 | h3
    · exact Or.inl (endsIn_iff.mpr h3)
    · exact Or.inr (containsSub_iff.mpr h3)

theorem Spec.EntryAt.det {σ : Reading} {t l c sep rest n c' sep' rest' n' : Text} {k k' : EntryKind}
    (h : EntryAt σ t l c sep rest n k) (h' : EntryAt σ t l c' sep' rest' n' k') :
    c = c' ∧ sep = sep' ∧ rest = rest' ∧ n = n' ∧ k = k' := by
  obtain ⟨_, _, _, hx, u, hu, he⟩ := h
  obtain ⟨_, _, _, hx', u', hu', he'⟩ := h'
  obtain ⟨rfl, rfl, rfl⟩ := hx.det hx'
  rw [hu.det hu'] at he
  obtain ⟨rfl, rfl⟩ := he.det he'
  exact ⟨rfl, rfl, rfl, rfl, rfl⟩

theorem Spec.EntryValue.det {hdr : Text → Res Text} {k : EntryKind} {v v' : IVal} (h : EntryValue hdr k v)
    (h' : EntryValue hdr k v') : v = v' := by
  have := (kindValue_ok.mpr h).symm.trans (kindValue_ok.mpr h')
  cases this; rfl

theorem Spec.IncludeAttrs.det {store : AttrStore} {a : Option Text} {al al' : Attrlist} (h : IncludeAttrs store a al)
    (h' : IncludeAttrs store a al') : al = al' := by
  cases h with
  | none => cases h'; rfl
  | some h => cases h' with | some h' => rw [h] at h'; cases h'; rfl

theorem setFromBody_eq (s : AttrStore) (a : Attribute) {name : Text} {v : IVal} (h1 : a.name.data = name) (h2 : a.value = v) :
    (s.setFromBody a).1 = (s.setFromBody ⟨Span.new name, none, v, Span.new []⟩).1 := by
  obtain ⟨nm, vs, val, src⟩ := a
  simp only at h1 h2
  subst h1; subst h2
  have key : ∀ x : Attribute, (s.setFromBody x).1 = if s.bodyLocked (AttrStore.remapAttrName x.name.data) = true then s
      else s.put (AttrStore.remapAttrName x.name.data) ⟨.anywhere, x.value⟩ := by
    intro x; unfold AttrStore.setFromBody; exact apply_ite Prod.fst _ _ _
  rw [key, key]
  rfl

/-! ### Lines -/

theorem dropN_line (s : Span) (k : Nat) : (s.dropN k).line = s.line + (s.data.take k).count '\n' := by
  unfold dropN sliceInternal
  by_cases h : s.data.take k = []
  · rw [if_pos h, h]; rfl
  · rw [if_neg h]

theorem Spec.FirstLine.next_line {s : Span} {l sep rest : Text} (h : FirstLine s.data l sep rest) (hr : rest ≠ []) :
    (s.dropN (l.length + sep.length)).line = s.line + 1 := by
  rw [dropN_line]
  have : s.data.take (l.length + sep.length) = l ++ sep := by rw [h.eq, ← List.length_append, List.take_left]
  rw [this, List.count_append, List.count_eq_zero_of_not_mem h.noNl]
  rcases h.term with hs | hs | ⟨hr', _⟩
  · rw [hs]; simp
  · rw [hs]; simp
  · exact absurd hr' hr

theorem Spec.Extent.next_line {s : Span} {c sep rest : Text} (h : Extent s.data c sep rest) (hr : rest ≠ []) :
    (s.dropN (c.length + sep.length)).line = s.line + c.count '\n' + 1 := by
  rw [dropN_line]
  have : s.data.take (c.length + sep.length) = c ++ sep := by rw [h.eq, ← List.length_append, List.take_left]
  rw [this, List.count_append]
  rcases h.tail with hs | ⟨hs, _⟩ | ⟨_, hr'⟩ | ⟨_, hr', _⟩
  · rw [hs]; simp; omega
  · rw [hs]; simp; omega
  · exact absurd hr' hr
  · exact absurd hr' hr

theorem Spec.Extent.dropN_data {s : Span} {c sep rest : Text} (h : Extent s.data c sep rest) :
    (s.dropN (c.length + sep.length)).data = rest := by
  rw [Span.dropN_data, h.eq, ← List.length_append, List.drop_left]

theorem expansion_nil {env : PreEnv} {strict : Bool} {file : Option Text} {started : Bool} {n : Nat} {σ σ' : Reading}
    {outs : List OutLine} (h : Expansion env strict file started n [] σ outs σ') : outs = [] ∧ σ' = σ := by
  cases h with
  | done => exact ⟨rfl, rfl⟩
  | text h => exact absurd rfl h
  | entry h => exact absurd rfl h
  | resolved h => exact absurd rfl h
  | unresolved h => exact absurd rfl h

theorem Spec.Expansion.renumber {env : PreEnv} {strict : Bool} {file : Option Text} {started : Bool} {n m : Nat} {t : Text}
    {σ σ' : Reading} {outs : List OutLine} (h : Expansion env strict file started n t σ outs σ') (hnm : t ≠ [] → n = m) :
    Expansion env strict file started m t σ outs σ' := by
  by_cases ht : t = []
  · subst ht
    obtain ⟨rfl, rfl⟩ := expansion_nil h
    exact .done
  · rw [← hnm ht]; exact h

theorem numberedLines_text (file : Option Text) (n : Nat) (ls : List Text) : (numberedLines file n ls).map OutLine.text = ls := by
  induction ls generalizing n with
  | nil => rfl
  | cons l ls ih => simp [numberedLines, ih]

theorem numberedLines_length (file : Option Text) (n : Nat) (ls : List Text) : (numberedLines file n ls).length = ls.length := by
  rw [← List.length_map (f := OutLine.text), numberedLines_text]

theorem splitChar_join (b : Text) : (splitChar '\n' b).flatMap (· ++ ['\n']) = b ++ ['\n'] := by
  induction b with
  | nil => rfl
  | cons c cs ih =>
    rw [splitChar]
    by_cases hc : c = '\n'
    · rw [if_pos hc, List.flatMap_cons, ih, hc]; rfl
    · rw [if_neg hc]
      cases h : splitChar '\n' cs with
      | nil => exact absurd h (splitChar_ne_nil _ _)
      | cons p ps =>
        rw [h] at ih
        simp only [List.flatMap_cons] at ih ⊢
        simp [ih]

theorem splitChar_length (b : Text) : (splitChar '\n' b).length = b.count '\n' + 1 := by
  induction b with
  | nil => rfl
  | cons c cs ih =>
    rw [splitChar]
    by_cases hc : c = '\n'
    · rw [if_pos hc, hc, List.count_cons_self, List.length_cons, ih]
    · rw [if_neg hc, List.count_cons_of_ne (by simpa using hc)]
      cases h : splitChar '\n' cs with
      | nil => exact absurd h (splitChar_ne_nil _ _)
      | cons p ps => rw [h] at ih; simpa using ih

theorem join_numberedLines (file : Option Text) (n : Nat) (b : Text) :
    OutLine.join (numberedLines file n (splitChar '\n' b)) = b ++ ['\n'] := by
  rw [← splitChar_join]
  unfold OutLine.join
  conv => rhs; rw [← numberedLines_text file n (splitChar '\n' b)]
  rw [List.flatMap_map]

theorem join_append (a b : List OutLine) : OutLine.join (a ++ b) = OutLine.join a ++ OutLine.join b := by
  simp [OutLine.join]

/-! ### Every run is an expansion -/

theorem report_reading (st : PState) (b : Bool) (file : Option Text) (n : Nat) : (st.report b file n).reading = st.reading := by
  unfold PState.report; split <;> rfl

theorem report_output (st : PState) (b : Bool) (file : Option Text) (n : Nat) : (st.report b file n).output = st.output := by
  unfold PState.report; split <;> rfl

theorem report_outLine (st : PState) (b : Bool) (file : Option Text) (n : Nat) :
    (st.report b file n).outputLineNumber = st.outputLineNumber := by
  unfold PState.report; split <;> rfl

theorem copy_reading (st : PState) (l : Text) : (st.copy l).reading = st.reading.line l := by
  unfold PState.copy PState.reading Reading.line
  cases l with
  | nil => simp
  | cons c l => simp

theorem entry_reading (st : PState) (a : Attribute) {name : Text} {v : IVal} (h1 : a.name.data = name) (h2 : a.value = v) :
    (st.entry a).reading = st.reading.entry name v := by
  unfold PState.entry PState.reading Reading.entry
  rw [setFromBody_eq st.store a h1 h2]

theorem unresolved_output (st : PState) (file : Option Text) (l : Text) :
    (st.unresolved file l).output = st.output ++ (unresolvedLine file l ++ ['\n']) := by
  unfold PState.unresolved unresolvedLine
  generalize "Unresolved directive in ".toList = a
  generalize " - ".toList = b
  simp only [List.append_assoc]

theorem join_cons (o : OutLine) (outs : List OutLine) : OutLine.join (o :: outs) = (o.text ++ ['\n']) ++ OutLine.join outs := by
  simp [OutLine.join]

theorem processLines_sound (env : PreEnv) : ∀ (fuel : Nat) (file : Option Text) (rep : Bool) (s : Span) (st st' : PState),
    processLines env fuel file rep s st = .ok st' → ∃ outs, Expansion env false file rep s.line s.data st.reading outs st'.reading ∧
      st'.output = st.output ++ OutLine.join outs ∧ st'.outputLineNumber = st.outputLineNumber + outs.length
  | 0, _, _, _, _, _, h => by cases h
  | fuel + 1, file, rep, s, st, st', h => by
    rw [processLines] at h
    by_cases hs : s.data = []
    · rw [if_pos hs] at h
      cases h
      rw [hs]
      exact ⟨[], .done, by simp [OutLine.join], rfl⟩
    · rw [if_neg hs] at h
      simp only at h
      obtain ⟨l, sep, rest, hl, e⟩ := takeLine_first s
      obtain ⟨d1, d2⟩ := takeLine_data hl.eq e
      have hline : s.takeLine.item.line = s.line := by rw [e]; simp [takeN, sliceInternal]
      rw [d1, hline] at h
      have hafter : s.takeLine.after = s.dropN (l.length + sep.length) := by rw [e]
      rcases entryAt_spec env st s hl with ⟨h1, hno⟩ | ⟨c, csep, crest, name, kind, hea, hcase⟩
      · rw [h1] at h
        simp only at h
        rcases includeAt_spec st hl.noNl with ⟨h2, hni⟩ | ⟨target, attrs, target', al, h2, hil, hexp, hal⟩
        · rw [h2] at h
          simp only at h
          obtain ⟨outs, ih1, ih2, ih3⟩ := processLines_sound env fuel _ _ _ _ _ h
          rw [copy_reading, report_reading, d2] at ih1
          refine ⟨⟨l, ⟨file, s.line⟩⟩ :: outs, .text hs hl hno hni (ih1.renumber fun hr => ?_), ?_, ?_⟩
          · rw [hafter]; exact hl.next_line hr
          · rw [ih2]; simp [PState.copy, report_output, OutLine.join]
          · rw [ih3]; simp [PState.copy, report_outLine]; omega
        · rw [h2] at h
          simp only at h
          cases hr : env.resolve file target' al st.store with
          | none =>
            rw [hr] at h
            simp only at h
            obtain ⟨outs, ih1, ih2, ih3⟩ := processLines_sound env fuel _ _ _ _ _ h
            rw [d2] at ih1
            refine ⟨⟨unresolvedLine file l, ⟨file, s.line⟩⟩ :: outs,
              .unresolved hs hl hno hil hexp hal hr (by simp) (ih1.renumber fun hr => ?_), ?_, ?_⟩
            · rw [hafter]; exact hl.next_line hr
            · rw [ih2, unresolved_output, join_cons, List.append_assoc]
            · rw [ih3]; simp [PState.unresolved]; omega
          | some text =>
            rw [hr] at h
            simp only at h
            cases hp : processLines env fuel (some target') false (Span.new text) st with
            | error e => rw [hp] at h; cases h
            | ok st1 =>
              rw [hp] at h
              simp only at h
              obtain ⟨outs1, ih1, ih2, ih3⟩ := processLines_sound env fuel _ _ _ _ _ hp
              obtain ⟨outs2, ih4, ih5, ih6⟩ := processLines_sound env fuel _ _ _ _ _ h
              rw [d2] at ih4
              refine ⟨outs1 ++ outs2, .resolved hs hl hno hil hexp hal hr ih1 (ih4.renumber fun hr => ?_), ?_, ?_⟩
              · rw [hafter]; exact hl.next_line hr
              · rw [ih5, ih2, join_append, List.append_assoc]
              · rw [ih6, ih3, List.length_append]; omega
      · rcases hcase with ⟨a, v, h1, hv, a1, a2, a3, a4⟩ | ⟨e, h1, _⟩
        · rw [h1] at h
          simp only at h
          obtain ⟨outs, ih1, ih2, ih3⟩ := processLines_sound env fuel _ _ _ _ _ h
          have hx := hea.2.2.2.1
          rw [entry_reading _ _ a1 a2, report_reading, a4, hx.dropN_data] at ih1
          refine ⟨numberedLines file s.line (splitChar '\n' (trimEnd c)) ++ outs,
            .entry hs hl hea hv (stripEnd_iff.mpr rfl) (by simp) (ih1.renumber fun hr => hx.next_line hr), ?_, ?_⟩
          · rw [ih2, join_append, join_numberedLines]; simp [PState.entry, report_output, a3]
          · rw [ih3, List.length_append, numberedLines_length, splitChar_length]
            simp [PState.entry, report_outLine, a3]; omega
        · rw [h1] at h; cases h


/-! ### Fuel -/

theorem processLines_succ (env : PreEnv) : ∀ (fuel : Nat) (file : Option Text) (rep : Bool) (s : Span) (st : PState)
    (r : Res PState), processLines env fuel file rep s st = r → r ≠ .error .fuel → processLines env (fuel + 1) file rep s st = r
  | 0, _, _, _, _, _, h, hr => by rw [processLines] at h; exact absurd h.symm hr
  | fuel + 1, file, rep, s, st, r, h, hr => by
    rw [processLines] at h ⊢
    by_cases hs : s.data = []
    · rw [if_pos hs] at h ⊢; exact h
    · rw [if_neg hs] at h ⊢
      simp only at h ⊢
      cases h1 : entryAt env st s s.takeLine.item.data with
      | error e => rw [h1] at h; exact h
      | ok o =>
        rw [h1] at h
        cases o with
        | some a =>
          simp only at h ⊢
          exact processLines_succ env fuel _ _ _ _ _ h hr
        | none =>
          simp only at h ⊢
          cases h2 : includeAt st s.takeLine.item.data with
          | error e => rw [h2] at h; exact h
          | ok o =>
            rw [h2] at h
            cases o with
            | none => simp only at h ⊢; exact processLines_succ env fuel _ _ _ _ _ h hr
            | some p =>
              obtain ⟨target, al⟩ := p
              simp only at h ⊢
              cases h3 : env.resolve file target al st.store with
              | none => rw [h3] at h; simp only at h ⊢; exact processLines_succ env fuel _ _ _ _ _ h hr
              | some text =>
                rw [h3] at h
                simp only at h ⊢
                cases h4 : processLines env fuel (some target) false (Span.new text) st with
                | error e =>
                  rw [h4] at h
                  simp only at h
                  have : processLines env (fuel + 1) (some target) false (Span.new text) st = .error e :=
                    processLines_succ env fuel _ _ _ _ _ h4 (by rw [h]; exact hr)
                  rw [this]; exact h
                | ok st1 =>
                  rw [h4] at h
                  simp only at h
                  have : processLines env (fuel + 1) (some target) false (Span.new text) st = .ok st1 :=
                    processLines_succ env fuel _ _ _ _ _ h4 (by simp)
                  rw [this]
                  exact processLines_succ env fuel _ _ _ _ _ h hr

theorem processLines_mono (env : PreEnv) {fuel fuel' : Nat} (hle : fuel ≤ fuel') {file : Option Text} {rep : Bool} {s : Span}
    {st : PState} {r : Res PState} (h : processLines env fuel file rep s st = r) (hr : r ≠ .error .fuel) :
    processLines env fuel' file rep s st = r := by
  induction hle with
  | refl => exact h
  | step _ ih => exact processLines_succ env _ _ _ _ _ _ ih hr

/-! ### The source map of a run -/

/-- The entries are in order and all of them are about lines already written. -/
def PState.Inv (st : PState) : Prop :=
  Increasing st.sourceMap ∧ ∀ e ∈ st.sourceMap, e.1 < st.outputLineNumber

theorem report_inv {st : PState} (h : st.Inv) (rep : Bool) (file : Option Text) (n : Nat) :
    Increasing (st.report rep file n).sourceMap ∧
    (∀ e ∈ (st.report rep file n).sourceMap, e.1 ≤ st.outputLineNumber) ∧
    ∃ ext, (st.report rep file n).sourceMap = st.sourceMap ++ ext ∧ ∀ e ∈ ext, st.outputLineNumber ≤ e.1 := by
  unfold PState.report
  cases rep with
  | true =>
    exact ⟨h.1, fun e he => Nat.le_of_lt (h.2 e he), [], by simp, by simp⟩
  | false =>
    simp only [Bool.false_eq_true, if_false, SourceMap.append]
    refine ⟨?_, ?_, _, rfl, by simp⟩
    · refine List.pairwise_append.mpr ⟨h.1, by simp, ?_⟩
      intro a ha b hb
      simp at hb; subst hb
      exact h.2 a ha
    · intro e he
      rcases List.mem_append.mp he with he | he
      · exact Nat.le_of_lt (h.2 e he)
      · simp at he; subst he; exact Nat.le_refl _

theorem report_copy_inv {st : PState} (h : st.Inv) (rep : Bool) (file : Option Text) (n : Nat) (l : Text) :
    ((st.report rep file n).copy l).Inv ∧
    ∃ ext, ((st.report rep file n).copy l).sourceMap = st.sourceMap ++ ext ∧ ∀ e ∈ ext, st.outputLineNumber ≤ e.1 := by
  obtain ⟨h1, h2, h3⟩ := report_inv h rep file n
  refine ⟨⟨h1, fun e he => ?_⟩, h3⟩
  have := h2 e he
  show e.1 < (st.report rep file n).outputLineNumber + 1
  rw [report_outLine]; omega

theorem report_entry_inv {st : PState} (h : st.Inv) (rep : Bool) (file : Option Text) (n : Nat) (a : Attribute) :
    ((st.report rep file n).entry a).Inv ∧
    ∃ ext, ((st.report rep file n).entry a).sourceMap = st.sourceMap ++ ext ∧ ∀ e ∈ ext, st.outputLineNumber ≤ e.1 := by
  obtain ⟨h1, h2, h3⟩ := report_inv h rep file n
  refine ⟨⟨h1, fun e he => ?_⟩, h3⟩
  have := h2 e he
  show e.1 < (st.report rep file n).outputLineNumber + _
  rw [report_outLine]; omega

theorem unresolved_inv {st : PState} (h : st.Inv) (file : Option Text) (l : Text) : (st.unresolved file l).Inv :=
  ⟨h.1, fun e he => by have := h.2 e he; show e.1 < st.outputLineNumber + 1; omega⟩

theorem run_inv (env : PreEnv) : ∀ (fuel : Nat) (file : Option Text) (rep : Bool) (s : Span) (st st' : PState),
    processLines env fuel file rep s st = .ok st' → st.Inv → st'.Inv ∧ st.outputLineNumber ≤ st'.outputLineNumber ∧
      ∃ ext, st'.sourceMap = st.sourceMap ++ ext ∧ ∀ e ∈ ext, st.outputLineNumber ≤ e.1
  | 0, _, _, _, _, _, h, _ => by cases h
  | fuel + 1, file, rep, s, st, st', h, hi => by
    have hle : st.outputLineNumber ≤ st'.outputLineNumber := by
      obtain ⟨outs, _, _, h3⟩ := processLines_sound env _ _ _ _ _ _ h
      omega
    refine (fun x : st'.Inv ∧ _ => ⟨x.1, hle, x.2⟩) ?_
    rw [processLines] at h
    have chain : ∀ st1 : PState, st1.Inv → st.outputLineNumber ≤ st1.outputLineNumber →
        (∃ ext, st1.sourceMap = st.sourceMap ++ ext ∧ ∀ e ∈ ext, st.outputLineNumber ≤ e.1) →
        (∃ f b z, processLines env fuel f b z st1 = .ok st') →
        st'.Inv ∧ ∃ ext, st'.sourceMap = st.sourceMap ++ ext ∧ ∀ e ∈ ext, st.outputLineNumber ≤ e.1 := by
      rintro st1 i1 i2 ⟨ext, i3, i4⟩ ⟨f, b, z, i5⟩
      obtain ⟨j1, _, ext', j3, j4⟩ := run_inv env fuel f b z st1 st' i5 i1
      refine ⟨j1, ext ++ ext', by rw [j3, i3, List.append_assoc], fun e he => ?_⟩
      rcases List.mem_append.mp he with he | he
      · exact i4 e he
      · have := j4 e he; omega
    by_cases hs : s.data = []
    · rw [if_pos hs] at h; cases h; exact ⟨hi, [], by simp, by simp⟩
    · rw [if_neg hs] at h
      simp only at h
      cases h1 : entryAt env st s s.takeLine.item.data with
      | error e => rw [h1] at h; cases h
      | ok o =>
        rw [h1] at h
        cases o with
        | some a =>
          simp only at h
          obtain ⟨i1, i2⟩ := report_entry_inv hi rep file s.takeLine.item.line a.item
          exact chain _ i1 (by simp [PState.entry, report_outLine]) i2 ⟨_, _, _, h⟩
        | none =>
          simp only at h
          cases h2 : includeAt st s.takeLine.item.data with
          | error e => rw [h2] at h; cases h
          | ok o =>
            rw [h2] at h
            cases o with
            | none =>
              simp only at h
              obtain ⟨i1, i2⟩ := report_copy_inv hi rep file s.takeLine.item.line s.takeLine.item.data
              exact chain _ i1 (by simp [PState.copy, report_outLine]) i2 ⟨_, _, _, h⟩
            | some p =>
              obtain ⟨target, al⟩ := p
              simp only at h
              cases h3 : env.resolve file target al st.store with
              | none =>
                rw [h3] at h
                simp only at h
                exact chain _ (unresolved_inv hi file _) (by simp [PState.unresolved]) ⟨[], by simp [PState.unresolved], by simp⟩
                  ⟨_, _, _, h⟩
              | some text =>
                rw [h3] at h
                simp only at h
                cases h4 : processLines env fuel (some target) false (Span.new text) st with
                | error e => rw [h4] at h; cases h
                | ok st1 =>
                  rw [h4] at h
                  simp only at h
                  obtain ⟨i1, i2, i3⟩ := run_inv env fuel _ _ _ _ _ h4 hi
                  exact chain st1 i1 i2 i3 ⟨_, _, _, h⟩

/-! ### Every expansion is a run -/

theorem floor_append {m ext : SourceMap} {k : Nat} {r : SourceLine} (h : Floor m k r) (he : ∀ e ∈ ext, k < e.1) :
    Floor (m ++ ext) k r := by
  rcases h with ⟨k', l, h1, h2, h3, rfl⟩ | ⟨h1, rfl⟩
  · refine Or.inl ⟨k', l, List.mem_append_left _ h1, h2, ?_, rfl⟩
    intro e hm hk
    rcases List.mem_append.mp hm with hm | hm
    · exact h3 e hm hk
    · have := he e hm; omega
  · refine Or.inr ⟨?_, rfl⟩
    intro e hm
    rcases List.mem_append.mp hm with hm | hm
    · exact h1 e hm
    · exact he e hm

theorem floor_shift {m : SourceMap} {k j : Nat} {f : Option Text} {n : Nat} (h : Floor m k ⟨f, n⟩) (hk : ∀ e ∈ m, e.1 ≤ k) :
    Floor m (k + j) ⟨f, n + j⟩ := by
  rcases h with ⟨k', l, h1, h2, h3, h4⟩ | ⟨h1, h4⟩
  · simp only [SourceLine.mk.injEq] at h4
    refine Or.inl ⟨k', l, h1, by omega, fun e he _ => h3 e he (hk e he), ?_⟩
    simp only [SourceLine.mk.injEq]
    exact ⟨h4.1, by omega⟩
  · simp only [SourceLine.mk.injEq] at h4
    refine Or.inr ⟨?_, ?_⟩
    · intro e he
      have := h1 e he
      have := hk e he
      omega
    · simp only [SourceLine.mk.injEq]; exact ⟨h4.1, by omega⟩

/-- What the map says about the line being written. -/
theorem report_floor {st : PState} (h : st.Inv) {rep : Bool} {file : Option Text} {n : Nat}
    (hr : rep = true → Floor st.sourceMap st.outputLineNumber ⟨file, n⟩) :
    Floor (st.report rep file n).sourceMap st.outputLineNumber ⟨file, n⟩ := by
  unfold PState.report
  cases rep with
  | true => exact hr rfl
  | false =>
    simp only [Bool.false_eq_true, if_false, SourceMap.append]
    refine Or.inl ⟨st.outputLineNumber, ⟨file, n⟩, by simp, Nat.le_refl _, ?_, by simp⟩
    intro e _ he; exact he

theorem numberedLines_get {file : Option Text} : ∀ {ls : List Text} {n i : Nat} {o : OutLine}, (numberedLines file n ls)[i]? = some o →
    o.origin = ⟨file, n + i⟩
  | [], n, i, o, h => by simp [numberedLines] at h
  | l :: ls, n, 0, o, h => by
    rw [numberedLines] at h; simp at h; rw [← h]; rfl
  | l :: ls, n, i + 1, o, h => by
    rw [numberedLines] at h
    simp only [List.getElem?_cons_succ] at h
    rw [numberedLines_get h]
    congr 1; omega

theorem processLines_complete {env : PreEnv} {strict : Bool} {file : Option Text} {started : Bool} {n : Nat} {t : Text}
    {σ σ' : Reading} {outs : List OutLine} (h : Expansion env strict file started n t σ outs σ') :
    ∀ (s : Span) (st : PState), s.data = t → (t ≠ [] → s.line = n) → st.reading = σ →
      ∃ fuel st', processLines env fuel file started s st = .ok st' ∧ st'.reading = σ' ∧
        st'.outputLineNumber = st.outputLineNumber + outs.length ∧
        (strict = true → st.Inv → (started = true → t ≠ [] → Floor st.sourceMap st.outputLineNumber ⟨file, n⟩) →
          ∀ i o, outs[i]? = some o → Floor st'.sourceMap (st.outputLineNumber + i) o.origin) := by
  induction h with
  | done =>
    intro s st hs _ hσ
    exact ⟨1, st, by rw [processLines, if_pos hs], hσ, rfl, by intro _ _ _ i o h; simp at h⟩
  | @text file started n t l sep rest σ outs σ' ht hl hno hni _ ih =>
    intro s st hs hn hσ
    subst hs; subst hσ
    have e := hl.takeLine_eq
    obtain ⟨d1, d2⟩ := takeLine_data hl.eq e
    have hline : s.takeLine.item.line = n := by rw [e, ← hn ht]; simp [takeN, sliceInternal]
    have hafter : s.takeLine.after = s.dropN (l.length + sep.length) := by rw [e]
    obtain ⟨fuel, st', h1, h2, h3, h4⟩ := ih s.takeLine.after ((st.report started file n).copy l) d2
      (fun hr => by rw [hafter, hl.next_line hr, hn ht]) (by rw [copy_reading, report_reading])
    have ho : ((st.report started file n).copy l).outputLineNumber = st.outputLineNumber + 1 := by
      show (st.report started file n).outputLineNumber + 1 = _; rw [report_outLine]
    refine ⟨fuel + 1, st', ?_, h2, ?_, ?_⟩
    · rw [processLines, if_neg ht]
      simp only [d1, hline]
      rcases entryAt_spec env st s hl with ⟨e1, _⟩ | ⟨c, csep, crest, name, kind, hea, _⟩
      · rw [e1]
        simp only
        rcases includeAt_spec st hl.noNl with ⟨e2, _⟩ | ⟨target, attrs, target', al, _, hil, _⟩
        · rw [e2]; exact h1
        · exact absurd hil (hni _ _)
      · exact absurd hea (hno _ _ _ _ _)
    · rw [h3, ho, List.length_cons]; omega
    · intro hstr hinv hfl i o hio
      obtain ⟨i1, _⟩ := report_copy_inv hinv started file n l
      obtain ⟨_, i2, _⟩ := report_inv hinv started file n
      have hf := report_floor hinv (file := file) (n := n) (fun hst => hfl hst ht)
      have hf1 : Floor ((st.report started file n).copy l).sourceMap (st.outputLineNumber + 1) ⟨file, n + 1⟩ :=
        floor_shift hf i2
      cases i with
      | zero =>
        simp only [List.getElem?_cons_zero, Option.some.injEq] at hio
        subst hio
        obtain ⟨_, _, ext, j1, j2⟩ := run_inv env _ _ _ _ _ _ h1 i1
        rw [j1]
        refine floor_append hf (fun e he => ?_)
        have := j2 e he; rw [ho] at this; simp; omega
      | succ i =>
        simp only [List.getElem?_cons_succ] at hio
        have := h4 hstr i1 (fun _ _ => by rw [ho]; exact hf1) i o hio
        rw [ho] at this
        rw [show st.outputLineNumber + (i + 1) = st.outputLineNumber + 1 + i by omega]; exact this
  | @entry file started n t l lsep lrest c sep rest name kind v b σ outs σ' ht hl hea hv hb hstrict _ ih =>
    intro s st hs hn hσ
    subst hs; subst hσ
    have e := hl.takeLine_eq
    obtain ⟨d1, d2⟩ := takeLine_data hl.eq e
    have hline : s.takeLine.item.line = n := by rw [e, ← hn ht]; simp [takeN, sliceInternal]
    rcases entryAt_spec env st s hl with ⟨_, hno⟩ | ⟨c', csep, crest, name', kind', hea', hcase⟩
    · exact absurd hea (hno _ _ _ _ _)
    · obtain ⟨rfl, rfl, rfl, rfl, rfl⟩ := hea.det hea'
      rcases hcase with ⟨a, v', e1, hv', a1, a2, a3, a4⟩ | ⟨_, _, hbad⟩
      · have := hv.det hv'
        subst this
        have hx := hea.2.2.2.1
        have hbt := stripEnd_iff.mp hb
        obtain ⟨fuel, st', h1, h2, h3, h4⟩ := ih a.after ((st.report started file n).entry a.item)
          (by rw [a4, hx.dropN_data]) (fun hr => by rw [a4, hx.next_line hr, hn ht])
          (by rw [entry_reading _ _ a1 a2, report_reading])
        have ho : ((st.report started file n).entry a.item).outputLineNumber = st.outputLineNumber + (b.count '\n' + 1) := by
          show (st.report started file n).outputLineNumber + _ = _; rw [report_outLine, a3, hbt]
        refine ⟨fuel + 1, st', ?_, h2, ?_, ?_⟩
        · rw [processLines, if_neg ht]
          simp only [d1, hline, e1]
          exact h1
        · rw [h3, ho, List.length_append, numberedLines_length, splitChar_length]; omega
        · intro hstr hinv hfl i o hio
          obtain ⟨i1, _⟩ := report_entry_inv hinv started file n a.item
          obtain ⟨_, i2, _⟩ := report_inv hinv started file n
          have hf := report_floor hinv (file := file) (n := n) (fun hst => hfl hst ht)
          have hfj : ∀ j, Floor ((st.report started file n).entry a.item).sourceMap (st.outputLineNumber + j) ⟨file, n + j⟩ :=
            fun j => floor_shift hf i2
          have hlen : (numberedLines file n (splitChar '\n' b)).length = b.count '\n' + 1 := by
            rw [numberedLines_length, splitChar_length]
          by_cases hi : i < b.count '\n' + 1
          · rw [List.getElem?_append_left (by omega)] at hio
            rw [numberedLines_get hio]
            obtain ⟨_, _, ext, j1, j2⟩ := run_inv env _ _ _ _ _ _ h1 i1
            rw [j1]
            refine floor_append (hfj i) (fun e he => ?_)
            have := j2 e he; rw [ho] at this; omega
          · rw [List.getElem?_append_right (by omega), hlen] at hio
            have := h4 hstr i1 (fun _ hr => by
              rw [ho, ← hstrict hstr hr, Nat.add_assoc]; exact hfj _) _ o hio
            rw [ho] at this
            rw [show st.outputLineNumber + i = st.outputLineNumber + (b.count '\n' + 1) + (i - (b.count '\n' + 1)) by omega]
            exact this
      · exact absurd hv (hbad v)
  | @resolved file started n t l sep rest target attrs target' al text σ outs₁ σ₁ outs₂ σ₂ ht hl hno hil hexp hal hr _ _ ih1 ih2 =>
    intro s st hs hn hσ
    subst hs; subst hσ
    have e := hl.takeLine_eq
    obtain ⟨d1, d2⟩ := takeLine_data hl.eq e
    have hafter : s.takeLine.after = s.dropN (l.length + sep.length) := by rw [e]
    obtain ⟨f1, st1, g1, g2, g3, g4⟩ := ih1 (Span.new text) st rfl (fun _ => rfl) rfl
    obtain ⟨f2, st2, k1, k2, k3, k4⟩ := ih2 s.takeLine.after st1 d2
      (fun hr => by rw [hafter, hl.next_line hr, hn ht]) g2
    refine ⟨max f1 f2 + 1, st2, ?_, k2, ?_, ?_⟩
    · rw [processLines, if_neg ht]
      simp only [d1]
      rcases entryAt_spec env st s hl with ⟨e1, _⟩ | ⟨c, csep, crest, name, kind, hea, _⟩
      · rw [e1]
        simp only
        rcases includeAt_spec st hl.noNl with ⟨_, hni⟩ | ⟨tg, at', tg', al', e2, hil', hexp', hal'⟩
        · exact absurd hil (hni _ _)
        · obtain ⟨rfl, rfl⟩ := hil.det hil'
          have e3 := Expands.det hexp hexp'
          have e4 := hal.det hal'
          subst e3; subst e4
          have hr : env.resolve file target' al st.store = some text := hr
          rw [e2]
          simp only [hr]
          rw [processLines_mono env (Nat.le_max_left f1 f2) g1 (by simp)]
          exact processLines_mono env (Nat.le_max_right f1 f2) k1 (by simp)
      · exact absurd hea (hno _ _ _ _ _)
    · rw [k3, g3, List.length_append]; omega
    · intro hstr hinv hfl i o hio
      obtain ⟨i1, i2, _⟩ := run_inv env _ _ _ _ _ _ g1 hinv
      obtain ⟨_, _, ext, j1, j2⟩ := run_inv env _ _ _ _ _ _ k1 i1
      by_cases hi : i < outs₁.length
      · rw [List.getElem?_append_left hi] at hio
        have := g4 hstr hinv (fun hf => by cases hf) i o hio
        rw [j1]
        refine floor_append this (fun e he => ?_)
        have := j2 e he; omega
      · rw [List.getElem?_append_right (by omega)] at hio
        have := k4 hstr i1 (fun hf => by cases hf) _ o hio
        rw [g3] at this
        rw [show st.outputLineNumber + i = st.outputLineNumber + outs₁.length + (i - outs₁.length) by omega]
        exact this
  | @unresolved file started n t l sep rest target attrs target' al σ outs σ' ht hl hno hil hexp hal hr hstrict _ ih =>
    intro s st hs hn hσ
    subst hs; subst hσ
    have e := hl.takeLine_eq
    obtain ⟨d1, d2⟩ := takeLine_data hl.eq e
    have hafter : s.takeLine.after = s.dropN (l.length + sep.length) := by rw [e]
    obtain ⟨fuel, st', h1, h2, h3, h4⟩ := ih s.takeLine.after (st.unresolved file l) d2
      (fun hr => by rw [hafter, hl.next_line hr, hn ht]) rfl
    have ho : (st.unresolved file l).outputLineNumber = st.outputLineNumber + 1 := rfl
    refine ⟨fuel + 1, st', ?_, h2, ?_, ?_⟩
    · rw [processLines, if_neg ht]
      simp only [d1]
      rcases entryAt_spec env st s hl with ⟨e1, _⟩ | ⟨c, csep, crest, name, kind, hea, _⟩
      · rw [e1]
        simp only
        rcases includeAt_spec st hl.noNl with ⟨_, hni⟩ | ⟨tg, at', tg', al', e2, hil', hexp', hal'⟩
        · exact absurd hil (hni _ _)
        · obtain ⟨rfl, rfl⟩ := hil.det hil'
          have e3 := Expands.det hexp hexp'
          have e4 := hal.det hal'
          subst e3; subst e4
          have hr : env.resolve file target' al st.store = none := hr
          rw [e2]
          simp only [hr]
          exact h1
      · exact absurd hea (hno _ _ _ _ _)
    · rw [h3, ho, List.length_cons]; omega
    · intro hstr hinv hfl i o hio
      have i1 := unresolved_inv hinv file l
      have hf : Floor st.sourceMap st.outputLineNumber ⟨file, n⟩ := hfl (hstrict hstr).1 ht
      have hf1 : Floor (st.unresolved file l).sourceMap (st.outputLineNumber + 1) ⟨file, n + 1⟩ :=
        floor_shift hf (fun e he => Nat.le_of_lt (hinv.2 e he))
      cases i with
      | zero =>
        simp only [List.getElem?_cons_zero, Option.some.injEq] at hio
        subst hio
        obtain ⟨_, _, ext, j1, j2⟩ := run_inv env _ _ _ _ _ _ h1 i1
        rw [j1]
        refine floor_append hf (fun e he => ?_)
        have := j2 e he; rw [ho] at this; simp; omega
      | succ i =>
        simp only [List.getElem?_cons_succ] at hio
        have := h4 hstr i1 (fun _ _ => by rw [ho]; exact hf1) i o hio
        rw [ho] at this
        rw [show st.outputLineNumber + (i + 1) = st.outputLineNumber + 1 + i by omega]; exact this

end Adoc
