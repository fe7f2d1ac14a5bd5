import Verif.Lemmas.AuthorLine
import Verif.Props.Path
/-!
# C40, C41: authors and revision lines
-/

set_option linter.unusedSectionVars false
namespace Adoc.Props
open Adoc Adoc.Spec Re

variable [Uni]

/-! ### C40 -/

/-- The initials are the first characters of the first, middle and last name: at most three characters. -/
theorem C40_initials (a : Author) : a.initials.length ≤ 3 ∧
    ∃ i j k : Text, a.initials = i ++ j ++ k ∧
      (i.head? = a.firstname.head? ∧ i.length ≤ 1) ∧
      (j.head? = a.middlename.bind List.head? ∧ j.length ≤ 1) ∧
      (k.head? = a.lastname.bind List.head? ∧ k.length ≤ 1) := by
  have h : ∀ t : Text, (t.take 1).head? = t.head? ∧ (t.take 1).length ≤ 1 := by
    intro t; cases t <;> simp
  have ho : ∀ o : Option Text, ((o.getD []).take 1).head? = o.bind List.head? ∧ ((o.getD []).take 1).length ≤ 1 := by
    intro o
    cases o with
    | none => simp
    | some t => exact h t
  refine ⟨?_, _, _, _, rfl, h _, ho _, ho _⟩
  have h1 := (h a.firstname).2
  have h2 := (ho a.middlename).2
  have h3 := (ho a.lastname).2
  unfold Author.initials
  simp only [List.length_append]
  omega

/-- Reading an author never fails. -/
theorem C40_total (r : Renderer) (store : AttrStore) (t : Text) : ∃ o, Author.parse r store t = .ok o :=
  author_total r store t

private theorem map_ok {α β : Type} {f : α → β} {x : Res α} {b : β} (h : x.map f = .ok b) : ∃ a, x = .ok a ∧ f a = b := by
  cases x with
  | error e => cases h
  | ok a => cases h; exact ⟨a, rfl, rfl⟩

/-- A middle name is only present together with a last name. -/
theorem C40_middle_needs_last {r : Renderer} {store : AttrStore} {t : Text} {a : Author}
    (h : Author.parse r store t = .ok (some a)) : a.middlename ≠ none → a.lastname ≠ none := by
  have key : a.middlename.isSome = true → a.lastname.isSome = true := by
    unfold Author.parse at h
    simp only at h
    split at h
    · cases h
    · split at h
      · obtain ⟨x, _, e⟩ := map_ok h
        simp only [Option.some.injEq] at e
        subst e
        intro h; cases h
      · split at h
        · obtain ⟨x, e1, e⟩ := map_ok h
          simp only [Option.some.injEq] at e
          subst e
          exact ofCaptures_middle e1
        · split at h
          · obtain ⟨x, hx⟩ := subs_total r store (trim t)
            rw [hx] at h
            simp only [bind, Except.bind] at h
            split at h
            · obtain ⟨x, e1, e⟩ := map_ok h
              simp only [Option.some.injEq] at e
              subst e
              exact ofCaptures_middle e1
            · obtain ⟨x, _, e⟩ := map_ok h
              simp only [Option.some.injEq] at e
              subst e
              intro h; cases h
          · obtain ⟨x, _, e⟩ := map_ok h
            simp only [Option.some.injEq] at e
            subst e
            intro h; cases h
  cases hm : a.middlename with
  | none => intro h; exact absurd rfl h
  | some x =>
    intro _ hl
    rw [hm, hl] at key
    exact absurd (key rfl) (by simp)

private theorem not_single {t n f : Text} {m l e : Option Text} [LawfulUni] (h : AuthorForm t n f m l e) :
    t ≠ [] ∧ isSingleAttribute t = false := by
  obtain ⟨q, rfl, hn, _⟩ := h.parts
  obtain ⟨h1, h2, h3, h4, h5⟩ := hn.ends
  refine ⟨by simp [h1], ?_⟩
  unfold isSingleAttribute
  cases hs : startsWith (trim (n ++ q)) ['{'] with
  | false => rfl
  | true =>
    exfalso
    obtain ⟨r, hr⟩ := startsWith_iff.mp hs
    obtain ⟨a, b, e, ha, _⟩ := trim_trimmed (n ++ q)
    rw [hr] at e
    have hd : ∃ c cs, n = c :: cs ∧ isWhite c = false ∧ c ≠ '{' := by
      cases n with
      | nil => exact absurd rfl h1
      | cons c cs => exact ⟨c, cs, rfl, h2 c rfl, fun e => h5 (by simp [e])⟩
    obtain ⟨c, cs, rfl, hw, hne⟩ := hd
    cases a with
    | nil => simp at e; exact hne e.1
    | cons x xs =>
      simp only [List.cons_append, List.cons.injEq] at e
      rw [← e.1] at ha
      have := ha c (by simp)
      rw [hw] at this; cases this

/-- An author of the usual form (`First [Middle] Last <email>`) is split into its parts: underscores stand for spaces in
the names, and a reference in the address is replaced. -/
theorem C40_parts [LawfulUni] (r : Renderer) (store : AttrStore) {t u n f : Text} {m l e : Option Text}
    (ht : Trimmed t u) (h : AuthorForm u n f m l e) (he : ∀ x, e = some x → x.count '{' ≤ 1) :
    ∃ e', Author.parse r store t = .ok (some ⟨spaced n, spaced f, m.map spaced, l.map spaced, e'⟩) ∧
      e'.isSome = e.isSome ∧
      ∀ x x', e = some x → e' = some x' → Expands (fun a => store.hasAttribute a = true) (attrText store) x x' := by
  obtain ⟨h1, h2⟩ := not_single h
  obtain ⟨e', he', hs, hx⟩ : ∃ e' : Option Text, e.mapM (applyAuthorSubs r store) = .ok e' ∧ e'.isSome = e.isSome ∧
      ∀ x x', e = some x → e' = some x' → Expands (fun a => store.hasAttribute a = true) (attrText store) x x' := by
    cases e with
    | none => exact ⟨none, rfl, rfl, by simp⟩
    | some x =>
      obtain ⟨y, hy⟩ := applyAttributes_total store x
      refine ⟨some y, ?_, rfl, ?_⟩
      · simp only [Option.mapM, subs_one r store (he x rfl), hy, Functor.map, Except.map]
      · intro a b h1 h2
        cases h1; cases h2
        exact applyAttributes_expands hy
  refine ⟨e', ?_, hs, hx⟩
  unfold Author.parse
  rw [ht.trim_eq]
  simp only
  rw [if_neg h1, if_neg (by simp [h2])]
  rcases captures_author (t := u) with ⟨mt, n', f', g2, g3, e0, m', l', c1, c2, c3, c4, c5, c6, c7⟩ | ⟨_, c2⟩
  · obtain ⟨rfl, rfl, rfl, rfl, rfl⟩ := h.det c2
    rw [c1]
    simp only
    rw [ofCaptures_eq c2 c3 c4 c5 c6 c7 (fun x hx => subs_none r store hx) he']
    rfl
  · exact absurd h (c2 _ _ _ _ _)

/-- Anything else is kept as one name; if it contains both angle brackets, it is escaped. -/
theorem C40_other (r : Renderer) (store : AttrStore) {t u : Text} (ht : Trimmed t u) (hu : u ≠ [])
    (hb : '{' ∉ u) (h : ∀ n f m l e, ¬ AuthorForm u n f m l e) :
    ∃ x, Author.parse r store t = .ok (some ⟨spaced x, spaced x, none, none, none⟩) ∧
      (¬ ('<' ∈ u ∧ '>' ∈ u) → x = u) ∧
      (('<' ∈ u ∧ '>' ∈ u) → x = u.flatMap fun c =>
        if c = '<' then r.special .lt else if c = '>' then r.special .gt
        else if c = '&' then r.special .ampersand else [c]) := by
  unfold Author.parse
  rw [ht.trim_eq]
  simp only
  have hs : isSingleAttribute u = false := by
    unfold isSingleAttribute countChar
    rw [List.count_eq_zero.mpr hb]
    simp
  rw [if_neg hu, if_neg (by simp [hs])]
  have ef : (fun x : Text => some (Author.single x)) = fun x => some ⟨spaced x, spaced x, none, none, none⟩ := by
    funext x; unfold Author.single; rw [underscores_eq]
  rcases captures_author (t := u) with ⟨mt, n', f', g2, g3, e0, m', l', c1, c2, _⟩ | ⟨c1, _⟩
  · exact absurd c2 (h _ _ _ _ _)
  · rw [c1]
    simp only
    rw [if_neg (by simpa using hb), ef]
    unfold encodeName
    by_cases ha : '<' ∈ u ∧ '>' ∈ u
    · rw [if_pos (by simpa using ha), applySpecialCharacters_eq]
      exact ⟨_, rfl, fun h => absurd ha h, fun _ => rfl⟩
    · rw [if_neg (by simpa using ha)]
      exact ⟨u, rfl, fun _ => rfl, fun h => absurd h ha⟩

/-- A single reference stands for the whole name: its value is not split. -/
theorem C40_reference (r : Renderer) (store : AttrStore) {t name : Text} (ht : Trimmed t ('{' :: name ++ ['}']))
    (hn : RefName name) :
    ∃ x, Expands (fun a => store.hasAttribute a = true) (attrText store) ('{' :: name ++ ['}']) x ∧
      Author.parse r store t = .ok (some ⟨spaced x, spaced x, none, none, none⟩) := by
  have hnb : '{' ∉ name := by
    obtain ⟨c, cs, rfl, h1, h2⟩ := hn
    intro hm
    rcases List.mem_cons.mp hm with rfl | hm
    · rcases h1 with h1 | h1 <;> revert h1 <;> decide
    · rcases h2 _ hm with h1 | h1 | h1 <;> revert h1 <;> decide
  have hcount : ('{' :: name ++ ['}']).count '{' = 1 := by
    rw [List.cons_append, List.count_cons, List.count_append, List.count_eq_zero.mpr hnb]
    rfl
  have htt : trim ('{' :: name ++ ['}']) = '{' :: name ++ ['}'] := by
    apply Trimmed.trim_eq
    refine ⟨[], [], by simp, by simp, by simp, ?_, ?_⟩
    · intro c hc; simp at hc; subst hc; decide
    · intro c hc
      rw [List.getLast?_append] at hc
      simp at hc; subst hc; decide
  obtain ⟨x, hx⟩ := applyAttributes_total store ('{' :: name ++ ['}'])
  refine ⟨x, applyAttributes_expands hx, ?_⟩
  unfold Author.parse
  rw [ht.trim_eq]
  simp only
  rw [if_neg (by simp), if_pos, subs_one r store (by omega), hx]
  · simp only [Except.map, Author.single, underscores_eq]
  · unfold isSingleAttribute countChar
    rw [htt, hcount]
    simp only [Bool.and_eq_true, beq_self_eq_true, and_true]
    exact ⟨startsWith_iff.mpr ⟨_, rfl⟩, endsWith_iff.mpr ⟨'{' :: name, rfl⟩⟩

/-- A text with one reference among other things is read after replacing the reference. -/
theorem C40_reference_inside [LawfulUni] (r : Renderer) (store : AttrStore) {t u x n f : Text} {m l e : Option Text}
    (ht : Trimmed t u) (hc : u.count '{' = 1) (hs : ¬ ∃ y, u = '{' :: y ++ ['}'])
    (hu : ∀ n f m l e, ¬ AuthorForm u n f m l e)
    (hx : Expands (fun a => store.hasAttribute a = true) (attrText store) u x) (h : AuthorForm x n f m l e) :
    Author.parse r store t = .ok (some ⟨spaced n, spaced f, m.map spaced, l.map spaced, e⟩) := by
  have hm : '{' ∈ u := by
    rw [← List.count_pos_iff]; omega
  have hne : u ≠ [] := by rintro rfl; cases hm
  have htu : trim u = u := by
    have := trim_trimmed t
    rw [ht.trim_eq] at this
    obtain ⟨_, _, _, _, _, h1, h2⟩ := this
    exact trimmed_iff.mp ⟨[], [], by simp, by simp, by simp, h1, h2⟩
  have hsingle : isSingleAttribute u = false := by
    cases hh : isSingleAttribute u with
    | false => rfl
    | true =>
      exfalso
      unfold isSingleAttribute at hh
      rw [htu] at hh
      simp only [Bool.and_eq_true] at hh
      obtain ⟨y, hy⟩ := startsWith_iff.mp hh.1.1
      obtain ⟨z, hz⟩ := endsWith_iff.mp hh.1.2
      have : u = '{' :: y := hy
      cases z with
      | nil => rw [hz] at this; simp at this
      | cons w ws =>
        rw [hz] at this
        simp only [List.cons_append, List.cons.injEq] at this
        exact hs ⟨ws, by rw [hz, this.1]⟩
  obtain ⟨x', hx'⟩ := applyAttributes_total store u
  have : x' = x := Expands.det (applyAttributes_expands hx') hx
  subst this
  unfold Author.parse
  rw [ht.trim_eq]
  simp only
  rw [if_neg hne, if_neg (by simp [hsingle])]
  rcases captures_author (t := u) with ⟨mt, n', f', g2, g3, e0, m', l', c1, c2, _⟩ | ⟨c1, _⟩
  · exact absurd c2 (hu _ _ _ _ _)
  · rw [c1]
    simp only
    rw [if_pos (by simpa using hm), subs_one r store (by omega), hx']
    simp only [bind, Except.bind]
    rcases captures_author (t := x') with ⟨mt, n', f', g2, g3, e0, m', l', c1, c2, c3, c4, c5, c6, c7⟩ | ⟨_, c2⟩
    · obtain ⟨rfl, rfl, rfl, rfl, rfl⟩ := h.det c2
      rw [c1]
      simp only
      rw [ofCaptures_eq (e' := e) c2 c3 c4 c5 c6 c7 (fun _ _ => rfl) (by cases e <;> rfl)]
      rfl
    · exact absurd h (c2 _ _ _ _ _)

/-- The form is unambiguous: a text is an author in one way only. -/
theorem C40_unique [LawfulUni] {t n n' f f' : Text} {m m' l l' e e' : Option Text} (h : AuthorForm t n f m l e)
    (h' : AuthorForm t n' f' m' l' e') : n = n' ∧ f = f' ∧ m = m' ∧ l = l' ∧ e = e' := h.det h'

/-- An author line is split at every `"; "`; every piece is read as an author, and the blank ones are dropped. -/
theorem C40_line (r : Renderer) (store : AttrStore) (source : Span) :
    ∃ (line : AuthorLine) (store' : AttrStore) (pieces : List Text) (results : List (Option Author)),
      AuthorLine.parse r store source = .ok (line, store') ∧ line.source = source ∧
      joinWith [';', ' '] pieces = source.data ∧ (∀ p ∈ pieces, ¬ ∃ a b, p = a ++ [';', ' '] ++ b) ∧
      pieces.map (Author.parse r store) = results.map .ok ∧ line.authors = results.filterMap id := by
  obtain ⟨h1, h2⟩ := splitStr_spec source.data
  have hp : ∀ ps : List Text, ∃ results : List (Option Author), parseAuthors r store ps = .ok (results.filterMap id) ∧
      ps.map (Author.parse r store) = results.map .ok := by
    intro ps
    induction ps with
    | nil => exact ⟨[], rfl, rfl⟩
    | cons p ps ih =>
      obtain ⟨rs, e1, e2⟩ := ih
      obtain ⟨o, ho⟩ := C40_total r store p
      refine ⟨o :: rs, ?_, by simp [ho, e2]⟩
      rw [parseAuthors, ho, e1]
      simp only [bind, Except.bind]
      cases o <;> simp
  obtain ⟨rs, e1, e2⟩ := hp (splitStr [';', ' '] source.data)
  refine ⟨⟨rs.filterMap id, source⟩, setAuthors store 0 (rs.filterMap id), _, rs, ?_, rfl, h1, h2, e2, rfl⟩
  · unfold AuthorLine.parse
    have : "; ".toList = [';', ' '] := by decide
    rw [this, e1]; rfl

private theorem mem_writes {as : List Author} {p : Text × Text}
    (hp : p ∈ (as.zipIdx 0).flatMap fun p => authorWrites p.2 p.1) :
    ∃ i a b, as[i]? = some a ∧ (b, some p.2) ∈ authorAttrs a ∧ p.1 = nthName b i := by
  obtain ⟨⟨a, i⟩, h1, h2⟩ := List.mem_flatMap.mp hp
  have := List.mem_zipIdx_iff_getElem?.mp h1
  obtain ⟨b, h3, h4⟩ := mem_authorWrites.mp (show (p.1, p.2) ∈ authorWrites i a from h2)
  exact ⟨i, a, b, by simpa using this, h3, h4⟩

/-- The n-th author defines exactly the attributes with the suffix `_n` (no suffix for the first), and no other attribute
is changed. -/
theorem C40_attributes [LawfulUni] {r : Renderer} {store store' : AttrStore} {source : Span} {line : AuthorLine}
    (h : AuthorLine.parse r store source = .ok (line, store')) :
    (∀ i a base v, line.authors[i]? = some a → (base, some v) ∈ authorAttrs a →
      store'.attributeValue (suffixed base (i + 1)) = .value v) ∧
    (∀ name, (∀ i a base v, line.authors[i]? = some a → (base, some v) ∈ authorAttrs a → name ≠ suffixed base (i + 1)) →
      store'.attributeValue name = store.attributeValue name) := by
  have hs : store' = putAll store ((line.authors.zipIdx 0).flatMap fun p => authorWrites p.2 p.1) := by
    unfold AuthorLine.parse at h
    simp only [bind, Except.bind] at h
    cases hp : parseAuthors r store (splitStr "; ".toList source.data) with
    | error e => rw [hp] at h; cases h
    | ok as =>
      rw [hp] at h
      simp only [Except.ok.injEq, Prod.mk.injEq] at h
      rw [← h.2, ← h.1, setAuthors_eq]
  have hr : ∀ {b : Text} {a : Author} {o : Option Text}, (b, o) ∈ authorAttrs a → ∀ i,
      AttrStore.remapAttrName (nthName b i) = nthName b i := fun hm i => remap_nthName (authorAttrs_base hm) i
  constructor
  · intro i a b v hi hm
    rw [hs, ← suffixed_eq, ← hr hm i]
    apply putAll_mem
    · apply List.mem_flatMap.mpr
      exact ⟨(a, i), List.mem_zipIdx_iff_getElem?.mpr (by simpa using hi), mem_authorWrites.mpr ⟨b, hm, rfl⟩⟩
    · intro p hp e
      obtain ⟨j, a', b', hj, hm', e'⟩ := mem_writes hp
      rw [e', hr hm' j, hr hm i] at e
      obtain ⟨rfl, rfl⟩ := suffixed_inj (authorAttrs_base hm') (authorAttrs_base hm) e
      rw [hj] at hi
      simp only [Option.some.injEq] at hi
      subst hi
      have := authorAttrs_unique hm' hm
      simpa using this
  · intro name hn
    rw [hs]
    apply putAll_other
    intro p hp e
    obtain ⟨j, a', b', hj, hm', e'⟩ := mem_writes hp
    rw [e', hr hm' j, suffixed_eq] at e
    exact hn j a' b' _ hj hm' e.symm

/-- Non-vacuity of C40: three names and an address. -/
example : letI := asciiUni
    Author.parse Html.renderer AttrStore.default " Kismet  Q._R. Lee-Chi <k@x.org> ".toList = .ok (some
      ⟨"Kismet  Q. R. Lee-Chi".toList, "Kismet".toList, some "Q. R.".toList, some "Lee-Chi".toList,
        some "k@x.org".toList⟩) := by decide +kernel

example : letI := asciiUni
    AuthorForm "Doc Who <d@x>".toList "Doc Who".toList "Doc".toList none (some "Who".toList) (some "d@x".toList) :=
  letI := asciiUni
  .mail (n := "Doc Who".toList) (s := [' ']) (e := "d@x".toList)
    (.two (a := "Doc".toList) (s := [' ']) (b := "Who".toList)
      ⟨'D', ['o', 'c'], rfl, .inl (by decide), fun x hx => .inl (.inl (by revert hx; revert x; decide))⟩
      ⟨by decide, by decide⟩
      ⟨'W', ['h', 'o'], rfl, .inl (by decide), fun x hx => .inl (.inl (by revert hx; revert x; decide))⟩)
    ⟨by decide, by decide⟩ (by decide) (by decide)

example : letI := asciiUni
    (AuthorLine.parse Html.renderer AttrStore.default (Span.new "Ann Bo; Cy <c@x>; ".toList)).map (fun p =>
      (p.1.authors.length, p.2.attributeValue "lastname".toList, p.2.attributeValue "author_2".toList,
        p.2.attributeValue "email_2".toList, p.2.attributeValue "lastname_2".toList)) =
      .ok (2, .value "Bo".toList, .value "Cy".toList, .value "c@x".toList, .unset) := by decide +kernel

/-! ### C41 -/

/-- The pieces of a revision line (as stored in the attributes and, after the header substitutions, in the result) are the
ones the specification describes. -/
theorem C41_parts {t : Text} (ht : '\n' ∉ t) (n : Option Text) (d : Text) (r : Option Text) :
    Revision t n d r ↔ revisionParts t = (n, d, r) := revision_iff ht

/-- Every line is a revision line in exactly one way. -/
theorem C41_unique {t : Text} (ht : '\n' ∉ t) : ∃ n d r, Revision t n d r ∧
    ∀ n' d' r', Revision t n' d' r' → n' = n ∧ d' = d ∧ r' = r := by
  cases hp : revisionParts t with
  | mk n q =>
    obtain ⟨d, r⟩ := q
    refine ⟨n, d, r, (revision_iff ht).mpr hp, ?_⟩
    intro n' d' r' h
    have := (revision_iff ht).mp h
    rw [hp] at this
    simp only [Prod.mk.injEq] at this
    exact ⟨this.1.symm, this.2.1.symm, this.2.2.symm⟩

/-- Reading a revision line: the fields are the substituted pieces, the attributes `revnumber`, `revdate` and `revremark`
the pieces themselves, and no other attribute changes. -/
theorem C41_line [LawfulUni] {hdr : HeaderSubs} {store store' : AttrStore} {source : Span} {line : RevisionLine}
    {n r : Option Text} {d : Text} (hs : '\n' ∉ source.data) (hr : Revision source.data n d r)
    (h : RevisionLine.parse hdr store source = .ok (line, store')) :
    line.source = source ∧
    n.mapM (hdr store') = .ok line.revnumber ∧ hdr store' d = .ok line.revdate ∧ r.mapM (hdr store') = .ok line.revremark ∧
    (∀ x, n = some x → store'.attributeValue "revnumber".toList = .value x) ∧
    store'.attributeValue "revdate".toList = .value d ∧
    (∀ x, r = some x → store'.attributeValue "revremark".toList = .value x) ∧
    (∀ name, (name = "revnumber".toList → n = none) → name ≠ "revdate".toList → (name = "revremark".toList → r = none) →
      store'.attributeValue name = store.attributeValue name) := by
  have hp := (revision_iff hs).mp hr
  unfold RevisionLine.parse at h
  rw [hp] at h
  simp only [bind, Except.bind] at h
  cases h1 : n.mapM (hdr (setRevision store (n, d, r))) with
  | error e => rw [h1] at h; cases h
  | ok n' =>
    rw [h1] at h
    simp only at h
    cases h2 : hdr (setRevision store (n, d, r)) d with
    | error e => rw [h2] at h; cases h
    | ok d' =>
      rw [h2] at h
      simp only at h
      cases h3 : r.mapM (hdr (setRevision store (n, d, r))) with
      | error e => rw [h3] at h; cases h
      | ok r' =>
        rw [h3] at h
        simp only [Except.ok.injEq, Prod.mk.injEq] at h
        obtain ⟨rfl, rfl⟩ := h
        refine ⟨rfl, h1, h2, h3, ?_⟩
        have low : ∀ k : Text, (∀ c ∈ k, c.toLower = c ∧ c.toNat < 128) → k ≠ "hardbreaks".toList →
            AttrStore.remapAttrName k = k := by
          intro k hk hne
          unfold AttrStore.remapAttrName
          have hl : Uni.toLowercase k = k := by
            rw [LawfulUni.lower _ (fun c h => (hk c h).2)]
            conv => rhs; rw [← List.map_id k]
            exact List.map_congr_left (fun c h => (hk c h).1)
          simp only [hl]
          rw [if_neg hne]
        have k1 := low "revnumber".toList (by decide) (by decide)
        have k2 := low "revdate".toList (by decide) (by decide)
        have k3 := low "revremark".toList (by decide) (by decide)
        have d12 : "revnumber".toList ≠ "revdate".toList := by decide
        have d13 : "revnumber".toList ≠ "revremark".toList := by decide
        have d23 : "revdate".toList ≠ "revremark".toList := by decide
        unfold setRevision
        unfold AttrStore.setByValueFromHeader
        rw [k1, k2, k3]
        generalize "revnumber".toList = a at *
        generalize "revdate".toList = b at *
        generalize "revremark".toList = c at *
        cases n <;> cases r <;>
          (simp only [put_value, reduceCtorEq, false_implies, implies_true, Option.some.injEq, forall_eq', if_true, d12, d12.symm, d13,
            d13.symm, d23, d23.symm, if_false, true_and]
           try (intro name g1 g2 g3; simp_all))

/-- Reading a revision line fails only if the header substitutions do. -/
theorem C41_total {hdr : HeaderSubs} (hh : ∀ s t, ∃ x, hdr s t = .ok x) (store : AttrStore) (source : Span) :
    ∃ p, RevisionLine.parse hdr store source = .ok p := by
  have hm : ∀ s (o : Option Text), ∃ o', o.mapM (hdr s) = .ok o' := by
    intro s o
    cases o with
    | none => exact ⟨none, rfl⟩
    | some x =>
      obtain ⟨y, hy⟩ := hh s x
      exact ⟨some y, by simp only [Option.mapM, hy, Functor.map, Except.map]⟩
  unfold RevisionLine.parse
  simp only
  obtain ⟨a, ha⟩ := hm (setRevision store (revisionParts source.data)) (revisionParts source.data).1
  obtain ⟨b, hb⟩ := hh (setRevision store (revisionParts source.data)) (revisionParts source.data).2.1
  obtain ⟨c, hc⟩ := hm (setRevision store (revisionParts source.data)) (revisionParts source.data).2.2
  rw [ha, hb, hc]
  exact ⟨_, rfl⟩

/-- Non-vacuity of C41. -/
example : letI := asciiUni; revisionParts "v1.0, Oct 2, 2013: First: it works ".toList =
    (some "1.0".toList, "Oct 2, 2013".toList, some "First: it works".toList) := by decide +kernel
example : letI := asciiUni; revisionParts " v2.9:".toList = (some "2.9".toList, [], some []) := by decide +kernel
example : letI := asciiUni; revisionParts "2024-01-01".toList = (none, "2024-01-01".toList, none) := by decide +kernel
example : letI := asciiUni
    Revision "LPR55, 1/2: x".toList (some "55".toList) "1/2".toList (some "x".toList) :=
  letI := asciiUni
  (revision_iff (by decide)).mpr (by decide +kernel)

/-- A revision line without any (ASCII) digit in front of the comma has an empty revision number: the month is lost. -/
theorem C41_number_may_be_empty :
    letI := asciiUni
    Revision "Mar, 2020".toList (some []) "2020".toList none :=
  letI := asciiUni
  (revision_iff (by decide)).mpr (by decide +kernel)

end Adoc.Props
