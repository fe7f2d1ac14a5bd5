import Verif.Lemmas.Revision
import Verif.Lemmas.Preprocessor
import Verif.Lemmas.AMap
/-! # Lemmas about author lines -/

set_option linter.unusedSectionVars false
namespace Adoc
open Spec Re

variable [Uni]

/-! ### One author -/

theorem underscores_eq (t : Text) : underscoresToSpaces t = spaced t := by
  unfold underscoresToSpaces replaceChar spaced
  induction t with
  | nil => rfl
  | cons c cs ih =>
    rw [List.flatMap_cons, ih]
    simp only [List.map_cons]
    by_cases h : c = '_'
    · simp [h]
    · simp [h]

theorem nameChar_not_white [LawfulUni] {x : Char} (h : NameStart x ∨ x ∈ ['-', '\'', '.']) : isWhite x = false := by
  have ha : ∀ y : Char, isWhite y = true → isAsciiAlnum y = false := by
    intro y hy
    unfold isWhite at hy
    unfold isAsciiAlnum isAsciiAlpha isAsciiDigit
    simp only [Bool.or_eq_true, Bool.and_eq_true, decide_eq_true_eq, beq_iff_eq] at hy
    simp only [Bool.or_eq_false_iff, Bool.and_eq_false_iff, decide_eq_false_iff_not]
    have e1 : 'a'.toNat = 97 := rfl
    have e2 : 'z'.toNat = 122 := rfl
    have e3 : 'A'.toNat = 65 := rfl
    have e4 : 'Z'.toNat = 90 := rfl
    have e5 : '0'.toNat = 48 := rfl
    have e6 : '9'.toNat = 57 := rfl
    omega
  cases hw : isWhite x with
  | false => rfl
  | true =>
    have h1 := LawfulUni.white x hw
    rcases h with (h | h | h | h) | h
    · rw [ha x hw] at h; cases h
    · rw [h1.1] at h; cases h
    · rw [h1.2] at h; cases h
    · simp only [List.mem_cons, List.not_mem_nil, or_false] at h
      rcases h with rfl | rfl | rfl | rfl <;> revert hw <;> decide
    · simp only [List.mem_cons, List.not_mem_nil, or_false] at h
      rcases h with rfl | rfl | rfl <;> revert hw <;> decide

theorem Spec.NameWord.not_white [LawfulUni] {w : Text} (h : NameWord w) : ∀ c ∈ w, isWhite c = false := by
  obtain ⟨c, cs, rfl, h1, h2⟩ := h
  intro x hx
  rcases List.mem_cons.mp hx with rfl | hx
  · exact nameChar_not_white (.inl h1)
  · exact nameChar_not_white (h2 x hx)

theorem mem_of_head {w r : Text} {c : Char} (hw : w ≠ []) (h : (w ++ r).head? = some c) : c ∈ w := by
  cases w with
  | nil => exact absurd rfl hw
  | cons d ds => simp at h; simp [h]

theorem mem_of_last {w r : Text} {c : Char} (hw : w ≠ []) (h : (r ++ w).getLast? = some c) : c ∈ w := by
  rw [List.getLast?_append] at h
  cases hl : w.getLast? with
  | none => simp at hl; exact absurd hl hw
  | some d => rw [hl] at h; simp at h; subst h; exact List.mem_of_getLast? hl

theorem Spec.AuthorNames.ends [LawfulUni] {n f : Text} {m l : Option Text} (h : AuthorNames n f m l) :
    n ≠ [] ∧ (∀ c, n.head? = some c → isWhite c = false) ∧ (∀ c, n.getLast? = some c → isWhite c = false) ∧ '<' ∉ n ∧
      '{' ∉ n := by
  have sp : ∀ {s : Text} {d : Char}, Gap s → d ≠ ' ' → d ∉ s := fun h1 h2 h3 => h2 (h1.2 _ h3)
  cases h with
  | one ha =>
    refine ⟨ha.ne_nil, fun c hc => ha.not_white c (List.mem_of_mem_head? hc),
      fun c hc => ha.not_white c (List.mem_of_getLast? hc), ha.mem_ne (by simp), ha.mem_ne (by simp)⟩
  | two ha hs hb =>
    refine ⟨by simp [ha.ne_nil], ?_, ?_, ?_, ?_⟩
    · intro c hc
      rw [List.append_assoc] at hc
      exact ha.not_white c (mem_of_head ha.ne_nil hc)
    · intro c hc
      exact hb.not_white c (mem_of_last hb.ne_nil hc)
    · simp only [List.mem_append, not_or]
      exact ⟨⟨ha.mem_ne (by simp), sp hs (by decide)⟩, hb.mem_ne (by simp)⟩
    · simp only [List.mem_append, not_or]
      exact ⟨⟨ha.mem_ne (by simp), sp hs (by decide)⟩, hb.mem_ne (by simp)⟩
  | three ha hs hb hu hc =>
    refine ⟨by simp [ha.ne_nil], ?_, ?_, ?_, ?_⟩
    · intro c hc
      simp only [List.append_assoc] at hc
      exact ha.not_white c (mem_of_head ha.ne_nil hc)
    · intro c hl
      exact hc.not_white c (mem_of_last hc.ne_nil hl)
    · simp only [List.mem_append, not_or]
      exact ⟨⟨⟨⟨ha.mem_ne (by simp), sp hs (by decide)⟩, hb.mem_ne (by simp)⟩, sp hu (by decide)⟩, hc.mem_ne (by simp)⟩
    · simp only [List.mem_append, not_or]
      exact ⟨⟨⟨⟨ha.mem_ne (by simp), sp hs (by decide)⟩, hb.mem_ne (by simp)⟩, sp hu (by decide)⟩, hc.mem_ne (by simp)⟩

theorem takeWhile_stop {p : Char → Bool} {a r : Text} {c : Char} (ha : ∀ x ∈ a, p x = true) (hc : p c = false) :
    (a ++ c :: r).takeWhile p = a := by
  rw [List.takeWhile_append_of_pos ha]; simp [hc]

theorem takeWhile_all {p : Char → Bool} {a : Text} (ha : ∀ x ∈ a, p x = true) : a.takeWhile p = a := by
  have := List.takeWhile_append_dropWhile (p := p) (l := a)
  rwa [dropWhile_nil_iff.mpr ha, List.append_nil] at this

/-- The name part is what stands in front of `<`. -/
theorem Spec.AuthorForm.name_part [LawfulUni] {t n f : Text} {m l e : Option Text} (h : AuthorForm t n f m l e) :
    trim (t.takeWhile (· != '<')) = n := by
  cases h with
  | plain h =>
    obtain ⟨_, h1, h2, h3, _⟩ := h.ends
    rw [takeWhile_all (fun x hx => by
      have : x ≠ '<' := fun e => h3 (e ▸ hx)
      simpa using this)]
    exact trimmed_iff.mp ⟨[], [], by simp, by simp, by simp, h1, h2⟩
  | @mail _ s _ _ _ _ h hs he hg =>
    obtain ⟨_, h1, h2, h3, _⟩ := h.ends
    rw [List.append_assoc, List.cons_append, takeWhile_stop (c := '<') ?_ (by decide)]
    · refine trimmed_iff.mp ⟨[], s, by simp, by simp, ?_, h1, h2⟩
      intro c hc
      rw [hs.2 c hc]; decide
    · intro x hx
      have : x ≠ '<' := by
        rintro rfl
        rcases List.mem_append.mp hx with hx | hx
        · exact h3 hx
        · exact absurd (hs.2 _ hx) (by decide)
      simpa using this

theorem Spec.AuthorNames.no_brace [LawfulUni] {n f : Text} {m l : Option Text} (h : AuthorNames n f m l) :
    '{' ∉ f ∧ (∀ x, m = some x → '{' ∉ x) ∧ (∀ x, l = some x → '{' ∉ x) := by
  cases h with
  | one ha => exact ⟨ha.mem_ne (by simp), by simp, by simp⟩
  | two ha _ hb => exact ⟨ha.mem_ne (by simp), by simp, by intro x hx; cases hx; exact hb.mem_ne (by simp)⟩
  | three ha _ hb _ hc =>
    exact ⟨ha.mem_ne (by simp), by intro x hx; cases hx; exact hb.mem_ne (by simp),
      by intro x hx; cases hx; exact hc.mem_ne (by simp)⟩

theorem subs_total (r : Renderer) (store : AttrStore) (t : Text) : ∃ x, applyAuthorSubs r store t = .ok x := by
  unfold applyAuthorSubs
  obtain ⟨x, hx⟩ := applyAttributes_total store t
  rw [hx]
  simp only [bind, Except.bind]
  split
  · exact ⟨_, applySpecialCharacters_eq r x⟩
  · exact ⟨x, rfl⟩

/-- With at most one reference the substitution is just the replacement of references. -/
theorem subs_one (r : Renderer) (store : AttrStore) {t : Text} (h : t.count '{' ≤ 1) :
    applyAuthorSubs r store t = applyAttributes store t := by
  unfold applyAuthorSubs
  obtain ⟨x, hx⟩ := applyAttributes_total store t
  rw [hx]
  simp only [bind, Except.bind]
  rw [if_neg]
  unfold countChar
  simp only [Bool.and_eq_true, decide_eq_true_eq]
  omega

theorem subs_none (r : Renderer) (store : AttrStore) {t : Text} (h : '{' ∉ t) : applyAuthorSubs r store t = .ok t := by
  rw [subs_one r store (by rw [List.count_eq_zero.mpr h]; omega)]
  unfold applyAttributes
  rw [if_pos (by simpa using h)]

theorem ofCaptures_eq {subs : Text → Res Text} {t n f : Text} {g2 g3 m l e e' : Option Text} {mt : Match} [LawfulUni]
    (h : AuthorForm t n f m l e) (h1 : mt.get 1 = some f) (h2 : mt.get 2 = g2) (h3 : mt.get 3 = g3)
    (h4 : mt.get 4 = e)
    (h5 : (g2.isSome = true ∧ g3.isNone = true ∧ m = none ∧ l = g2) ∨ ((g2.isSome = true → g3.isSome = true) ∧ m = g2 ∧ l = g3))
    (hs : ∀ x, '{' ∉ x → subs x = .ok x) (he : e.mapM subs = .ok e') :
    Author.ofCaptures subs t mt = .ok ⟨spaced n, spaced f, m.map spaced, l.map spaced, e'⟩ := by
  obtain ⟨q, _, hn, _⟩ := h.parts
  obtain ⟨b1, b2, b3⟩ := hn.no_brace
  have hmap : ∀ (o : Option Text), (∀ x, o = some x → '{' ∉ x) → o.mapM subs = .ok o := by
    intro o ho
    cases o with
    | none => rfl
    | some x => simp only [Option.mapM, hs x (ho x rfl), Functor.map, Except.map]
  unfold Author.ofCaptures
  rw [h.name_part]
  have e1 : mt.at! 1 = .ok f := by unfold Match.at!; rw [h1]; rfl
  have e2 : (mt.get 2).mapM subs = .ok g2 := by
    rw [h2]; apply hmap
    rcases h5 with ⟨_, _, _, rfl⟩ | ⟨_, rfl, _⟩
    · exact b3
    · exact b2
  have e3 : (mt.get 3).mapM subs = .ok g3 := by
    rw [h3]; apply hmap
    rcases h5 with ⟨_, hx, _, _⟩ | ⟨_, _, rfl⟩
    · cases g3 with
      | none => simp
      | some x => simp at hx
    · exact b3
  rw [e1, e2, e3, h4, he]
  simp only [bind, Except.bind, hs f b1]
  have ef : (underscoresToSpaces : Text → Text) = spaced := funext underscores_eq
  rw [ef]
  rcases h5 with ⟨hx, hy, rfl, rfl⟩ | ⟨hx, rfl, rfl⟩
  · cases g3 with
    | some x => simp at hy
    | none =>
      simp only [Option.isSome_map, Option.isNone_map, hx, Option.isNone_none, Bool.and_self, if_true, Option.map_none]
  · rw [if_neg]
    simp only [Option.isSome_map, Option.isNone_map, Bool.and_eq_true, not_and, Bool.not_eq_true]
    intro h
    have := hx h
    cases hl : l with
    | none => rw [hl] at this; cases this
    | some x => rfl

theorem ofCaptures_middle {subs : Text → Res Text} {t : Text} {mt : Match} {a : Author}
    (h : Author.ofCaptures subs t mt = .ok a) : a.middlename.isSome = true → a.lastname.isSome = true := by
  unfold Author.ofCaptures at h
  simp only [bind, Except.bind] at h
  cases h1 : mt.at! 1 with
  | error e => rw [h1] at h; cases h
  | ok c1 =>
    rw [h1] at h
    simp only at h
    cases h2 : subs c1 with
    | error e => rw [h2] at h; cases h
    | ok first =>
      rw [h2] at h
      simp only at h
      cases h3 : (mt.get 2).mapM subs with
      | error e => rw [h3] at h; cases h
      | ok mid =>
        rw [h3] at h
        simp only at h
        cases h4 : (mt.get 3).mapM subs with
        | error e => rw [h4] at h; cases h
        | ok last =>
          rw [h4] at h
          simp only at h
          cases h5 : (mt.get 4).mapM subs with
          | error e => rw [h5] at h; cases h
          | ok em =>
            rw [h5] at h
            simp only at h
            split at h
            · cases h; intro h; cases h
            · rename_i hn
              cases h
              simp only [Option.isSome_map, Option.isNone_map, Bool.and_eq_true, not_and, Bool.not_eq_true] at hn ⊢
              intro hm
              have := hn hm
              cases last with
              | none => cases this
              | some x => rfl

theorem author_total (r : Renderer) (store : AttrStore) (t : Text) : ∃ o, Author.parse r store t = .ok o := by
  have hm : ∀ {subs : Text → Res Text}, (∀ x, ∃ y, subs x = .ok y) → ∀ (o : Option Text), ∃ o', o.mapM subs = .ok o' := by
    intro subs h o
    cases o with
    | none => exact ⟨none, rfl⟩
    | some x =>
      obtain ⟨y, hy⟩ := h x
      exact ⟨some y, by simp only [Option.mapM, hy, Functor.map, Except.map]⟩
  have hc : ∀ {subs : Text → Res Text} {u : Text} {mt : Match}, (∀ x, ∃ y, subs x = .ok y) →
      captures authorRe u = some mt → ∃ a, Author.ofCaptures subs u mt = .ok a := by
    intro subs u mt h hcap
    rcases captures_author (t := u) with ⟨mt', n, f, g2, g3, e, m, l, h1, _, h2, _⟩ | ⟨h1, _⟩
    · rw [hcap] at h1
      simp only [Option.some.injEq] at h1
      subst h1
      unfold Author.ofCaptures
      have e1 : mt.at! 1 = .ok f := by unfold Match.at!; rw [h2]; rfl
      obtain ⟨x1, hx1⟩ := h f
      obtain ⟨x2, hx2⟩ := hm h (mt.get 2)
      obtain ⟨x3, hx3⟩ := hm h (mt.get 3)
      obtain ⟨x4, hx4⟩ := hm h (mt.get 4)
      rw [e1, hx2, hx3, hx4]
      simp only [bind, Except.bind, hx1]
      split <;> exact ⟨_, rfl⟩
    · rw [hcap] at h1; cases h1
  have he : ∀ x, ∃ y, encodeName r x = .ok y := by
    intro x
    unfold encodeName
    split
    · exact ⟨_, applySpecialCharacters_eq r x⟩
    · exact ⟨x, rfl⟩
  unfold Author.parse
  simp only
  split
  · exact ⟨_, rfl⟩
  · split
    · obtain ⟨x, hx⟩ := subs_total r store (trim t)
      rw [hx]; exact ⟨_, rfl⟩
    · split
      · rename_i mt hcap
        obtain ⟨a, ha⟩ := hc (subs_total r store) hcap
        rw [ha]; exact ⟨_, rfl⟩
      · split
        · obtain ⟨x, hx⟩ := subs_total r store (trim t)
          rw [hx]
          simp only [bind, Except.bind]
          split
          · rename_i mt hcap
            obtain ⟨a, ha⟩ := hc (subs := .ok) (fun x => ⟨x, rfl⟩) hcap
            rw [ha]; exact ⟨_, rfl⟩
          · obtain ⟨y, hy⟩ := he x
            rw [hy]; exact ⟨_, rfl⟩
        · obtain ⟨y, hy⟩ := he (trim t)
          rw [hy]; exact ⟨_, rfl⟩

/-! ### Splitting at a separator -/

theorem not_contains_snoc {cur : Text} {c : Char} (h1 : ¬ ∃ a b, cur = a ++ [';', ' '] ++ b)
    (h2 : ∀ r, cur = r ++ [';'] → c ≠ ' ') : ¬ ∃ a b, cur ++ [c] = a ++ [';', ' '] ++ b := by
  rintro ⟨a, b, e⟩
  rcases List.eq_nil_or_concat b with rfl | ⟨b', d, rfl⟩
  · rw [List.append_nil] at e
    have e' : cur ++ [c] = (a ++ [';']) ++ [' '] := by rw [e]; simp
    obtain ⟨e1, e2⟩ := List.append_inj' e' rfl
    exact h2 a e1 (by simpa using e2)
  · rw [List.concat_eq_append] at e
    have e' : cur ++ [c] = (a ++ [';', ' '] ++ b') ++ [d] := by rw [e]; simp
    obtain ⟨e1, _⟩ := List.append_inj' e' rfl
    exact h1 ⟨a, b', e1⟩

theorem splitStrGo_ne (sep t : Text) : ∀ (skip : Nat) (cur : Text), splitStrGo sep skip cur t ≠ [] := by
  induction t with
  | nil => intro skip cur; simp [splitStrGo]
  | cons c cs ih =>
    intro skip cur
    cases skip with
    | succ k => rw [splitStrGo]; exact ih _ _
    | zero =>
      rw [splitStrGo]
      split
      · simp
      · exact ih _ _

theorem splitStrGo_spec (t : Text) : ∀ (skip : Nat) (cur : Text), skip ≤ 1 → skip ≤ t.length →
    (¬ ∃ a b, cur = a ++ [';', ' '] ++ b) → (∀ r c cs, cur = r ++ [';'] → t.drop skip = c :: cs → c ≠ ' ') →
    joinWith [';', ' '] (splitStrGo [';', ' '] skip cur t) = cur ++ t.drop skip ∧
      ∀ p ∈ splitStrGo [';', ' '] skip cur t, ¬ ∃ a b, p = a ++ [';', ' '] ++ b := by
  induction t with
  | nil =>
    intro skip cur h1 h2 h3 h4
    have : skip = 0 := by simpa using h2
    subst this
    simp [splitStrGo, joinWith]
    simpa using h3
  | cons c cs ih =>
    intro skip cur h1 h2 h3 h4
    cases skip with
    | succ k =>
      have : k = 0 := by omega
      subst this
      rw [splitStrGo]
      exact ih 0 cur (by omega) (by omega) h3 (fun r d ds e1 e2 => h4 r d ds e1 (by simpa using e2))
    | zero =>
      rw [splitStrGo]
      by_cases hs : startsWith (c :: cs) [';', ' '] = true
      · rw [if_pos hs]
        obtain ⟨q, hq⟩ := startsWith_iff.mp hs
        simp only [List.cons_append, List.cons.injEq, List.nil_append] at hq
        obtain ⟨rfl, rfl⟩ := hq
        have := ih 1 [] (by omega) (by simp) (by rintro ⟨a, b, e⟩; cases a <;> simp at e)
          (by intro r d ds e; cases r <;> simp at e)
        simp only [List.length_cons, List.length_nil, Nat.zero_add, Nat.add_one_sub_one, Nat.reduceAdd] at this ⊢
        refine ⟨?_, ?_⟩
        · have hne := splitStrGo_ne [';', ' '] (' ' :: q) 1 []
          cases hl : splitStrGo [';', ' '] 1 [] (' ' :: q) with
          | nil => exact absurd hl hne
          | cons x xs =>
            rw [hl] at this
            rw [joinWith, this.1]
            · simp
            · simp
        · intro p hp
          rcases List.mem_cons.mp hp with rfl | hp
          · exact h3
          · exact this.2 p hp
      · rw [if_neg hs]
        have := ih 0 (cur ++ [c]) (by omega) (by omega)
          (not_contains_snoc h3 (fun r e => h4 r c cs e rfl)) ?_
        · simp only [List.drop_zero] at this ⊢
          refine ⟨?_, this.2⟩
          rw [this.1]; simp
        · intro r d ds e1 e2 hd
          subst hd
          obtain ⟨_, e3⟩ := List.append_inj' e1 rfl
          simp only [List.cons.injEq, and_true] at e3
          subst e3
          simp only [List.drop_zero] at e2
          apply hs
          rw [e2]
          exact startsWith_iff.mpr ⟨ds, rfl⟩

theorem splitStr_spec (t : Text) : joinWith [';', ' '] (splitStr [';', ' '] t) = t ∧
    ∀ p ∈ splitStr [';', ' '] t, ¬ ∃ a b, p = a ++ [';', ' '] ++ b := by
  have := splitStrGo_spec t 0 [] (by omega) (by omega) (by rintro ⟨a, b, e⟩; cases a <;> simp at e)
    (by intro r d ds e; cases r <;> simp at e)
  simp only [List.drop_zero, List.nil_append] at this
  exact this

/-! ### The attributes -/

theorem suffixed_eq (base : Text) (i : Nat) : nthName base i = suffixed base (i + 1) := by
  unfold nthName suffixed
  have : (toString (i + 1)).toList = decimal (i + 1) := by simp [toString, Nat.repr, decimal]
  rw [this]
  by_cases h : i = 0 <;> simp [h]

theorem decimal_digit {n : Nat} {c : Char} (h : c ∈ decimal n) : c ≠ '_' ∧ c.toLower = c ∧ c.toNat < 128 := by
  have h1 : c.isDigit = true := Nat.isDigit_of_mem_toDigits (by omega) (by omega) h
  unfold Char.isDigit at h1
  simp only [Bool.and_eq_true, decide_eq_true_eq, UInt32.le_iff_toNat_le] at h1
  have h2 : 48 ≤ c.toNat ∧ c.toNat ≤ 57 := h1
  have h3 : c = Char.ofNat c.toNat := (Char.ofNat_toNat c).symm
  have h4 : c.toNat = 48 ∨ c.toNat = 49 ∨ c.toNat = 50 ∨ c.toNat = 51 ∨ c.toNat = 52 ∨ c.toNat = 53 ∨ c.toNat = 54 ∨
    c.toNat = 55 ∨ c.toNat = 56 ∨ c.toNat = 57 := by omega
  rcases h4 with h4 | h4 | h4 | h4 | h4 | h4 | h4 | h4 | h4 | h4 <;> rw [h4] at h3 <;> subst h3 <;> decide

/-- The base names are in lower case and do not contain an underscore. -/
def authorBases : List Text :=
  ["author".toList, "authorinitials".toList, "firstname".toList, "middlename".toList, "lastname".toList, "email".toList]

theorem base_chars {b : Text} (h : b ∈ authorBases) : ∀ c ∈ b, c ≠ '_' ∧ c.toLower = c ∧ c.toNat < 128 := by
  revert h
  revert b
  decide

theorem base_ne : ∀ {b : Text}, b ∈ authorBases → b ≠ [] := by decide

theorem base_head : ∀ {b : Text}, b ∈ authorBases → b.head? ≠ some 'h' := by decide

theorem suffixed_inj {b b' : Text} {i j : Nat} (hb : b ∈ authorBases) (hb' : b' ∈ authorBases)
    (h : nthName b i = nthName b' j) : b = b' ∧ i = j := by
  have e : ∀ {b : Text} (i : Nat), b ∈ authorBases → (nthName b i).takeWhile (· != '_') = b := by
    intro b i hb
    unfold nthName
    split
    · exact takeWhile_all (fun c hc => by simpa using (base_chars hb c hc).1)
    · rw [List.append_assoc]
      exact takeWhile_stop (fun c hc => by simpa using (base_chars hb c hc).1) (by decide)
  have h1 : b = b' := by rw [← e i hb, ← e j hb', h]
  subst h1
  refine ⟨rfl, ?_⟩
  unfold nthName at h
  by_cases h1 : i = 0
  · by_cases h2 : j = 0
    · omega
    · rw [if_pos h1, if_neg h2] at h
      have := congrArg List.length h
      simp at this
  · by_cases h2 : j = 0
    · rw [if_neg h1, if_pos h2] at h
      have := congrArg List.length h
      simp at this
    · rw [if_neg h1, if_neg h2] at h
      have := decimal_inj' (List.append_cancel_left h)
      omega

theorem remap_nthName [LawfulUni] {b : Text} (hb : b ∈ authorBases) (i : Nat) :
    AttrStore.remapAttrName (nthName b i) = nthName b i := by
  have hc : ∀ c ∈ nthName b i, c.toLower = c ∧ c.toNat < 128 := by
    intro c hc
    unfold nthName at hc
    split at hc
    · exact (base_chars hb c hc).2
    · rcases List.mem_append.mp hc with hc | hc
      · rcases List.mem_append.mp hc with hc | hc
        · exact (base_chars hb c hc).2
        · simp only [List.mem_cons, List.not_mem_nil, or_false] at hc; subst hc; decide
      · exact (decimal_digit hc).2
  unfold AttrStore.remapAttrName
  have hl : Uni.toLowercase (nthName b i) = nthName b i := by
    rw [LawfulUni.lower _ (fun c h => (hc c h).2)]
    conv => rhs; rw [← List.map_id (nthName b i)]
    exact List.map_congr_left (fun c h => (hc c h).1)
  simp only [hl]
  rw [if_neg]
  intro e
  have h0 : (nthName b i).head? = some 'h' := by rw [e]; rfl
  have h1 : (nthName b i).head? = b.head? := by
    have := base_ne hb
    unfold nthName
    split
    · rfl
    · cases b with
      | nil => exact absurd rfl this
      | cons x xs => rfl
  rw [h1] at h0
  exact base_head hb h0

/-- The attributes of the author number `i` (from 0 on), with the full names. -/
def authorWrites (i : Nat) (a : Author) : List (Text × Text) :=
  (authorAttrs a).filterMap fun p => p.2.map fun v => (nthName p.1 i, v)

def putAll (store : AttrStore) (l : List (Text × Text)) : AttrStore :=
  l.foldl (fun s p => s.setByValueFromHeader p.1 p.2) store

theorem putAll_append (store : AttrStore) (l l' : List (Text × Text)) :
    putAll store (l ++ l') = putAll (putAll store l) l' := by
  unfold putAll; rw [List.foldl_append]

theorem setAuthor_eq (store : AttrStore) (i : Nat) (a : Author) : setAuthor store i a = putAll store (authorWrites i a) := by
  obtain ⟨n, f, m, l, e⟩ := a
  cases m <;> cases l <;> cases e <;> rfl

theorem setAuthors_eq (store : AttrStore) (i : Nat) (as : List Author) :
    setAuthors store i as = putAll store ((as.zipIdx i).flatMap fun p => authorWrites p.2 p.1) := by
  induction as generalizing store i with
  | nil => rfl
  | cons a as ih =>
    rw [setAuthors, ih, setAuthor_eq, List.zipIdx_cons, List.flatMap_cons, putAll_append]

theorem put_value (s : AttrStore) (k : Text) (v : Text) (n : Text) :
    (s.put k ⟨.anywhere, .value v⟩).attributeValue n = if n = k then .value v else s.attributeValue n := by
  unfold AttrStore.attributeValue AttrStore.put
  simp only [AMap.get_insert]
  by_cases h : n = k
  · simp [h]
  · simp [h]

theorem putAll_other (l : List (Text × Text)) : ∀ (store : AttrStore) {n : Text},
    (∀ p ∈ l, AttrStore.remapAttrName p.1 ≠ n) → (putAll store l).attributeValue n = store.attributeValue n := by
  induction l with
  | nil => intro store n _; rfl
  | cons p ps ih =>
    intro store n h
    show (putAll (store.setByValueFromHeader p.1 p.2) ps).attributeValue n = _
    rw [ih _ (fun q hq => h q (List.mem_cons_of_mem _ hq))]
    unfold AttrStore.setByValueFromHeader
    rw [put_value, if_neg]
    exact fun e => h p (List.mem_cons_self ..) e.symm

theorem putAll_mem (l : List (Text × Text)) : ∀ (store : AttrStore) {k v : Text}, (k, v) ∈ l →
    (∀ p ∈ l, AttrStore.remapAttrName p.1 = AttrStore.remapAttrName k → p.2 = v) →
    (putAll store l).attributeValue (AttrStore.remapAttrName k) = .value v := by
  induction l with
  | nil => intro store k v h; cases h
  | cons p ps ih =>
    intro store k v hm hu
    show (putAll (store.setByValueFromHeader p.1 p.2) ps).attributeValue _ = _
    by_cases hps : ∃ q ∈ ps, AttrStore.remapAttrName q.1 = AttrStore.remapAttrName k
    · obtain ⟨q, hq, e⟩ := hps
      have hv := hu q (List.mem_cons_of_mem _ hq) e
      rw [← e]
      refine ih _ (k := q.1) (v := v) (by rw [← hv]; exact hq) ?_
      intro q' hq' e'
      exact hu q' (List.mem_cons_of_mem _ hq') (e'.trans e)
    · have : p = (k, v) := by
        rcases List.mem_cons.mp hm with h | h
        · exact h.symm
        · exact absurd ⟨_, h, rfl⟩ hps
      rw [putAll_other _ _ (fun q hq e => hps ⟨q, hq, e⟩), this]
      unfold AttrStore.setByValueFromHeader
      rw [put_value, if_pos rfl]

theorem mem_authorWrites {i : Nat} {a : Author} {k v : Text} :
    (k, v) ∈ authorWrites i a ↔ ∃ b, (b, some v) ∈ authorAttrs a ∧ k = nthName b i := by
  unfold authorWrites
  rw [List.mem_filterMap]
  constructor
  · rintro ⟨⟨b, o⟩, h1, h2⟩
    cases o with
    | none => cases h2
    | some w => simp at h2; obtain ⟨rfl, rfl⟩ := h2; exact ⟨b, h1, rfl⟩
  · rintro ⟨b, h1, rfl⟩
    exact ⟨_, h1, rfl⟩

theorem authorAttrs_base {a : Author} {b : Text} {o : Option Text} (h : (b, o) ∈ authorAttrs a) : b ∈ authorBases := by
  have : b ∈ (authorAttrs a).map Prod.fst := List.mem_map_of_mem (f := Prod.fst) h
  exact this

theorem authorAttrs_unique {a : Author} {b : Text} {o o' : Option Text} (h : (b, o) ∈ authorAttrs a)
    (h' : (b, o') ∈ authorAttrs a) : o = o' := by
  have hn : ((authorAttrs a).map Prod.fst).Nodup := by
    have : authorBases.Nodup := by decide
    exact this
  revert h h' hn
  generalize authorAttrs a = l
  intro h h' hn
  induction l with
  | nil => cases h
  | cons p ps ih =>
    rw [List.map_cons, List.nodup_cons] at hn
    rcases List.mem_cons.mp h with h1 | h1
    · rcases List.mem_cons.mp h' with h2 | h2
      · have := h1.trans h2.symm; simpa using this
      · exact absurd (List.mem_map_of_mem (f := Prod.fst) h2) (by rw [← h1] at hn; exact hn.1)
    · rcases List.mem_cons.mp h' with h2 | h2
      · exact absurd (List.mem_map_of_mem (f := Prod.fst) h1) (by rw [← h2] at hn; exact hn.1)
      · exact ih h1 h2 hn.2

end Adoc
