import Verif.Model.Attribute
import Verif.Spec.Attribute
import Verif.Lemmas.SpanOps
import Verif.Lemmas.SubGroup
import Verif.Props.Span
/-! # Lemmas about attribute entries -/

set_option linter.unusedSectionVars false
namespace Adoc
open Spec Span

theorem endsIn_iff {t : Text} {c : Char} : endsWith t [c] = true ↔ EndsIn t c := endsWith_iff

theorem endsIn_false {t : Text} {c : Char} : endsWith t [c] = false ↔ ¬ EndsIn t c := by
  rw [← endsIn_iff]; simp

theorem lineSplit_iff {t l sep rest : Text} : LineSplit t l sep rest ↔ FirstLine t l sep rest := by
  constructor
  · rintro ⟨h1, h2, h3⟩
    refine ⟨h1, h2, ?_, ?_⟩
    · rcases h3 with h | ⟨h, _⟩ | ⟨h, h'⟩ | ⟨h, h', _⟩
      · exact Or.inr (Or.inl h)
      · exact Or.inl h
      · exact Or.inr (Or.inr ⟨h', Or.inl h⟩)
      · exact Or.inr (Or.inr ⟨h', Or.inr h⟩)
    · intro hl
      rcases h3 with h | ⟨_, h⟩ | ⟨h, _⟩ | ⟨_, _, h⟩
      · exact Or.inl h
      · exact absurd hl (endsIn_false.mp h)
      · exact Or.inr h
      · exact absurd hl (endsIn_false.mp h)
  · rintro ⟨h1, h2, h3, h4⟩
    refine ⟨h1, h2, ?_⟩
    rcases h3 with h | h | ⟨h', h | h⟩
    · refine Or.inr (Or.inl ⟨h, endsIn_false.mpr fun hl => ?_⟩)
      rcases h4 hl with e | e <;> rw [h] at e <;> cases e
    · exact Or.inl h
    · exact Or.inr (Or.inr (Or.inl ⟨h, h'⟩))
    · refine Or.inr (Or.inr (Or.inr ⟨h, h', endsIn_false.mpr fun hl => ?_⟩))
      rcases h4 hl with e | e <;> rw [h] at e <;> cases e

theorem takeLine_first (s : Span) : ∃ l sep rest, FirstLine s.data l sep rest ∧
    s.takeLine = { item := s.takeN l.length, after := s.dropN (l.length + sep.length) } := by
  obtain ⟨l, sep, rest, h, e⟩ := takeLine_shape s
  exact ⟨l, sep, rest, lineSplit_iff.mp h, e⟩

theorem Spec.FirstLine.takeLine_eq {s : Span} {l sep rest : Text} (h : FirstLine s.data l sep rest) :
    s.takeLine = { item := s.takeN l.length, after := s.dropN (l.length + sep.length) } := by
  obtain ⟨l', sep', rest', h', e⟩ := takeLine_first s
  suffices l' = l ∧ sep' = sep by rw [e, this.1, this.2]
  have key : ∀ {t l sep rest l' sep' rest' : Text}, FirstLine t l sep rest → FirstLine t l' sep' rest' →
      l.length < l'.length → False := by
    intro t l sep rest l' sep' rest' h h' hlt
    have e := h.eq.symm.trans h'.eq
    rw [List.append_assoc, List.append_assoc] at e
    obtain ⟨u, hu⟩ : ∃ u, l' = l ++ u := by
      rcases List.append_eq_append_iff.mp e with ⟨u, h1, _⟩ | ⟨u, h1, _⟩
      · exact ⟨u, h1⟩
      · rw [h1] at hlt; simp at hlt; omega
    subst hu
    rw [List.append_assoc] at e
    have e := List.append_cancel_left e
    cases u with
    | nil => simp at hlt
    | cons c u =>
      have hc : c ≠ '\n' := fun hc => h'.noNl (by simp [hc])
      rcases h.term with hs | hs | ⟨hr, hs | hs⟩ <;> subst hs
      · simp at e; exact hc e.1.symm
      · simp at e
        obtain ⟨rfl, e⟩ := e
        cases u with
        | nil =>
          rcases h'.cr ⟨l, rfl⟩ with hs | hs <;> subst hs <;> simp at e
        | cons d u => simp at e; exact h'.noNl (by simp [← e.1])
      · subst hr
        simp at e
        obtain ⟨rfl, rfl, h1, h2⟩ := e
        rcases h'.cr ⟨l, rfl⟩ with hs | hs <;> rw [h1] at hs <;> cases hs
      · subst hr; simp at e
  have hlen : l'.length = l.length := by
    rcases Nat.lt_trichotomy l'.length l.length with hh | hh | hh
    · exact absurd (key h' h hh) id
    · exact hh
    · exact absurd (key h h' hh) id
  have e := h'.eq.symm.trans h.eq
  rw [List.append_assoc, List.append_assoc] at e
  obtain ⟨e1, e2⟩ := List.append_inj e hlen
  refine ⟨e1, ?_⟩
  subst e1
  rcases h.term with hs | hs | ⟨hr, hs | hs⟩ <;> rcases h'.term with hs' | hs' | ⟨hr', hs' | hs'⟩ <;>
    subst hs <;> subst hs' <;> simp_all

theorem Spec.FirstLine.det {t l sep rest l' sep' rest' : Text} (h : FirstLine t l sep rest) (h' : FirstLine t l' sep' rest') :
    l = l' ∧ sep = sep' ∧ rest = rest' := by
  have e1 := Spec.FirstLine.takeLine_eq (s := Span.new t) h
  have e2 := Spec.FirstLine.takeLine_eq (s := Span.new t) h'
  have d1 := takeLine_data (s := Span.new t) h.eq e1
  have d2 := takeLine_data (s := Span.new t) h'.eq e2
  have hl := d1.1.symm.trans d2.1
  have hr := d1.2.symm.trans d2.2
  subst hl; subst hr
  have := h.eq.symm.trans h'.eq
  rw [List.append_assoc, List.append_assoc] at this
  exact ⟨rfl, List.append_cancel_right (List.append_cancel_left this), rfl⟩

theorem Spec.FirstLine.nil_iff {l sep rest : Text} (h : FirstLine [] l sep rest) : l = [] ∧ sep = [] ∧ rest = [] := by
  have := h.eq
  simp at this
  exact ⟨this.1, this.2.1, this.2.2⟩

theorem continued_iff {l : Text} : endsWith (trimEndP (· == ' ') l) ['\\'] = true ↔ Continued l := by
  rw [endsIn_iff]
  obtain ⟨w, h1, h2⟩ := trimEndP_spec (· == ' ') l
  constructor
  · rintro ⟨a, ha⟩
    refine ⟨a, w, ?_, ?_⟩
    · rw [ha] at h1; simpa using h1
    · intro c hc; have := List.all_eq_true.mp h2 c hc; simpa using this
  · rintro ⟨a, sp, rfl, hsp⟩
    refine ⟨a, ?_⟩
    have e : a ++ '\\' :: sp = (a ++ ['\\']) ++ sp := by simp
    rw [e, trimEndP_append_all (by simpa using hsp), trimEndP_eq_self]
    intro c r hc
    have := List.append_inj' hc rfl
    obtain ⟨_, h⟩ := this
    cases h; decide

theorem oneLine_eq (s : Span) : s.oneLineWithContinuation =
    if endsWith (trimEndP (· == ' ') s.takeLine.item.data) ['\\'] then some s.takeNormalizedLine else none := by
  unfold oneLineWithContinuation
  simp only [normLine_item_data]

theorem contLoop_extent : ∀ (n : Nat) (s : Span), s.data.length ≤ n → ∃ c sep rest, Extent s.data c sep rest ∧
    (contLoop n s).takeLine.after = s.dropN (c.length + sep.length)
  | 0, s, hn => by
    obtain ⟨l, sep, rest, h, e⟩ := takeLine_first s
    have hs : s.data = [] := List.length_eq_zero_iff.mp (by omega)
    refine ⟨l, sep, rest, .last h (Or.inr ?_), by rw [contLoop, e]⟩
    rw [hs] at h; exact h.nil_iff.2.2
  | n + 1, s, hn => by
    obtain ⟨l, sep, rest, h, e⟩ := takeLine_first s
    have hd := takeLine_data h.eq e
    rw [contLoop, oneLine_eq, hd.1]
    by_cases hc : endsWith (trimEndP (· == ' ') l) ['\\'] = true
    · rw [if_pos hc]
      simp only
      have hne : s.data ≠ [] := by
        intro hs; rw [hs] at h; rw [h.nil_iff.1] at hc; cases hc
      have hp := takeLine_progress s hne
      rw [normLine_after]
      obtain ⟨c, sep', rest', h', e'⟩ := contLoop_extent n s.takeLine.after (by omega)
      rw [hd.2] at h'
      by_cases hr : rest = []
      · subst hr
        refine ⟨l, sep, [], .last h (Or.inr rfl), ?_⟩
        rw [e', e]
        have : c.length + sep'.length = 0 := by
          cases h' with
          | last h1 _ => rw [h1.nil_iff.1, h1.nil_iff.2.1]; rfl
          | more h1 _ h2 _ => exact absurd h1.nil_iff.2.2 h2
        rw [this, dropN_zero]
      · refine ⟨l ++ sep ++ c, sep', rest', .more h (continued_iff.mp hc) hr h', ?_⟩
        rw [e', e, dropN_dropN]
        congr 1
        simp; omega
    · rw [if_neg hc]
      simp only
      refine ⟨l, sep, rest, .last h (Or.inl fun hh => hc (continued_iff.mpr hh)), by rw [e]⟩

theorem Spec.Extent.eq {t c sep rest : Text} (h : Extent t c sep rest) : t = c ++ sep ++ rest := by
  induction h with
  | last h _ => exact h.eq
  | more h _ _ _ ih => rw [h.eq, ih]; simp

/-- The end of the content of an entry. -/
theorem Spec.Extent.tail {t c sep rest : Text} (h : Extent t c sep rest) :
    (sep = ['\r', '\n']) ∨ (sep = ['\n'] ∧ ¬ EndsIn c '\r') ∨ (sep = ['\r'] ∧ rest = []) ∨
    (sep = [] ∧ rest = [] ∧ ¬ EndsIn c '\r' ∧ ¬ EndsIn c '\n') := by
  induction h with
  | @last t l sep rest h _ =>
    have hnl : ¬ EndsIn l '\n' := by rintro ⟨r, rfl⟩; exact h.noNl (by simp)
    rcases (lineSplit_iff.mpr h).sep with h1 | ⟨h1, h2⟩ | h1 | ⟨h1, h2, h3⟩
    · exact Or.inl h1
    · exact Or.inr (Or.inl ⟨h1, endsIn_false.mp h2⟩)
    · exact Or.inr (Or.inr (Or.inl h1))
    · exact Or.inr (Or.inr (Or.inr ⟨h1, h2, endsIn_false.mp h3, hnl⟩))
  | @more t l sep rest c sep' rest' h _ hne h' ih =>
    have hsep : EndsIn sep '\n' := by
      rcases h.term with hs | hs | ⟨hr, _⟩
      · exact ⟨[], by simp [hs]⟩
      · exact ⟨['\r'], by simp [hs]⟩
      · exact absurd hr hne
    have key : ∀ d, ¬ EndsIn c d → d ≠ '\n' → ¬ EndsIn (l ++ sep ++ c) d := by
      rintro d hc hd ⟨r, hr⟩
      rcases List.eq_nil_or_concat c with rfl | ⟨c', x, rfl⟩
      · obtain ⟨q, hq⟩ := hsep
        rw [List.append_nil, hq, ← List.append_assoc] at hr
        have := List.append_inj' hr rfl
        exact hd (by simpa using this.2.symm)
      · apply hc
        refine ⟨c', ?_⟩
        rw [List.concat_eq_append, ← List.append_assoc] at hr
        have := (List.append_inj' hr rfl).2
        rw [List.concat_eq_append, this]
    rcases ih with h1 | ⟨h1, h2⟩ | h1 | ⟨h1, h2, h3, h4⟩
    · exact Or.inl h1
    · exact Or.inr (Or.inl ⟨h1, key _ h2 (by decide)⟩)
    · exact Or.inr (Or.inr (Or.inl h1))
    · refine Or.inr (Or.inr (Or.inr ⟨h1, h2, key _ h3 (by decide), ?_⟩))
      rintro ⟨r, hr⟩
      rcases List.eq_nil_or_concat c with rfl | ⟨c', x, rfl⟩
      · have := h'.eq; rw [h1, h2] at this; simp at this; exact hne this
      · apply h4
        refine ⟨c', ?_⟩
        rw [List.concat_eq_append, ← List.append_assoc] at hr
        have := (List.append_inj' hr rfl).2
        rw [List.concat_eq_append, this]

theorem Spec.Extent.det {t c sep rest : Text} (h : Extent t c sep rest) : ∀ {c' sep' rest' : Text},
    Extent t c' sep' rest' → c = c' ∧ sep = sep' ∧ rest = rest' := by
  induction h with
  | last h hn =>
    intro c' sep' rest' h'
    cases h' with
    | last h1 _ => exact h.det h1
    | more h1 h2 h3 _ =>
      obtain ⟨rfl, rfl, rfl⟩ := h.det h1
      rcases hn with hn | hn
      · exact absurd h2 hn
      · exact absurd hn h3
  | more h hc hne _ ih =>
    intro c' sep' rest' h'
    cases h' with
    | last h1 hn =>
      obtain ⟨rfl, rfl, rfl⟩ := h.det h1
      rcases hn with hn | hn
      · exact absurd hc hn
      · exact absurd hn hne
    | more h1 h2 h3 h4 =>
      obtain ⟨rfl, rfl, rfl⟩ := h.det h1
      obtain ⟨rfl, rfl, rfl⟩ := ih h4
      exact ⟨rfl, rfl, rfl⟩

theorem stripSpaces_iff {t u : Text} : StripSpaces t u ↔ u = trimEndP (· == ' ') t := by
  constructor
  · rintro ⟨sp, rfl, h1, h2⟩
    rw [trimEndP_append_all (by simpa using h1), trimEndP_eq_self]
    intro c r hc
    subst hc
    cases hx : (c == ' ')
    · rfl
    · exact absurd ⟨r, by rw [eq_of_beq hx]⟩ h2
  · rintro rfl
    obtain ⟨w, h1, h2⟩ := trimEndP_spec (· == ' ') t
    refine ⟨w, h1, by simpa using h2, ?_⟩
    rintro ⟨r, hr⟩
    have := trimEndP_last (· == ' ') t ' ' r hr
    simp at this

theorem takeLineWithContinuation_extent (s : Span) : ∃ c sep rest, Extent s.data c sep rest ∧
    s.takeLineWithContinuation = if trimEndP (· == ' ') c = [] then none else
      some { item := s.takeN (trimEndP (· == ' ') c).length, after := s.dropN (c.length + sep.length) } := by
  obtain ⟨c, sep, rest, h, e⟩ := contLoop_extent s.data.length s (Nat.le_refl _)
  refine ⟨c, sep, rest, h, ?_⟩
  have hd := h.eq
  have hlen : s.data.length = c.length + sep.length + rest.length := by rw [hd]; simp; omega
  have hk : s.data.length - (s.dropN (c.length + sep.length)).data.length = c.length + sep.length := by
    simp; omega
  have htk : s.data.take (c.length + sep.length) = c ++ sep := by
    rw [hd, ← List.length_append, List.take_left]
  have htc : s.data.take c.length = c := by rw [hd, List.append_assoc, List.take_left]
  have key : (((s.cut (c.length + sep.length)).trimItemEnd '\n').trimItemEnd '\r') =
      { item := s.takeN c.length, after := s.dropN (c.length + sep.length) } := by
    unfold cut
    rcases h.tail with rfl | ⟨rfl, h2⟩ | ⟨rfl, _⟩ | ⟨rfl, _, h3, h4⟩
    · have e1 : endsWith (s.takeN (c.length + 2)).data ['\n'] = true := by
        rw [endsIn_iff]; exact ⟨c ++ ['\r'], by simp only [takeN_data]; rw [show c.length + 2 = c.length + ['\r','\n'].length from rfl, htk]; simp⟩
      have e2 : (s.takeN (c.length + 2)).data.length = c.length + 2 := by simp; simp at hlen; omega
      have e3 : s.data.take (c.length + 1) = c ++ ['\r'] := by
        rw [hd]; simp [List.take_append, List.take_of_length_le]
      simp only [MI.trimItemEnd, List.length_cons, List.length_nil, e1, if_true, e2, takeN_takeN]
      have e4 : min (c.length + 2 - 1) (c.length + 2) = c.length + 1 := by omega
      rw [e4]
      have e5 : endsWith (s.takeN (c.length + 1)).data ['\r'] = true := by
        rw [endsIn_iff]; exact ⟨c, by simp [e3]⟩
      have e6 : (s.takeN (c.length + 1)).data.length = c.length + 1 := by simp [e3]
      simp only [e5, if_true, e6, takeN_takeN]
      congr 2; omega
    · have e1 : endsWith (s.takeN (c.length + 1)).data ['\n'] = true := by
        rw [endsIn_iff]; exact ⟨c, by simp only [takeN_data]; exact htk⟩
      have e2 : (s.takeN (c.length + 1)).data.length = c.length + 1 := by simp; simp at hlen; omega
      have e3 : endsWith (s.takeN c.length).data ['\r'] = false := by
        rw [endsIn_false]; simpa [htc] using h2
      simp only [MI.trimItemEnd, List.length_cons, List.length_nil, Nat.zero_add, e1, if_true, e2, takeN_takeN]
      have e4 : min (c.length + 1 - 1) (c.length + 1) = c.length := by omega
      rw [e4]
      simp only [e3, Bool.false_eq_true, if_false]
    · have e1 : endsWith (s.takeN (c.length + 1)).data ['\n'] = false := by
        rw [endsIn_false]
        rintro ⟨r, hr⟩
        rw [takeN_data, show s.data.take (c.length + 1) = c ++ ['\r'] from htk] at hr
        have := (List.append_inj' hr rfl).2
        cases this
      have e2 : endsWith (s.takeN (c.length + 1)).data ['\r'] = true := by
        rw [endsIn_iff]; exact ⟨c, by simp only [takeN_data]; exact htk⟩
      have e3 : (s.takeN (c.length + 1)).data.length = c.length + 1 := by simp; simp at hlen; omega
      simp only [MI.trimItemEnd, List.length_cons, List.length_nil, Nat.zero_add, e1, Bool.false_eq_true, if_false, e2,
        if_true, e3, takeN_takeN]
      congr 2; omega
    · have e1 : endsWith (s.takeN c.length).data ['\n'] = false := by rw [endsIn_false]; simpa [htc] using h4
      have e2 : endsWith (s.takeN c.length).data ['\r'] = false := by rw [endsIn_false]; simpa [htc] using h3
      simp only [MI.trimItemEnd, List.length_nil, Nat.add_zero, e1, e2, Bool.false_eq_true, if_false]
  unfold takeLineWithContinuation
  simp only [e, hk, key]
  have hle := trimEndP_length_le (· == ' ') c
  have e7 : (MI.trimItemTrailingSpaces { item := s.takeN c.length, after := s.dropN (c.length + sep.length) }) =
      { item := s.takeN (trimEndP (· == ' ') c).length, after := s.dropN (c.length + sep.length) } := by
    unfold MI.trimItemTrailingSpaces
    simp only [takeN_data, htc, takeN_takeN]
    congr 2; omega
  rw [e7]
  have e8 : (s.takeN (trimEndP (· == ' ') c).length).data = trimEndP (· == ' ') c := by
    obtain ⟨w, h1, _⟩ := trimEndP_spec (· == ' ') c
    generalize trimEndP (· == ' ') c = u at h1
    rw [takeN_data, hd, h1, List.append_assoc, List.append_assoc, List.take_left]
  simp only [e8]


/-! ### The head -/

theorem refName_iff {n : Text} : RefName n ↔ ∃ c cs, n = c :: cs ∧ (isAsciiAlnum c || c == '_') = true ∧
    ∀ d ∈ cs, (isAsciiAlnum d || d == '_' || d == '-') = true := by
  unfold RefName
  simp only [Bool.or_eq_true, beq_iff_eq, or_assoc]

/-- The name scanner in front of a character that cannot belong to a name. -/
theorem takeUserAttrName_eq {s : Span} {n rest : Text} {d : Char} (h : s.data = n ++ d :: rest) (hn : RefName n)
    (hd : d = ':' ∨ d = '!') : s.takeUserAttrName = some (s.cut n.length) := by
  obtain ⟨c, cs, rfl, h1, h2⟩ := refName_iff.mp hn
  unfold takeUserAttrName
  rw [h]
  simp only [List.cons_append]
  rw [if_pos h1]
  congr 2
  rw [prefLen_append h2]
  · simp; omega
  · intro e r he
    cases he
    rcases hd with rfl | rfl <;> decide

theorem takeUserAttrName_some {s : Span} {m : MI Span} (h : s.takeUserAttrName = some m) :
    ∃ n rest, s.data = n ++ rest ∧ RefName n ∧ m = s.cut n.length := by
  unfold takeUserAttrName at h
  cases hd : s.data with
  | nil => rw [hd] at h; cases h
  | cons c cs =>
    rw [hd] at h
    simp only at h
    by_cases hc : (isAsciiAlnum c || c == '_') = true
    · rw [if_pos hc] at h
      have hle := prefLen_le (fun c => isAsciiAlnum c || c == '_' || c == '-') cs
      refine ⟨c :: cs.take (prefLen (fun c => isAsciiAlnum c || c == '_' || c == '-') cs),
        cs.drop (prefLen (fun c => isAsciiAlnum c || c == '_' || c == '-') cs), by simp, ?_, ?_⟩
      · exact refName_iff.mpr ⟨c, _, rfl, hc, prefLen_take _ _⟩
      · rw [← Option.some.inj h]; congr 1; simp; omega
    · rw [if_neg hc] at h; cases h

theorem refName_head {n rest : Text} (h : RefName n) : startsWith (n ++ rest) ['!'] = false := by
  obtain ⟨c, cs, rfl, h1, _⟩ := refName_iff.mp h
  rw [List.cons_append]
  cases hx : startsWith (c :: (cs ++ rest)) ['!']
  · rfl
  · obtain ⟨r, hr⟩ := startsWith_iff.mp hx
    cases hr
    simp at h1; revert h1; decide

theorem startsWith_cons {c d : Char} {t : Text} : startsWith (c :: t) [d] = (c == d) := by
  simp only [startsWith, List.isPrefixOf, Bool.and_true]
  rw [Bool.eq_iff_iff, beq_iff_eq, beq_iff_eq]; exact eq_comm

theorem parseHead_eq {s : Span} {a rest : Text} {b : Bool} (ha : s.data = ':' :: a ++ ':' :: rest) {n : Text} (hn : RefName n)
    (hab : (a = '!' :: n ∧ b = true) ∨ (a = n ++ ['!'] ∧ b = true) ∨ (a = n ∧ b = false)) :
    ∃ k, Attribute.parseHead s = some ((s.dropN k).takeN n.length, b, s.dropN (a.length + 2)) ∧
      k + n.length ≤ s.data.length ∧ (s.data.drop k).take n.length = n := by
  unfold Attribute.parseHead takePrefix
  have h0 : startsWith s.data [':'] = true := by rw [ha, List.cons_append, startsWith_cons]; rfl
  have hdat : (s.dropN 1).data = a ++ ':' :: rest := by rw [dropN_data, ha]; rfl
  have hfin : ∀ k, (s.data.drop k).head? = some ':' → startsWith (s.dropN k).data [':'] = true := by
    intro k hk
    rw [dropN_data]
    cases hx : s.data.drop k with
    | nil => rw [hx] at hk; cases hk
    | cons c r => rw [hx] at hk; cases hk; rw [startsWith_cons]; rfl
  simp only [h0, if_true, cut, List.length_cons, List.length_nil, Nat.zero_add]
  rcases hab with ⟨rfl, rfl⟩ | ⟨rfl, rfl⟩ | ⟨rfl, rfl⟩
  · have h1 : startsWith (s.dropN 1).data ['!'] = true := by rw [hdat, List.cons_append, startsWith_cons]; rfl
    simp only [h1, if_true, dropN_dropN]
    have h2 : (s.dropN (1 + 1)).data = n ++ ':' :: rest := by rw [dropN_data, ha]; rfl
    rw [takeUserAttrName_eq h2 hn (Or.inl rfl)]
    simp only [cut, dropN_dropN, Bool.not_true, Bool.and_false, Bool.false_eq_true, if_false, Bool.true_or]
    have h3 : startsWith (s.dropN (1 + 1 + n.length)).data [':'] = true := by
      apply hfin; rw [← List.drop_drop, ← dropN_data, h2, List.drop_left]; rfl
    simp only [h3, if_true, dropN_dropN]
    refine ⟨2, ?_, ?_, ?_⟩
    · simp; congr 1; omega
    · rw [ha]; simp; omega
    · have := h2; rw [dropN_data] at this; rw [this, List.take_left]
  · have hd2 : (s.dropN 1).data = n ++ '!' :: ':' :: rest := by rw [hdat]; simp
    have h1 : startsWith (s.dropN 1).data ['!'] = false := by rw [hd2]; exact refName_head hn
    simp only [h1, Bool.false_eq_true, if_false]
    rw [takeUserAttrName_eq hd2 hn (Or.inr rfl)]
    simp only [cut, dropN_dropN]
    have hd3 : (s.dropN (1 + n.length)).data = '!' :: ':' :: rest := by
      rw [dropN_data, ← List.drop_drop, ← dropN_data, hd2, List.drop_left]
    have h2 : startsWith (s.dropN (1 + n.length)).data ['!'] = true := by rw [hd3, startsWith_cons]; rfl
    simp only [h2, Bool.not_false, Bool.and_self, if_true, dropN_dropN, Bool.or_true]
    have h3 : startsWith (s.dropN (1 + n.length + 1)).data [':'] = true := by
      apply hfin; rw [← List.drop_drop, ← dropN_data, hd3]; rfl
    simp only [h3, if_true, dropN_dropN]
    refine ⟨1, ?_, ?_, ?_⟩
    · simp; congr 1; omega
    · rw [ha]; simp; omega
    · have := hd2; rw [dropN_data] at this; rw [this, List.take_left]
  · have h1 : startsWith (s.dropN 1).data ['!'] = false := by rw [hdat]; exact refName_head hn
    simp only [h1, Bool.false_eq_true, if_false]
    rw [takeUserAttrName_eq hdat hn (Or.inl rfl)]
    simp only [cut, dropN_dropN]
    have hd3 : (s.dropN (1 + a.length)).data = ':' :: rest := by
      rw [dropN_data, ← List.drop_drop, ← dropN_data, hdat, List.drop_left]
    have h2 : startsWith (s.dropN (1 + a.length)).data ['!'] = false := by rw [hd3, startsWith_cons]; rfl
    simp only [h2, Bool.false_and, Bool.false_eq_true, if_false, Bool.or_self]
    have h3 : startsWith (s.dropN (1 + a.length)).data [':'] = true := by rw [hd3, startsWith_cons]; rfl
    simp only [h3, if_true, dropN_dropN]
    refine ⟨1, ?_, ?_, ?_⟩
    · simp; congr 1; omega
    · rw [ha]; simp; omega
    · have := hdat; rw [dropN_data] at this; rw [this, List.take_left]

theorem takePrefix_one {s : Span} {c : Char} {m : MI Span} (h : s.takePrefix [c] = some m) :
    ∃ r, s.data = c :: r ∧ m = s.cut 1 := by
  unfold takePrefix at h
  by_cases hc : startsWith s.data [c] = true
  · rw [if_pos hc] at h
    obtain ⟨r, hr⟩ := startsWith_iff.mp hc
    exact ⟨r, hr, (Option.some.inj h).symm⟩
  · rw [if_neg hc] at h; cases h

/-- Whatever has a head has one of the three shapes. -/
theorem parseHead_some {s : Span} {r : Span × Bool × Span} (h : Attribute.parseHead s = some r) :
    ∃ a b n rest, s.data = ':' :: a ++ ':' :: rest ∧ RefName n ∧
      ((a = '!' :: n ∧ b = true) ∨ (a = n ++ ['!'] ∧ b = true) ∨ (a = n ∧ b = false)) := by
  unfold Attribute.parseHead at h
  cases h1 : s.takePrefix [':'] with
  | none => rw [h1] at h; cases h
  | some colon =>
    rw [h1] at h
    simp only at h
    obtain ⟨r1, e1, rfl⟩ := takePrefix_one h1
    have hdat : (s.dropN 1).data = r1 := by rw [dropN_data, e1]; rfl
    simp only [cut] at h
    cases hb : startsWith (s.dropN 1).data ['!'] with
    | true =>
      simp only [hb, if_true, dropN_dropN] at h
      obtain ⟨r2, e2⟩ := startsWith_iff.mp hb
      rw [hdat] at e2
      cases h2 : (s.dropN (1 + 1)).takeUserAttrName with
      | none => rw [h2] at h; cases h
      | some nm =>
        rw [h2] at h
        simp only [Bool.not_true, Bool.and_false, Bool.false_eq_true, if_false] at h
        obtain ⟨n, rest, e3, hn, rfl⟩ := takeUserAttrName_some h2
        simp only [cut, dropN_dropN] at h
        cases h4 : (s.dropN (1 + 1 + n.length)).takePrefix [':'] with
        | none => rw [h4] at h; cases h
        | some l =>
          obtain ⟨r4, e4, _⟩ := takePrefix_one h4
          rw [dropN_data, ← List.drop_drop, ← dropN_data, e3, List.drop_left] at e4
          refine ⟨'!' :: n, true, n, r4, ?_, hn, Or.inl ⟨rfl, rfl⟩⟩
          rw [dropN_data, e1, e2] at e3
          rw [e1, e2]
          simp at e3
          simp [e3, e4]
    | false =>
      simp only [hb, Bool.false_eq_true, if_false] at h
      cases h2 : (s.dropN 1).takeUserAttrName with
      | none => rw [h2] at h; cases h
      | some nm =>
        rw [h2] at h
        simp only at h
        obtain ⟨n, rest, e3, hn, rfl⟩ := takeUserAttrName_some h2
        simp only [cut, dropN_dropN] at h
        have hd3 : (s.dropN (1 + n.length)).data = rest := by
          rw [dropN_data, ← List.drop_drop, ← dropN_data, e3, List.drop_left]
        cases hb2 : startsWith (s.dropN (1 + n.length)).data ['!'] with
        | true =>
          simp only [hb2, Bool.not_false, Bool.and_self, if_true, dropN_dropN] at h
          obtain ⟨r3, e4⟩ := startsWith_iff.mp hb2
          cases h4 : (s.dropN (1 + n.length + 1)).takePrefix [':'] with
          | none => rw [h4] at h; cases h
          | some l =>
            obtain ⟨r4, e5, _⟩ := takePrefix_one h4
            rw [dropN_data, ← List.drop_drop, ← dropN_data, e4] at e5
            refine ⟨n ++ ['!'], true, n, r4, ?_, hn, Or.inr (Or.inl ⟨rfl, rfl⟩)⟩
            rw [hdat] at e3
            rw [hd3] at e4
            simp at e5
            rw [e1, e3, e4, e5]; simp
        | false =>
          simp only [hb2, Bool.false_and, Bool.false_eq_true, if_false] at h
          cases h4 : (s.dropN (1 + n.length)).takePrefix [':'] with
          | none => rw [h4] at h; cases h
          | some l =>
            obtain ⟨r4, e5, _⟩ := takePrefix_one h4
            refine ⟨n, false, n, r4, ?_, hn, Or.inr (Or.inr ⟨rfl, rfl⟩)⟩
            rw [hdat] at e3
            rw [hd3] at e5
            rw [e1, e3, e5]; simp


/-! ### The whole entry -/

theorem entry_cases {u n : Text} {k : EntryKind} (h : Entry u n k) : ∃ a b rest, u = ':' :: a ++ ':' :: rest ∧ RefName n ∧
    ((a = '!' :: n ∧ b = true) ∨ (a = n ++ ['!'] ∧ b = true) ∨ (a = n ∧ b = false)) ∧
    ((b = true ∧ k = .unset) ∨ (b = false ∧ rest = [] ∧ k = .set) ∨
      (b = false ∧ rest ≠ [] ∧ k = .value (rest.dropWhile isBlank))) := by
  cases h with
  | @unsetFront _ rest hn => exact ⟨'!' :: n, true, rest, by simp, hn, by simp, by simp⟩
  | @unsetBack _ rest hn => exact ⟨n ++ ['!'], true, rest, by simp, hn, by simp, by simp⟩
  | set hn => exact ⟨n, false, [], rfl, hn, by simp, by simp⟩
  | @value _ sp raw hn hne hb hr =>
    refine ⟨n, false, sp ++ raw, rfl, hn, by simp, Or.inr (Or.inr ⟨rfl, hne, ?_⟩)⟩
    have h1 : ∀ c ∈ sp, isBlank c = true := fun c hc => (Props.isBlank_iff c).mpr (hb c hc)
    rw [List.dropWhile_append_of_pos h1]
    cases raw with
    | nil => rfl
    | cons c r =>
      rw [List.dropWhile_cons_of_neg]
      intro hc
      have := hr c r rfl
      rcases (Props.isBlank_iff c).mp hc with e | e
      · exact this.1 e
      · exact this.2 e

theorem takeWhitespace_after (s : Span) : s.takeWhitespace.after.data = s.data.dropWhile isBlank := by
  unfold takeWhitespace Span.takeWhile cut
  rw [dropN_data]
  generalize s.data = t
  induction t with
  | nil => rfl
  | cons c cs ih =>
    rw [prefLen]
    by_cases hc : isBlank c = true
    · rw [if_pos hc, List.drop_succ_cons, ih, List.dropWhile_cons_of_pos hc]
    · rw [if_neg hc, List.dropWhile_cons_of_neg hc]; rfl

theorem trimEnd_append_term {c sep : Text} (h : ∀ x ∈ sep, x = '\r' ∨ x = '\n') : trimEnd (c ++ sep) = trimEnd c := by
  unfold trimEnd
  rw [trimEndP_append_all]
  rw [List.all_eq_true]
  intro x hx
  rcases h x hx with rfl | rfl <;> decide

theorem trimTrailing_eq {s : Span} {k : Nat} : (s.takeN k).trimTrailingWhitespace =
    s.takeN (trimEnd (s.data.take k)).length := by
  unfold trimTrailingWhitespace
  rw [takeN_takeN, takeN_data]
  congr 1
  have := trimEndP_length_le isWhite (s.data.take k)
  rw [List.length_take] at this
  unfold trimEnd
  omega

/-- The value of an entry of a given kind. -/
def kindValue (hdr : Text → Res Text) : EntryKind → Res IVal
  | .unset => .ok .unset
  | .set => .ok .set
  | .value raw => (hdr (joinValue raw)).map IVal.value

/-- The value as written. -/
def kindRaw : EntryKind → Option Text
  | .value raw => some raw
  | _ => none

theorem Spec.Extent.sep_chars {t c sep rest : Text} (h : Extent t c sep rest) : ∀ x ∈ sep, x = '\r' ∨ x = '\n' := by
  rcases h.tail with rfl | ⟨rfl, _⟩ | ⟨rfl, _⟩ | ⟨rfl, _⟩ <;> simp

theorem parse_entry {hdr : Text → Res Text} {s : Span} {c sep rest u n : Text} {k : EntryKind}
    (hx : Extent s.data c sep rest) (hu : StripSpaces c u) (he : Entry u n k) :
    ∃ nm vs, Sub nm s ∧ nm.data = n ∧ vs.map Span.data = kindRaw k ∧ (∀ v ∈ vs, Sub v s) ∧
      Attribute.parse hdr s = (kindValue hdr k).map fun v =>
        some ⟨⟨nm, vs, v, s.takeN (trimEnd c).length⟩, s.dropN (c.length + sep.length)⟩ := by
  obtain ⟨c', sep', rest', hx', e⟩ := takeLineWithContinuation_extent s
  obtain ⟨rfl, rfl, rfl⟩ := hx.det hx'
  rw [stripSpaces_iff] at hu
  subst hu
  generalize hu : trimEndP (· == ' ') c = u at he e
  obtain ⟨a, b, r, hur, hn, hab, hk⟩ := entry_cases he
  have hne : u ≠ [] := by rw [hur]; simp
  rw [if_neg hne] at e
  have hlen : s.data.length = c.length + sep.length + rest.length := by rw [hx.eq]; simp; omega
  have hitem : (s.takeN u.length).data = u := by
    obtain ⟨w, h1, _⟩ := trimEndP_spec (· == ' ') c
    rw [hu] at h1
    rw [takeN_data, hx.eq, h1, List.append_assoc, List.append_assoc, List.take_left]
  obtain ⟨j, hph, hj, hnm⟩ := parseHead_eq (s := s.takeN u.length) (hitem.trans hur) hn hab
  have hrem : s.trimRemainder? (s.dropN (c.length + sep.length)) = some (s.takeN (c.length + sep.length)) :=
    trimRemainder?_dropN s (by omega)
  have hsrc : (s.takeN (c.length + sep.length)).trimTrailingWhitespace = s.takeN (trimEnd c).length := by
    have e0 : s.data.take (c.length + sep.length) = c ++ sep := by
      rw [hx.eq, ← List.length_append, List.take_left]
    rw [trimTrailing_eq, e0, trimEnd_append_term hx.sep_chars]
  have hline : ((s.takeN u.length).dropN (a.length + 2)).data = r := by
    rw [dropN_data, hitem, hur]; simp
  have hsub : Sub (((s.takeN u.length).dropN j).takeN n.length) s :=
    (takeN_sub _ _).trans ((dropN_suf _ _).sub.trans (takeN_sub _ _))
  unfold Attribute.parse
  rw [e]
  simp only [hph, bind, Except.bind, hline]
  rcases hk with ⟨rfl, rfl⟩ | ⟨rfl, rfl, rfl⟩ | ⟨rfl, hr, rfl⟩
  · refine ⟨_, none, hsub, by rw [takeN_data, dropN_data]; exact hnm, rfl, by simp, ?_⟩
    simp only [if_true, hrem, hsrc, kindValue, Except.map]
  · refine ⟨_, none, hsub, by rw [takeN_data, dropN_data]; exact hnm, rfl, by simp, ?_⟩
    simp only [Bool.false_eq_true, if_false, if_true, hrem, hsrc, kindValue, Except.map]
  · refine ⟨_, some ((s.takeN u.length).dropN (a.length + 2)).takeWhitespace.after, hsub,
      by rw [takeN_data, dropN_data]; exact hnm, ?_, ?_, ?_⟩
    · simp only [Option.map_some, takeWhitespace_after, hline, kindRaw]
    · intro v hv
      rw [Option.mem_def, Option.some.injEq] at hv
      subst hv
      exact (dropN_suf _ _).sub.trans ((dropN_suf _ _).sub.trans (takeN_sub _ _))
    · simp only [Bool.false_eq_true, if_false, if_neg hr, hrem, hsrc, kindValue, fromRawValue, takeWhitespace_after, hline]
      cases hdr (joinValue (r.dropWhile isBlank)) <;> rfl

theorem parse_no_entry {hdr : Text → Res Text} {s : Span} {c sep rest u : Text}
    (hx : Extent s.data c sep rest) (hu : StripSpaces c u) (he : ∀ n k, ¬ Entry u n k) :
    Attribute.parse hdr s = .ok none := by
  obtain ⟨c', sep', rest', hx', e⟩ := takeLineWithContinuation_extent s
  obtain ⟨rfl, rfl, rfl⟩ := hx.det hx'
  rw [stripSpaces_iff] at hu
  subst hu
  unfold Attribute.parse
  rw [e]
  by_cases hc : trimEndP (· == ' ') c = []
  · rw [if_pos hc]
  · rw [if_neg hc]
    simp only
    have hitem : (s.takeN (trimEndP (· == ' ') c).length).data = trimEndP (· == ' ') c := by
      obtain ⟨w, h1, _⟩ := trimEndP_spec (· == ' ') c
      generalize trimEndP (· == ' ') c = u at h1
      rw [takeN_data, hx.eq, h1, List.append_assoc, List.append_assoc, List.take_left]
    cases hp : Attribute.parseHead (s.takeN (trimEndP (· == ' ') c).length) with
    | none => rfl
    | some r =>
      exfalso
      obtain ⟨a, b, n, rest, h1, hn, hab⟩ := parseHead_some hp
      rw [hitem] at h1
      rcases hab with ⟨rfl, _⟩ | ⟨rfl, _⟩ | ⟨rfl, _⟩
      · exact he n .unset (by rw [h1]; exact .unsetFront hn)
      · exact he n .unset (by rw [h1]; simpa using Entry.unsetBack (rest := rest) hn)
      · by_cases hr : rest = []
        · subst hr; exact he a .set (by rw [h1]; exact .set hn)
        · refine he a (.value (rest.dropWhile isBlank)) ?_
          rw [h1]
          have e1 : rest.takeWhile isBlank ++ rest.dropWhile isBlank = rest := List.takeWhile_append_dropWhile
          conv => arg 1; rw [← e1]
          refine .value hn (by rw [e1]; exact hr) ?_ ?_
          · intro x hx; exact (Props.isBlank_iff x).mp (mem_takeWhile hx)
          · intro x q hq
            have : isBlank x = false := by
              have := List.head_dropWhile_not isBlank (l := rest) (by rw [hq]; simp)
              simpa [hq] using this
            constructor <;> (rintro rfl; revert this; decide)

theorem extent_exists (t : Text) : ∃ c sep rest, Extent t c sep rest := by
  obtain ⟨c, sep, rest, h, _⟩ := takeLineWithContinuation_extent (Span.new t)
  exact ⟨c, sep, rest, h⟩

theorem stripSpaces_exists (t : Text) : ∃ u, StripSpaces t u := ⟨_, stripSpaces_iff.mpr rfl⟩

theorem Spec.StripSpaces.det {t u v : Text} (h : StripSpaces t u) (h' : StripSpaces t v) : u = v :=
  (stripSpaces_iff.mp h).trans (stripSpaces_iff.mp h').symm

/-- An entry has one reading. -/
theorem Spec.Entry.det {u n n' : Text} {k k' : EntryKind} (h : Entry u n k) (h' : Entry u n' k') : n = n' ∧ k = k' := by
  obtain ⟨a, b, r, hu, hn, hab, hk⟩ := entry_cases h
  obtain ⟨a', b', r', hu', hn', hab', hk'⟩ := entry_cases h'
  obtain ⟨j, e1, _, e2⟩ := parseHead_eq (s := Span.new u) hu hn hab
  obtain ⟨j', e1', _, e2'⟩ := parseHead_eq (s := Span.new u) hu' hn' hab'
  have e := Option.some.inj (e1.symm.trans e1')
  simp only [Prod.mk.injEq] at e
  obtain ⟨e3, e4, e5⟩ := e
  have h3 := congrArg Span.data e3
  simp only [takeN_data, dropN_data] at h3
  rw [e2, e2'] at h3
  have h5 := congrArg Span.data e5
  simp only [dropN_data] at h5
  have e6 : List.drop (a.length + 2) (Span.new u).data = r := by show List.drop _ u = r; rw [hu]; simp
  have e7 : List.drop (a'.length + 2) (Span.new u).data = r' := by show List.drop _ u = r'; rw [hu']; simp
  rw [e6, e7] at h5
  subst h5; subst e4
  refine ⟨h3, ?_⟩
  rcases hk with ⟨rfl, rfl⟩ | ⟨rfl, hr, rfl⟩ | ⟨rfl, hr, rfl⟩ <;> rcases hk' with ⟨h1, rfl⟩ | ⟨h1, hr', rfl⟩ | ⟨h1, hr', rfl⟩ <;>
    first | rfl | (cases h1; done) | exact absurd hr hr' | exact absurd hr' hr

/-! ### Values on several lines -/

private theorem dropWhile_head {p : Char → Bool} {t : Text} (h : ∀ c r, t = c :: r → p c = false) : t.dropWhile p = t := by
  cases t with
  | nil => rfl
  | cons c r => rw [List.dropWhile_cons, h c r rfl]; simp

private theorem dropWhile_append_of_all {p : Char → Bool} : ∀ {a b : Text}, (∀ c ∈ a, p c = true) →
    (a ++ b).dropWhile p = b.dropWhile p
  | [], b, _ => rfl
  | c :: a, b, h => by
    rw [List.cons_append, List.dropWhile_cons, h c (by simp)]
    exact dropWhile_append_of_all (fun x hx => h x (List.mem_cons_of_mem _ hx))

theorem Spec.Piece.cons {v : Text} (h : Piece v) : ∃ c r, v = c :: r ∧ c ≠ ' ' ∧ c ≠ '\r' := by
  cases v with
  | nil => exact absurd rfl h.ne
  | cons c r => exact ⟨c, r, rfl, h.first c r rfl, fun e => h.noCr (by rw [e]; simp)⟩

theorem Spec.Piece.snoc {v : Text} (h : Piece v) : ∃ r c, v = r ++ [c] ∧ c ≠ ' ' ∧ c ≠ '\\' ∧ c ≠ '+' := by
  have e := List.dropLast_concat_getLast h.ne
  exact ⟨v.dropLast, v.getLast h.ne, e.symm, h.last _ _ e.symm⟩

private theorem trimEndP_snoc_ne {p : Char → Bool} {r : Text} {c : Char} (h : p c = false) : trimEndP p (r ++ [c]) = r ++ [c] := by
  simp [trimEndP, h]

private theorem trimEndP_drop1 {p : Char → Bool} {r : Text} {c : Char} (h : p c = true) : trimEndP p (r ++ [c]) = trimEndP p r := by
  simp [trimEndP, h]

private theorem interpretLine_start {v w sp : Text} {count : Nat} (hv : Piece v) (hsp : ∀ c ∈ sp, c = ' ')
    (h0 : count = 0 → sp = []) :
    List.dropWhile (· == '\r') (if count > 0 then (sp ++ (v ++ w)).dropWhile (· == ' ') else sp ++ (v ++ w)) = v ++ w := by
  obtain ⟨c, r, rfl, hc1, hc2⟩ := hv.cons
  have e : (if count > 0 then (sp ++ (c :: r ++ w)).dropWhile (· == ' ') else sp ++ (c :: r ++ w)) = c :: r ++ w := by
    by_cases hc : count > 0
    · rw [if_pos hc, dropWhile_append_of_all (fun x hx => by simp [hsp x hx])]
      exact dropWhile_head (fun x q e => by cases e; simpa using hc1)
    · rw [if_neg hc, h0 (by omega)]; rfl
  rw [e]
  exact dropWhile_head (fun x q e => by cases e; simpa using hc2)

private theorem interpret_last {v sp : Text} {count : Nat} (hv : Piece v) (hsp : ∀ c ∈ sp, c = ' ')
    (h0 : count = 0 → sp = []) : interpretLine count count (sp ++ v) = v := by
  have e := interpretLine_start (w := []) hv hsp h0
  rw [List.append_nil] at e
  obtain ⟨r, c, rfl, h1, h2, h3⟩ := hv.snoc
  unfold interpretLine
  simp only [e]
  rw [trimEndP_snoc_ne (by simpa using h1), trimEndP_snoc_ne (by simpa using h2), trimEndP_snoc_ne (by simpa using h1), if_neg,
    if_neg (Nat.lt_irrefl _)]
  rw [endsIn_iff]
  rintro ⟨q, hq⟩
  exact h3 (by simpa using List.append_inj_right' hq rfl)

private theorem interpret_soft {v sp : Text} {count last : Nat} (hv : Piece v) (hsp : ∀ c ∈ sp, c = ' ')
    (h0 : count = 0 → sp = []) (hl : count < last) : interpretLine count last (sp ++ (v ++ [' ', '\\'])) = v ++ [' '] := by
  have e := interpretLine_start (w := [' ', '\\']) hv hsp h0
  obtain ⟨r, c, rfl, h1, h2, h3⟩ := hv.snoc
  unfold interpretLine
  simp only [e]
  have e1 : trimEndP (· == ' ') (r ++ [c] ++ [' ', '\\']) = r ++ [c] ++ [' ', '\\'] := by
    rw [show r ++ [c] ++ [' ', '\\'] = (r ++ [c] ++ [' ']) ++ ['\\'] by simp]; exact trimEndP_snoc_ne (by decide)
  have e2 : trimEndP (· == '\\') (r ++ [c] ++ [' ', '\\']) = r ++ [c] ++ [' '] := by
    rw [show r ++ [c] ++ [' ', '\\'] = (r ++ [c] ++ [' ']) ++ ['\\'] by simp, trimEndP_drop1 (by decide)]
    exact trimEndP_snoc_ne (by decide)
  have e3 : trimEndP (· == ' ') (r ++ [c] ++ [' ']) = r ++ [c] := by
    rw [trimEndP_drop1 (by decide)]; exact trimEndP_snoc_ne (by simpa using h1)
  rw [e1, e2, e3, if_neg, if_pos hl]
  rw [endsIn_iff]
  rintro ⟨q, hq⟩
  exact h3 (by simpa using List.append_inj_right' hq rfl)

private theorem interpret_hard {v sp : Text} {count last : Nat} (hv : Piece v) (hsp : ∀ c ∈ sp, c = ' ')
    (h0 : count = 0 → sp = []) : interpretLine count last (sp ++ (v ++ [' ', '+', ' ', '\\'])) = v ++ ['\n'] := by
  have e := interpretLine_start (w := [' ', '+', ' ', '\\']) hv hsp h0
  obtain ⟨r, c, rfl, h1, h2, h3⟩ := hv.snoc
  unfold interpretLine
  simp only [e]
  generalize r ++ [c] = v at *
  have e1 : trimEndP (· == ' ') (v ++ [' ', '+', ' ', '\\']) = v ++ [' ', '+', ' ', '\\'] := by
    rw [show v ++ [' ', '+', ' ', '\\'] = (v ++ [' ', '+', ' ']) ++ ['\\'] by simp]; exact trimEndP_snoc_ne (by decide)
  have e2 : trimEndP (· == '\\') (v ++ [' ', '+', ' ', '\\']) = v ++ [' ', '+', ' '] := by
    rw [show v ++ [' ', '+', ' ', '\\'] = (v ++ [' ', '+', ' ']) ++ ['\\'] by simp, trimEndP_drop1 (by decide),
      show v ++ [' ', '+', ' '] = (v ++ [' ', '+']) ++ [' '] by simp]
    exact trimEndP_snoc_ne (by decide)
  have e3 : trimEndP (· == ' ') (v ++ [' ', '+', ' ']) = v ++ [' ', '+'] := by
    rw [show v ++ [' ', '+', ' '] = (v ++ [' ', '+']) ++ [' '] by simp, trimEndP_drop1 (by decide),
      show v ++ [' ', '+'] = (v ++ [' ']) ++ ['+'] by simp]
    exact trimEndP_snoc_ne (by decide)
  have e4 : trimEndP (· == '+') (v ++ [' ', '+']) = v ++ [' '] := by
    rw [show v ++ [' ', '+'] = (v ++ [' ']) ++ ['+'] by simp, trimEndP_drop1 (by decide)]
    exact trimEndP_snoc_ne (by decide)
  have e5 : trimEndP (· == ' ') (v ++ [' ']) = v := by
    obtain ⟨r, c, rfl, h1, h2, h3⟩ := hv.snoc
    rw [trimEndP_drop1 (by decide)]; exact trimEndP_snoc_ne (by simpa using h1)
  rw [e1, e2, e3, if_pos (by rw [endsIn_iff]; exact ⟨v ++ [' '], by simp⟩), e4, e5]

private theorem chompCr_of {l : Text} {c : Char} (h : c ≠ '\r') : chompCr (l ++ [c]) = l ++ [c] := by
  unfold chompCr
  rw [if_neg]
  rw [endsIn_iff]
  rintro ⟨q, hq⟩
  exact h (by simpa using List.append_inj_right' hq rfl)

private theorem splitChar_indent {sp raw hd : Text} {tl : List Text} (hsp : ∀ c ∈ sp, c = ' ')
    (h : splitChar '\n' raw = hd :: tl) : splitChar '\n' (sp ++ raw) = (sp ++ hd) :: tl := by
  have hspnl : '\n' ∉ sp := fun hc => absurd (hsp _ hc) (by decide)
  by_cases hm : '\n' ∈ raw
  · obtain ⟨p, q, rfl, hp⟩ := List.eq_append_cons_of_mem hm
    rw [splitChar_append hp] at h
    simp only [List.cons.injEq] at h
    rw [← List.append_assoc, splitChar_append (by simp [hspnl, hp]), h.1, h.2]
  · rw [splitChar_single hm] at h
    simp only [List.cons.injEq] at h
    rw [splitChar_single (by simp [hspnl, hm]), h.1, ← h.2]

private theorem wrapped_lines {raw x : Text} (h : Wrapped raw x) :
    ∃ hd tl, splitChar '\n' raw = hd :: tl ∧ hd ≠ [] ∧ (∀ l ∈ tl, l ≠ []) ∧ (hd :: tl).map chompCr = hd :: tl ∧
      (∀ sp : Text, (∀ c ∈ sp, c = ' ') → chompCr (sp ++ hd) = sp ++ hd) ∧
      ∀ (sp : Text) (count : Nat), (∀ c ∈ sp, c = ' ') → (count = 0 → sp = []) →
        interpretLines (count + tl.length) count ((sp ++ hd) :: tl) = x := by
  induction h with
  | @last v hv =>
    obtain ⟨r, c, hrc, h1, h2, h3⟩ := hv.snoc
    have hcr : c ≠ '\r' := fun e => hv.noCr (by rw [hrc, e]; simp)
    refine ⟨v, [], splitChar_single hv.noNl, hv.ne, by simp, ?_, ?_, ?_⟩
    · simp only [List.map_cons, List.map_nil]; rw [hrc, chompCr_of hcr]
    · intro sp _; rw [hrc, ← List.append_assoc, chompCr_of hcr]
    · intro sp count hsp h0
      simp only [interpretLines, List.length_nil, Nat.add_zero, List.append_nil]
      exact interpret_last hv hsp h0
  | @soft v sp raw x hv hsp _ ih =>
    obtain ⟨hd, tl, e1, e2, e3, e4, e5, e6⟩ := ih
    have hnl : '\n' ∉ v ++ [' ', '\\'] := by simp [hv.noNl]
    have e7 := splitChar_indent hsp e1
    refine ⟨v ++ [' ', '\\'], (sp ++ hd) :: tl, ?_, by simp, ?_, ?_, ?_, ?_⟩
    · rw [show v ++ [' ', '\\', '\n'] ++ sp ++ raw = (v ++ [' ', '\\']) ++ '\n' :: (sp ++ raw) by simp, splitChar_append hnl, e7]
    · intro l hl
      rcases List.mem_cons.mp hl with rfl | hl
      · simp [e2]
      · exact e3 l hl
    · simp only [List.map_cons, List.cons.injEq] at e4 ⊢
      refine ⟨?_, e5 sp hsp, e4.2⟩
      rw [show v ++ [' ', '\\'] = (v ++ [' ']) ++ ['\\'] by simp]
      exact chompCr_of (by decide)
    · intro sp' _
      rw [show sp' ++ (v ++ [' ', '\\']) = (sp' ++ v ++ [' ']) ++ ['\\'] by simp]
      exact chompCr_of (by decide)
    · intro sp' count hsp' h0
      rw [interpretLines, interpret_soft hv hsp' h0 (by simp), List.length_cons,
        show count + (tl.length + 1) = count + 1 + tl.length by omega, e6 sp (count + 1) hsp (by omega)]
      simp
  | @hard v sp raw x hv hsp _ ih =>
    obtain ⟨hd, tl, e1, e2, e3, e4, e5, e6⟩ := ih
    have hnl : '\n' ∉ v ++ [' ', '+', ' ', '\\'] := by simp [hv.noNl]
    have e7 := splitChar_indent hsp e1
    refine ⟨v ++ [' ', '+', ' ', '\\'], (sp ++ hd) :: tl, ?_, by simp, ?_, ?_, ?_, ?_⟩
    · rw [show v ++ [' ', '+', ' ', '\\', '\n'] ++ sp ++ raw = (v ++ [' ', '+', ' ', '\\']) ++ '\n' :: (sp ++ raw) by simp, splitChar_append hnl, e7]
    · intro l hl
      rcases List.mem_cons.mp hl with rfl | hl
      · simp [e2]
      · exact e3 l hl
    · simp only [List.map_cons, List.cons.injEq] at e4 ⊢
      refine ⟨?_, e5 sp hsp, e4.2⟩
      rw [show v ++ [' ', '+', ' ', '\\'] = (v ++ [' ', '+', ' ']) ++ ['\\'] by simp]
      exact chompCr_of (by decide)
    · intro sp' _
      rw [show sp' ++ (v ++ [' ', '+', ' ', '\\']) = (sp' ++ v ++ [' ', '+', ' ']) ++ ['\\'] by simp]
      exact chompCr_of (by decide)
    · intro sp' count hsp' h0
      rw [interpretLines, interpret_hard hv hsp' h0, List.length_cons,
        show count + (tl.length + 1) = count + 1 + tl.length by omega, e6 sp (count + 1) hsp (by omega)]
      simp

theorem joinValue_wrapped {raw x : Text} (h : Wrapped raw x) : joinValue raw = x := by
  obtain ⟨hd, tl, e1, e2, e3, e4, _, e6⟩ := wrapped_lines h
  have key : strLines raw = hd :: tl := by
    unfold strLines
    simp only [e1]
    have hne : (hd :: tl) ≠ [] := by simp
    have hlast : (hd :: tl).getLast hne ≠ [] := by
      have := List.getLast_mem hne
      rcases List.mem_cons.mp this with h | h
      · rw [h]; exact e2
      · exact e3 _ h
    rw [List.getLast?_eq_some_getLast hne]
    have hd' : ((hd :: tl).dropLast).map chompCr = (hd :: tl).dropLast := by
      have := congrArg List.dropLast e4
      rwa [← List.map_dropLast] at this
    cases hg : (hd :: tl).getLast hne with
    | nil => exact absurd hg hlast
    | cons c r =>
      simp only
      rw [hd', ← hg]
      exact List.dropLast_concat_getLast hne
  unfold joinValue
  by_cases hc : raw.contains '\n' = true
  · rw [if_pos hc, key]
    have := e6 [] 0 (by simp) (fun _ => rfl)
    simpa using this
  · rw [if_neg hc]
    have hno : '\n' ∉ raw := by simpa using hc
    cases h with
    | last => rfl
    | soft => exact absurd (by simp) hno
    | hard => exact absurd (by simp) hno

end Adoc
