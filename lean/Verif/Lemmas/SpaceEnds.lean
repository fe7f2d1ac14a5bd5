import Verif.Spec.SpaceEnds
import Verif.Lemmas.LineEnds
import Verif.Lemmas.FileStem
/-!
# Texts that differ in the spaces at the ends of their lines only
-/

namespace Adoc
open Span Spec Props

theorem Spec.SpaceEnds.symm {t t' : Text} (h : SpaceEnds t t') : SpaceEnds t' t := by
  induction h with
  | nil => exact .nil
  | last h1 h2 h3 h4 h5 => exact .last h1 h2 h3 h5 h4
  | line h1 h2 h3 h4 h6 _ ih => exact .line h1 h2 h4 h3 h6 ih

theorem Spec.SpaceEnds.empty {t t' : Text} (h : SpaceEnds t t') (h0 : t = []) : t' = [] := by
  cases h with
  | nil => rfl
  | last _ h2 => exact absurd (List.append_eq_nil_iff.mp h0).1 h2
  | line _ _ _ _ h6 => rcases h6 with rfl | rfl <;> simp at h0

theorem Spec.SpaceEnds.ne {t t' : Text} (h : SpaceEnds t t') (h0 : t ≠ []) : t' ≠ [] := fun e => h0 (h.symm.empty e)

private theorem endsIn_spaces {l sp : Text} {c : Char} (h : ¬ EndsIn l c) (hs : ∀ x ∈ sp, x = ' ') (hc : c ≠ ' ') :
    ¬ EndsIn (l ++ sp) c := by
  rintro ⟨r, e⟩
  rcases sp.eq_nil_or_concat with rfl | ⟨s, x, rfl⟩
  · exact h ⟨r, by simpa using e⟩
  · rw [List.concat_eq_append, ← List.append_assoc] at e
    have := List.cons.inj (List.append_inj' e rfl).2
    exact hc (by rw [← this.1]; exact hs x (by simp))

private theorem continued_spaces {l sp : Text} (hs : ∀ x ∈ sp, x = ' ') (h : Continued (l ++ sp)) : Continued l := by
  obtain ⟨a, s, e, h⟩ := h
  rw [List.append_eq_append_iff] at e
  rcases e with ⟨m, _, e⟩ | ⟨m, e1, e2⟩
  · exact absurd (hs '\\' (by rw [e]; simp)) (by decide)
  · cases m with
    | nil => exact absurd (hs '\\' (by rw [List.nil_append] at e2; rw [← e2]; simp)) (by decide)
    | cons c m =>
      obtain ⟨rfl, e3⟩ := List.cons.inj e2
      exact ⟨a, m, e1, fun x hx => h x (by rw [e3]; exact List.mem_append_left _ hx)⟩

private theorem continued_more {l sp sp' : Text} (hs : ∀ x ∈ sp, x = ' ') (hs' : ∀ x ∈ sp', x = ' ') (h : Continued (l ++ sp)) :
    ∃ a s, (∀ x ∈ s, x = ' ') ∧ l = a ++ '\\' :: s ∧ Continued (l ++ sp') := by
  obtain ⟨a, s, rfl, h1⟩ := continued_spaces hs h
  refine ⟨a, s, h1, rfl, a, s ++ sp', by simp, fun x hx => ?_⟩
  rcases List.mem_append.mp hx with hx | hx
  · exact h1 x hx
  · exact hs' x hx

private theorem not_nl {l sp : Text} (h : '\n' ∉ l) (hs : ∀ x ∈ sp, x = ' ') : '\n' ∉ l ++ sp := by
  intro hm
  rcases List.mem_append.mp hm with hm | hm
  · exact h hm
  · exact absurd (hs _ hm) (by decide)

private theorem first_spaced {l sp e t : Text} (h1 : '\n' ∉ l) (h2 : ¬ EndsIn l '\r') (h3 : ∀ x ∈ sp, x = ' ') (h4 : LineEnd e) :
    FirstLine (l ++ sp ++ e ++ t) (l ++ sp) e t :=
  lineEnd_first (not_nl h1 h3) (endsIn_spaces h2 h3 (by decide)) h4

private theorem first_last {l sp : Text} (h1 : '\n' ∉ l) (h2 : ¬ EndsIn l '\r') (h3 : ∀ x ∈ sp, x = ' ') :
    FirstLine (l ++ sp) (l ++ sp) [] [] :=
  ⟨by simp, not_nl h1 h3, Or.inr (Or.inr ⟨rfl, Or.inr rfl⟩), fun h => absurd h (endsIn_spaces h2 h3 (by decide))⟩

theorem Spec.SpaceEnds.first {t t' x sep rest : Text} (h : SpaceEnds t t') (hf : FirstLine t x sep rest) :
    ∃ x' rest' y sp sp', FirstLine t' x' sep rest' ∧ x = y ++ sp ∧ x' = y ++ sp' ∧ (∀ c ∈ sp, c = ' ') ∧ (∀ c ∈ sp', c = ' ') ∧
      (rest ≠ [] → LineEnd sep) ∧ SpaceEnds rest rest' := by
  cases h with
  | nil =>
    have e := hf.eq
    have : rest = [] := (List.append_eq_nil_iff.mp e.symm).2
    exact ⟨x, rest, x, [], [], hf, by simp, by simp, by simp, by simp, fun h => absurd this h, by rw [this]; exact .nil⟩
  | last h1 h2 h3 h4 h5 =>
    obtain ⟨rfl, rfl, rfl⟩ := hf.det (first_last h1 h3 h4)
    exact ⟨_, [], _, _, _, first_last h1 h3 h5, rfl, rfl, h4, h5, fun h => absurd rfl h, .nil⟩
  | line h1 h2 h3 h4 h6 h7 =>
    obtain ⟨rfl, rfl, rfl⟩ := hf.det (first_spaced h1 h2 h3 h6)
    exact ⟨_, _, _, _, _, first_spaced h1 h2 h4 h6, rfl, rfl, h3, h4, fun _ => h6, h7⟩

theorem strip_spaces {y sp sp' u : Text} (h : ∀ c ∈ sp, c = ' ') (h' : ∀ c ∈ sp', c = ' ') (hs : StripSpaces (y ++ sp) u) :
    StripSpaces (y ++ sp') u := by
  obtain ⟨s, e, h1, h2⟩ := hs
  rw [List.append_eq_append_iff] at e
  rcases e with ⟨m, e1, e2⟩ | ⟨m, e1, e2⟩
  · rcases m.eq_nil_or_concat with rfl | ⟨m', c, rfl⟩
    · exact ⟨sp', by rw [e1]; simp, h', h2⟩
    · have hc := h c (by rw [e2]; simp)
      exact absurd ⟨y ++ m', by rw [e1, hc]; simp⟩ h2
  · refine ⟨m ++ sp', by rw [e1]; simp, ?_, h2⟩
    intro c hc
    rcases List.mem_append.mp hc with hc | hc
    · exact h1 c (by rw [e2]; simp [hc])
    · exact h' c hc

theorem trim_spaces {y sp : Text} (h : ∀ c ∈ sp, c = ' ') : trimEndP (· == ' ') (y ++ sp) = trimEndP (· == ' ') y :=
  trimEndP_append_all (by simpa using h)

/-- Texts over several lines that differ in the spaces behind the backslashes at the ends of the lines only. -/
inductive Conts : Text → Text → Prop
  | last {l} : '\n' ∉ l → Conts l l
  | line {a sp sp' e t t'} : '\n' ∉ a → (∀ c ∈ sp, c = ' ') → (∀ c ∈ sp', c = ' ') → LineEnd e → Conts t t' →
      Conts (a ++ '\\' :: (sp ++ e ++ t)) (a ++ '\\' :: (sp' ++ e ++ t'))

theorem Conts.symm {t t' : Text} (h : Conts t t') : Conts t' t := by
  induction h with
  | last h => exact .last h
  | line h1 h2 h3 h4 _ ih => exact .line h1 h3 h2 h4 ih

theorem Conts.single {t t' : Text} (h : Conts t t') (hn : '\n' ∉ t) : t' = t := by
  cases h with
  | last _ => rfl
  | line _ _ _ h4 _ => exact absurd (by simp [h4.nl]) hn

private theorem dropWhile_stop {p : Char → Bool} {c : Char} (hc : p c = false) (x : Text) :
    ∀ a : Text, (a ++ c :: x).dropWhile p = (a ++ [c]).dropWhile p ++ x
  | [] => by simp [hc]
  | d :: a => by
    simp only [List.cons_append, List.dropWhile_cons]
    split
    · exact dropWhile_stop hc x a
    · simp

private theorem dropWhile_ends {p : Char → Bool} {c : Char} (hc : p c = false) :
    ∀ a : Text, ∃ b, (a ++ [c]).dropWhile p = b ++ [c]
  | [] => ⟨[], by simp [hc]⟩
  | d :: a => by
    simp only [List.cons_append, List.dropWhile_cons]
    split
    · exact dropWhile_ends hc a
    · exact ⟨d :: a, rfl⟩

private theorem interpretLine_spaces {a sp : Text} (count last : Nat) (h : ∀ c ∈ sp, c = ' ') :
    interpretLine count last (a ++ '\\' :: sp) = interpretLine count last (a ++ ['\\']) := by
  have e1 : ∀ a : Text, (a ++ '\\' :: sp).dropWhile (· == ' ') = (a ++ ['\\']).dropWhile (· == ' ') ++ sp :=
    dropWhile_stop (by decide) sp
  have e2 : ∀ a : Text, trimEndP (· == ' ') ((a ++ '\\' :: sp).dropWhile (· == '\r')) =
      trimEndP (· == ' ') ((a ++ ['\\']).dropWhile (· == '\r')) := by
    intro a
    rw [dropWhile_stop (by decide) sp, trim_spaces h]
  have key : trimEndP (· == ' ') ((if count > 0 then (a ++ '\\' :: sp).dropWhile (· == ' ') else a ++ '\\' :: sp).dropWhile (· == '\r')) =
      trimEndP (· == ' ') ((if count > 0 then (a ++ ['\\']).dropWhile (· == ' ') else a ++ ['\\']).dropWhile (· == '\r')) := by
    split
    · obtain ⟨b, hb⟩ := dropWhile_ends (p := (· == ' ')) (c := '\\') (by decide) a
      rw [e1, hb, List.append_assoc, List.singleton_append, e2]
    · exact e2 a
  unfold interpretLine
  simp only [key]

private theorem strLines_conts {a sp e t : Text} (h1 : '\n' ∉ a) (h2 : ∀ c ∈ sp, c = ' ') (h3 : LineEnd e) :
    strLines (a ++ '\\' :: (sp ++ e ++ t)) = (a ++ '\\' :: sp) :: strLines t := by
  rw [show a ++ '\\' :: (sp ++ e ++ t) = ((a ++ ['\\']) ++ sp) ++ e ++ t by simp, strLines_cons _ _ h3]
  · simp
  · exact not_nl (by simp [h1]) h2
  · refine endsIn_spaces ?_ h2 (by decide)
    rintro ⟨r, e⟩
    exact absurd (List.cons.inj (List.append_inj' e rfl).2).1 (by decide)

theorem Conts.joinValue {t t' : Text} (h : Conts t t') : joinValue t = joinValue t' := by
  have key : (strLines t).length = (strLines t').length ∧
      ∀ last count, interpretLines last count (strLines t) = interpretLines last count (strLines t') := by
    induction h with
    | last _ => exact ⟨rfl, fun _ _ => rfl⟩
    | line h1 h2 h3 h4 _ ih =>
      rw [strLines_conts h1 h2 h4, strLines_conts h1 h3 h4]
      refine ⟨by simp [ih.1], fun last count => ?_⟩
      rw [interpretLines, interpretLines, ih.2, interpretLine_spaces _ _ h2, interpretLine_spaces _ _ h3]
  unfold Adoc.joinValue
  rw [key.1, key.2]
  cases h with
  | last _ => rfl
  | line h1 h2 h3 h4 _ => rw [if_pos (by simp [h4.nl]), if_pos (by simp [h4.nl])]

theorem Conts.same {t t' : Text} (h : Conts t t') : SameValue t t' := ⟨h.joinValue, h.single, h.symm.single⟩

/-- Behind some text without backslashes. -/
private theorem conts_prefix {p q x : Text} (h : Conts (p ++ q) x) (hn : '\n' ∈ p ++ q) (hp : '\\' ∉ p) :
    ∃ m sp sp' e t t', q = m ++ '\\' :: (sp ++ e ++ t) ∧ x = p ++ (m ++ '\\' :: (sp' ++ e ++ t')) ∧
      Conts q (m ++ '\\' :: (sp' ++ e ++ t')) := by
  generalize hu : p ++ q = u at h
  cases h with
  | last h => exact absurd (hu ▸ hn) h
  | @line a sp sp' e t t' h1 h2 h3 h4 h5 =>
    rw [List.append_eq_append_iff] at hu
    have key : ∀ m, a = p ++ m → q = m ++ '\\' :: (sp ++ e ++ t) → ∃ m sp sp'' e' t t'', q = m ++ '\\' :: (sp ++ e' ++ t) ∧
        a ++ '\\' :: (sp' ++ e ++ t') = p ++ (m ++ '\\' :: (sp'' ++ e' ++ t'')) ∧ Conts q (m ++ '\\' :: (sp'' ++ e' ++ t'')) := by
      rintro m rfl rfl
      exact ⟨m, sp, sp', e, t, t', rfl, by simp, .line (fun hm => h1 (by simp [hm])) h2 h3 h4 h5⟩
    rcases hu with ⟨m, e1, e2⟩ | ⟨m, e1, e2⟩
    · exact key m e1 e2
    · cases m with
      | nil => exact key [] (by simpa using e1.symm) (by simpa using e2.symm)
      | cons c m => exact absurd (by rw [e1, ← (List.cons.inj e2).1]; simp) hp

private theorem refName_slash {n : Text} (h : RefName n) : '\\' ∉ n := by
  obtain ⟨c, cs, rfl, h1, h2⟩ := refName_iff.mp h
  intro hd
  rcases List.mem_cons.mp hd with rfl | hd
  · revert h1; decide
  · have := h2 _ hd
    revert this; decide

theorem Conts.entry {u u' n : Text} {k : EntryKind} (h : Conts u u') (he : Entry u n k) : ∃ k', Entry u' n k' ∧ KindEnds k k' := by
  by_cases hnl : '\n' ∈ u
  · cases he with
    | @unsetFront n rest hn =>
      have hp := refName_slash hn
      rw [show ':' :: '!' :: n ++ ':' :: rest = (':' :: '!' :: n ++ [':']) ++ rest by simp] at h hnl
      obtain ⟨m, sp, sp', e, t, t', _, rfl, _⟩ := conts_prefix h hnl (by simp [hp])
      refine ⟨.unset, ?_, .refl⟩
      rw [List.append_assoc, List.singleton_append]
      exact .unsetFront hn
    | @unsetBack n rest hn =>
      have hp := refName_slash hn
      rw [show ':' :: n ++ '!' :: ':' :: rest = (':' :: n ++ ['!', ':']) ++ rest by simp] at h hnl
      obtain ⟨m, sp, sp', e, t, t', _, rfl, _⟩ := conts_prefix h hnl (by simp [hp])
      refine ⟨.unset, ?_, .refl⟩
      rw [List.append_assoc]
      exact .unsetBack hn
    | @set n hn =>
      have hp := refName_slash hn
      obtain ⟨m, sp, sp', e, t, t', e1, _⟩ := conts_prefix (q := []) (by rw [List.append_nil]; exact h)
        (by rw [List.append_nil]; exact hnl) (by simp [hp])
      simp at e1
    | @value n sp raw hn h0 hb hr =>
      have hp := refName_slash hn
      rw [show ':' :: n ++ ':' :: (sp ++ raw) = (':' :: n ++ ':' :: sp) ++ raw by simp] at h hnl
      have hsp : '\\' ∉ sp := fun hm => by rcases hb _ hm with h | h <;> revert h <;> decide
      obtain ⟨m, s1, s2, e, t, t', e1, rfl, hq⟩ := conts_prefix h hnl (by simp [hp, hsp])
      refine ⟨.value (m ++ '\\' :: (s2 ++ e ++ t')), ?_, .value hq.same⟩
      rw [show ':' :: n ++ ':' :: sp ++ (m ++ '\\' :: (s2 ++ e ++ t')) = ':' :: n ++ ':' :: (sp ++ (m ++ '\\' :: (s2 ++ e ++ t'))) by simp]
      refine .value hn (by simp) hb ?_
      intro c r er
      cases m with
      | nil => cases er; decide
      | cons d m => cases er; exact hr c _ e1
  · rw [h.single hnl]
    exact ⟨k, he, .refl⟩

theorem Spec.SpaceEnds.extent {t t' c sep rest : Text} (h : SpaceEnds t t') (he : Extent t c sep rest) :
    ∃ c' rest', Extent t' c' sep rest' ∧ (∀ u, StripSpaces c u → ∃ u', StripSpaces c' u' ∧ Conts u u') ∧ SpaceEnds rest rest' := by
  induction he generalizing t' with
  | @last t l sep rest h1 h2 =>
    obtain ⟨x', rest', y, sp, sp', g1, rfl, rfl, g4, g5, g6, g7⟩ := h.first h1
    refine ⟨_, rest', .last g1 (h2.imp (fun hn hx => ?_) g7.empty), fun u hu => ⟨u, strip_spaces g4 g5 hu, .last ?_⟩, g7⟩
    · obtain ⟨_, _, _, _, hx⟩ := continued_more g5 g4 hx
      exact hn hx
    · obtain ⟨s, e, _⟩ := hu
      intro hm
      exact h1.noNl (by rw [e]; simp [hm])
  | @more t l sep rest c sep' rest'' h1 h2 h3 _ ih =>
    obtain ⟨x', rest', y, sp, sp', g1, rfl, rfl, g4, g5, g6, g7⟩ := h.first h1
    obtain ⟨c', r', k1, k2, k6⟩ := ih g7
    obtain ⟨a, s, k3, k4, k5⟩ := continued_more g4 g5 h2
    refine ⟨_, r', .more g1 k5 (g7.ne h3) k1, fun u hu => ?_, k6⟩
    obtain ⟨u1, hu1⟩ := stripSpaces_exists c
    obtain ⟨u1', hu1', hc⟩ := k2 u1 hu1
    have up : ∀ {x c u : Text}, StripSpaces c u → StripSpaces (x ++ sep ++ c) (x ++ sep ++ u) := by
      rintro x c u ⟨s, rfl, q1, q2⟩
      refine ⟨s, by simp, q1, ?_⟩
      rcases u.eq_nil_or_concat with rfl | ⟨v, d, rfl⟩
      · rintro ⟨r, e⟩
        rcases g6 h3 with rfl | rfl
        · rw [List.append_nil] at e
          exact absurd (List.cons.inj (List.append_inj' e rfl).2).1 (by decide)
        · rw [List.append_nil, show x ++ ['\r', '\n'] = (x ++ ['\r']) ++ ['\n'] by simp] at e
          exact absurd (List.cons.inj (List.append_inj' e rfl).2).1 (by decide)
      · rintro ⟨r, e⟩
        rw [List.concat_eq_append, ← List.append_assoc] at e
        have := (List.cons.inj (List.append_inj' e rfl).2).1
        exact q2 ⟨v, by rw [this]; simp⟩
    refine ⟨_, up hu1', ?_⟩
    rw [hu.det (up hu1)]
    subst k4
    have hsp : ∀ {s' : Text}, (∀ c ∈ s', c = ' ') → ∀ c ∈ s ++ s', c = ' ' := by
      intro s' h c hc
      rcases List.mem_append.mp hc with hc | hc
      · exact k3 c hc
      · exact h c hc
    have := Conts.line (a := a) (sp := s ++ sp) (sp' := s ++ sp') (e := sep) (fun hm => h1.noNl (by simp [hm])) (hsp g4) (hsp g5) (g6 h3) hc
    simpa using this

theorem Spec.SpaceEnds.headerEntry {t t' n rest : Text} {k : EntryKind} (h : SpaceEnds t t') (he : HeaderEntry t n k rest) :
    ∃ k' rest', HeaderEntry t' n k' rest' ∧ KindEnds k k' ∧ SpaceEnds rest rest' := by
  obtain ⟨c, sep, u, h1, h2, h3⟩ := he
  obtain ⟨c', rest', g1, g2, g3⟩ := h.extent h1
  obtain ⟨u', g4, g5⟩ := g2 u h2
  obtain ⟨k', g6, g7⟩ := g5.entry h3
  exact ⟨k', rest', ⟨c', sep, u', g1, g4, g6⟩, g7, g3⟩

theorem Spec.SpaceEnds.headLine {t t' l rest : Text} (h : SpaceEnds t t') (hl : HeadLine t l rest) :
    ∃ rest', HeadLine t' l rest' ∧ SpaceEnds rest rest' := by
  obtain ⟨l0, sep, h1, h2⟩ := hl
  obtain ⟨x', rest', y, sp, sp', g1, rfl, rfl, g4, g5, _, g7⟩ := h.first h1
  exact ⟨rest', ⟨_, sep, g1, strip_spaces g4 g5 h2⟩, g7⟩

theorem Spec.SpaceEnds.plainLine {t t' l rest : Text} (h : SpaceEnds t t') (hl : PlainLine t l rest) :
    ∃ rest', PlainLine t' l rest' ∧ SpaceEnds rest rest' := by
  obtain ⟨rest', g1, g2⟩ := h.headLine hl.1
  refine ⟨rest', ⟨g1, hl.2.1, hl.2.2.1, fun n k r he => ?_⟩, g2⟩
  obtain ⟨k', r', he', _⟩ := h.symm.headerEntry he
  exact hl.2.2.2 n k' r' he'

theorem Spec.SpaceEnds.headerLine {s s1 : Stage} {t t' r : Text} {l : HLine} (h : SpaceEnds t t')
    (hl : HeaderLine s t l s1 r) : ∃ l' r', HeaderLine s t' l' s1 r' ∧ HLineEnds l l' ∧ SpaceEnds r r' := by
  cases hl with
  | blank h1 => obtain ⟨r', g1, g2⟩ := h.headLine h1; exact ⟨_, r', .blank g1, .refl, g2⟩
  | comment h1 h2 => obtain ⟨r', g1, g2⟩ := h.headLine h1; exact ⟨_, r', .comment g1 h2, .refl, g2⟩
  | entry h1 => obtain ⟨k', r', g1, g2, g3⟩ := h.headerEntry h1; exact ⟨_, r', .entry g1, .entry g2, g3⟩
  | title h1 h2 h3 => obtain ⟨r', g1, g2⟩ := h.headLine h1; exact ⟨_, r', .title g1 h2 h3, .refl, g2⟩
  | author h1 => obtain ⟨r', g1, g2⟩ := h.plainLine h1; exact ⟨_, r', .author g1, .refl, g2⟩
  | revision h1 => obtain ⟨r', g1, g2⟩ := h.plainLine h1; exact ⟨_, r', .revision g1, .refl, g2⟩

theorem Spec.SpaceEnds.headerReads {s s2 : Stage} {t t' rest : Text} {ls : List HLine} (h : SpaceEnds t t')
    (hl : HeaderReads s t ls s2 rest) : ∃ ls' rest', HeaderReads s t' ls' s2 rest' ∧ HeaderEnds ls ls' ∧ SpaceEnds rest rest' := by
  induction hl generalizing t' with
  | @stop s t h1 =>
    refine ⟨[], t', .stop fun hne l s' r hl => ?_, .nil, h⟩
    obtain ⟨l', r', hl', _⟩ := h.symm.headerLine hl
    exact h1 (h.symm.ne hne) l' s' r' hl'
  | line h1 h2 _ ih =>
    obtain ⟨l', r', g1, g2, g3⟩ := h.headerLine h2
    obtain ⟨ls', rest', k1, k2, k3⟩ := ih g3
    exact ⟨_, rest', .line (h.ne h1) g1 k1, .cons g2 k2, k3⟩

private theorem blank_spaces {y sp sp' : Text} (h' : ∀ c ∈ sp', c = ' ') (hb : Blank (y ++ sp)) : Blank (y ++ sp') := by
  intro c hc
  rcases List.mem_append.mp hc with hc | hc
  · exact hb c (by simp [hc])
  · exact Or.inl (h' c hc)

theorem Spec.SpaceEnds.skipEmpty {t t' u : Text} (h : SpaceEnds t t') (hs : SkipEmpty t u) :
    ∃ u', SkipEmpty t' u' ∧ SpaceEnds u u' := by
  induction hs generalizing t' with
  | @stop t h1 =>
    refine ⟨t', .stop fun l sep rest hf hne hb => ?_, h⟩
    obtain ⟨x', rest', y, sp, sp', g1, rfl, rfl, g4, g5, _, _⟩ := h.symm.first hf
    exact h1 _ sep rest' g1 (h.symm.ne hne) (blank_spaces g5 hb)
  | skip h1 h2 h3 _ ih =>
    obtain ⟨x', rest', y, sp, sp', g1, rfl, rfl, g4, g5, _, g7⟩ := h.first h2
    obtain ⟨u', k1, k2⟩ := ih g7
    exact ⟨u', .skip (h.ne h1) g1 (blank_spaces g5 h3) k1, k2⟩

theorem Spec.SpaceEnds.lines {t t' : Text} (h : SpaceEnds t t') : lines t = lines t' := by
  induction h with
  | nil => rfl
  | @last l sp sp' h1 h2 h3 h4 h5 =>
    have hne : ∀ s : Text, l ++ s ≠ [] := fun s e => h2 (List.append_eq_nil_iff.mp e).1
    rw [firstLine_lines (first_last h1 h3 h4) (hne _), firstLine_lines (first_last h1 h3 h5) (hne _), trim_spaces h4, trim_spaces h5]
  | line h1 h2 h3 h4 h6 _ ih =>
    have hne : ∀ {l e t : Text}, LineEnd e → l ++ e ++ t ≠ [] := by
      rintro l e t (rfl | rfl) <;> simp
    rw [firstLine_lines (first_spaced h1 h2 h3 h6) (hne h6), firstLine_lines (first_spaced h1 h2 h4 h6) (hne h6), ih,
      trim_spaces h3, trim_spaces h4]

/-- The lines as split at the line feeds: each may have spaces and a carriage return at its end. -/
theorem Spec.SpaceEnds.split {t t' : Text} (h : SpaceEnds t t') :
    ∀ l' ∈ splitChar '\n' t', ∃ l ∈ splitChar '\n' t, ∃ b q q', l = b ++ q ∧ l' = b ++ q' ∧ (∀ c ∈ q, c = ' ' ∨ c = '\r') ∧
      ∀ c ∈ q', c = ' ' ∨ c = '\r' := by
  have one : ∀ {l : Text}, '\n' ∉ l → splitChar '\n' l = [l] := fun h => splitChar_one h
  induction h with
  | nil => exact fun l hl => ⟨l, hl, l, [], [], by simp, by simp, by simp, by simp⟩
  | @last l sp sp' h1 _ _ h4 h5 =>
    rw [one (not_nl h1 h4), one (not_nl h1 h5)]
    intro l' hl'
    rw [List.mem_singleton] at hl'
    exact ⟨_, by simp, l, sp, sp', rfl, hl', fun c hc => Or.inl (h4 c hc), fun c hc => Or.inl (h5 c hc)⟩
  | @line l sp sp' e t t' h1 h2 h3 h4 h6 _ ih =>
    have key : ∀ {s t : Text}, (∀ c ∈ s, c = ' ') → ∃ q, (∀ c ∈ q, c = ' ' ∨ c = '\r') ∧
        splitChar '\n' (l ++ s ++ e ++ t) = (l ++ q) :: splitChar '\n' t := by
      intro s t hs
      rcases h6 with rfl | rfl
      · refine ⟨s, fun c hc => Or.inl (hs c hc), ?_⟩
        rw [List.append_assoc, List.singleton_append, splitChar_append (not_nl h1 hs)]
      · refine ⟨s ++ ['\r'], ?_, ?_⟩
        · intro c hc
          rcases List.mem_append.mp hc with hc | hc
          · exact Or.inl (hs c hc)
          · exact Or.inr (by simpa using hc)
        · rw [show l ++ s ++ ['\r', '\n'] ++ t = (l ++ (s ++ ['\r'])) ++ '\n' :: t by simp, splitChar_append]
          intro hm
          rw [← List.append_assoc] at hm
          rcases List.mem_append.mp hm with hm | hm
          · exact not_nl h1 hs hm
          · revert hm; decide
    obtain ⟨q, hq, ex⟩ := key (t := t) h3
    obtain ⟨q', hq', ex'⟩ := key (t := t') h4
    rw [ex, ex']
    intro l' hl'
    rcases List.mem_cons.mp hl' with rfl | hl'
    · exact ⟨_, by simp, l, q, q', rfl, rfl, hq, hq'⟩
    · obtain ⟨y, hy, b, hb⟩ := ih l' hl'
      exact ⟨y, List.mem_cons_of_mem _ hy, b, hb⟩

end Adoc
