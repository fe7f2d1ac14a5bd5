import Verif.Spec.LineEnds
import Verif.Lemmas.Station
import Verif.Lemmas.Expansion
/-!
# Texts that differ in their line ends only
-/

namespace Adoc
open Span Spec Props

theorem Spec.LineEnds.symm {t t' : Text} (h : LineEnds t t') : LineEnds t' t := by
  induction h with
  | last h => exact .last h
  | line h1 h2 h3 h4 _ ih => exact .line h1 h2 h4 h3 ih

theorem Spec.LineEnd.nl {e : Text} (h : LineEnd e) : '\n' ∈ e := by rcases h with rfl | rfl <;> decide

theorem Spec.LineEnds.single {t t' : Text} (h : LineEnds t t') (hn : '\n' ∉ t) : t' = t := by
  cases h with
  | last _ => rfl
  | line _ _ h3 _ _ => exact absurd (by simp [h3.nl]) hn

theorem Spec.LineEnds.nil {t t' : Text} (h : LineEnds t t') (h0 : t = []) : t' = [] := by
  subst h0; exact h.single (by simp)

theorem Spec.LineEnds.ne {t t' : Text} (h : LineEnds t t') (h0 : t ≠ []) : t' ≠ [] := fun e => h0 (h.symm.nil e)

theorem lineEnd_first {l e t : Text} (h1 : '\n' ∉ l) (h2 : ¬ EndsIn l '\r') (h3 : LineEnd e) : FirstLine (l ++ e ++ t) l e t :=
  ⟨rfl, h1, h3.elim Or.inl fun h => Or.inr (Or.inl h), fun h => absurd h h2⟩

theorem Spec.LineEnds.first {t t' l sep rest : Text} (h : LineEnds t t') (hf : FirstLine t l sep rest) :
    ∃ sep' rest', FirstLine t' l sep' rest' ∧ LineEnds rest rest' ∧
      (rest ≠ [] → ∀ x x', LineEnds x x' → LineEnds (l ++ sep ++ x) (l ++ sep' ++ x')) := by
  cases h with
  | last h =>
    have : rest = [] := by
      rcases hf.term with e | e | ⟨e, _⟩
      · exact absurd (by rw [hf.eq, e]; simp) h
      · exact absurd (by rw [hf.eq, e]; simp) h
      · exact e
    exact ⟨sep, rest, hf, by rw [this]; exact .last (by simp), fun h => absurd this h⟩
  | line h1 h2 h3 h4 h5 =>
    obtain ⟨rfl, rfl, rfl⟩ := hf.det (lineEnd_first h1 h2 h3)
    exact ⟨_, _, lineEnd_first h1 h2 h4, h5, fun _ x x' hx => .line h1 h2 h3 h4 hx⟩

theorem Spec.LineEnds.prefix {p q x : Text} (h : LineEnds (p ++ q) x) (hp : ∀ c ∈ p, c ≠ '\n' ∧ c ≠ '\r') :
    ∃ q', x = p ++ q' ∧ LineEnds q q' := by
  generalize ht : p ++ q = t at h
  cases h with
  | last h => subst ht; exact ⟨q, rfl, .last fun hm => h (by simp [hm])⟩
  | @line l e e' t t' h1 h2 h3 h4 h5 =>
    have key : ∀ m, l = p ++ m → q = m ++ e ++ t → ∃ q', l ++ e' ++ t' = p ++ q' ∧ LineEnds q q' := by
      rintro m rfl rfl
      refine ⟨m ++ e' ++ t', by simp, .line (fun hm => h1 (by simp [hm])) ?_ h3 h4 h5⟩
      rintro ⟨r, e⟩
      exact h2 ⟨p ++ r, by rw [e]; simp⟩
    rw [List.append_assoc, List.append_eq_append_iff] at ht
    rcases ht with ⟨m, e1, e2⟩ | ⟨m, e1, e2⟩
    · exact key m e1 (by rw [e2, List.append_assoc])
    · cases m with
      | nil => exact key [] (by simpa using e1.symm) (by simpa using e2.symm)
      | cons c m =>
        have := hp c (by rw [e1]; simp)
        rw [List.cons_append] at e2
        rcases h3 with rfl | rfl
        · exact absurd (List.cons.inj e2).1.symm this.1
        · exact absurd (List.cons.inj e2).1.symm this.2

theorem Spec.LineEnds.suffix {u sp x : Text} (h : LineEnds (u ++ sp) x) (hs : ∀ c ∈ sp, c = ' ') :
    ∃ u', x = u' ++ sp ∧ LineEnds u u' := by
  have hn : '\n' ∉ sp := fun hm => absurd (hs _ hm) (by decide)
  generalize ht : u ++ sp = t at h
  induction h generalizing u with
  | last h => subst ht; exact ⟨u, rfl, .last fun hm => h (by simp [hm])⟩
  | @line l e e' t t' h1 h2 h3 h4 h5 ih =>
    rw [List.append_eq_append_iff] at ht
    have key : ∀ m, u = l ++ e ++ m → m ++ sp = t → ∃ u', l ++ e' ++ t' = u' ++ sp ∧ LineEnds u u' := by
      rintro m rfl hm
      obtain ⟨u', rfl, hu⟩ := ih hm
      exact ⟨l ++ e' ++ u', by simp, .line h1 h2 h3 h4 hu⟩
    rcases ht with ⟨m, e1, e2⟩ | ⟨m, e1, e2⟩
    · rcases m.eq_nil_or_concat with rfl | ⟨m', c, rfl⟩
      · exact key [] (by simpa using e1.symm) (by simpa using e2)
      · exfalso
        have hc : c = '\n' := by
          have := congrArg List.getLast? e1
          rcases h3 with rfl | rfl <;> simp at this <;> exact this.symm
        exact hn (by rw [e2, hc]; simp)
    · exact key m e1 e2.symm

theorem Spec.LineEnds.strip {c c' u : Text} (h : LineEnds c c') (hs : StripSpaces c u) :
    ∃ u', StripSpaces c' u' ∧ LineEnds u u' := by
  obtain ⟨sp, rfl, h1, h2⟩ := hs
  obtain ⟨u', rfl, h3⟩ := h.suffix h1
  refine ⟨u', ⟨sp, rfl, h1, ?_⟩, h3⟩
  rintro ⟨r, rfl⟩
  obtain ⟨r', rfl, _⟩ := h3.symm.suffix (sp := [' ']) (by simp)
  exact h2 ⟨r', rfl⟩

theorem Spec.LineEnds.extent {t t' c sep rest : Text} (h : LineEnds t t') (he : Extent t c sep rest) :
    ∃ c' sep' rest', Extent t' c' sep' rest' ∧ LineEnds c c' ∧ LineEnds rest rest' := by
  induction he generalizing t' with
  | @last t l sep rest h1 h2 =>
    obtain ⟨sep', rest', g1, g2, _⟩ := h.first h1
    exact ⟨l, sep', rest', .last g1 (h2.imp id g2.nil), .last h1.noNl, g2⟩
  | more h1 h2 h3 _ ih =>
    obtain ⟨sep', rest', g1, g2, g3⟩ := h.first h1
    obtain ⟨c', s', r', k1, k2, k3⟩ := ih g2
    exact ⟨_, s', r', .more g1 h2 (g2.ne h3) k1, g3 h3 _ _ k2, k3⟩

theorem strLines_cons {l e t : Text} (h1 : '\n' ∉ l) (h2 : ¬ EndsIn l '\r') (h3 : LineEnd e) :
    strLines (l ++ e ++ t) = l :: strLines t := by
  obtain ⟨x, hx, ex⟩ : ∃ x, chompCr x = l ∧ splitChar '\n' (l ++ e ++ t) = x :: splitChar '\n' t := by
    rcases h3 with rfl | rfl
    · refine ⟨l, ?_, by rw [List.append_assoc, List.singleton_append, splitChar_append h1]⟩
      unfold chompCr
      rw [if_neg fun h => h2 (endsIn_iff.mp h)]
    · refine ⟨l ++ ['\r'], ?_, by rw [show l ++ ['\r', '\n'] ++ t = (l ++ ['\r']) ++ '\n' :: t by simp, splitChar_append (by simp [h1])]⟩
      unfold chompCr
      rw [if_pos (endsIn_iff.mpr ⟨l, rfl⟩), List.dropLast_concat]
  unfold strLines
  rw [ex]
  cases hs : splitChar '\n' t with
  | nil => exact absurd hs (splitChar_ne_nil _ _)
  | cons y ys =>
    simp only [List.getLast?_cons_cons, List.dropLast_cons_cons, List.map_cons, hx]
    cases hg : (y :: ys).getLast? with
    | none => simp at hg
    | some z => cases z <;> rfl

theorem Spec.LineEnds.joinValue {t t' : Text} (h : LineEnds t t') : joinValue t = joinValue t' := by
  have hs : strLines t = strLines t' := by
    induction h with
    | last _ => rfl
    | line h1 h2 h3 h4 _ ih => rw [strLines_cons h1 h2 h3, strLines_cons h1 h2 h4, ih]
  unfold Adoc.joinValue
  cases h with
  | last _ => rfl
  | line h1 h2 h3 h4 _ =>
    have hm : ∀ {l e t : Text}, LineEnd e → (l ++ e ++ t).contains '\n' = true := by
      intro l e t h; simp [h.nl]
    rw [if_pos (hm h3), if_pos (hm h4), hs]

/-- Values, as written, that mean the same; they are the same if one of them stands on one line. -/
structure SameValue (raw raw' : Text) : Prop where
  joined : joinValue raw = joinValue raw'
  single : '\n' ∉ raw → raw' = raw
  single' : '\n' ∉ raw' → raw = raw'

theorem SameValue.symm {raw raw' : Text} (h : SameValue raw raw') : SameValue raw' raw := ⟨h.joined.symm, h.single', h.single⟩

theorem Spec.LineEnds.same {t t' : Text} (h : LineEnds t t') : SameValue t t' := ⟨h.joinValue, h.single, h.symm.single⟩

/-- Entries that differ in how the value is written over several lines only. -/
inductive KindEnds : EntryKind → EntryKind → Prop
  | refl {k} : KindEnds k k
  | value {raw raw'} : SameValue raw raw' → KindEnds (.value raw) (.value raw')

theorem refName_plain {n : Text} (h : RefName n) : ∀ c ∈ n, c ≠ '\n' ∧ c ≠ '\r' := by
  obtain ⟨c, cs, rfl, h1, h2⟩ := refName_iff.mp h
  intro d hd
  rcases List.mem_cons.mp hd with rfl | hd
  · constructor <;> rintro rfl <;> revert h1 <;> decide
  · have := h2 d hd
    constructor <;> rintro rfl <;> revert this <;> decide

theorem Spec.LineEnds.entry {u u' n : Text} {k : EntryKind} (h : LineEnds u u') (he : Entry u n k) :
    ∃ k', Entry u' n k' ∧ KindEnds k k' := by
  cases he with
  | @unsetFront n rest hn =>
    have hp := refName_plain hn
    rw [show ':' :: '!' :: n ++ ':' :: rest = (':' :: '!' :: n ++ [':']) ++ rest by simp] at h
    obtain ⟨q, rfl, _⟩ := h.prefix (by
      intro c hc
      simp only [List.mem_append, List.mem_cons, List.not_mem_nil, or_false] at hc
      rcases hc with (rfl | rfl | hc) | rfl
      · decide
      · decide
      · exact hp c hc
      · decide)
    rw [show (':' :: '!' :: n ++ [':']) ++ q = ':' :: '!' :: n ++ ':' :: q by simp]
    exact ⟨_, .unsetFront hn, .refl⟩
  | @unsetBack n rest hn =>
    have hp := refName_plain hn
    rw [show ':' :: n ++ '!' :: ':' :: rest = (':' :: n ++ ['!', ':']) ++ rest by simp] at h
    obtain ⟨q, rfl, _⟩ := h.prefix (by
      intro c hc
      simp only [List.mem_append, List.mem_cons, List.not_mem_nil, or_false] at hc
      rcases hc with (rfl | hc) | rfl | rfl
      · decide
      · exact hp c hc
      · decide
      · decide)
    rw [show (':' :: n ++ ['!', ':']) ++ q = ':' :: n ++ '!' :: ':' :: q by simp]
    exact ⟨_, .unsetBack hn, .refl⟩
  | @set n hn =>
    have hp := refName_plain hn
    have := h.single (by
      intro hm
      simp only [List.mem_append, List.mem_cons, List.not_mem_nil, or_false] at hm
      rcases hm with (hm | hm) | hm
      · revert hm; decide
      · exact (hp _ hm).1 rfl
      · revert hm; decide)
    rw [this]
    exact ⟨_, .set hn, .refl⟩
  | @value n sp raw hn h0 hb hr =>
    have hp := refName_plain hn
    rw [show ':' :: n ++ ':' :: (sp ++ raw) = (':' :: n ++ ':' :: sp) ++ raw by simp] at h
    obtain ⟨q, rfl, hq⟩ := h.prefix (by
      intro c hc
      simp only [List.mem_append, List.mem_cons] at hc
      rcases hc with (rfl | hc) | rfl | hc
      · decide
      · exact hp c hc
      · decide
      · rcases hb c hc with rfl | rfl <;> decide)
    rw [show (':' :: n ++ ':' :: sp) ++ q = ':' :: n ++ ':' :: (sp ++ q) by simp]
    refine ⟨_, .value hn ?_ hb ?_, .value hq.same⟩
    · intro e
      rw [List.append_eq_nil_iff] at e
      exact h0 (by rw [e.1, hq.symm.nil e.2]; rfl)
    · intro c r e
      have key : c ≠ '\n' → c ≠ '\r' → c ≠ ' ' ∧ c ≠ '\t' := by
        intro h1 h2
        subst e
        obtain ⟨r', e, _⟩ := hq.symm.prefix (p := [c]) (q := r) (by simp [h1, h2])
        exact hr c r' e
      by_cases h1 : c = '\n'
      · subst h1; decide
      · by_cases h2 : c = '\r'
        · subst h2; decide
        · exact key h1 h2

theorem Spec.LineEnds.headerEntry {t t' n rest : Text} {k : EntryKind} (h : LineEnds t t') (he : HeaderEntry t n k rest) :
    ∃ k' rest', HeaderEntry t' n k' rest' ∧ KindEnds k k' ∧ LineEnds rest rest' := by
  obtain ⟨c, sep, u, h1, h2, h3⟩ := he
  obtain ⟨c', sep', rest', g1, g2, g3⟩ := h.extent h1
  obtain ⟨u', g4, g5⟩ := g2.strip h2
  obtain ⟨k', g6, g7⟩ := g5.entry h3
  exact ⟨k', rest', ⟨c', sep', u', g1, g4, g6⟩, g7, g3⟩

theorem Spec.LineEnds.headLine {t t' l rest : Text} (h : LineEnds t t') (hl : HeadLine t l rest) :
    ∃ rest', HeadLine t' l rest' ∧ LineEnds rest rest' := by
  obtain ⟨l0, sep, h1, h2⟩ := hl
  obtain ⟨sep', rest', g1, g2, _⟩ := h.first h1
  exact ⟨rest', ⟨l0, sep', g1, h2⟩, g2⟩

theorem Spec.LineEnds.plainLine {t t' l rest : Text} (h : LineEnds t t') (hl : PlainLine t l rest) :
    ∃ rest', PlainLine t' l rest' ∧ LineEnds rest rest' := by
  obtain ⟨rest', g1, g2⟩ := h.headLine hl.1
  refine ⟨rest', ⟨g1, hl.2.1, hl.2.2.1, fun n k r he => ?_⟩, g2⟩
  obtain ⟨k', r', he', _⟩ := h.symm.headerEntry he
  exact hl.2.2.2 n k' r' he'

/-- Lines of a header that differ in how the value of an entry is written over several lines only. -/
inductive HLineEnds : HLine → HLine → Prop
  | refl {l} : HLineEnds l l
  | entry {n k k'} : KindEnds k k' → HLineEnds (.entry n k) (.entry n k')

theorem Spec.LineEnds.headerLine {s s1 : Stage} {t t' r : Text} {l : HLine} (h : LineEnds t t')
    (hl : HeaderLine s t l s1 r) : ∃ l' r', HeaderLine s t' l' s1 r' ∧ HLineEnds l l' ∧ LineEnds r r' := by
  cases hl with
  | blank h1 => obtain ⟨r', g1, g2⟩ := h.headLine h1; exact ⟨_, r', .blank g1, .refl, g2⟩
  | comment h1 h2 => obtain ⟨r', g1, g2⟩ := h.headLine h1; exact ⟨_, r', .comment g1 h2, .refl, g2⟩
  | entry h1 => obtain ⟨k', r', g1, g2, g3⟩ := h.headerEntry h1; exact ⟨_, r', .entry g1, .entry g2, g3⟩
  | title h1 h2 h3 => obtain ⟨r', g1, g2⟩ := h.headLine h1; exact ⟨_, r', .title g1 h2 h3, .refl, g2⟩
  | author h1 => obtain ⟨r', g1, g2⟩ := h.plainLine h1; exact ⟨_, r', .author g1, .refl, g2⟩
  | revision h1 => obtain ⟨r', g1, g2⟩ := h.plainLine h1; exact ⟨_, r', .revision g1, .refl, g2⟩

/-- Lines of a header, one by one. -/
inductive HeaderEnds : List HLine → List HLine → Prop
  | nil : HeaderEnds [] []
  | cons {l l' ls ls'} : HLineEnds l l' → HeaderEnds ls ls' → HeaderEnds (l :: ls) (l' :: ls')

theorem Spec.LineEnds.headerReads {s s2 : Stage} {t t' rest : Text} {ls : List HLine} (h : LineEnds t t')
    (hl : HeaderReads s t ls s2 rest) : ∃ ls' rest', HeaderReads s t' ls' s2 rest' ∧ HeaderEnds ls ls' ∧ LineEnds rest rest' := by
  induction hl generalizing t' with
  | @stop s t h1 =>
    refine ⟨[], t', .stop fun hne l s' r hl => ?_, .nil, h⟩
    obtain ⟨l', r', hl', _⟩ := h.symm.headerLine hl
    exact h1 (h.symm.ne hne) l' s' r' hl'
  | line h1 h2 _ ih =>
    obtain ⟨l', r', g1, g2, g3⟩ := h.headerLine h2
    obtain ⟨ls', rest', k1, k2, k3⟩ := ih g3
    exact ⟨_, rest', .line (h.ne h1) g1 k1, .cons g2 k2, k3⟩

theorem Spec.LineEnds.skipEmpty {t t' u : Text} (h : LineEnds t t') (hs : SkipEmpty t u) :
    ∃ u', SkipEmpty t' u' ∧ LineEnds u u' := by
  induction hs generalizing t' with
  | @stop t h1 =>
    refine ⟨t', .stop fun l sep rest hf hne hb => ?_, h⟩
    obtain ⟨sep', rest', g, _⟩ := h.symm.first hf
    exact h1 l sep' rest' g (h.symm.ne hne) hb
  | skip h1 h2 h3 _ ih =>
    obtain ⟨sep', rest', g1, g2, _⟩ := h.first h2
    obtain ⟨u', k1, k2⟩ := ih g2
    exact ⟨u', .skip (h.ne h1) g1 h3 k1, k2⟩

theorem Spec.LineEnds.lines {t t' : Text} (h : LineEnds t t') : lines t = lines t' := by
  induction h with
  | last _ => rfl
  | line h1 h2 h3 h4 _ ih =>
    have hne : ∀ {l e t : Text}, LineEnd e → l ++ e ++ t ≠ [] := by
      rintro l e t (rfl | rfl) <;> simp
    rw [firstLine_lines (lineEnd_first h1 h2 h3) (hne h3), firstLine_lines (lineEnd_first h1 h2 h4) (hne h4), ih]

/-- The lines as split at the line feeds: each may have a carriage return at its end. -/
theorem Spec.LineEnds.split {t t' : Text} (h : LineEnds t t') :
    ∀ l' ∈ splitChar '\n' t', ∃ l ∈ splitChar '\n' t, ∃ b, (l = b ∨ l = b ++ ['\r']) ∧ (l' = b ∨ l' = b ++ ['\r']) := by
  induction h with
  | last _ => exact fun l hl => ⟨l, hl, l, Or.inl rfl, Or.inl rfl⟩
  | @line l e e' t t' h1 h2 h3 h4 _ ih =>
    have key : ∀ {e t : Text}, LineEnd e → ∃ x, (x = l ∨ x = l ++ ['\r']) ∧ splitChar '\n' (l ++ e ++ t) = x :: splitChar '\n' t := by
      rintro e t (rfl | rfl)
      · exact ⟨l, Or.inl rfl, by rw [List.append_assoc, List.singleton_append, splitChar_append h1]⟩
      · refine ⟨l ++ ['\r'], Or.inr rfl, ?_⟩
        rw [show l ++ ['\r', '\n'] ++ t = (l ++ ['\r']) ++ '\n' :: t by simp, splitChar_append (by simp [h1])]
    obtain ⟨x, hx, ex⟩ := key (t := t) h3
    obtain ⟨x', hx', ex'⟩ := key (t := t') h4
    rw [ex, ex']
    intro l' hl'
    rcases List.mem_cons.mp hl' with rfl | hl'
    · exact ⟨x, by simp, l, hx, hx'⟩
    · obtain ⟨y, hy, b, hb⟩ := ih l' hl'
      exact ⟨y, List.mem_cons_of_mem _ hy, b, hb⟩

theorem KindEnds.value_eq {hdr : Text → Res Text} {k k' : EntryKind} {v : IVal} (h : KindEnds k k') (hv : EntryValue hdr k v) :
    EntryValue hdr k' v := by
  cases h with
  | refl => exact hv
  | value h => cases hv with | value hv => exact .value (by rw [← h.joined]; exact hv)

theorem lineEnds_returns {t : Text} (h : '\r' ∉ t) : LineEnds t (withReturns t) := by
  induction hn : t.length using Nat.strongRecOn generalizing t with
  | _ n ih =>
    by_cases hm : '\n' ∈ t
    · obtain ⟨l, x, rfl, hl⟩ := List.eq_append_cons_of_mem hm
      have hw : ∀ l : Text, '\n' ∉ l → withReturns l = l := by
        intro l hl
        unfold withReturns
        induction l with
        | nil => rfl
        | cons c l ih =>
          rw [List.flatMap_cons, if_neg (by rintro rfl; exact hl (by simp)), ih fun hm => hl (by simp [hm])]
          rfl
      have e1 : withReturns (l ++ '\n' :: x) = l ++ ['\r', '\n'] ++ withReturns x := by
        rw [List.append_assoc]
        conv => rhs; rw [← hw l hl]
        unfold withReturns
        rw [List.flatMap_append, List.flatMap_cons]
        rfl
      rw [e1, show l ++ '\n' :: x = l ++ ['\n'] ++ x by simp]
      refine .line hl ?_ (Or.inl rfl) (Or.inr rfl) (ih _ (by rw [← hn]; simp; omega) (fun hm => h (by simp [hm])) rfl)
      rintro ⟨r, rfl⟩
      exact h (by simp)
    · have : withReturns t = t := by
        clear ih hn h
        unfold withReturns
        induction t with
        | nil => rfl
        | cons c l ih =>
          rw [List.flatMap_cons, if_neg (by rintro rfl; exact hm (by simp)), ih fun hm' => hm (by simp [hm'])]
          rfl
      rw [this]
      exact .last hm

variable [Uni]

theorem HLineEnds.effect {hdr : HeaderSubs} {r : Renderer} {s s' : AttrStore} {l l' : HLine} (h : HLineEnds l l')
    (ha : AuthorSingle [l]) (he : LineEffect hdr r s l s') : LineEffect hdr r s l' s' := by
  cases h with
  | refl => exact he
  | @entry n _ _ hk =>
    cases hk with
    | refl => exact he
    | @value raw raw' h =>
      cases he with
      | @entry s' _ _ v h1 h2 =>
        refine .entry ((KindEnds.value h).value_eq h1) ?_
        by_cases hn : n.map Char.toLower = "author".toList
        · rw [h.single (ha n raw (by simp) hn)]; exact h2
        · have : s' = s := by
            cases h2 with
            | other _ => rfl
            | noValue _ => rfl
            | blank _ => rfl
            | author h _ => exact absurd h hn
          rw [this]
          exact .other hn

theorem HLineEnds.shows {hdr : HeaderSubs} {r : Renderer} {s : AttrStore} {l l' : HLine} {c : Contents} (h : HLineEnds l l')
    (he : LineShows hdr r s l c) : LineShows hdr r s l' c := by
  cases h with
  | refl => exact he
  | entry hk => cases he with | entry h1 => exact .entry (hk.value_eq h1)

omit [Uni] in
theorem HLineEnds.symm {l l' : HLine} (h : HLineEnds l l') : HLineEnds l' l := by
  cases h with
  | refl => exact .refl
  | entry hk =>
    cases hk with
    | refl => exact .refl
    | value h => exact .entry (.value h.symm)

omit [Uni] in
theorem HeaderEnds.symm {ls ls' : List HLine} (h : HeaderEnds ls ls') : HeaderEnds ls' ls := by
  induction h with
  | nil => exact .nil
  | cons h _ ih => exact .cons h.symm ih

omit [Uni] in
theorem Spec.AuthorSingle.head {l : HLine} {ls : List HLine} (h : AuthorSingle (l :: ls)) : AuthorSingle [l] := by
  intro n raw hm
  rw [List.mem_singleton] at hm
  exact h n raw (by rw [hm]; simp)

omit [Uni] in
theorem Spec.AuthorSingle.tail {l : HLine} {ls : List HLine} (h : AuthorSingle (l :: ls)) : AuthorSingle ls :=
  fun n raw hm => h n raw (List.mem_cons_of_mem _ hm)

omit [Uni] in
theorem HeaderEnds.authorSingle {ls ls' : List HLine} (h : HeaderEnds ls ls') (ha : AuthorSingle ls) : AuthorSingle ls' := by
  induction h with
  | nil => exact ha
  | @cons l l' ls ls' h _ ih =>
    intro n raw hm hn
    rcases List.mem_cons.mp hm with e | hm
    · cases h with
      | refl => exact ha n raw (by rw [e]; simp) hn
      | entry hk =>
        cases hk with
        | refl => exact ha n raw (by rw [e]; simp) hn
        | @value raw0 raw' h =>
          cases e
          rw [h.single (ha n raw0 (by simp) hn)]
          exact ha n raw0 (by simp) hn
    · exact ih ha.tail n raw hm hn

theorem HeaderEnds.effect {hdr : HeaderSubs} {r : Renderer} {ls ls' : List HLine} (h : HeaderEnds ls ls') {s s' : AttrStore}
    (ha : AuthorSingle ls) (he : HeaderEffect hdr r s ls s') : HeaderEffect hdr r s ls' s' := by
  induction h generalizing s with
  | nil => exact he
  | cons h _ ih => cases he with | cons h1 h2 => exact .cons (h.effect ha.head h1) (ih ha.tail h2)

theorem HeaderEnds.shows {hdr : HeaderSubs} {r : Renderer} {ls ls' : List HLine} (h : HeaderEnds ls ls') {s : AttrStore}
    {c : Contents} (ha : AuthorSingle ls) (he : HeaderShows hdr r s ls c) : HeaderShows hdr r s ls' c := by
  induction h generalizing s c with
  | nil => exact he
  | cons h _ ih => cases he with | cons h1 h2 h3 => exact .cons (h.effect ha.head h1) (h.shows h2) (ih ha.tail h3)

omit [Uni] in
theorem HeaderEnds.entry {ls ls' : List HLine} (h : HeaderEnds ls ls') {n : Text} {k : EntryKind} (hm : HLine.entry n k ∈ ls) :
    ∃ k', HLine.entry n k' ∈ ls' := by
  induction h with
  | nil => cases hm
  | cons h _ ih =>
    rcases List.mem_cons.mp hm with e | hm
    · cases h with
      | refl => exact ⟨k, by rw [e]; simp⟩
      | @entry _ _ k' _ => cases e; exact ⟨k', by simp⟩
    · obtain ⟨k', hk⟩ := ih hm
      exact ⟨k', List.mem_cons_of_mem _ hk⟩

theorem Spec.AuthorEffect.det {r : Renderer} {s a b : AttrStore} {n : Text} {k : EntryKind} (h : AuthorEffect r s n k a)
    (h' : AuthorEffect r s n k b) : a = b := by
  cases h with
  | other h =>
    cases h' with
    | author h1 _ => exact absurd h1 h
    | _ => rfl
  | noValue h =>
    cases h' with
    | author _ _ => exact absurd rfl (h _)
    | _ => rfl
  | blank h =>
    cases h' with
    | author _ h2 => rw [h] at h2; cases h2
    | _ => rfl
  | author h1 h2 =>
    cases h' with
    | other h => exact absurd h1 h
    | noValue h => exact absurd rfl (h _)
    | blank h => rw [h] at h2; cases h2
    | author _ h3 => rw [h2] at h3; cases h3; rfl

theorem Spec.LineEffect.det {hdr : HeaderSubs} {r : Renderer} {s a b : AttrStore} {l : HLine} (h : LineEffect hdr r s l a)
    (h' : LineEffect hdr r s l b) : a = b := by
  cases h with
  | blank => cases h'; rfl
  | comment => cases h'; rfl
  | entry h1 h2 => cases h' with | entry h3 h4 => rw [h1.det h3, h2.det h4]
  | title h1 => cases h' with | title h2 => rw [h1] at h2; cases h2; rfl
  | author h1 => cases h' with | author h2 => rw [h1] at h2; cases h2; rfl
  | revision h1 => cases h' with | revision h2 => rw [h1] at h2; cases h2; rfl

theorem Spec.LineShows.det {hdr : HeaderSubs} {r : Renderer} {s : AttrStore} {a b : Contents} {l : HLine} (h : LineShows hdr r s l a)
    (h' : LineShows hdr r s l b) : a = b := by
  cases h with
  | blank => cases h'; rfl
  | comment => cases h'; rfl
  | entry h1 => cases h' with | entry h3 => rw [h1.det h3]
  | title h1 => cases h' with | title h2 => rw [h1] at h2; cases h2; rfl
  | author h1 => cases h' with | author h2 => rw [h1] at h2; cases h2; rfl
  | revision h1 => cases h' with | revision h2 => rw [h1] at h2; cases h2; rfl

theorem Spec.HeaderShows.det {hdr : HeaderSubs} {r : Renderer} {s : AttrStore} {a b : Contents} {ls : List HLine}
    (h : HeaderShows hdr r s ls a) (h' : HeaderShows hdr r s ls b) : a = b := by
  induction h generalizing b with
  | nil => cases h'; rfl
  | cons h1 h2 _ ih =>
    cases h' with
    | cons g1 g2 g3 =>
      rw [h2.det g2]
      rw [← h1.det g1] at g3
      rw [ih g3]

end Adoc
