import Verif.Lemmas.Parse
/-!
# Blocks begin at the beginning of a line
-/

namespace Adoc
open Span Spec

/-- `a` is the end of `s`, from the beginning of a line on. -/
def LineSuf (a s : Span) : Prop := Suf a s ∧ (a.data = [] ∨ a = s ∨ a.col = 1)

theorem LineSuf.refl (s : Span) : LineSuf s s := ⟨Suf.refl s, Or.inr (Or.inl rfl)⟩

theorem suf_nil {a s : Span} (h : Suf a s) (hs : s.data = []) : a.data = [] := by
  obtain ⟨k, _, rfl⟩ := h
  rw [dropN_data, hs]; simp

theorem LineSuf.trans {a b s : Span} (h : LineSuf a b) (h' : LineSuf b s) : LineSuf a s := by
  refine ⟨h.1.trans h'.1, ?_⟩
  rcases h.2 with h0 | rfl | h1
  · exact Or.inl h0
  · rcases h'.2 with h0 | rfl | h1
    · exact Or.inl h0
    · exact Or.inr (Or.inl rfl)
    · exact Or.inr (Or.inr h1)
  · exact Or.inr (Or.inr h1)

theorem dropN_col_nl {s : Span} {raw : Text} (h : s.data.take k = raw ++ ['\n']) : (s.dropN k).col = 1 := by
  unfold Span.dropN Span.sliceInternal
  rw [h, if_neg (by simp)]
  simp

theorem skip_lineSuf (s : Span) (n : Nat) : LineSuf (s.skip n) s := by
  refine ⟨skip_suf s n, ?_⟩
  obtain ⟨raw, h1, h2, _, h4⟩ := skip_prefix s n
  rcases h4 with h4 | rfl | ⟨r, rfl⟩
  · exact Or.inl h4
  · right; left; rw [h2]; exact dropN_zero s
  · right; right
    rw [h2]
    exact dropN_col_nl (raw := r) (by rw [h1]; exact List.take_left)

theorem discardEmptyLines_lineSuf (s : Span) : LineSuf s.discardEmptyLines s := by
  obtain ⟨k, h⟩ := discardEmptyLines_skipN s
  rw [h]; exact skip_lineSuf s k

theorem takeLine_lineSuf (s : Span) : LineSuf s.takeLine.after s := skip_lineSuf s 1

theorem extent_term {t c sep rest : Text} (h : Extent t c sep rest) : t = c ++ sep ++ rest ∧ IsTerminator sep rest := by
  induction h with
  | last h _ => exact ⟨h.eq, h.term⟩
  | more h _ _ _ ih => exact ⟨by rw [h.eq, ih.1]; simp, ih.2⟩

theorem terminator_lineSuf {s : Span} {c sep rest : Text} (h : s.data = c ++ sep ++ rest) (ht : IsTerminator sep rest) :
    LineSuf (s.dropN (c.length + sep.length)) s := by
  refine ⟨dropN_suf _ _, ?_⟩
  have hd : (s.dropN (c.length + sep.length)).data = rest := by rw [dropN_data, h]; simp
  rcases ht with rfl | rfl | ⟨rfl, _⟩
  · right; right; exact dropN_col_nl (raw := c) (by rw [h]; exact List.take_left' (by simp))
  · right; right; exact dropN_col_nl (raw := c ++ ['\r']) (by rw [h]; simp [List.take_append, List.take_of_length_le])
  · exact Or.inl hd

theorem entry_lineSuf {hdr : Text → Res Text} {s : Span} {a : Attribute} {after : Span}
    (h : Attribute.parse hdr s = .ok (some ⟨a, after⟩)) : LineSuf after s ∧ ∃ k, a.source = s.takeN k := by
  obtain ⟨c, sep, rest, hx⟩ := extent_exists s.data
  obtain ⟨u, hu⟩ := stripSpaces_exists c
  by_cases he : ∃ n k, Entry u n k
  · obtain ⟨n, k, he⟩ := he
    obtain ⟨nm, vs, h1, h2, h3, h4, h5⟩ := parse_entry (hdr := hdr) hx hu he
    rw [h] at h5
    cases hk : kindValue hdr k with
    | error e => rw [hk] at h5; cases h5
    | ok v =>
      rw [hk] at h5
      simp only [Except.map, Except.ok.injEq, Option.some.injEq, MI.mk.injEq] at h5
      obtain ⟨rfl, rfl⟩ := h5
      exact ⟨terminator_lineSuf (extent_term hx).1 (extent_term hx).2, _, rfl⟩
  · have := parse_no_entry (hdr := hdr) hx hu (fun n k h => he ⟨n, k, h⟩)
    rw [this] at h
    cases h

variable [Uni]

theorem meta_lineSuf {subs : Subs} {store : AttrStore} {s : Span} {m : BlockMetadata} {ws : List Warning}
    (h : BlockMetadata.parse subs store s = .ok (m, ws)) : LineSuf m.source s ∧ LineSuf m.blockStart m.source := by
  obtain ⟨_, ⟨n, _, h2⟩, _⟩ := Props.C27_spans h
  refine ⟨?_, by rw [h2]; exact skip_lineSuf _ _⟩
  rw [meta_source h]; exact discardEmptyLines_lineSuf s

omit [Uni] in
theorem parseLines_lineSuf {subs : Subs} {store : AttrStore} {s : Span} {al : Option Attrlist}
    {mi : MI (Content × SimpleStyle)} (h : parseLines subs store s al = .ok (some mi)) :
    LineSuf mi.after s ∧ ∃ k, mi.item.1.original = s.takeN k := by
  obtain ⟨k, raw, taken, texts, _, _, _, _, _, _, h7⟩ := parseLines_spec subs store s al
  rw [h7] at h
  split at h
  · cases h
  · generalize subs _ _ _ _ = a at h
    cases a with
    | error x => cases h
    | ok r =>
      cases h
      exact ⟨(discardEmptyLines_lineSuf _).trans (skip_lineSuf _ _), _, rfl⟩

omit [Uni] in
theorem simple_lineSuf {subs : Subs} {store : AttrStore} {m : BlockMetadata} {sb : SimpleBlock} {after : Span}
    (h : SimpleBlock.parse subs store m = .ok (some ⟨sb, after⟩)) :
    LineSuf after m.blockStart ∧ ∃ k, sb.source = m.source.takeN k := by
  unfold SimpleBlock.parse at h
  simp only [bind, Except.bind] at h
  cases hp : parseLines subs store m.blockStart m.fields.attrlist with
  | error x => rw [hp] at h; cases h
  | ok q =>
    rw [hp] at h
    cases q with
    | none => cases h
    | some mi =>
      simp only at h
      cases ht : m.source.trimRemainder? mi.after with
      | none => rw [ht] at h; cases h
      | some src =>
        rw [ht] at h
        cases h
        obtain ⟨k, _, rfl⟩ := trimRemainder?_some ht
        refine ⟨(discardEmptyLines_lineSuf _).trans (parseLines_lineSuf hp).1, ?_⟩
        unfold Span.trimTrailingWhitespace
        rw [takeN_takeN]; exact ⟨_, rfl⟩

omit [Uni] in
theorem findClosing_lineSuf (d : Text) (s : Span) :
    (∀ l next, findClosing d s.data.length s = (some l, next) → LineSuf l.after s ∧ LineSuf next s) ∧
    (∀ next, findClosing d s.data.length s = (none, next) → LineSuf next s) := by
  rcases findClosing_spec d _ s (Nat.le_refl _) with ⟨k, pre, post, l, h1, rfl, _⟩ | ⟨k, h1, _⟩
  · refine ⟨fun l next h => ?_, fun next h => ?_⟩
    · rw [h1] at h; cases h
      exact ⟨(takeLine_lineSuf _).trans (skip_lineSuf _ _), skip_lineSuf _ _⟩
    · rw [h1] at h; cases h
  · refine ⟨fun l next h => ?_, fun next h => ?_⟩
    · rw [h1] at h; cases h
    · rw [h1] at h; cases h; exact skip_lineSuf _ _

omit [Uni] in
theorem trimTrailingLineEnd_takeN (s : Span) : ∃ k, s.trimTrailingLineEnd = s.takeN k := by
  obtain ⟨k, _, e, _⟩ := trimTrailingLineEnd_spec s
  exact ⟨k, e⟩

omit [Uni] in
theorem raw_lineSuf {subs : Subs} {store : AttrStore} {m : BlockMetadata} {rb : RawBlock} {after : Span}
    {ws : List Warning} (h : RawBlock.parse subs store m = .ok (some (⟨rb, after⟩, ws))) :
    LineSuf after m.blockStart ∧ ∃ k, rb.source = m.source.takeN k := by
  unfold RawBlock.parse at h
  simp only at h
  generalize rawKind _ = a at h
  cases a with
  | none => cases h
  | some a =>
    obtain ⟨model, context, group⟩ := a
    simp only at h
    split at h
    · cases h
    have hf := findClosing_lineSuf m.blockStart.takeNormalizedLine.item.data m.blockStart.takeNormalizedLine.after
    have ha : LineSuf m.blockStart.takeNormalizedLine.after m.blockStart := takeLine_lineSuf _
    generalize findClosing _ _ _ = q at h hf
    obtain ⟨l, next⟩ := q
    cases l with
    | none =>
      simp only [bind, Except.bind] at h
      generalize Res.ofOption (Span.trimRemainder? _ _) = a at h
      cases a with
      | error x => cases h
      | ok body =>
        simp only at h
        cases hs : m.source.trimRemainder? next with
        | none => rw [hs] at h; cases h
        | some src =>
          rw [hs] at h
          cases h
          obtain ⟨k, _, rfl⟩ := trimRemainder?_some hs
          obtain ⟨k', e⟩ := trimTrailingLineEnd_takeN (m.source.takeN k)
          exact ⟨(hf.2 _ rfl).trans ha, _, by rw [e, takeN_takeN]⟩
    | some l =>
      simp only [bind, Except.bind] at h
      generalize Res.ofOption (Span.trimRemainder? _ next) = a at h
      cases a with
      | error x => cases h
      | ok body =>
        simp only at h
        generalize subs _ _ _ _ = a at h
        cases a with
        | error x => cases h
        | ok r =>
          simp only at h
          cases hs : m.source.trimRemainder? l.after with
          | none => rw [hs] at h; cases h
          | some src =>
            rw [hs] at h
            cases h
            obtain ⟨k, _, rfl⟩ := trimRemainder?_some hs
            obtain ⟨k', e⟩ := trimTrailingLineEnd_takeN (m.source.takeN k)
            exact ⟨(hf.1 _ _ rfl).1.trans ha, _, by rw [e, takeN_takeN]⟩

omit [Uni] in
theorem trimmedLength_takeN {s r : Span} (h : trimmedLength s = .ok r) : ∃ k, r = s.takeN k := by
  unfold trimmedLength at h
  cases hs : s.slice? 0 (blen (trim s.data)) with
  | none => rw [hs] at h; cases h
  | some x =>
    rw [hs] at h
    cases h
    obtain ⟨old, mid, post, e1, e2, e3, rfl⟩ := slice?_iff.mp hs
    have := blen_eq_zero.mp e2
    subst this
    refine ⟨mid.length, ?_⟩
    unfold Span.takeN
    rw [e1]; simp

theorem media_lineSuf {subs : Subs} {store : AttrStore} {m : BlockMetadata} {mb : MediaBlock} {after : Span}
    {ws : List Warning} (h : MediaBlock.parse subs store m = .ok (some (⟨mb, after⟩, ws))) :
    LineSuf after m.blockStart ∧ ∃ k, mb.source = m.source.takeN k := by
  unfold MediaBlock.parse at h
  simp only at h
  split at h
  · cases h
  split at h
  · cases h
  split at h
  · cases h
  split at h
  · cases h
  split at h
  · cases h
  split at h
  · cases h
  simp only [bind, Except.bind] at h
  generalize Attrlist.parse _ _ _ _ = q at h
  cases q with
  | error e => cases h
  | ok q =>
    simp only at h
    cases hs : m.source.trimRemainder? m.blockStart.takeNormalizedLine.after with
    | none => rw [hs] at h; cases h
    | some src =>
      rw [hs] at h
      simp only [Res.ofOption] at h
      cases ht : trimmedLength src with
      | error x => rw [ht] at h; cases h
      | ok src' =>
        rw [ht] at h
        cases h
        obtain ⟨k, _, rfl⟩ := trimRemainder?_some hs
        obtain ⟨k', rfl⟩ := trimmedLength_takeN ht
        exact ⟨(discardEmptyLines_lineSuf _).trans (takeLine_lineSuf _), _, by rw [takeN_takeN]⟩

omit [Uni] in
theorem break_lineSuf {m : BlockMetadata} {ty : BreakType} {src after : Span}
    (h : Break.parse m = .ok (some ⟨(ty, src), after⟩)) :
    LineSuf after m.blockStart ∧ ∃ k, src = m.source.takeN k := by
  unfold Break.parse at h
  simp only at h
  split at h
  · cases h
  simp only [bind, Except.bind] at h
  cases hs : m.source.trimRemainder? m.blockStart.takeNormalizedLine.after with
  | none => rw [hs] at h; cases h
  | some src =>
    rw [hs] at h
    simp only [Res.ofOption] at h
    cases ht : trimmedLength src with
    | error x => rw [ht] at h; cases h
    | ok src' =>
      rw [ht] at h
      cases h
      obtain ⟨k, _, rfl⟩ := trimRemainder?_some hs
      obtain ⟨k', rfl⟩ := trimmedLength_takeN ht
      exact ⟨(discardEmptyLines_lineSuf _).trans (takeLine_lineSuf _), _, by rw [takeN_takeN]⟩

theorem fast_some {e : BlockEnv} {p : ParserState} {s : Span} {sb : SimpleBlock} {after : Span}
    (h : fastPath e p s = .ok (some ⟨sb, after⟩)) :
    ∃ c r mi, s.data = c :: r ∧ isMarker c = false ∧ containsSub s.takeLine.item.data [':', ':'] = false ∧
      parseLines e.subs p.store s none = .ok (some mi) ∧ sb = ⟨mi.item.1, mi.item.2, mi.item.1.original⟩ ∧
      after = mi.after.discardEmptyLines := by
  unfold fastPath at h
  cases hd : s.data with
  | nil => rw [hd] at h; cases h
  | cons c r =>
    rw [hd] at h
    simp only [List.head?_cons] at h
    split at h
    · rename_i hc
      rw [Bool.and_eq_true, Bool.not_eq_true', Bool.not_eq_true'] at hc
      unfold SimpleBlock.parseFast at h
      simp only [bind, Except.bind] at h
      cases hp : parseLines e.subs p.store s none with
      | error x => rw [hp] at h; cases h
      | ok q =>
        rw [hp] at h
        cases q with
        | none => cases h
        | some mi =>
          cases h
          exact ⟨c, r, mi, rfl, hc.1, hc.2, rfl, rfl, rfl⟩
    · cases h

/-- Where a block without nested blocks begins. -/
theorem leaf_lineSuf {e : BlockEnv} {p p' : ParserState} {s after : Span} {b : Block} {ws : List Warning}
    (h : LeafStep e p s (some ⟨b, after⟩) ws p') :
    LineSuf after s ∧ ∃ body k, LineSuf body s ∧ b.source = body.takeN k := by
  generalize hr : (some (⟨b, after⟩ : MI Block)) = r at h
  cases h with
  | fast hf =>
    cases hr
    obtain ⟨c, r, mi, _, _, _, hp, rfl, rfl⟩ := fast_some hf
    obtain ⟨h1, k, h2⟩ := parseLines_lineSuf hp
    exact ⟨(discardEmptyLines_lineSuf _).trans h1, s, k, LineSuf.refl s, h2⟩
  | entry hb =>
    cases hr
    unfold bodyEntryAt at hb
    simp only at hb
    split at hb
    · obtain ⟨h1, k, h2⟩ := entry_lineSuf hb
      exact ⟨h1, s, k, LineSuf.refl s, h2⟩
    · cases hb
  | simple hfb hp =>
    have hm := hfb.parse
    subst hr
    obtain ⟨m', sb, h1, h2, rfl, h3, _⟩ := parseSimple_some hp
    obtain ⟨l1, l2⟩ := meta_lineSuf hm
    obtain ⟨g1, k, g2⟩ := simple_lineSuf h2
    refine ⟨?_, _, k, l1, by rw [← h1]; exact g2⟩
    rcases h3 with ⟨rfl, _⟩ | ⟨rfl, _⟩
    · exact g1.trans (l2.trans l1)
    · exact g1.trans l1
  | raw hm hp =>
    cases hr
    obtain ⟨l1, l2⟩ := meta_lineSuf hm.parse
    obtain ⟨g1, k, g2⟩ := raw_lineSuf hp
    exact ⟨g1.trans (l2.trans l1), _, k, l1, g2⟩
  | media hm hp =>
    cases hr
    obtain ⟨l1, l2⟩ := meta_lineSuf hm.parse
    obtain ⟨g1, k, g2⟩ := media_lineSuf (mediaAt_some hp).2
    exact ⟨g1.trans (l2.trans l1), _, k, l1, g2⟩
  | brk hm _ hp =>
    cases hr
    obtain ⟨l1, l2⟩ := meta_lineSuf hm.parse
    obtain ⟨g1, k, g2⟩ := break_lineSuf (breakAt_some hp)
    exact ⟨g1.trans (l2.trans l1), _, k, l1, g2⟩

/-- Where the nested blocks of a delimited block begin, and what follows the block. -/
theorem compound_lineSuf {m : BlockMetadata} {context : Text} {inside closing after src : Span}
    (ho : CompoundOpen m context inside closing after src) :
    LineSuf after m.blockStart ∧ (∃ k, inside = m.blockStart.takeLine.after.takeN k) ∧ ∃ k, src = m.source.takeN k := by
  obtain ⟨_, _, hc, hb, hw⟩ := ho
  have hf := findClosing_lineSuf m.blockStart.takeNormalizedLine.item.data m.blockStart.takeNormalizedLine.after
  have ha : LineSuf m.blockStart.takeNormalizedLine.after m.blockStart := takeLine_lineSuf _
  obtain ⟨k, _, h1⟩ := trimRemainder?_some hb
  obtain ⟨k', _, h2⟩ := trimRemainder?_some hw
  refine ⟨?_, ⟨k, h1⟩, k', h2⟩
  rcases hc with ⟨rest, hc⟩ | ⟨hc, rfl⟩
  · exact (hf.1 _ _ hc).1.trans ha
  · exact (hf.2 _ hc).trans ha

/-- The span begins in the first column. -/
def Aligned (s : Span) : Prop := s.data = [] ∨ s.col = 1

omit [Uni] in
theorem Aligned.of_lineSuf {a s : Span} (h : Aligned s) (ha : LineSuf a s) : Aligned a := by
  rcases ha.2 with h0 | rfl | h1
  · exact Or.inl h0
  · exact h
  · exact Or.inr h1

omit [Uni] in
theorem Aligned.takeN {s : Span} (h : Aligned s) (k : Nat) : Aligned (s.takeN k) := by
  rcases h with h | h
  · left; rw [takeN_data, h]; simp
  · exact Or.inr h

/-! ### The header ends at the end of a line -/

omit [Uni] in
theorem firstLine_lineSuf {s : Span} {l sep rest : Text} (h : FirstLine s.data l sep rest) :
    ∃ a, LineSuf a s ∧ a.data = rest :=
  ⟨_, terminator_lineSuf h.eq h.term, by rw [dropN_data, h.eq]; simp⟩

omit [Uni] in
theorem skipEmpty_lineSuf {t u : Text} (h : SkipEmpty t u) : ∀ s : Span, s.data = t → ∃ a, LineSuf a s ∧ a.data = u := by
  induction h with
  | stop _ => exact fun s hs => ⟨s, LineSuf.refl s, hs⟩
  | skip _ hf _ _ ih =>
    rintro s rfl
    obtain ⟨a, h1, h2⟩ := firstLine_lineSuf hf
    obtain ⟨b, h3, h4⟩ := ih a h2
    exact ⟨b, h3.trans h1, h4⟩

omit [Uni] in
theorem headerLine_lineSuf {s1 s2 : Stage} {s : Span} {l : HLine} {rest : Text} (h : HeaderLine s1 s.data l s2 rest) :
    ∃ a, LineSuf a s ∧ a.data = rest := by
  have hl : ∀ {l : Text}, HeadLine s.data l rest → ∃ a, LineSuf a s ∧ a.data = rest :=
    fun ⟨_, _, hf, _⟩ => firstLine_lineSuf hf
  cases h with
  | blank h => exact hl h
  | comment h _ => exact hl h
  | entry h =>
    obtain ⟨c, sep, u, h, _⟩ := h
    obtain ⟨h1, h2⟩ := extent_term h
    exact ⟨_, terminator_lineSuf h1 h2, by rw [dropN_data, h1]; simp⟩
  | title h _ _ => exact hl h
  | author h => exact hl h.1
  | revision h => exact hl h.1

omit [Uni] in
theorem headerReads_lineSuf {s1 s2 : Stage} {t rest : Text} {ls : List HLine} (h : HeaderReads s1 t ls s2 rest) :
    ∀ s : Span, s.data = t → ∃ a, LineSuf a s ∧ a.data = rest := by
  induction h with
  | stop _ => exact fun s hs => ⟨s, LineSuf.refl s, hs⟩
  | line _ hl _ ih =>
    rintro s rfl
    obtain ⟨a, h1, h2⟩ := headerLine_lineSuf hl
    obtain ⟨b, h3, h4⟩ := ih a h2
    exact ⟨b, h3.trans h1, h4⟩

omit [Uni] in
theorem suf_unique {a b s : Span} (ha : Suf a s) (hb : Suf b s) (h : a.data = b.data) : a = b := by
  obtain ⟨k, hk, rfl⟩ := ha
  obtain ⟨l, hl, rfl⟩ := hb
  have := congrArg List.length h
  simp only [dropN_data, List.length_drop] at this
  rw [show k = l by omega]

theorem header_aligned {hdr : HeaderSubs} {r : Renderer} {store store' : AttrStore} {doc : Text} {mi : MI Header}
    {ws : List Warning} (h : Header.parse hdr r store (Span.new doc) = .ok (mi, ws, store')) : Aligned mi.after := by
  obtain ⟨ls, stage, rest, h1, h2, _⟩ := Props.C47_reads h
  obtain ⟨a, g1, g2⟩ := headerReads_lineSuf h1 (Span.new doc) rfl
  obtain ⟨b, g3, g4⟩ := skipEmpty_lineSuf h2 a g2
  have := suf_unique (Props.header_suf h) (g3.trans g1).1 g4.symm
  rw [this]
  exact Aligned.of_lineSuf (Or.inr rfl) (g3.trans g1)

end Adoc
