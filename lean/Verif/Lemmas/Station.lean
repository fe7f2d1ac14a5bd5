import Verif.Lemmas.Bound
import Verif.Lemmas.Begin
import Verif.Lemmas.Media
import Verif.Spec.Stall
/-!
# Where blocks are looked for

The places at which the block parser looks for a block, in terms of the lines of the document.
-/

namespace Adoc
open Span Spec Props

/-! ### Lines -/

theorem firstLine_lines {t l sep rest : Text} (h : FirstLine t l sep rest) (ht : t ≠ []) :
    lines t = trimEndP (· == ' ') l :: lines rest := by
  have e1 := Spec.FirstLine.takeLine_eq (s := Span.new t) h
  have d1 := takeLine_data (s := Span.new t) h.eq e1
  have := lines_cons (Span.new t) ht
  rw [normLine_item_data, d1.1, d1.2] at this
  exact this

theorem continued_trim {l : Text} (h : Continued l) : ∃ a, trimEndP (· == ' ') l = a ++ ['\\'] := by
  obtain ⟨a, sp, rfl, hsp⟩ := h
  refine ⟨a, ?_⟩
  rw [show a ++ '\\' :: sp = (a ++ ['\\']) ++ sp by simp, trimEndP_append_all]
  · refine trimEndP_eq_self fun c r hr => ?_
    have := (List.append_inj' hr rfl).2
    cases this; rfl
  · rw [List.all_eq_true]; intro c hc; rw [hsp c hc]; rfl

/-- The lines an entry extends over. -/
theorem extent_span {t c sep rest : Text} (h : Extent t c sep rest) (ht : t ≠ []) :
    ∃ l cs, lines t = l :: cs ++ lines rest ∧ ∀ x ∈ (l :: cs).dropLast, ∃ a, x = a ++ ['\\'] := by
  induction h with
  | last h _ => exact ⟨_, [], firstLine_lines h ht, by simp⟩
  | more h hc hr _ ih =>
    obtain ⟨l2, cs, e, hx⟩ := ih hr
    refine ⟨_, l2 :: cs, by rw [firstLine_lines h ht, e]; rfl, ?_⟩
    intro x hm
    rw [List.dropLast_cons₂, List.mem_cons] at hm
    rcases hm with rfl | hm
    · exact continued_trim hc
    · exact hx x hm

theorem first_head {s : Span} {c : Char} {r l : Text} {ls : List Text} (h : s.data = c :: r) (hl : lines s.data = l :: ls)
    (hc : c ≠ ' ' ∧ c ≠ '\r' ∧ c ≠ '\n') : l.head? = some c := by
  have h1 := lines_cons s (by rw [h]; simp)
  rw [hl] at h1
  obtain ⟨h2, _⟩ := List.cons.inj h1
  obtain ⟨w, e, hw⟩ := normLine_rest s
  rw [← h2, h] at e
  cases l with
  | nil =>
    rcases hw c r e.symm with h | h | h
    · exact absurd h hc.1
    · exact absurd h hc.2.1
    · exact absurd h hc.2.2
  | cons d x =>
    obtain ⟨rfl, _⟩ := List.cons.inj e
    rfl

theorem normLine_offset (s : Span) : s.takeNormalizedLine.item.offset = s.offset := by
  obtain ⟨i, k, h, _, _⟩ := normLine_shape s
  rw [h]; exact takeN_offset _ _

/-! ### Stations -/

/-- The first of the lines is not blank, unless the lines in front end abruptly. -/
def Ready (A : List Text) (t : Text) : Prop := (∀ l r, lines t = l :: r → l.all isBlank = false) ∨ Abrupt A

/-- The lines of `s` are lines of the document, up to its end or up to a delimiter. -/
def Place (doc : Text) (s : Span) (A : List Text) : Prop :=
  (∃ B, lines doc = A ++ lines s.data ++ B ∧ (B = [] ∨ ∃ d r, B = d :: r ∧ CompoundDelim d)) ∧ ∀ c ∈ s.data, c ∈ doc

/-- A place at which a block is looked for. -/
def Station (doc : Text) (s : Span) (A : List Text) : Prop := Place doc s A ∧ Ready A s.data

theorem Abrupt.prepend {T : List Text} (h : Abrupt T) (A : List Text) : Abrupt (A ++ T) := by
  cases h with
  | delimiter h => rw [← List.append_assoc]; exact .delimiter h
  | entry h1 h2 => rw [← List.append_assoc]; exact .entry h1 h2

/-- From `s` the parser moves on to `a`. -/
def Moves (s a : Span) (T : List Text) : Prop := lines s.data = T ++ lines a.data ∧ ∀ c ∈ a.data, c ∈ s.data

theorem Moves.trans {s a b : Span} {T U : List Text} (h : Moves s a T) (h' : Moves a b U) : Moves s b (T ++ U) :=
  ⟨by rw [h.1, h'.1, List.append_assoc], fun c hc => h.2 c (h'.2 c hc)⟩

theorem Place.moves {doc : Text} {s a : Span} {A T : List Text} (h : Place doc s A) (hm : Moves s a T) : Place doc a (A ++ T) := by
  obtain ⟨⟨B, h1, h2⟩, h3⟩ := h
  exact ⟨⟨B, by rw [h1, hm.1]; simp, h2⟩, fun c hc => h3 c (hm.2 c hc)⟩

theorem Ready.prepend {T : List Text} {t : Text} (h : Ready T t) (A : List Text) : Ready (A ++ T) t :=
  h.imp id fun h => Abrupt.prepend h A

theorem Station.moves {doc : Text} {s a : Span} {A T : List Text} (h : Station doc s A) (hm : Moves s a T)
    (hr : Ready T a.data) : Station doc a (A ++ T) :=
  ⟨h.1.moves hm, hr.prepend A⟩

theorem moves_skip (s : Span) (n : Nat) : Moves s (s.skip n) ((lines s.data).take n) :=
  ⟨by rw [lines_skip, List.take_append_drop], fun _ hc => sub_mem (skip_suf s n).sub hc⟩

theorem moves_discard (s : Span) : ∃ T, Moves s s.discardEmptyLines T := by
  obtain ⟨k, h⟩ := discardEmptyLines_skipN s
  rw [h]; exact ⟨_, moves_skip s k⟩

theorem ready_discard (T : List Text) (s : Span) : Ready T s.discardEmptyLines.data := by
  left
  intro l r h
  rw [lines_discardEmptyLines] at h
  have := List.head?_dropWhile_not (fun x : Text => x.all isBlank) (lines s.data)
  rw [h] at this
  simpa using this

theorem ready_nil (T : List Text) {a : Span} (h : a.data = []) : Ready T a.data := by
  left
  intro l r h'
  rw [h] at h'; cases h'

/-- Blank lines are skipped. -/
theorem Place.discard {doc : Text} {s : Span} {A : List Text} (h : Place doc s A) :
    ∃ T, Station doc s.discardEmptyLines (A ++ T) := by
  obtain ⟨T, hT⟩ := moves_discard s
  exact ⟨T, h.moves hT, ready_discard _ _⟩

/-- `a` lies some lines behind the beginning of `s`. -/
def Skips (s a : Span) : Prop := ∃ n, a = s.skip n

theorem Skips.trans {s a b : Span} (h : Skips s a) (h' : Skips a b) : Skips s b := by
  obtain ⟨n, rfl⟩ := h
  obtain ⟨k, rfl⟩ := h'
  exact ⟨n + k, skip_add _ _ _⟩

theorem skips_discard (s : Span) : Skips s s.discardEmptyLines := discardEmptyLines_skipN s

theorem Skips.moves {s a : Span} (h : Skips s a) : ∃ T, Moves s a T := by
  obtain ⟨n, rfl⟩ := h
  exact ⟨_, moves_skip s n⟩

theorem parseLines_skips {subs : Subs} {store : AttrStore} {s : Span} {al : Option Attrlist}
    {mi : MI (Content × SimpleStyle)} (h : parseLines subs store s al = .ok (some mi)) : Skips s mi.after := by
  obtain ⟨k, raw, taken, texts, _, _, _, _, _, _, h7⟩ := parseLines_spec subs store s al
  rw [h7] at h
  split at h
  · cases h
  · generalize subs _ _ _ _ = a at h
    cases a with
    | error x => cases h
    | ok r =>
      cases h
      exact Skips.trans ⟨k, rfl⟩ (skips_discard _)

theorem simple_skips {subs : Subs} {store : AttrStore} {m : BlockMetadata} {sb : SimpleBlock} {after : Span}
    (h : SimpleBlock.parse subs store m = .ok (some ⟨sb, after⟩)) :
    ∃ a, Skips m.blockStart a ∧ after = a.discardEmptyLines := by
  unfold SimpleBlock.parse at h
  simp only [bind, Except.bind] at h
  cases hp : parseLines subs store m.blockStart m.fields.attrlist with
  | error x => rw [hp] at h; cases h
  | ok q =>
    rw [hp] at h
    cases q with
    | none => cases h
    | some mi =>
      simp only at h
      cases ht : m.source.trimRemainder? mi.after with
      | none => rw [ht] at h; cases h
      | some src =>
        rw [ht] at h
        cases h
        exact ⟨_, parseLines_skips hp, rfl⟩

variable [Uni]

theorem meta_skips {subs : Subs} {store : AttrStore} {s : Span} {m : BlockMetadata} {ws : List Warning}
    (h : BlockMetadata.parse subs store s = .ok (m, ws)) : Skips s m.source ∧ Skips m.source m.blockStart := by
  obtain ⟨_, ⟨n, _, h2⟩, _⟩ := Props.C27_spans h
  refine ⟨?_, n, h2⟩
  rw [meta_source h]; exact skips_discard s

theorem media_skips {subs : Subs} {store : AttrStore} {m : BlockMetadata} {mb : MediaBlock} {after : Span}
    {ws : List Warning} (h : MediaBlock.parse subs store m = .ok (some (⟨mb, after⟩, ws))) :
    after = m.blockStart.takeLine.after.discardEmptyLines := by
  unfold MediaBlock.parse at h
  simp only at h
  split at h
  · cases h
  split at h
  · cases h
  split at h
  · cases h
  split at h
  · cases h
  split at h
  · cases h
  split at h
  · cases h
  simp only [bind, Except.bind] at h
  generalize Attrlist.parse _ _ _ _ = q at h
  cases q with
  | error e => cases h
  | ok q =>
    simp only at h
    cases hs : m.source.trimRemainder? m.blockStart.takeNormalizedLine.after with
    | none => rw [hs] at h; cases h
    | some src =>
      rw [hs] at h
      simp only [Res.ofOption] at h
      cases ht : trimmedLength src with
      | error x => rw [ht] at h; cases h
      | ok src' =>
        rw [ht] at h
        cases h
        rfl

omit [Uni] in
theorem break_skips {m : BlockMetadata} {ty : BreakType} {src after : Span}
    (h : Break.parse m = .ok (some ⟨(ty, src), after⟩)) : after = m.blockStart.takeLine.after.discardEmptyLines := by
  unfold Break.parse at h
  simp only at h
  split at h
  · cases h
  simp only [bind, Except.bind] at h
  cases hs : m.source.trimRemainder? m.blockStart.takeNormalizedLine.after with
  | none => rw [hs] at h; cases h
  | some src =>
    rw [hs] at h
    simp only [Res.ofOption] at h
    cases ht : trimmedLength src with
    | error x => rw [ht] at h; cases h
    | ok src' =>
      rw [ht] at h
      cases h
      rfl

omit [Uni] in
/-- From the closing delimiter on. -/
theorem closed_moves {s a : Span} {X pre post : List Text} {d : Text} (ha : Skips s a)
    (hl : lines s.data = X ++ pre ++ d :: post) (hp : lines a.data = post)
    (hd : (∃ c, RawDelim c d) ∨ CompoundDelim d) : ∃ T, Moves s a T ∧ Ready T a.data := by
  obtain ⟨n, rfl⟩ := ha
  refine ⟨X ++ pre ++ [d], ⟨by rw [hl, hp]; simp, (moves_skip s n).2⟩, Or.inr (.delimiter hd)⟩

omit [Uni] in
theorem entry_moves {hdr : Text → Res Text} {s : Span} {a : Attribute} {after : Span}
    (h : Attribute.parse hdr s = .ok (some ⟨a, after⟩)) : ∃ T, Moves s after T ∧ Ready T after.data := by
  obtain ⟨c, sep, rest, hx⟩ := extent_exists s.data
  obtain ⟨u, hu⟩ := stripSpaces_exists c
  by_cases he : ∃ n k, Entry u n k
  · obtain ⟨n, k, he⟩ := he
    obtain ⟨nm, vs, h1, h2, h3, h4, h5⟩ := parse_entry (hdr := hdr) hx hu he
    rw [h] at h5
    cases hk : kindValue hdr k with
    | error e => rw [hk] at h5; cases h5
    | ok v =>
      rw [hk] at h5
      simp only [Except.map, Except.ok.injEq, Option.some.injEq, MI.mk.injEq] at h5
      obtain ⟨rfl, rfl⟩ := h5
      obtain ⟨y, rfl⟩ := he.head
      obtain ⟨sp, rfl, _⟩ := hu
      have hd : s.data = ':' :: (y ++ sp ++ sep ++ rest) := by rw [(extent_term hx).1]; simp
      have hr : (s.dropN ((':' :: y ++ sp).length + sep.length)).data = rest := by
        rw [dropN_data, (extent_term hx).1, ← List.length_append]; exact List.drop_left
      obtain ⟨l, cs, e1, e2⟩ := extent_span hx (by rw [hd]; simp)
      refine ⟨l :: cs, ⟨by rw [hr]; exact e1, fun c hc => ?_⟩, Or.inr ?_⟩
      · exact sub_mem (dropN_suf _ _).sub hc
      · have := Abrupt.entry (ls := []) (first_head hd e1 (by decide)) e2
        simpa using this
  · have := parse_no_entry (hdr := hdr) hx hu (fun n k h => he ⟨n, k, h⟩)
    rw [this] at h
    cases h

theorem leaf_moves {e : BlockEnv} {p p' : ParserState} {s after : Span} {b : Block} {ws : List Warning}
    (h : LeafStep e p s (some ⟨b, after⟩) ws p') : ∃ T, Moves s after T ∧ Ready T after.data := by
  have disc : ∀ {a : Span}, Skips s a → ∃ T, Moves s a.discardEmptyLines T ∧ Ready T a.discardEmptyLines.data := by
    intro a ha
    obtain ⟨T, hT⟩ := (ha.trans (skips_discard a)).moves
    exact ⟨T, hT, ready_discard _ _⟩
  generalize hr : (some (⟨b, after⟩ : MI Block)) = r at h
  cases h with
  | fast hf =>
    cases hr
    obtain ⟨c, r, mi, _, _, _, hp, rfl, rfl⟩ := fast_some hf
    exact disc (parseLines_skips hp)
  | entry hb =>
    cases hr
    unfold bodyEntryAt at hb
    simp only at hb
    split at hb
    · exact entry_moves hb
    · cases hb
  | simple hfb hp =>
    have hm := hfb.parse
    subst hr
    obtain ⟨m', sb, h1, h2, rfl, h3, _⟩ := parseSimple_some hp
    obtain ⟨l1, l2⟩ := meta_skips hm
    obtain ⟨a, g1, rfl⟩ := simple_skips h2
    refine disc ?_
    rcases h3 with ⟨rfl, _⟩ | ⟨rfl, _⟩
    · exact (l1.trans l2).trans g1
    · exact l1.trans g1
  | @raw m mw ws rb after hm hp =>
    cases hr
    obtain ⟨l1, l2⟩ := meta_skips hm.parse
    have hd : ∃ c, RawDelim c m.blockStart.takeNormalizedLine.item.data := by
      apply Classical.byContradiction
      intro hn
      rw [rawBlock_none hn] at hp
      cases hp
    obtain ⟨c, hd⟩ := hd
    obtain ⟨T, hpre⟩ := (l1.trans l2).moves
    rcases rawBlock_spec (subs := e.subs) (store := p.store) rfl hd (meta_suf hm.parse).2 with
      ⟨pre, post, raw, body, src, a, h1, _, _, _, _, _, h2, _, _, h3⟩ | ⟨k, body, src, a, _, _, _, h2, _, h4, _, h3⟩
    · rw [h3] at hp
      generalize e.subs _ _ _ _ = q at hp
      cases q with
      | error x => cases hp
      | ok x =>
        cases hp
        subst h2
        refine closed_moves (X := T ++ [m.blockStart.takeNormalizedLine.item.data]) (pre := pre) (post := post)
          ((l1.trans l2).trans ⟨_, rfl⟩) ?_ ?_ (Or.inl ⟨c, hd⟩)
        · rw [hpre.1, h1]; simp
        · rw [lines_skip, h1]; simp
    · rw [h3] at hp
      cases hp
      subst h2
      obtain ⟨T, hT⟩ := ((l1.trans l2).trans ⟨_, rfl⟩ : Skips s (m.blockStart.skip k)).moves
      exact ⟨T, hT, ready_nil _ h4⟩
  | media hm hp =>
    cases hr
    obtain ⟨l1, l2⟩ := meta_skips hm.parse
    rw [media_skips (mediaAt_some hp).2]
    exact disc ((l1.trans l2).trans ⟨1, rfl⟩)
  | brk hm _ hp =>
    cases hr
    obtain ⟨l1, l2⟩ := meta_skips hm.parse
    rw [break_skips (breakAt_some hp)]
    exact disc ((l1.trans l2).trans ⟨1, rfl⟩)

/-- The nested blocks of a delimited block and what follows the block. -/
theorem compound_moves {subs : Subs} {store : AttrStore} {s : Span} {m : BlockMetadata} {mw : List Warning} {context : Text}
    {inside closing after src : Span} (hm : BlockMetadata.parse subs store s = .ok (m, mw))
    (ho : CompoundOpen m context inside closing after src) :
    (∃ T, Moves s after T ∧ Ready T after.data) ∧
      ∀ {doc A}, Place doc s A → ∃ T, Place doc inside (A ++ T) := by
  obtain ⟨_, hd, hc, hb, _⟩ := ho
  have hd := isCompoundDelimiter_iff.mp hd
  obtain ⟨l1, l2⟩ := meta_skips hm
  have l3 : Skips s m.blockStart.takeNormalizedLine.after := (l1.trans l2).trans ⟨1, rfl⟩
  obtain ⟨T, hT⟩ := l3.moves
  generalize m.blockStart.takeNormalizedLine.after = x at hc hb l3 hT
  generalize m.blockStart.takeNormalizedLine.item.data = d at hc hd
  rcases findClosing_spec d _ x (Nat.le_refl _) with ⟨k, pre, post, l, e1, e2, e3, e4, e5, e6⟩ | ⟨k, e1, e2, e3⟩
  · rcases hc with ⟨rest, hc⟩ | ⟨hc, _⟩
    · rw [e1] at hc
      cases hc
      obtain ⟨raw, r1, r2, r3, _⟩ := trimRemainder?_skip x k
      have hoff : x.trimRemainder? closing = x.trimRemainder? (x.skip k) := by
        apply trimRemainder?_offset
        have : closing = (x.skip k).takeNormalizedLine.item := congrArg MI.item e2
        rw [this, normLine_offset]
      rw [hoff, r2] at hb
      cases hb
      have hafter : after = x.skip (k + 1) := by
        have : after = (x.skip k).takeNormalizedLine.after := congrArg MI.after e2
        rw [this, ← skip_add]; rfl
      have hpre : lines raw = pre := by rw [r3, e3, e5]; simp
      refine ⟨closed_moves (X := T) (pre := pre) (d := d) (post := post) (by rw [hafter]; exact l3.trans ⟨_, rfl⟩)
        (by rw [hT.1, e3]; simp) (by rw [hafter, lines_skip, e3, e5]; simp) (Or.inr hd), ?_⟩
      intro doc A hp
      obtain ⟨⟨B, p1, _⟩, p2⟩ := hp.moves hT
      have hdata : (x.takeN raw.length).data = raw := takeN_prefix r1
      refine ⟨T, ⟨d :: post ++ B, ?_, Or.inr ⟨d, post ++ B, rfl, hd⟩⟩, fun c hc => p2 c ?_⟩
      · rw [hdata, hpre, p1, e3]; simp
      · rw [hdata] at hc
        rw [r1]; exact List.mem_append_left _ hc
    · rw [e1] at hc; cases hc
  · rcases hc with ⟨rest, hc⟩ | ⟨hc, rfl⟩
    · rw [e1] at hc; cases hc
    · rw [e1] at hc
      cases hc
      obtain ⟨raw, r1, r2, r3, _⟩ := trimRemainder?_skip x k
      rw [r2] at hb
      cases hb
      obtain ⟨U, hU⟩ := (l3.trans ⟨k, rfl⟩ : Skips s (x.skip k)).moves
      refine ⟨⟨U, hU, ready_nil _ e2⟩, ?_⟩
      intro doc A hp
      have : x.takeN raw.length = x := by
        apply takeN_all
        rw [r1, e2]; simp
      rw [this]
      exact ⟨_, hp.moves hT⟩

theorem title_moves {subs : Subs} {store : AttrStore} {s : Span} {m : BlockMetadata} {mw tw : List Warning} {ar : Arith}
    {mi : MI (Nat × Span)} (hm : BlockMetadata.parse subs store s = .ok (m, mw))
    (ht : parseTitleLine ar m.blockStart = .ok (some mi, tw)) :
    ∃ T, Moves s mi.after T ∧ m.blockStart.takeNormalizedLine.item.data ∈ T := by
  obtain ⟨l1, l2⟩ := meta_skips hm
  obtain ⟨h1, h2, _⟩ := titleLine_geo ht
  obtain ⟨T, hT⟩ := (l1.trans l2).moves
  have : Moves m.blockStart m.blockStart.takeLine.after [m.blockStart.takeNormalizedLine.item.data] :=
    ⟨lines_cons _ h1, fun _ hc => sub_mem (takeLine_after_suf _).sub hc⟩
  rw [h2]
  exact ⟨_, hT.trans this, by simp⟩

/-- The parser moves from station to station. -/
theorem run_station {e : BlockEnv} {doc : Text} {stop : Stop} {p p' : ParserState} {s s' : Span} {bs : List Block}
    {ws sw : List Warning} (h : Run e stop p s bs s' ws sw p') :
    ∀ {A}, Station doc s A → ∃ T, Station doc s' (A ++ T) := by
  induction h with
  | done _ => intro A hs; exact ⟨[], by rwa [List.append_nil]⟩
  | halt _ _ => intro A hs; exact ⟨[], by rwa [List.append_nil]⟩
  | leaf _ _ hl _ ih =>
    intro A hs
    obtain ⟨T, h1, h2⟩ := leaf_moves hl
    obtain ⟨U, h⟩ := ih (hs.moves h1 h2)
    exact ⟨T ++ U, by rwa [← List.append_assoc]⟩
  | stuck _ _ _ _ ih => exact ih
  | compound _ _ hm ho _ _ _ ih =>
    intro A hs
    obtain ⟨T, h1, h2⟩ := (compound_moves hm.parse ho).1
    obtain ⟨U, h⟩ := ih (hs.moves h1 h2)
    exact ⟨T ++ U, by rwa [← List.append_assoc]⟩
  | «section» _ _ hm hi ht _ _ _ ih1 ih2 =>
    intro A hs
    rw [discard_marked hi] at ht
    obtain ⟨T, hT, _⟩ := title_moves hm.parse ht
    obtain ⟨U, hU⟩ := (hs.1.moves hT).discard
    obtain ⟨V, hV⟩ := ih1 hU
    obtain ⟨W, hW⟩ := ih2 hV
    exact ⟨T ++ U ++ V ++ W, by simpa [List.append_assoc] using hW⟩

end Adoc
