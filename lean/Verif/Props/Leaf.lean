import Verif.Lemmas.Leaf
import Verif.Props.Metadata
/-!
# C24, C43: delimited blocks with verbatim content, and paragraphs
-/

namespace Adoc.Props
open Adoc Adoc.Spec Span

/-! ### C24 -/

/-- There is such a block exactly when the first line is a delimiter. -/
theorem C24_recognised (subs : Subs) (store : AttrStore) (m : BlockMetadata) (hm : Suf m.blockStart m.source) :
    RawBlock.parse subs store m = .ok none ↔ ¬ ∃ c, RawDelim c m.blockStart.takeNormalizedLine.item.data := by
  constructor
  · rintro h ⟨c, hc⟩
    rcases rawBlock_spec (subs := subs) (store := store) rfl hc hm with
      ⟨_, _, _, _, _, _, _, _, _, _, _, _, _, _, _, e⟩ | ⟨_, _, _, _, _, _, _, _, _, _, _, e⟩
    · rw [e] at h
      generalize subs _ _ _ _ = q at h
      cases q <;> cases h
    · rw [e] at h; cases h
  · exact rawBlock_none

/-- A closed block: when the lines are the delimiter, some others, and the delimiter again, the content is exactly the
text of the others without the last line end; its kind is that of the delimiter; substitutions are applied to this text
as a whole; parsing goes on behind the closing line; nothing is reported. -/
theorem C24_closed {subs : Subs} {store : AttrStore} {m : BlockMetadata} (hm : Suf m.blockStart m.source) {c : Char}
    {d : Text} (hd : RawDelim c d) {pre post : List Text} (hl : lines m.blockStart.data = d :: pre ++ d :: post)
    (hpre : d ∉ pre) {b : RawBlock} {after : Span} {ws : List Warning}
    (h : RawBlock.parse subs store m = .ok (some (⟨b, after⟩, ws))) :
    ∃ head raw tail, m.blockStart.data = head ++ raw ++ tail ∧ lines head = [d] ∧ WholeLines head ∧ lines raw = pre ∧
      WholeLines raw ∧ lines tail = d :: post ∧ WithoutLineEnd raw b.content.original.data ∧
      b.content.original.offset = m.blockStart.offset + (String.ofList head).utf8ByteSize ∧
      (b.model, b.context) = ((rawBlockKind c).1, (rawBlockKind c).2.1) ∧
      b.group = (rawBlockKind c).2.2.overrideViaAttrlist m.fields.attrlist ∧
      subs store b.group m.fields.attrlist b.content.original.data = .ok b.content.rendered ∧
      lines after.data = post ∧ ws = [] := by
  have hne : m.blockStart.data ≠ [] := by intro h0; rw [h0] at hl; cases hl
  have hlc := lines_cons m.blockStart hne
  rw [hl, List.cons_append, List.cons.injEq] at hlc
  have hafter : pre ++ d :: post = lines m.blockStart.takeLine.after.data := hlc.2
  rcases rawBlock_spec (subs := subs) (store := store) hlc.1.symm hd hm with
    ⟨pre', post', raw, body, src, aft, e1, e2, e3, e4, e5, e6, e7, e7', e8, e9⟩ | ⟨k, body, src, aft, e1, e2, _⟩
  · have hpp : pre = pre' ∧ post = post' := by
      rw [hl, List.cons_append, List.cons_append, List.cons.injEq] at e1
      rcases List.append_eq_append_iff.mp e1.2 with ⟨z, rfl, hz⟩ | ⟨z, rfl, hz⟩
      · cases z with
        | nil => simp at hz; simp [hz]
        | cons x xs => simp at hz; exact absurd (by simp [← hz.1]) e2
      · cases z with
        | nil => simp at hz; simp [hz]
        | cons x xs => simp at hz; exact absurd (by simp [← hz.1]) hpre
    obtain ⟨rfl, rfl⟩ := hpp
    rw [e9] at h
    cases hs : subs store ((rawBlockKind c).2.2.overrideViaAttrlist m.fields.attrlist) m.fields.attrlist body.data with
    | error e => rw [hs] at h; cases h
    | ok r =>
      rw [hs] at h
      cases h
      obtain ⟨head, t1, t2, t3, t4⟩ := skip_prefix m.blockStart 1
      have e3' : (m.blockStart.skip 1).data = raw ++ ((m.blockStart.skip 1).skip pre.length).data := e3
      have ht : lines ((m.blockStart.skip 1).skip pre.length).data = d :: post := by
        rw [skip_add, lines_skip, hl]
        rw [show 1 + pre.length = pre.length + 1 by omega]; simp
      have hb : body = ((m.blockStart.skip 1).takeN raw.length).trimTrailingLineEnd := e6
      obtain ⟨k, k1, k2, k3⟩ := trimTrailingLineEnd_spec ((m.blockStart.skip 1).takeN raw.length)
      rw [k2] at hb
      have hraw : ((m.blockStart.skip 1).takeN raw.length).data = raw := takeN_prefix e3'
      refine ⟨head, raw, _, ?_, ?_, ?_, e5, e4, ht, ?_, ?_, rfl, rfl, hs, ?_, rfl⟩
      · conv => lhs; rw [t1, e3']
        simp
      · rw [t3, hl]; rfl
      · rcases t4 with h0 | h0
        · rw [h0] at e3'
          have := (List.append_eq_nil_iff.mp e3'.symm).2
          rw [this] at ht; cases ht
        · exact h0
      · show WithoutLineEnd raw body.data
        rw [hb, takeN_data, hraw]
        rw [hraw] at k3; exact k3
      · show body.offset = _
        rw [hb, takeN_offset, takeN_offset, t2, dropN_offset, ← blen_eq_utf8ByteSize]
        congr 2
        rw [t1]; simp
      · rw [e7, lines_skip, hl]
        simp
  · exfalso
    rw [← hafter] at e2
    exact e2 (by simp)

/-- An unterminated block: when the delimiter does not occur again, the content is the rest of the text without its last
line end, substitutions are not applied, the delimiter is reported, and nothing is left. -/
theorem C24_unterminated {subs : Subs} {store : AttrStore} {m : BlockMetadata} (hm : Suf m.blockStart m.source) {c : Char}
    {d : Text} (hd : RawDelim c d) {ls : List Text} (hl : lines m.blockStart.data = d :: ls) (hls : d ∉ ls) :
    ∃ b after w, RawBlock.parse subs store m = .ok (some (⟨b, after⟩, [w])) ∧
      (∃ head raw, m.blockStart.data = head ++ raw ∧ lines head = [d] ∧ (raw = [] ∨ WholeLines head) ∧ lines raw = ls ∧
        WithoutLineEnd raw b.content.original.data ∧
        b.content.original.offset = m.blockStart.offset + (String.ofList head).utf8ByteSize) ∧
      b.content.rendered = b.content.original.data ∧
      (b.model, b.context, b.group) = rawBlockKind c ∧
      after.data = [] ∧ w.warning = .unterminatedDelimitedBlock ∧ w.source = m.blockStart.takeNormalizedLine.item ∧
      w.source.data = d := by
  have hne : m.blockStart.data ≠ [] := by intro h0; rw [h0] at hl; cases hl
  have hlc := lines_cons m.blockStart hne
  rw [hl, List.cons.injEq] at hlc
  rcases rawBlock_spec (subs := subs) (store := store) hlc.1.symm hd hm with
    ⟨pre', post', raw, body, src, aft, e1, _⟩ | ⟨k, body, src, aft, e1, e2, e3, e4, e5, e6, e7, e8⟩
  · exfalso
    rw [hl, List.cons_append, List.cons.injEq] at e1
    exact hls (by rw [e1.2]; simp)
  · obtain ⟨head, t1, t2, t3, t4⟩ := skip_prefix m.blockStart 1
    obtain ⟨k, k1, k2, k3⟩ := trimTrailingLineEnd_spec (m.blockStart.skip 1)
    have hb : body = (m.blockStart.skip 1).trimTrailingLineEnd := e3
    rw [k2] at hb
    refine ⟨_, _, _, e8, ⟨head, (m.blockStart.skip 1).data, t1, by rw [t3, hl]; rfl, t4, ?_, ?_, ?_⟩, rfl, rfl, e6, rfl, rfl,
      hlc.1.symm⟩
    · rw [lines_skip, hl]; rfl
    · show WithoutLineEnd _ body.data
      rw [hb, takeN_data]; exact k3
    · show body.offset = _
      rw [hb, takeN_offset, t2, dropN_offset, ← blen_eq_utf8ByteSize]
      congr 2
      rw [t1]; simp

/-- Parsing such a block can only fail when the substitution of its content fails. -/
theorem C24_total {subs : Subs} {store : AttrStore} {m : BlockMetadata} (hm : Suf m.blockStart m.source) {e : Fail}
    (h : RawBlock.parse subs store m = .error e) :
    ∃ c t, (∃ x y, m.blockStart.data = x ++ t ++ y) ∧
      subs store ((rawBlockKind c).2.2.overrideViaAttrlist m.fields.attrlist) m.fields.attrlist t = .error e := by
  by_cases hd : ∃ c, RawDelim c m.blockStart.takeNormalizedLine.item.data
  · obtain ⟨c, hc⟩ := hd
    rcases rawBlock_spec (subs := subs) (store := store) rfl hc hm with
      ⟨_, _, raw, body, _, _, _, _, _, _, _, hb, _, _, _, e'⟩ | ⟨_, _, _, _, _, _, _, _, _, _, _, e'⟩
    · have hsub : ∃ x y, m.blockStart.data = x ++ body.data ++ y := by
        obtain ⟨k, _, hk, _⟩ := trimTrailingLineEnd_spec (m.blockStart.takeLine.after.takeN raw.length)
        rw [hb, hk]
        have hs := ((takeN_sub _ k).trans (takeN_sub m.blockStart.takeLine.after raw.length)).trans
          (takeLine_after_suf _).sub
        obtain ⟨i, j, _, h⟩ := hs
        rw [h, takeN_data, dropN_data]
        refine ⟨m.blockStart.data.take i, (m.blockStart.data.drop i).drop j, ?_⟩
        rw [List.append_assoc, List.take_append_drop, List.take_append_drop]
      rw [e'] at h
      cases hs : subs store ((rawBlockKind c).2.2.overrideViaAttrlist m.fields.attrlist) m.fields.attrlist body.data with
      | error e'' => rw [hs] at h; cases h; exact ⟨_, _, hsub, hs⟩
      | ok r => rw [hs] at h; cases h
    · rw [e'] at h; cases h
  · rw [rawBlock_none hd] at h; cases h

private def metaOf (t : Text) : BlockMetadata := ⟨{}, Span.new t, Span.new t⟩

/-- A longer delimiter inside, and block syntax, are content. -/
example : (RawBlock.parse (fun _ _ _ t => .ok t) AttrStore.default (metaOf "---- \n== a\n-----\n\n----\nb".toList)).toOption.map
    (fun r => r.map (fun r => (r.1.item.content.rendered, r.1.after.data, r.2.length))) =
    some (some ("== a\n-----\n".toList, "b".toList, 0)) := by decide +kernel

example : (RawBlock.parse (fun _ _ _ _ => .error .panic) AttrStore.default (metaOf "....\na\n.....\n".toList)).toOption.map
    (fun r => r.map (fun r => (r.1.item.content.rendered, r.1.after.data, r.2.map Warning.warning))) =
    some (some ("a\n.....".toList, [], [.unterminatedDelimitedBlock])) := by decide +kernel

/-! ### C43 -/

theorem indent_col {s : Span} (hcol : s.col = 1) {ind rest : Text} (h : s.data = ind ++ rest)
    (hi : ∀ c ∈ ind, c = ' ' ∨ c = '\t') (hr : rest.head? ≠ some ' ' ∧ rest.head? ≠ some '\t') :
    s.discardWhitespace.col - 1 = ind.length ∧ (s.discardWhitespace.col = s.col ↔ ind = []) := by
  have hn : prefLen isBlank s.data = ind.length := by
    rw [h]
    apply prefLen_append
    · intro c hc; exact Adoc.isBlank_iff.mpr (hi c hc)
    · intro c r e
      rw [e] at hr
      simp only [List.head?_cons, ne_eq, Option.some.injEq] at hr
      rw [Bool.eq_false_iff]
      intro hb
      rcases Adoc.isBlank_iff.mp hb with h | h
      · exact hr.1 h
      · exact hr.2 h
  have hd : s.discardWhitespace.col = 1 + ind.length := by
    show (s.dropN (prefLen isBlank s.data)).col = _
    rw [hn]
    have ht : s.data.take ind.length = ind := by rw [h]; simp
    rw [dropN, ht, sliceInternal]
    split
    · rename_i h0; simp [hcol, h0]
    · have hnl : '\n' ∉ ind := by
        intro hc; rcases hi _ hc with h | h <;> cases h
      have hc0 : ind.count '\n' = 0 := List.count_eq_zero.mpr hnl
      simp only [hc0, if_true]
      have : ind.reverse.takeWhile (· ≠ '\n') = ind.reverse := by
        have : ∀ l : Text, '\n' ∉ l → l.takeWhile (· ≠ '\n') = l := by
          intro l
          induction l with
          | nil => simp
          | cons x xs ih =>
            intro hx
            rw [List.mem_cons, not_or] at hx
            rw [List.takeWhile_cons, if_pos (by simpa using fun e => hx.1 e.symm), ih hx.2]
        exact this _ (by simpa using hnl)
      rw [this, hcol]; simp
  rw [hd, hcol]
  constructor
  · omega
  · rw [← List.length_eq_zero_iff]; omega

/-- The text in front of the next block is the paragraph: its lines are the leading lines up to an empty line or a line
that ends paragraphs, its span is their text without the white space at the end, and substitutions are applied to the
lines that are not comments, stripped of the first line's indentation and joined by newlines.  Parsing goes on at the
next line that is not blank.  There is no paragraph exactly when the lines are white space. -/
theorem C43_paragraph {subs : Subs} {store : AttrStore} {m : BlockMetadata} (hm : Suf m.blockStart m.source)
    (hcol : m.blockStart.col = 1) {ind rest0 : Text} (h0 : m.blockStart.data = ind ++ rest0)
    (hi : ∀ c ∈ ind, c = ' ' ∨ c = '\t') (hr : rest0.head? ≠ some ' ' ∧ rest0.head? ≠ some '\t') :
    ∃ raw tail taken texts, m.blockStart.data = raw ++ tail ∧ (tail = [] ∨ WholeLines raw) ∧ lines raw = taken ∧
      Paragraph false (lines m.blockStart.data) taken (lines tail) ∧ ParagraphText ind.length taken texts ∧
      (trimEnd raw = [] → SimpleBlock.parse subs store m = .ok none) ∧
      (trimEnd raw ≠ [] →
        (∀ e, SimpleBlock.parse subs store m = .error e ↔ subs store (Group.normal.overrideViaAttrlist m.fields.attrlist)
          m.fields.attrlist (joinWith ['\n'] texts) = .error e) ∧
        (∀ rendered, subs store (Group.normal.overrideViaAttrlist m.fields.attrlist) m.fields.attrlist
            (joinWith ['\n'] texts) = .ok rendered →
          ∃ b after, SimpleBlock.parse subs store m = .ok (some ⟨b, after⟩) ∧ b.content.rendered = rendered ∧
            b.content.original.data = trimEnd raw ∧ b.content.original.offset = m.blockStart.offset ∧
            b.style = simpleStyle m.blockStart m.fields.attrlist ∧
            lines after.data = (lines tail).dropWhile (·.all isBlank))) := by
  obtain ⟨k, raw, taken, texts, e1, e2, e3, e4, e5, e6, e7⟩ :=
    parseLines_spec subs store m.blockStart m.fields.attrlist
  rw [(indent_col hcol h0 hi hr).1] at e6
  refine ⟨raw, _, taken, texts, e1, e3, e2, e5, e6, ?_, ?_⟩
  · intro h
    unfold SimpleBlock.parse
    rw [e7, if_pos h]; rfl
  · intro h
    rw [if_neg h] at e7
    obtain ⟨src, hs⟩ := trimRemainder?_ne_none (doc := m.source) (s := m.source)
      (a := (m.blockStart.skip k).discardEmptyLines) (Sub.refl _)
      (((discardEmptyLines_suf _).trans ((skip_suf _ _).trans hm)).sub)
    unfold SimpleBlock.parse
    rw [e7]
    constructor
    · intro e
      cases hq : subs store (Group.normal.overrideViaAttrlist m.fields.attrlist) m.fields.attrlist (joinWith ['\n'] texts) with
      | error e' => simp [Except.map, bind, Except.bind]
      | ok r => simp [Except.map, bind, Except.bind, hs, Res.ofOption]
    · intro rendered hq
      rw [hq]
      refine ⟨⟨⟨m.blockStart.takeN (trimEnd raw).length, rendered⟩, simpleStyle m.blockStart m.fields.attrlist,
        src.trimTrailingWhitespace⟩, (m.blockStart.skip k).discardEmptyLines.discardEmptyLines,
        by simp [Except.map, bind, Except.bind, hs, Res.ofOption], rfl, ?_, ?_, rfl, ?_⟩
      · obtain ⟨sp, h5, _⟩ := trimEndP_spec isWhite raw
        apply takeN_prefix (r := sp ++ (m.blockStart.skip k).data)
        rw [e1]
        conv => lhs; rw [h5]
        simp [trimEnd]
      · exact takeN_offset _ _
      · rw [lines_discardEmptyLines, lines_discardEmptyLines]
        exact dropWhile_idem _ _

/-- The lines of a text determine the lines of the paragraph. -/
theorem C43_deterministic {b : Bool} {ls t t' r r' : List Text} (h : Paragraph b ls t r) (h' : Paragraph b ls t' r') :
    t = t' ∧ r = r' := by
  have hcn : ∀ {l : Text}, CommentLine l → l ≠ [] := by rintro l ⟨r, rfl, _⟩ h; cases h
  induction h generalizing t' r' with
  | stop hn =>
    cases h' with
    | stop _ => exact ⟨rfl, rfl⟩
    | comment hc he _ =>
      rcases hn _ _ rfl with h | h
      · exact absurd h (hcn hc)
      · exact absurd h he
    | line hne _ he _ =>
      rcases hn _ _ rfl with h | h
      · exact absurd h hne
      · exact absurd h he
  | comment hc he _ ih =>
    cases h' with
    | stop hn =>
      rcases hn _ _ rfl with h | h
      · exact absurd h (hcn hc)
      · exact absurd h he
    | comment _ _ hr => obtain ⟨rfl, rfl⟩ := ih hr; exact ⟨rfl, rfl⟩
    | line _ hnc _ _ => exact absurd hc hnc
  | line hne hnc he _ ih =>
    cases h' with
    | stop hn =>
      rcases hn _ _ rfl with h | h
      · exact absurd h hne
      · exact absurd h he
    | comment hc _ _ => exact absurd hc hnc
    | line _ _ _ hr => obtain ⟨rfl, rfl⟩ := ih hr; exact ⟨rfl, rfl⟩

/-- The style: what the attribute list says, or literal when the first line is indented. -/
theorem C43_style {source : Span} (hcol : source.col = 1) {ind rest0 : Text} (h0 : source.data = ind ++ rest0)
    (hi : ∀ c ∈ ind, c = ' ' ∨ c = '\t') (hr : rest0.head? ≠ some ' ' ∧ rest0.head? ≠ some '\t') (al : Option Attrlist) :
    simpleStyle source al =
      match al.bind Attrlist.blockStyle with
      | some s =>
        if s = "normal".toList then .paragraph
        else if s = "literal".toList then .literal
        else if s = "listing".toList then .listing
        else if s = "source".toList then .source
        else if ind = [] then .paragraph else .literal
      | none => if ind = [] then .paragraph else .literal := by
  unfold simpleStyle
  have := (indent_col hcol h0 hi hr).2
  by_cases hind : ind = []
  · have h1 := this.mpr hind
    simp only [h1, hind, if_true]
    generalize al.bind Attrlist.blockStyle = q
    cases q <;> rfl
  · have h1 : ¬ source.discardWhitespace.col = source.col := fun h => hind (this.mp h)
    simp only [h1, hind, if_false]
    generalize al.bind Attrlist.blockStyle = q
    cases q <;> rfl

example : (SimpleBlock.parse (fun _ _ _ t => .ok t) AttrStore.default
      (metaOf "  a \n// no\n   b\n c\n\td\n[x]\nnext".toList)).toOption.map
    (fun r => r.map (fun r => (r.item.content.rendered, r.item.style, r.after.data))) =
    some (some ("a\n b\nc\nd".toList, .literal, "[x]\nnext".toList)) := by decide +kernel

example : Paragraph false (lines "a \n// no\n[x]\nnext".toList) ["a".toList, "// no".toList] (lines "[x]\nnext".toList) := by
  have e : lines "a \n// no\n[x]\nnext".toList = ["a".toList, "// no".toList, "[x]".toList, "next".toList] := by decide
  have e2 : lines "[x]\nnext".toList = ["[x]".toList, "next".toList] := by decide
  rw [e, e2]
  refine .line (by decide) ?_ (by simp) (.comment ⟨" no".toList, by decide, by decide⟩ ?_ (.stop ?_))
  · rw [← isCommentLine_iff]; decide
  · rw [← endsSimple_iff]; decide
  · intro l r h; cases h; exact Or.inr ⟨rfl, Or.inr (Or.inl ⟨['x'], by decide⟩)⟩

example : WithoutLineEnd "a\n".toList ['a'] := Or.inr (Or.inl ⟨by decide, by intro r h; cases r <;> simp at h⟩)

end Adoc.Props
