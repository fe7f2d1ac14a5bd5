import Verif.Lemmas.Culprit
import Verif.Lemmas.Document
/-!
# Why parsing a document fails
-/

namespace Adoc
open Span Spec Props Re

/-! ### The header -/

variable [Uni]

theorem splitOnce_mem {c : Char} {t a b : Text} (h : splitOnce c t = some (a, b)) : ∀ d, d ∈ a ∨ d ∈ b → d ∈ t := by
  have := (splitOnce_some.mp h).1
  rintro d (hd | hd) <;> rw [this] <;> simp [hd]

theorem strip_mem {t : Text} (h : '\n' ∉ t) : ∀ c ∈ stripNonNumericPrefix t, c ∈ t := by
  rw [stripNonNumericPrefix_eq h]
  exact fun c hc => (List.dropWhile_suffix _).subset hc

theorem trim_mem {t : Text} : ∀ c ∈ trim t, c ∈ t := fun _ hc => (trim_trimmed t).mem hc

theorem revisionParts_mem {t : Text} (h : '\n' ∉ t) :
    (∀ n, (revisionParts t).1 = some n → ∀ c ∈ n, c ∈ t) ∧ (∀ c ∈ (revisionParts t).2.1, c ∈ t) ∧
    ∀ n, (revisionParts t).2.2 = some n → ∀ c ∈ n, c ∈ t := by
  have left : ∀ (l : Text) (r : Option Text), (∀ c ∈ l, c ∈ t) → (∀ n, r = some n → ∀ c ∈ n, c ∈ t) →
      ∀ q, q = (match splitOnce ',' l with
        | some (rev, date) => (some (stripNonNumericPrefix (trim rev)), trim date, r)
        | none => if isMatch standaloneRevisionRe (trim l) then (some (stripNonNumericPrefix (trim l)), [], r)
          else (none, trim l, r) : Option Text × Text × Option Text) →
      (∀ n, q.1 = some n → ∀ c ∈ n, c ∈ t) ∧ (∀ c ∈ q.2.1, c ∈ t) ∧ ∀ n, q.2.2 = some n → ∀ c ∈ n, c ∈ t := by
    rintro l r hl hr q rfl
    have hn : ∀ u : Text, (∀ c ∈ u, c ∈ l) → ∀ c ∈ stripNonNumericPrefix (trim u), c ∈ t := fun u hu c hc =>
      hl c (hu c (trim_mem c (strip_mem (fun hx => h (hl _ (hu _ (trim_mem _ hx)))) c hc)))
    cases hs : splitOnce ',' l with
    | some p =>
      obtain ⟨rev, date⟩ := p
      have hm := splitOnce_mem hs
      exact ⟨fun n e => by cases e; exact hn rev fun c hc => hm c (Or.inl hc),
        fun c hc => hl c (hm c (Or.inr (trim_mem c hc))), hr⟩
    | none =>
      simp only
      split
      · exact ⟨fun n e => by cases e; exact hn l fun c hc => hc, by simp, hr⟩
      · exact ⟨nofun, fun c hc => hl c (trim_mem c hc), hr⟩
  unfold revisionParts
  cases hs : splitOnce ':' t with
  | some p =>
    obtain ⟨l, r⟩ := p
    have hm := splitOnce_mem hs
    exact left l (some (trim r)) (fun c hc => hm c (Or.inl hc))
      (fun n e => by cases e; exact fun c hc => hm c (Or.inr (trim_mem c hc))) _ rfl
  | none => exact left t none (fun c hc => hc) nofun _ rfl

/-- The header substitutions of a text made of characters of `src` fail. -/
def HeaderBlame (hdr : HeaderSubs) (src : Text) (x : Fail) : Prop := ∃ s t, Drawn src t ∧ hdr s t = .error x

omit [Uni] in
theorem mapM_error {f : Text → Res Text} {o : Option Text} {x : Fail} (h : o.mapM f = .error x) :
    ∃ t, o = some t ∧ f t = .error x := by
  cases o with
  | none => cases h
  | some t =>
    refine ⟨t, rfl, ?_⟩
    cases hf : f t with
    | error y => simp only [Option.mapM, hf] at h; cases h; rfl
    | ok y => simp only [Option.mapM, hf] at h; cases h

theorem revision_error {hdr : HeaderSubs} {store : AttrStore} {s : Span} {x : Fail} (hn : '\n' ∉ s.data)
    (h : RevisionLine.parse hdr store s = .error x) : HeaderBlame hdr s.data x := by
  obtain ⟨m1, m2, m3⟩ := revisionParts_mem hn
  unfold RevisionLine.parse at h
  simp only [bind, Except.bind] at h
  generalize revisionParts s.data = p at *
  generalize setRevision store p = st at h
  cases h1 : p.1.mapM (hdr st) with
  | error y =>
    rw [h1] at h; cases h
    obtain ⟨t, e1, e2⟩ := mapM_error h1
    exact ⟨_, t, .of_mem (m1 t e1), e2⟩
  | ok n =>
    rw [h1] at h
    simp only at h
    cases h2 : hdr st p.2.1 with
    | error y => rw [h2] at h; cases h; exact ⟨_, _, .of_mem m2, h2⟩
    | ok d =>
      rw [h2] at h
      simp only at h
      cases h3 : p.2.2.mapM (hdr st) with
      | error y =>
        rw [h3] at h; cases h
        obtain ⟨t, e1, e2⟩ := mapM_error h3
        exact ⟨_, t, .of_mem (m3 t e1), e2⟩
      | ok r => rw [h3] at h; cases h

theorem headerStep_error {hdr : HeaderSubs} {r : Renderer} {source : Span} {st : HState} {x : Fail}
    (h : headerStep hdr r source st = .error x) : HeaderBlame hdr source.data x := by
  obtain ⟨l, rest, hl, d1, d2, sub1, suf2⟩ := headLine_span source
  have hmem : ∀ c ∈ l, c ∈ source.data := by rw [← d1]; exact fun c hc => sub_mem sub1 hc
  unfold headerStep at h
  simp only at h
  generalize source.takeNormalizedLine = mi at *
  obtain ⟨item, after⟩ := mi
  simp only at d1 d2 h sub1
  subst d1
  split at h
  · split at h <;> cases h
  · split at h
    · cases h
    · simp only [bind, Except.bind] at h
      cases he : headerEntryAt hdr st.store source item.data with
      | error y =>
        rw [he] at h; cases h
        unfold headerEntryAt at he
        split at he
        · obtain ⟨t, h1, h2⟩ := attribute_error he
          exact ⟨_, t, h1, h2⟩
        · cases he
      | ok q =>
        rw [he] at h
        cases q with
        | some mi =>
          exfalso
          obtain ⟨s, hs⟩ : ∃ s, authorEntry r st.store mi.item = .ok s := by
            unfold authorEntry
            split
            · cases mi.item.valueSource with
              | none => exact ⟨_, rfl⟩
              | some raw =>
                obtain ⟨o, ho⟩ := author_total r st.store raw.data
                simp only [ho, bind, Except.bind]
                cases o <;> exact ⟨_, rfl⟩
            · exact ⟨_, rfl⟩
          simp only [hs] at h
          cases h
        | none =>
          simp only at h
          split at h
          · cases ht : hdr st.store (item.discard 2).discardWhitespace.data with
            | error y =>
              rw [ht] at h; cases h
              have hsub : Sub (item.discard 2).discardWhitespace item :=
                (dropN_suf _ _).sub.trans (dropN_suf item 2).sub
              exact ⟨_, _, .of_mem fun c hc => hmem c (sub_mem hsub hc), ht⟩
            | ok t => rw [ht] at h; cases h
          · split at h
            · exfalso
              obtain ⟨_, s, _, _, hv, _⟩ := C40_line r st.store item
              rw [hv] at h
              cases h
            · split at h
              · cases hv : RevisionLine.parse hdr st.store item with
                | ok q => rw [hv] at h; cases h
                | error y =>
                  rw [hv] at h; cases h
                  have hn : '\n' ∉ item.data := by
                    obtain ⟨l0, sep, g1, sp, g2, _⟩ := hl
                    exact fun hc => g1.noNl (by rw [g2]; simp [hc])
                  obtain ⟨s, t, h1, h2⟩ := revision_error hn hv
                  exact ⟨s, t, h1.mono hmem, h2⟩
              · split at h <;> cases h

theorem headerLoop_error {hdr : HeaderSubs} {r : Renderer} {x : Fail} (n : Nat) :
    ∀ {doc source : Span} {st : HState} {ls : List HLine}, Suf source doc → HInv doc st ls →
      source.data.length ≤ n → headerLoop hdr r n source st = .error x → HeaderBlame hdr source.data x := by
  induction n with
  | zero =>
    intro doc source st ls hsuf hinv hl h
    unfold headerLoop at h
    rw [if_pos (List.length_eq_zero_iff.mp (by omega))] at h
    cases h
  | succ n ih =>
    intro doc source st ls hsuf hinv hl h
    unfold headerLoop at h
    by_cases he : source.data = []
    · rw [if_pos he] at h; cases h
    · rw [if_neg he] at h
      simp only [bind, Except.bind] at h
      cases hx : headerStep hdr r source st with
      | error y => rw [hx] at h; cases h; exact headerStep_error hx
      | ok q =>
        obtain ⟨st1, src1, more⟩ := q
        rw [hx] at h
        cases more with
        | false => cases h
        | true =>
          simp only [if_true] at h
          rcases headerStep_spec hsuf hinv hx with ⟨_, line, g1, g2, g3, g4⟩ | ⟨e, _⟩
          · obtain ⟨pre, e1, e2⟩ := g1.shorter he
            have e3 := congrArg List.length e1
            have e4 : pre.length ≠ 0 := fun h => e2 (List.length_eq_zero_iff.mp h)
            rw [List.length_append] at e3
            obtain ⟨s, t, h1, h2⟩ := ih (g2.trans hsuf) g3 (by omega) h
            exact ⟨s, t, h1.mono fun c hc => sub_mem g2.sub hc, h2⟩
          · cases e

theorem headerLoop_suf {hdr : HeaderSubs} {r : Renderer} (n : Nat) :
    ∀ {doc source rest : Span} {st st' : HState} {ls : List HLine}, Suf source doc → HInv doc st ls →
      headerLoop hdr r n source st = .ok (st', rest) → Suf rest source := by
  induction n with
  | zero =>
    intro doc source rest st st' ls hsuf hinv h
    unfold headerLoop at h
    split at h
    · cases h; exact Suf.refl _
    · cases h
  | succ n ih =>
    intro doc source rest st st' ls hsuf hinv h
    unfold headerLoop at h
    by_cases he : source.data = []
    · rw [if_pos he] at h; cases h; exact Suf.refl _
    · rw [if_neg he] at h
      simp only [bind, Except.bind] at h
      cases hx : headerStep hdr r source st with
      | error y => rw [hx] at h; cases h
      | ok q =>
        obtain ⟨st1, src1, more⟩ := q
        rw [hx] at h
        rcases headerStep_spec hsuf hinv hx with ⟨rfl, line, g1, g2, g3, g4⟩ | ⟨rfl, e2, _⟩
        · simp only [if_true] at h
          exact (ih (g2.trans hsuf) g3 h).trans g2
        · subst e2
          cases h; exact Suf.refl _

/-- Only the header substitutions make parsing the header fail. -/
theorem header_error {hdr : HeaderSubs} {r : Renderer} {store : AttrStore} {source : Span} {x : Fail}
    (h : Header.parse hdr r store source = .error x) : HeaderBlame hdr source.data x := by
  have hinv : HInv source { store := store } [] := by
    refine ⟨by simp, by simp, by simp, by simp, by simp, by simp, by simp, by simp, ⟨?_, ?_, ?_, ?_, ?_⟩, ?_⟩ <;> simp
  unfold Header.parse at h
  simp only [bind, Except.bind] at h
  cases hx : headerLoop hdr r source.data.length source { store := store } with
  | error y => rw [hx] at h; cases h; exact headerLoop_error _ (Suf.refl source) hinv (Nat.le_refl _) hx
  | ok q =>
    exfalso
    obtain ⟨st, rest⟩ := q
    have hs := headerLoop_suf _ (Suf.refl source) hinv hx
    obtain ⟨s, h'⟩ := trimRemainder?_ne_none (discardEmptyLines_suf source).sub hs.sub
    simp only [hx, h', Res.ofOption] at h
    cases h

omit [Uni] in
theorem headLine_lines {t l rest : Text} (h : HeadLine t l rest) (ht : t ≠ []) : ∃ T, lines t = T ++ lines rest := by
  obtain ⟨_, _, hf, _⟩ := h
  exact ⟨[_], firstLine_lines hf ht⟩

omit [Uni] in
theorem headerLine_lines {s1 s2 : Stage} {t rest : Text} {l : HLine} (h : HeaderLine s1 t l s2 rest) (ht : t ≠ []) :
    ∃ T, lines t = T ++ lines rest := by
  cases h with
  | blank h => exact headLine_lines h ht
  | comment h _ => exact headLine_lines h ht
  | entry h =>
    obtain ⟨c, sep, u, h, _⟩ := h
    obtain ⟨l, cs, e, _⟩ := extent_span h ht
    exact ⟨l :: cs, e⟩
  | title h _ _ => exact headLine_lines h ht
  | author h => exact headLine_lines h.1 ht
  | revision h => exact headLine_lines h.1 ht

omit [Uni] in
theorem headerReads_lines {s1 s2 : Stage} {t rest : Text} {ls : List HLine} (h : HeaderReads s1 t ls s2 rest) :
    ∃ T, lines t = T ++ lines rest := by
  induction h with
  | stop _ => exact ⟨[], rfl⟩
  | line ht hl _ ih =>
    obtain ⟨T, e1⟩ := headerLine_lines hl ht
    obtain ⟨U, e2⟩ := ih
    exact ⟨T ++ U, by rw [e1, e2, List.append_assoc]⟩

omit [Uni] in
theorem skipEmpty_lines {t u : Text} (h : SkipEmpty t u) : ∃ T, lines t = T ++ lines u := by
  induction h with
  | stop _ => exact ⟨[], rfl⟩
  | skip ht hf _ _ ih =>
    obtain ⟨U, e2⟩ := ih
    exact ⟨_ :: U, by rw [firstLine_lines hf ht, e2]; rfl⟩

theorem header_place {hdr : HeaderSubs} {r : Renderer} {store store' : AttrStore} {doc : Text} {mi : MI Header}
    {ws : List Warning} (h : Header.parse hdr r store (Span.new doc) = .ok (mi, ws, store')) : ∃ A, Place doc mi.after A := by
  obtain ⟨ls, stage, rest, h1, h2, _⟩ := C47_reads h
  obtain ⟨T, e1⟩ := headerReads_lines h1
  obtain ⟨U, e2⟩ := skipEmpty_lines h2
  refine ⟨T ++ U, ⟨[], ?_, Or.inl rfl⟩, fun c hc => sub_mem (header_suf h).sub hc⟩
  rw [e2, ← List.append_assoc] at e1
  rw [List.append_nil]
  exact e1

/-! ### The document -/

theorem withPreamble_total {e : BlockEnv} {stop : Stop} {p p' : ParserState} {s s' : Span} {bs : List Block}
    {ws sw : List Warning} (h : Run e stop p s.discardEmptyLines bs s' ws sw p') : ∃ bs', withPreamble bs s = .ok bs' := by
  obtain ⟨k, hk, e1, g1, g2, g3⟩ := run_tidy h
  have hsub : ∀ b ∈ bs, Sub b.source s := fun b hb =>
    (g1 b hb).trans ((takeN_sub _ _).trans (discardEmptyLines_suf _).sub)
  rcases withPreamble_spec bs s with ⟨front, first, back, ⟨rfl, hs, hns, y, hy, _⟩, hp⟩ | ⟨_, hp⟩
  · have ho := List.pairwise_append.mp g2
    obtain ⟨k', hk', hpre, _⟩ := preambleOf_geo (List.ne_nil_of_mem hy) (fun b hb => hsub b (by simp [hb])) ho.1
    rw [hp, hpre]
    exact ⟨_, rfl⟩
  · exact ⟨_, hp⟩

/-- Why parsing a document fails. -/
theorem document_culprit {e : BlockEnv} {hr : Renderer} {n : Nat} {p : ParserState} {text : Text} {x : Fail}
    (hn : x = .fuel → text.length < n) (h : Document.parse e hr n p text = .error x) : Culprit e text x := by
  unfold Document.parse at h
  simp only [bind, Except.bind] at h
  cases h1 : Header.parse (fun s t => e.subs s .header none t) hr p.store (Span.new text) with
  | error y =>
    rw [h1] at h; cases h
    obtain ⟨s, t, h1, h2⟩ := header_error h1
    exact Or.inl ⟨s, _, _, t, h1, asked_named (by decide) (by simp) (fun h => absurd rfl h), Or.inl h2⟩
  | ok q =>
    obtain ⟨mi, hw, store⟩ := q
    rw [h1] at h
    simp only at h
    cases h2 : parseBlocksUntil e n .never { p with store := store, sectnumlevels := sectnumlevelsOf store } mi.after with
    | error y =>
      rw [h2] at h; cases h
      obtain ⟨A, hA⟩ := header_place h1
      obtain ⟨T, hT⟩ := hA.discard
      refine blocksLoop_culprit _ _ _ _ hT (fun _ _ hst => by cases hst) (fun hx => ?_) h2
      have g1 := suf_len (header_suf h1)
      have g2 := suf_len (discardEmptyLines_suf mi.after)
      have g3 := hn hx
      have g4 : (Span.new text).data.length = text.length := rfl
      simp only
      omega
    | ok maw =>
      exfalso
      rw [h2] at h
      obtain ⟨bs, ws, sw, e1, _, _, hrun⟩ := blocksLoop_run _ _ _ _ h2
      obtain ⟨bs', h3⟩ := withPreamble_total hrun
      have e1 : maw.blocks = bs := by simpa using e1
      rw [← e1] at h3
      simp only [h3] at h
      cases h

end Adoc
