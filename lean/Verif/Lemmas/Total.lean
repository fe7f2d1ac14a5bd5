import Verif.Lemmas.Heading
import Verif.Lemmas.Levels
import Verif.Lemmas.Refs
import Verif.Props.Metadata
import Verif.Props.Attrlist
import Verif.Props.Leaf
import Verif.Props.Section
import Verif.Lemmas.Drawn
/-!
# Where the block parser can fail

Every failure of an iteration of the block parser comes from a substitution or from a nested call.
-/

namespace Adoc
open Span Spec Props

/-- A substitution of a text made of characters of `src` fails. -/
def Blame (e : BlockEnv) (src : Text) (x : Fail) : Prop :=
  ∃ st g al t, Drawn src t ∧ Asked src g al ∧ (e.subs st g al t = .error x ∨ e.dsubs st g al t = .error x)

theorem Blame.mono {e : BlockEnv} {src src' : Text} {x : Fail} (h : Blame e src x) (hs : ∀ c ∈ src, c ∈ src') :
    Blame e src' x := by
  obtain ⟨st, g, al, t, h1, h2, h3⟩ := h
  exact ⟨st, g, al, t, h1.mono hs, h2.mono hs, h3⟩

/-! ### The groups asked for -/

theorem stepOfName_callouts {n : Text} {s : Step} (h : stepOfName n = some s) : s ≠ .callouts := by
  unfold stepOfName at h
  rintro rfl
  split at h
  · cases h
  split at h
  · cases h
  split at h
  · cases h
  split at h
  · cases h
  split at h
  · cases h
  split at h <;> cases h

theorem customLoop_callouts {from_ : Option Group} (hf : ∀ g, from_ = some g → Step.callouts ∉ g.steps) :
    ∀ (items : List Text) (n : Nat) (steps out : List Step), Step.callouts ∉ steps →
      customLoop from_ n items steps = some out → Step.callouts ∉ out
  | [], n, steps, out, hs, h => by cases h; exact hs
  | item :: items, n, steps, out, hs, h => by
    unfold customLoop at h
    simp only at h
    split at h
    · exact customLoop_callouts hf items _ _ _ (by decide) h
    split at h
    · exact customLoop_callouts hf items _ _ _ (by decide) h
    cases hn : stepOfName (subMod (trim item)).2 with
    | none => rw [hn] at h; cases h
    | some s =>
      rw [hn] at h
      have hne := stepOfName_callouts hn
      refine customLoop_callouts hf items _ _ _ ?_ h
      have fin : ∀ st : List Step, Step.callouts ∉ st → Step.callouts ∉ (match (subMod (trim item)).1 with
          | SubMod.prepend => s :: st
          | SubMod.append => st ++ [s]
          | SubMod.subtract => st.filter (fun x => x ≠ s)
          | SubMod.plain => st ++ [s]) := by
        intro st hst
        cases (subMod (trim item)).1 <;> simp [hst, Ne.symm hne]
      refine fin _ ?_
      cases from_ with
      | none => exact hs
      | some g =>
        simp only
        split
        · exact hf g rfl
        · exact hs

theorem fromCustomString_callouts {from_ : Option Group} (hf : ∀ g, from_ = some g → Step.callouts ∉ g.steps) {t : Text} {g : Group}
    (h : Group.fromCustomString from_ t = some g) : Step.callouts ∉ g.steps := by
  unfold Group.fromCustomString at h
  simp only at h
  split at h
  · cases h; decide
  split at h
  · cases h; decide
  split at h
  · cases h; decide
  · cases hc : customLoop from_ 0 (splitChar ',' (trim t)) [] with
    | none => rw [hc] at h; cases h
    | some out => rw [hc] at h; cases h; exact customLoop_callouts hf _ _ _ _ (by simp) hc

theorem override_callouts {g : Group} (hg : Step.callouts ∉ g.steps) (al : Option Attrlist) :
    Step.callouts ∉ (g.overrideViaAttrlist al).steps := by
  unfold Group.overrideViaAttrlist
  cases al with
  | none => exact hg
  | some a =>
    simp only
    split
    · rename_i g' h
      cases hn : a.namedAttribute "subs".toList with
      | none => rw [hn] at h; cases h
      | some x =>
        rw [hn] at h
        exact fromCustomString_callouts (fun _ h => by cases h; exact hg) h
    · split
      · split
        · decide
        · exact hg
      · exact hg

theorem kind_named (c : Char) :
    Step.callouts ∉ (rawBlockKind c).2.2.steps ∧ ∀ steps, (rawBlockKind c).2.2 ≠ .custom steps := by
  unfold rawBlockKind
  split
  · exact ⟨by decide, nofun⟩
  split
  · exact ⟨by decide, nofun⟩
  split <;> exact ⟨by decide, nofun⟩

/-- The group of a block, taken over by its attribute list if it has one. -/
theorem asked_override {g : Group} (hg : Step.callouts ∉ g.steps) (hc : ∀ steps, g ≠ .custom steps) {src : Text}
    {al : Option Attrlist} (ha : al ≠ none → '[' ∈ src) : Asked src (g.overrideViaAttrlist al) al := by
  refine ⟨override_callouts hg al, fun hb => ?_⟩
  cases al with
  | none => exact ⟨rfl, hc⟩
  | some a => exact absurd (ha nofun) hb

theorem asked_named {g : Group} (hg : Step.callouts ∉ g.steps) (hc : ∀ steps, g ≠ .custom steps) {src : Text}
    {al : Option Attrlist} (ha : al ≠ none → '[' ∈ src) : Asked src g al := by
  refine ⟨hg, fun hb => ?_⟩
  cases al with
  | none => exact ⟨rfl, hc⟩
  | some a => exact absurd (ha nofun) hb

/-! ### Identifiers -/

theorem keys_contains {V : Type} (m : AMap V) (k : Text) : m.contains k = true ↔ k ∈ m.entries.map Prod.fst := by
  unfold AMap.contains AMap.get
  rw [Option.isSome_map, List.find?_isSome, List.mem_map]
  constructor
  · rintro ⟨x, h1, h2⟩; exact ⟨x, h1, by simpa using h2⟩
  · rintro ⟨x, h1, rfl⟩; exact ⟨x, h1, by simp⟩

theorem generate_total (c : Catalog) (base : Text) (r : Option Text) (ty : RefType) :
    ∃ x, c.generate base r ty = some x := by
  obtain ⟨id, h⟩ : ∃ id, c.uniqueId base = some id := by
    unfold Catalog.uniqueId
    split
    · exact ⟨_, rfl⟩
    · cases hr : c.findFree base (c.refs.len + 1) 2 with
      | some id => exact ⟨id, rfl⟩
      | none =>
        exfalso
        have h1 := findFree_none c base _ _ hr
        have := pigeon (numbered base) (fun a b e => numbered_inj e) (c.refs.len + 1) 2
          (c.refs.entries.map Prod.fst) (fun m a b => (keys_contains _ _).mp (h1 m a b))
        simp [AMap.len] at this
        omega
  exact ⟨_, by rw [Catalog.generate, h]; rfl⟩

theorem registerSection_total (p : ParserState) (sectids : Bool) (base : Text) (manual : Option Text) (reftext : Text) :
    ∃ x, registerSection p sectids base manual reftext = .ok x := by
  unfold registerSection
  cases p.catalog with
  | none => exact ⟨_, rfl⟩
  | some c =>
    cases manual with
    | some id =>
      simp only
      cases c.registerRef id (some reftext) .section with
      | none => exact ⟨_, rfl⟩
      | some c' => exact ⟨_, rfl⟩
    | none =>
      simp only
      cases sectids with
      | false => exact ⟨_, rfl⟩
      | true =>
        obtain ⟨x, hx⟩ := generate_total c base (some reftext) .section
        simp only [if_true, hx]
        exact ⟨_, rfl⟩

theorem trimmedLength_total {s : Span} (hv : ∃ c x, s.data = c :: x ∧ isWhite c = false) : ∃ r, trimmedLength s = .ok r := by
  obtain ⟨c, x, hc, hw⟩ := hv
  have ht : trim s.data = trimEnd s.data := by
    unfold trim trimStart
    rw [hc, List.dropWhile_cons, hw]
    rfl
  obtain ⟨sp, e, _⟩ := trimEndP_spec isWhite s.data
  have e : s.data = trimEnd s.data ++ sp := e
  refine ⟨s.sliceInternal [] (trimEnd s.data), ?_⟩
  unfold trimmedLength
  have hx : s.slice? 0 (blen (trimEnd s.data)) = some (s.sliceInternal [] (trimEnd s.data)) :=
    slice?_iff.mpr ⟨[], trimEnd s.data, sp, by simpa using e, rfl, by simp [blen], rfl⟩
  rw [ht, hx]
  rfl

variable [Uni]

theorem generateSectionId_total (store : AttrStore) (title : Text) : ∃ x, generateSectionId store title = .ok x := by
  obtain ⟨body, h, _⟩ := C20_well_formed (store.attributeValue "idprefix".toList).str
    (store.attributeValue "idseparator".toList).str title
  exact ⟨_, h⟩

/-! ### Leaves -/

theorem parseLines_error {subs : Subs} {store : AttrStore} {s : Span} {al : Option Attrlist} {x : Fail}
    (h : parseLines subs store s al = .error x) : ∃ t, Drawn s.data t ∧ subs store (Group.normal.overrideViaAttrlist al) al t = .error x := by
  obtain ⟨k, raw, taken, texts, h1, h2, _, _, _, h3, e⟩ := parseLines_spec subs store s al
  rw [e] at h
  split at h
  · cases h
  · cases hs : subs store (Group.normal.overrideViaAttrlist al) al (joinWith ['\n'] texts) with
    | error y =>
      rw [hs] at h; cases h
      refine ⟨_, fun _ c hc => ?_, hs⟩
      rcases paragraph_drawn h2 h3 c hc with h | h
      · rw [h1]; exact Or.inl (List.mem_append_left _ h)
      · exact Or.inr h
    | ok y => rw [hs] at h; cases h

theorem simple_error {subs : Subs} {store : AttrStore} {m : BlockMetadata} {x : Fail} (hm : Suf m.blockStart m.source)
    (h : SimpleBlock.parse subs store m = .error x) :
    ∃ t, Drawn m.blockStart.data t ∧
      subs store (Group.normal.overrideViaAttrlist m.fields.attrlist) m.fields.attrlist t = .error x := by
  unfold SimpleBlock.parse at h
  cases hp : parseLines subs store m.blockStart m.fields.attrlist with
  | error y =>
    rw [hp] at h; cases h
    exact parseLines_error hp
  | ok q =>
    rw [hp] at h
    simp only [bind, Except.bind] at h
    cases q with
    | none => cases h
    | some mi =>
      simp only at h
      obtain ⟨k, raw, taken, texts, _, _, _, _, _, _, e⟩ := parseLines_spec subs store m.blockStart m.fields.attrlist
      rw [e] at hp
      split at hp
      · cases hp
      · cases hs : subs store (Group.normal.overrideViaAttrlist m.fields.attrlist) m.fields.attrlist (joinWith ['\n'] texts) with
        | error y => rw [hs] at hp; cases hp
        | ok y =>
          rw [hs] at hp
          cases hp
          obtain ⟨src, hsrc⟩ := trimRemainder?_ne_none (Sub.refl m.source)
            (((discardEmptyLines_suf _).trans (skip_suf m.blockStart k)).trans hm).sub
          simp only [hsrc, Res.ofOption] at h
          cases h

theorem fast_error {e : BlockEnv} {p : ParserState} {s : Span} {x : Fail} (h : fastPath e p s = .error x) : Blame e s.data x := by
  unfold fastPath at h
  split at h
  · cases h
  · split at h
    · unfold SimpleBlock.parseFast at h
      cases hp : parseLines e.subs p.store s none with
      | error y =>
        rw [hp] at h; cases h
        obtain ⟨t, hd, h⟩ := parseLines_error hp
        exact ⟨_, _, _, t, hd, asked_override (by decide) (by simp) (fun h => absurd rfl h), Or.inl h⟩
      | ok q =>
        rw [hp] at h
        simp only [bind, Except.bind] at h
        cases q <;> cases h
    · cases h

theorem extent_eq {t c sep rest : Text} (h : Extent t c sep rest) : t = c ++ sep ++ rest := by
  induction h with
  | last h _ => exact h.eq
  | more h _ _ _ ih => rw [h.eq, ih]; simp

theorem entry_raw_mem {u n raw : Text} (h : Entry u n (.value raw)) {c : Char} (hc : c ∈ raw) : c ∈ u := by
  cases h with
  | value => simp [hc]

theorem attribute_error {hdr : Text → Res Text} {s : Span} {x : Fail} (h : Attribute.parse hdr s = .error x) :
    ∃ t, Drawn s.data t ∧ hdr t = .error x := by
  obtain ⟨c, sep, rest, hx⟩ := extent_exists s.data
  obtain ⟨u, hu⟩ := stripSpaces_exists c
  by_cases he : ∃ n k, Entry u n k
  · obtain ⟨n, k, he⟩ := he
    obtain ⟨nm, vs, _, _, _, _, e⟩ := parse_entry (hdr := hdr) hx hu he
    rw [e] at h
    cases k with
    | unset => cases h
    | set => cases h
    | value raw =>
      simp only [kindValue] at h
      cases hv : hdr (joinValue raw) with
      | error y =>
        rw [hv] at h; cases h
        refine ⟨_, (joinValue_drawn raw).mono fun ch hc => ?_, hv⟩
        obtain ⟨sp, e, _⟩ := hu
        rw [(extent_eq hx), e]
        have : ch ∈ u := entry_raw_mem he hc
        simp [this]
      | ok y => rw [hv] at h; cases h
  · rw [parse_no_entry hx hu (fun n k h => he ⟨n, k, h⟩)] at h
    cases h

theorem entry_error {e : BlockEnv} {p : ParserState} {s : Span} {x : Fail} (h : bodyEntryAt e p s = .error x) :
    Blame e s.data x := by
  unfold bodyEntryAt at h
  simp only at h
  split at h
  · obtain ⟨t, hd, h⟩ := attribute_error h
    exact ⟨_, _, _, _, hd, asked_named (by decide) (by simp) (fun h => absurd rfl h), Or.inl h⟩
  · cases h

/-- An attribute list is written in brackets. -/
theorem meta_bracket {subs : Subs} {store : AttrStore} {s : Span} {m : BlockMetadata} {mw : List Warning}
    (hm : BlockMetadata.parse subs store s = .ok (m, mw)) (ha : m.fields.attrlist ≠ none) : '[' ∈ m.source.data := by
  obtain ⟨is, h1, _, _, _, h4⟩ := C27_reads hm
  have hsrc : m.source = s.discardEmptyLines := by
    obtain ⟨st, title, _, _, rfl, rfl⟩ := parse_ok hm
    rfl
  rw [← lines_discardEmptyLines, ← hsrc] at h1
  cases hat : m.fields.attrlist with
  | none => exact absurd hat ha
  | some a =>
    rw [hat] at h4
    obtain ⟨i, hi, hia⟩ := List.exists_of_findSome?_eq_some h4.symm
    have key : ∀ {used ls is rest}, MetaItems used ls is rest → ∀ i ∈ is, ∃ l ∈ ls, MetaLine l i := by
      intro used ls is rest h
      induction h with
      | stop _ => intro i hi; cases hi
      | item h _ _ ih =>
        intro i hi
        rcases List.mem_cons.mp hi with rfl | hi
        · exact ⟨_, by simp, h⟩
        · obtain ⟨l, hl, hx⟩ := ih i hi
          exact ⟨l, by simp [hl], hx⟩
    obtain ⟨l, hl, hml⟩ := key h1 i hi
    refine lines_mem hl _ ?_
    cases hml <;> first | exact List.mem_append_left _ (List.mem_cons_self ..) | cases hia

/-- The text from the metadata on begins with a visible character. -/
theorem sourceTo_head {subs : Subs} {store : AttrStore} {s x src : Span} {m : BlockMetadata} {mw : List Warning}
    (hm : BlockMetadata.parse subs store s = .ok (m, mw)) (hh : ∃ c r, m.blockStart.data = c :: r ∧ isWhite c = false)
    (hx : Suf x m.blockStart) (hl : x.data.length < m.blockStart.data.length) (hs : m.source.trimRemainder? x = some src) :
    ∃ c r, src.data = c :: r ∧ isWhite c = false := by
  obtain ⟨_, _, hc⟩ := placed_upto (meta_suf hm).2 hx hl hh hs
  obtain ⟨c, r, e, hw⟩ := source_head hm hh
  obtain ⟨r', e'⟩ := hc _ _ e
  exact ⟨c, r', e', hw⟩

theorem media_error {subs : Subs} {store : AttrStore} {s : Span} {m : BlockMetadata} {mw : List Warning} {x : Fail}
    (hm : BlockMetadata.parse subs store s = .ok (m, mw)) (h : MediaBlock.parse subs store m = .error x) : False := by
  unfold MediaBlock.parse at h
  simp only at h
  split at h
  · cases h
  cases h1 : m.blockStart.takeNormalizedLine.item.takeIdent with
  | none => rw [h1] at h; cases h
  | some name =>
    rw [h1] at h
    simp only at h
    cases h2 : mediaType name.item.data with
    | none => rw [h2] at h; cases h
    | some ty =>
      rw [h2] at h
      simp only at h
      cases h3 : name.after.takePrefix [':', ':'] with
      | none => rw [h3] at h; cases h
      | some colons =>
        rw [h3] at h
        simp only at h
        split at h
        · cases h
        · cases h4 : (colons.after.takeWhile (· ≠ '[')).after.takePrefix ['['] with
          | none => rw [h4] at h; cases h
          | some brace =>
            rw [h4] at h
            simp only [bind, Except.bind] at h
            obtain ⟨r, hr⟩ := C33_inline_total (subs store .normal none) store
              (brace.after.takeN (brace.after.data.length - 1))
            rw [hr] at h
            simp only at h
            obtain ⟨src, hsrc⟩ := trimRemainder?_ne_none (Sub.refl m.source)
              (((by rw [normLine_after]; exact takeLine_after_suf _ :
                Suf m.blockStart.takeNormalizedLine.after m.blockStart)).trans (meta_suf hm).2).sub
            rw [hsrc] at h
            simp only [Res.ofOption] at h
            have hhead : ∃ c r, m.blockStart.data = c :: r ∧ isWhite c = false := by
              unfold takeIdent at h1
              cases hd : m.blockStart.takeNormalizedLine.item.data with
              | nil => rw [hd] at h1; cases h1
              | cons c cs =>
                rw [hd] at h1
                simp only at h1
                by_cases hc : (isAsciiAlpha c || c == '_') = true
                · obtain ⟨r', e⟩ := line_head hd
                  exact ⟨c, r', e, identChar_not_white hc⟩
                · rw [if_neg hc] at h1; cases h1
            obtain ⟨y, hy⟩ := trimmedLength_total (sourceTo_head hm hhead (takeLine_after_suf _) (normLine_after_lt
              (by obtain ⟨c, r, e, _⟩ := hhead; rw [e]; simp)) hsrc)
            rw [hy] at h
            cases h

theorem break_error {subs : Subs} {store : AttrStore} {s : Span} {m : BlockMetadata} {mw : List Warning} {x : Fail}
    (hm : BlockMetadata.parse subs store s = .ok (m, mw)) (h : Break.parse m = .error x) : False := by
  unfold Break.parse at h
  simp only at h
  cases h1 : breakType m.blockStart.takeNormalizedLine.item.data with
  | none => rw [h1] at h; cases h
  | some ty =>
    rw [h1] at h
    simp only [bind, Except.bind] at h
    obtain ⟨c, r, hline, hw⟩ := breakType_head h1
    obtain ⟨r', e⟩ := line_head hline
    obtain ⟨src, hsrc⟩ : ∃ src, m.source.trimRemainder? m.blockStart.takeNormalizedLine.after = some src :=
      trimRemainder?_ne_none (Sub.refl _) ((takeLine_after_suf _).trans (meta_suf hm).2).sub
    rw [hsrc] at h
    simp only [Res.ofOption] at h
    obtain ⟨y, hy⟩ := trimmedLength_total (sourceTo_head hm ⟨c, r', e, hw⟩ (takeLine_after_suf _) (normLine_after_lt
              (by rw [e]; simp)) hsrc)
    rw [hy] at h
    cases h

theorem noBreakError {subs : Subs} {store : AttrStore} {s : Span} {m : BlockMetadata} {mw : List Warning} {x : Fail}
    (hm : BlockMetadata.parse subs store s = .ok (m, mw)) : breakAt m ≠ .error x := by
  intro h
  unfold breakAt at h
  split at h
  · exact break_error hm h
  · cases h

theorem finishSimple_error {e : BlockEnv} {p : ParserState} {m : BlockMetadata} {b : Bool} {x : Fail}
    (hm : Suf m.blockStart m.source) (ha : m.fields.attrlist ≠ none → '[' ∈ m.source.data)
    (h : finishSimple e p m b = .error x) : Blame e m.source.data x := by
  unfold finishSimple at h
  simp only [bind, Except.bind] at h
  have key : ∀ m' : BlockMetadata, Suf m'.blockStart m'.source → (m'.fields.attrlist ≠ none → '[' ∈ m'.source.data) → ∀ y, SimpleBlock.parse e.subs p.store m' = .error y →
      Blame e m'.source.data y := by
    intro m' hs ha y hy
    obtain ⟨t, hd, h⟩ := simple_error hs hy
    exact ⟨_, _, _, t, hd.mono fun c hc => sub_mem hs.sub hc, asked_override (by decide) (by simp) ha, Or.inl h⟩
  cases b with
  | false =>
    simp only [Bool.false_eq_true, if_false] at h
    cases hp : SimpleBlock.parse e.subs p.store m with
    | error y => rw [hp] at h; cases h; exact key m hm ha _ hp
    | ok q => rw [hp] at h; cases q <;> cases h
  | true =>
    simp only [if_true] at h
    generalize hm' : ({ m with fields := { anchorReftext := m.fields.anchorReftext }, blockStart := m.source } : BlockMetadata) = m' at h
    cases hp : SimpleBlock.parse e.subs p.store m' with
    | error y =>
      rw [hp] at h; cases h
      have := key m' (by rw [← hm']; exact Suf.refl _) (by rw [← hm']; exact fun h => absurd rfl h) _ hp
      rw [← hm'] at this
      exact this
    | ok q => rw [hp] at h; cases q <;> cases h

theorem parseSimple_error {e : BlockEnv} {p : ParserState} {m : BlockMetadata} {b : Bool} {x : Fail}
    (hm : Suf m.blockStart m.source) (ha : m.fields.attrlist ≠ none → '[' ∈ m.source.data)
    (h : parseSimple e p m b = .error x) : Blame e m.source.data x := by
  unfold parseSimple at h
  cases b with
  | true => exact finishSimple_error hm ha h
  | false =>
    simp only [Bool.false_eq_true, if_false, bind, Except.bind] at h
    cases hp : SimpleBlock.parse e.subs p.store m with
    | error y =>
      rw [hp] at h; cases h
      obtain ⟨t, hd, h⟩ := simple_error hm hp
      exact ⟨_, _, _, t, hd.mono fun c hc => sub_mem hm.sub hc, asked_override (by decide) (by simp) ha, Or.inl h⟩
    | ok q => rw [hp] at h; exact finishSimple_error hm ha h

/-! ### One iteration -/

theorem parseCompound_shape {subs : Subs} {store : AttrStore} {s : Span} (p : ParserState) {m : BlockMetadata} {mw : List Warning}
    (hm : BlockMetadata.parse subs store s = .ok (m, mw)) :
    (∀ nested, parseCompound nested p m = .ok none) ∨
    ∃ context inside closing after src, CompoundOpen m context inside closing after src ∧
      ∀ nested, parseCompound nested p m = (nested .never p inside).bind fun maw =>
        .ok (some (⟨.mk (.compound context) src.trimTrailingWhitespace m.fields maw.blocks, after⟩,
          if closing.data = [] then ⟨m.blockStart.takeNormalizedLine.item, .unterminatedDelimitedBlock⟩ :: maw.warnings
          else maw.warnings, maw.state)) := by
  unfold parseCompound
  simp only
  cases hk : compoundKind m.blockStart.takeNormalizedLine.item.data with
  | none => left; intro nested; rfl
  | some context =>
    simp only
    by_cases hd : isCompoundDelimiter m.blockStart.takeNormalizedLine.item.data = true
    · right
      rw [hd]
      simp only [Bool.not_true, Bool.false_eq_true, if_false]
      have hsuf := (meta_suf hm).2
      have hX : Suf m.blockStart.takeNormalizedLine.after m.blockStart := by
        rw [normLine_after]; exact takeLine_after_suf _
      have sub : ∀ k, Suf (m.blockStart.takeNormalizedLine.after.skip k) m.blockStart.takeNormalizedLine.after :=
        fun k => skip_suf _ _
      rcases findClosing_spec m.blockStart.takeNormalizedLine.item.data _ m.blockStart.takeNormalizedLine.after
        (Nat.le_refl _) with ⟨k, pre, post, l, e1, e2, e3, e4, e5, e6⟩ | ⟨k, e1, e2, e3⟩
      · have hc : Sub l.item m.blockStart.takeNormalizedLine.after := by
          rw [e2]; exact (normLine_item_sub _).trans (sub k).sub
        obtain ⟨inside, hi⟩ := trimRemainder?_ne_none (Sub.refl m.blockStart.takeNormalizedLine.after) hc
        obtain ⟨src, hs⟩ := trimRemainder?_ne_none (Sub.refl m.source)
          ((cut_misub l.item l.item.data.length).2.sub.trans (hc.trans (hX.trans hsuf).sub))
        refine ⟨context, inside, l.item, l.after, src, ⟨hk, hd, Or.inl ⟨_, e1⟩, hi, hs⟩, ?_⟩
        intro nested
        have hs : m.source.trimRemainder? l.item.discardAll = some src := hs
        rw [e1]
        simp only [bind, Except.bind, hi, hs, Res.ofOption]
      · have hc : Sub (m.blockStart.takeNormalizedLine.after.skip k) m.blockStart.takeNormalizedLine.after := (sub k).sub
        generalize m.blockStart.takeNormalizedLine.after.skip k = next at e1 e2 hc
        obtain ⟨inside, hi⟩ := trimRemainder?_ne_none (Sub.refl m.blockStart.takeNormalizedLine.after) hc
        obtain ⟨src, hs⟩ := trimRemainder?_ne_none (Sub.refl m.source)
          ((cut_misub next next.data.length).2.sub.trans (hc.trans (hX.trans hsuf).sub))
        refine ⟨context, inside, next, next, src, ⟨hk, hd, Or.inr ⟨e1, rfl⟩, hi, hs⟩, ?_⟩
        intro nested
        have hs : m.source.trimRemainder? next.discardAll = some src := hs
        rw [e1]
        simp only [bind, Except.bind, hi, hs, Res.ofOption]
    · left
      intro nested
      rw [Bool.eq_false_iff.mpr hd]
      rfl

/-- Where the title of a section is looked for. -/
theorem title_at_mark {ar : Arith} {s : Span}
    (hs : (startsWith s.takeNormalizedLine.item.data ['='] || startsWith s.takeNormalizedLine.item.data ['#']) = true) :
    ∃ r, parseTitleLine ar s = .ok r := by
  have hi : ¬ Indented s.takeNormalizedLine.item.data := by
    rw [Bool.or_eq_true] at hs
    rcases hs with hs | hs <;> obtain ⟨r, hr⟩ := startsWith_iff.mp hs <;> rw [hr] <;> simp [Indented]
  rcases titleLine_cases ar s _ rfl with ⟨_, e⟩ | ⟨_, e⟩ | ⟨n, _, _, e⟩ | ⟨h0, _, e⟩ | ⟨l, t, _, e⟩ | ⟨_, _, _, _, _, e⟩
  · exact ⟨_, e⟩
  · exact ⟨_, e⟩
  · exact ⟨_, e⟩
  · exact absurd h0 hi
  · exact ⟨_, e⟩
  · exact ⟨_, e⟩

/-- What `parse` of a block returns. -/
abbrev BlockRes := Res (Option (MI Block) × List Warning × ParserState)

theorem parseSection_shape {e : BlockEnv} {s : Span} {store : AttrStore} (p : ParserState) {m : BlockMetadata} {mw : List Warning}
    (hm : BlockMetadata.parse e.subs store s = .ok (m, mw))
    (hs : (startsWith m.line ['='] || startsWith m.line ['#']) = true) :
    (∃ tw, ∀ nested, parseSection e nested p m = .ok (none, tw, p)) ∨
    ∃ mi tw, ∃ f : Blocks → BlockRes, parseTitleLine e.ar m.blockStart = .ok (some mi, tw) ∧
      (∀ nested, parseSection e nested p m =
        (nested (if m.isDiscrete then .always else .peer mi.item.1 mi.item.1) (openSection p m mi.item.1).2.2 mi.after).bind f) ∧
      ∀ maw, (∀ x, Suf maw.after mi.after → f maw = .error x → Blame e s.data x) ∧
        ∀ q, f maw = .ok q → ∃ b, q.1 = some ⟨b, maw.after⟩ := by
  unfold parseSection
  simp only [discard_marked hs]
  obtain ⟨⟨mi, tw⟩, ht⟩ := title_at_mark (ar := e.ar) hs
  rw [ht]
  simp only [bind, Except.bind]
  cases mi with
  | none => exact Or.inl ⟨tw, fun _ => rfl⟩
  | some mi =>
    right
    refine ⟨mi, tw, ?_⟩
    have hmi : Suf mi.after m.source := by
      rw [(titleLine_geo ht).2.1]
      exact (takeLine_after_suf _).trans (meta_suf hm).2
    refine ⟨_, rfl, fun _ => rfl, fun maw => ⟨fun x hx h => ?_, fun q h => ?_⟩⟩
    · obtain ⟨src, h1⟩ := trimRemainder?_ne_none (Sub.refl m.source) (hx.trans hmi).sub
      rw [h1] at h
      simp only [Res.ofOption] at h
      cases h2 : e.subs maw.state.store .title m.fields.attrlist mi.item.2.data with
      | error y =>
        rw [h2] at h; cases h
        refine ⟨_, _, _, _, .of_mem fun c hc => ?_,
          asked_named (by decide) (by simp) fun ha => sub_mem (meta_suf hm).1.sub (meta_bracket hm ha), Or.inl h2⟩
        exact sub_mem ((meta_suf hm).2.trans (meta_suf hm).1).sub (sub_mem (titleLine_geo ht).2.2.1 hc)
      | ok title =>
        rw [h2] at h
        simp only at h
        obtain ⟨base, h3⟩ := generateSectionId_total maw.state.store title
        rw [h3] at h
        simp only at h
        obtain ⟨⟨id, p2, dup⟩, h4⟩ := registerSection_total maw.state (p.store.isAttributeSet "sectids".toList) base
                ((m.fields.attrlist.bind Attrlist.id).or (m.fields.anchor.map Span.data))
                (((m.fields.attrlist.bind (·.namedAttribute "reftext".toList)).map ElemAttr.value).getD title)
        rw [h4] at h
        simp only at h
        obtain ⟨d, h5⟩ := trimRemainder?_ne_none (Sub.refl m.source) hmi.sub
        rw [h5] at h
        cases h
    · cases h1 : m.source.trimRemainder? maw.after with
      | none => rw [h1] at h; cases h
      | some src =>
        rw [h1] at h
        simp only [Res.ofOption] at h
        cases h2 : e.subs maw.state.store .title m.fields.attrlist mi.item.2.data with
        | error y => rw [h2] at h; cases h
        | ok title =>
          rw [h2] at h
          simp only at h
          obtain ⟨base, h3⟩ := generateSectionId_total maw.state.store title
          rw [h3] at h
          simp only at h
          obtain ⟨⟨id, p2, dup⟩, h4⟩ := registerSection_total maw.state (p.store.isAttributeSet "sectids".toList) base
                  ((m.fields.attrlist.bind Attrlist.id).or (m.fields.anchor.map Span.data))
                  (((m.fields.attrlist.bind (·.namedAttribute "reftext".toList)).map ElemAttr.value).getD title)
          rw [h4] at h
          simp only at h
          cases h5 : m.source.trimRemainder? mi.after with
          | none => rw [h5] at h; cases h
          | some d => rw [h5] at h; cases h; exact ⟨_, rfl⟩

/-- What an iteration of the block parser can do: it does not need nested blocks, and then only a substitution can make it
fail; or it reads the blocks in a delimited block; or it reads the blocks of a section. -/
inductive Shape (e : BlockEnv) (p : ParserState) (s : Span) : (Nested → BlockRes) → Prop
  | plain {r} : (∀ x, r = .error x → Blame e s.data x) → Shape e p s (fun _ => r)
  | compound {m mw context inside closing after src f} : BlockMetadata.parse e.subs p.store s = .ok (m, mw) →
      CompoundOpen m context inside closing after src → (∀ maw, ∃ b ws p', f maw = .ok (some ⟨b, after⟩, ws, p')) →
      Shape e p s (fun nested => (nested .never p inside).bind f)
  | section {m mw mi tw f} : BlockMetadata.parse e.subs p.store s = .ok (m, mw) →
      (startsWith m.line ['='] || startsWith m.line ['#']) = true →
      parseTitleLine e.ar m.blockStart = .ok (some mi, tw) →
      (∀ maw, (∀ x, Suf maw.after mi.after → f maw = .error x → Blame e s.data x) ∧
        ∀ q, f maw = .ok q → ∃ b, q.1 = some ⟨b, maw.after⟩) →
      Shape e p s (fun nested =>
        (nested (if m.isDiscrete then .always else .peer mi.item.1 mi.item.1) (openSection p m mi.item.1).2.2 mi.after).bind f)

theorem shape_cast {e : BlockEnv} {p : ParserState} {s : Span} {f g : Nested → BlockRes} (h : Shape e p s f)
    (he : ∀ nested, g nested = f nested) : Shape e p s g := by
  have : g = f := funext he
  rw [this]; exact h

theorem parseBlock_shape (e : BlockEnv) (p : ParserState) (s : Span) : Shape e p s (fun nested => parseBlock e nested p s) := by
  unfold parseBlock
  simp only [bind, Except.bind]
  cases hf : fastPath e p s with
  | error x => exact .plain fun y hy => by cases hy; exact fast_error hf
  | ok q =>
    cases q with
    | some mi => exact .plain nofun
    | none =>
      simp only
      cases hb : bodyEntryAt e p s with
      | error x => exact .plain fun y hy => by cases hy; exact entry_error hb
      | ok q =>
        cases q with
        | some mi => exact .plain nofun
        | none =>
          simp only
          cases hm : BlockMetadata.parse e.subs p.store s with
          | error x =>
            refine .plain fun y hy => ?_
            cases hy
            obtain ⟨t, hd, ht⟩ := C27_terminates hm
            exact ⟨_, _, _, _, hd, asked_named (by decide) (by simp) (fun h => absurd rfl h), Or.inl ht⟩
          | ok q =>
            obtain ⟨m, mw⟩ := q
            simp only
            have hsuf := (meta_suf hm).2
            have hmem : ∀ c ∈ m.source.data, c ∈ s.data := fun c hc => sub_mem (meta_suf hm).1.sub hc
            by_cases hl : m.fields.style = some "literal".toList
            · simp only [if_pos hl]
              cases hp : parseSimple e p m true with
              | error x => exact .plain fun y hy => by cases hy; exact (parseSimple_error hsuf (meta_bracket hm) hp).mono hmem
              | ok q => exact .plain nofun
            · simp only [if_neg hl]
              unfold parseBehind
              simp only [bind, Except.bind]
              cases hr : RawBlock.parse e.subs p.store m with
              | error x =>
                refine .plain fun y hy => ?_
                cases hy
                obtain ⟨ch, t, ⟨y, z, hy⟩, h⟩ := C24_total hsuf hr
                refine ⟨_, _, _, _, .of_mem fun c hc => hmem c (sub_mem hsuf.sub ?_),
                  asked_override (kind_named ch).1 (kind_named ch).2 fun ha => hmem _ (meta_bracket hm ha), Or.inl h⟩
                rw [hy]; simp [hc]
              | ok q =>
                cases q with
                | some q => exact .plain nofun
                | none =>
                  simp only
                  rcases parseCompound_shape p hm with hc | ⟨context, inside, closing, after, src, hc, hco⟩
                  · simp only [hc]
                    cases hq : mediaAt e p m with
                    | error x =>
                      exfalso
                      unfold mediaAt at hq
                      split at hq
                      · exact media_error hm hq
                      · cases hq
                    | ok q =>
                      cases q with
                      | some q => exact .plain nofun
                      | none =>
                        simp only
                        unfold sectionAt
                        by_cases hi : (startsWith m.line ['='] || startsWith m.line ['#']) = true
                        · simp only [if_pos hi]
                          rcases parseSection_shape p hm hi with ⟨tw, h⟩ | ⟨mi, tw, f, h1, h2, h3⟩
                          · simp only [h]
                            cases hbq : breakAt m with
                            | error x => exact absurd hbq (noBreakError hm)
                            | ok q =>
                              cases q with
                              | some mi => exact .plain nofun
                              | none =>
                                simp only
                                cases hp : parseSimple e p m false with
                                | error x => exact .plain fun y hy => by cases hy; exact (parseSimple_error hsuf (meta_bracket hm) hp).mono hmem
                                | ok q => exact .plain nofun
                          · simp only [h2]
                            refine shape_cast (.section (f := fun maw => (f maw).bind fun q =>
                              .ok (q.1, mw ++ q.2.1, q.2.2)) hm hi h1 ?_) ?_
                            · intro maw
                              obtain ⟨g1, g2⟩ := h3 maw
                              refine ⟨fun x hx h => ?_, fun q h => ?_⟩
                              · cases hq : f maw with
                                | error y => rw [hq] at h; cases h; exact g1 _ hx hq
                                | ok q => rw [hq] at h; cases h
                              · cases hq : f maw with
                                | error y => rw [hq] at h; cases h
                                | ok q' =>
                                  rw [hq] at h
                                  cases h
                                  exact g2 q' hq
                            · intro nested
                              generalize nested _ _ _ = z
                              cases z with
                              | error y => rfl
                              | ok maw =>
                                simp only [Except.bind]
                                cases hq : f maw with
                                | error y => rfl
                                | ok q =>
                                  obtain ⟨b, hb⟩ := (h3 maw).2 q hq
                                  simp only [hb]
                        · simp only [if_neg hi]
                          cases hbq : breakAt m with
                          | error x => exact absurd hbq (noBreakError hm)
                          | ok q =>
                            cases q with
                            | some mi => exact .plain nofun
                            | none =>
                              simp only
                              cases hp : parseSimple e p m false with
                              | error x => exact .plain fun y hy => by cases hy; exact (parseSimple_error hsuf (meta_bracket hm) hp).mono hmem
                              | ok q => exact .plain nofun
                  · simp only [hco]
                    refine shape_cast (.compound (f := fun maw => .ok (some ⟨.mk (.compound context)
                        src.trimTrailingWhitespace m.fields maw.blocks, after⟩,
                      mw ++ ((if closing.data = [] then
                        ⟨m.blockStart.takeNormalizedLine.item, .unterminatedDelimitedBlock⟩ :: maw.warnings
                        else maw.warnings) ++ (registerBlockId maw.state m.fields src.trimTrailingWhitespace).2),
                      (registerBlockId maw.state m.fields src.trimTrailingWhitespace).1)) hm hc
                      fun maw => ⟨_, _, _, rfl⟩) fun nested => ?_
                    cases nested .never p inside <;> rfl

end Adoc
