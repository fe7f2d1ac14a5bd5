import Verif.Lemmas.Expansion
/-!
# C51: attribute entries

`hdr` stands for the header substitutions.
-/

namespace Adoc.Props
open Adoc Adoc.Spec Span

set_option linter.unusedSectionVars false

variable [Uni]

/-- An entry at the beginning of a text is recognised in full: its name, its value, its extent and the text behind it are
those that the written form says, and name, value and source are faithful to the document. -/
theorem C51_entry {doc : Text} {hdr : Text → Res Text} {s : Span} {c sep rest u n b : Text} {k : EntryKind} {v : IVal}
    (hx : Extent s.data c sep rest) (hu : StripSpaces c u) (he : Entry u n k) (hv : EntryValue hdr k v) (hb : StripEnd c b) (hf : Faithful doc s) :
    ∃ m, Attribute.parse hdr s = .ok (some m) ∧ m.item.name.data = n ∧ m.item.value = v ∧ m.item.source.data = b ∧
      m.after.data = rest ∧ (∀ raw, k = .value raw ↔ m.item.valueSource.map Span.data = some raw) ∧
      Faithful doc m.item.name ∧ Faithful doc m.item.source ∧ Faithful doc m.after ∧
      ∀ vs, m.item.valueSource = some vs → Faithful doc vs := by
  rw [faithful_iff_sub] at hf
  obtain ⟨nm, vs, h1, h2, h3, h4, h5⟩ := parse_entry (hdr := hdr) hx hu he
  rw [kindValue_ok.mpr hv] at h5
  refine ⟨_, h5, h2, rfl, ?_, hx.dropN_data, ?_, (faithful_iff_sub _ _).mpr (h1.trans hf), ?_, ?_, ?_⟩
  · rw [stripEnd_iff.mp hb, takeN_data]
    obtain ⟨w, e, _⟩ := trimEndP_spec isWhite c
    have e : c = trimEnd c ++ w := e
    generalize trimEnd c = b at e
    rw [hx.eq, e, List.append_assoc, List.append_assoc, List.take_left]
  · intro raw
    rw [h3]
    cases k <;> simp [kindRaw, eq_comm]
  · exact (faithful_iff_sub _ _).mpr ((takeN_sub _ _).trans hf)
  · exact (faithful_iff_sub _ _).mpr ((dropN_suf _ _).sub.trans hf)
  · intro x hx'; exact (faithful_iff_sub _ _).mpr ((h4 x hx').trans hf)

/-- Everything recognised is an entry, with the reading `C51_entry` describes. -/
theorem C51_only_entries {hdr : Text → Res Text} {s : Span} {m : MI Attribute} (h : Attribute.parse hdr s = .ok (some m)) :
    ∃ c sep rest u k, Extent s.data c sep rest ∧ StripSpaces c u ∧ Entry u m.item.name.data k ∧ EntryValue hdr k m.item.value ∧
      m.after.data = rest := by
  obtain ⟨c, sep, rest, hx⟩ := extent_exists s.data
  obtain ⟨u, hu⟩ := stripSpaces_exists c
  by_cases he : ∃ n k, Entry u n k
  · obtain ⟨n, k, he⟩ := he
    obtain ⟨nm, vs, h1, h2, h3, h4, h5⟩ := parse_entry (hdr := hdr) hx hu he
    rw [h] at h5
    cases hk : kindValue hdr k with
    | error e => rw [hk] at h5; cases h5
    | ok v =>
      rw [hk] at h5
      simp only [Except.map, Except.ok.injEq, Option.some.injEq] at h5
      subst h5
      exact ⟨c, sep, rest, u, k, hx, hu, by rw [h2]; exact he, kindValue_ok.mp hk, hx.dropN_data⟩
  · have := parse_no_entry (hdr := hdr) hx hu (fun n k h => he ⟨n, k, h⟩)
    rw [this] at h
    cases h

/-- With substitutions that always succeed, an entry is found exactly when one is written there. -/
theorem C51_found_iff {hdr : Text → Res Text} (hh : ∀ t, ∃ v, hdr t = .ok v) (s : Span) :
    (∃ m, Attribute.parse hdr s = .ok (some m)) ↔
      ∃ c sep rest u n k, Extent s.data c sep rest ∧ StripSpaces c u ∧ Entry u n k := by
  constructor
  · rintro ⟨m, h⟩
    obtain ⟨c, sep, rest, u, k, h1, h2, h3, _⟩ := C51_only_entries h
    exact ⟨c, sep, rest, u, _, k, h1, h2, h3⟩
  · rintro ⟨c, sep, rest, u, n, k, h1, h2, h3⟩
    have hv : ∃ v, EntryValue hdr k v := by
      cases k with
      | unset => exact ⟨_, .unset⟩
      | set => exact ⟨_, .set⟩
      | value raw => obtain ⟨v, hv⟩ := hh (joinValue raw); exact ⟨_, .value hv⟩
    obtain ⟨v, hv⟩ := hv
    obtain ⟨nm, vs, _, _, _, _, h5⟩ := parse_entry (hdr := hdr) h1 h2 h3
    rw [kindValue_ok.mpr hv] at h5
    exact ⟨_, h5⟩

/-- A text is read as an entry in one way only. -/
theorem C51_unique {t c sep rest u n c' sep' rest' u' n' : Text} {k k' : EntryKind} (h1 : Extent t c sep rest)
    (h2 : StripSpaces c u) (h3 : Entry u n k) (h1' : Extent t c' sep' rest') (h2' : StripSpaces c' u') (h3' : Entry u' n' k') :
    c = c' ∧ sep = sep' ∧ rest = rest' ∧ n = n' ∧ k = k' := by
  obtain ⟨rfl, rfl, rfl⟩ := h1.det h1'
  obtain rfl := h2.det h2'
  obtain ⟨rfl, rfl⟩ := h3.det h3'
  exact ⟨rfl, rfl, rfl, rfl, rfl⟩

/-- A value on one line is substituted as it stands. -/
theorem C51_value_one_line {hdr : Text → Res Text} {raw v : Text} (h : '\n' ∉ raw) :
    EntryValue hdr (.value raw) (.value v) ↔ hdr raw = .ok v := by
  have e : joinValue raw = raw := by
    unfold joinValue; rw [if_neg (by simpa using h)]
  constructor
  · intro h; cases h; rwa [e] at *
  · intro h; exact .value (by rw [e]; exact h)

/-- A value on several lines is joined first. -/
theorem C51_value_wrapped {hdr : Text → Res Text} {raw x v : Text} (h : Wrapped raw x) :
    EntryValue hdr (.value raw) (.value v) ↔ hdr x = .ok v := by
  have e := joinValue_wrapped h
  constructor
  · intro h; cases h; rwa [e] at *
  · intro h; exact .value (by rw [e]; exact h)

/-! The hypotheses are met. -/

private def demo : Text := [':', 'n', ':', ' ', 'a', ' ', '\\', '\n', ' ', 'b', ' ', '+', ' ', '\\', '\n', 'c', ' ', '\n', 'z']
private def demoC : Text := [':', 'n', ':', ' ', 'a', ' ', '\\', '\n', ' ', 'b', ' ', '+', ' ', '\\', '\n', 'c', ' ']
private def demoU : Text := [':', 'n', ':', ' ', 'a', ' ', '\\', '\n', ' ', 'b', ' ', '+', ' ', '\\', '\n', 'c']
private def demoRaw : Text := ['a', ' ', '\\', '\n', ' ', 'b', ' ', '+', ' ', '\\', '\n', 'c']

private theorem piece_of {v : Text} (h1 : v ≠ []) (h2 : '\n' ∉ v) (h3 : '\r' ∉ v) (h4 : v.head? ≠ some ' ')
    (h5 : ∀ d ∈ v.getLast?, d ≠ ' ' ∧ d ≠ '\\' ∧ d ≠ '+') : Piece v :=
  ⟨h1, h2, h3, fun c r e => by rintro rfl; exact h4 (by rw [e]; rfl), fun c r e => h5 c (by rw [e]; simp)⟩

example : Wrapped demoRaw ['a', ' ', 'b', '\n', 'c'] :=
  .soft (v := ['a']) (sp := [' ']) (piece_of (by decide) (by decide) (by decide) (by decide) (by decide)) (by decide)
    (.hard (v := ['b']) (sp := []) (piece_of (by decide) (by decide) (by decide) (by decide) (by decide)) (by decide)
      (.last (piece_of (by decide) (by decide) (by decide) (by decide) (by decide))))

private theorem firstLine_of {l rest : Text} (h : '\n' ∉ l) (h' : l.getLast? ≠ some '\r') :
    FirstLine (l ++ ['\n'] ++ rest) l ['\n'] rest :=
  ⟨rfl, h, Or.inl rfl, fun ⟨r, e⟩ => absurd (by rw [e]; simp) h'⟩

example : Extent demo demoC ['\n'] ['z'] := by
  have h3 : Extent ['c', ' ', '\n', 'z'] ['c', ' '] ['\n'] ['z'] :=
    .last (firstLine_of (l := ['c', ' ']) (by decide) (by decide)) (Or.inl (by rw [← continued_iff]; decide))
  have h2 : Extent [' ', 'b', ' ', '+', ' ', '\\', '\n', 'c', ' ', '\n', 'z'] [' ', 'b', ' ', '+', ' ', '\\', '\n', 'c', ' ']
      ['\n'] ['z'] :=
    .more (firstLine_of (l := [' ', 'b', ' ', '+', ' ', '\\']) (by decide) (by decide)) (by rw [← continued_iff]; decide)
      (by decide) h3
  exact .more (firstLine_of (l := [':', 'n', ':', ' ', 'a', ' ', '\\']) (by decide) (by decide))
    (by rw [← continued_iff]; decide) (by decide) h2

example : StripSpaces demoC demoU ∧ Entry demoU ['n'] (.value demoRaw) :=
  ⟨⟨[' '], rfl, by decide, fun ⟨r, h⟩ => absurd (by rw [h]; simp : demoU.getLast? = some ' ') (by decide)⟩,
   .value (n := ['n']) (sp := [' ']) (refName_iff.mpr ⟨'n', [], rfl, by decide, by decide⟩) (by decide)
    (by intro c hc; simp at hc; exact Or.inl hc) (fun c r e => by cases e; decide)⟩

example : (Attribute.parse (fun t => .ok t) (Span.new demo)).map (·.map (·.item.value)) =
    .ok (some (.value ['a', ' ', 'b', '\n', 'c'])) := by decide +kernel

end Adoc.Props
