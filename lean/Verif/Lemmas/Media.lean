import Verif.Spec.Kinds
import Verif.Lemmas.Total
/-!
# Block macros, breaks and the delimiters of blocks with nested blocks
-/

namespace Adoc
open Span Spec

theorem mediaType_iff {t : Text} {ty : MediaType} : mediaType t = some ty ↔ t = (macroName ty).toList := by
  unfold mediaType
  constructor
  · intro h
    split at h
    · rename_i ht; cases h; exact ht
    · split at h
      · rename_i ht; cases h; exact ht
      · split at h
        · rename_i ht; cases h; exact ht
        · cases h
  · rintro rfl
    cases ty <;> decide

theorem mediaName_ident (ty : MediaType) : ∃ c cs, (macroName ty).toList = c :: cs ∧
    (isAsciiAlpha c || c == '_') = true ∧ ∀ d ∈ cs, (isAsciiAlnum d || d == '_') = true := by
  cases ty
  · exact ⟨'i', "mage".toList, by decide, by decide, by decide⟩
  · exact ⟨'v', "ideo".toList, by decide, by decide, by decide⟩
  · exact ⟨'a', "udio".toList, by decide, by decide, by decide⟩

theorem cut_data (s : Span) (k : Nat) : s.data = (s.cut k).item.data ++ (s.cut k).after.data := by
  show s.data = (s.takeN k).data ++ (s.dropN k).data
  rw [takeN_data, dropN_data, List.take_append_drop]

theorem takeIdent_data {s : Span} {mi : MI Span} (h : s.takeIdent = some mi) : s.data = mi.item.data ++ mi.after.data := by
  unfold takeIdent at h
  split at h
  · cases h
  · split at h
    · cases h; exact cut_data _ _
    · cases h

theorem takePrefix_data {s : Span} {pre : Text} {mi : MI Span} (h : s.takePrefix pre = some mi) :
    s.data = pre ++ mi.after.data := by
  unfold takePrefix at h
  split at h
  · rename_i hs
    cases h
    obtain ⟨r, hr⟩ := startsWith_iff.mp hs
    show s.data = pre ++ (s.dropN pre.length).data
    rw [dropN_data, hr]; simp
  · cases h

theorem closing_bracket {r P l : Text} (h : r ++ [']'] = P ++ '[' :: l) : ∃ i, l = i ++ [']'] := by
  have h := congrArg List.reverse h
  simp only [List.reverse_append, List.reverse_cons, List.reverse_nil, List.nil_append, List.singleton_append] at h
  cases hl : l.reverse with
  | nil => rw [hl] at h; simp at h
  | cons x y =>
    rw [hl] at h
    simp at h
    refine ⟨y.reverse, ?_⟩
    rw [← List.reverse_reverse l, hl, ← h.1]; simp

variable [Uni]

/-- What a block macro says. -/
theorem media_reads {subs : Subs} {store : AttrStore} {m : BlockMetadata} {mb : MediaBlock} {after : Span}
    {ws : List Warning} (h : MediaBlock.parse subs store m = .ok (some (⟨mb, after⟩, ws))) :
    MediaLine m.line mb.type mb.target.data mb.attrs.source.data ∧
      Attrlist.parse (subs store .normal none) store mb.attrs.source .inline = .ok (mb.attrs, ws) ∧
      after = m.blockStart.takeNormalizedLine.after.discardEmptyLines := by
  unfold MediaBlock.parse at h
  simp only at h
  by_cases h1 : endsWith m.blockStart.takeNormalizedLine.item.data [']'] = true
  case neg => rw [Bool.eq_false_iff.mpr h1] at h; cases h
  rw [h1] at h
  simp only [Bool.not_true, Bool.false_eq_true, if_false] at h
  unfold BlockMetadata.line
  generalize m.blockStart.takeNormalizedLine.item = L at h h1 ⊢
  cases h2 : L.takeIdent with
  | none => rw [h2] at h; cases h
  | some name =>
    rw [h2] at h
    simp only at h
    cases h3 : mediaType name.item.data with
    | none => rw [h3] at h; cases h
    | some ty =>
      rw [h3] at h
      simp only at h
      cases h4 : name.after.takePrefix [':', ':'] with
      | none => rw [h4] at h; cases h
      | some colons =>
        rw [h4] at h
        simp only at h
        by_cases h5 : (colons.after.takeWhile (· ≠ '[')).item.data = []
        · rw [if_pos h5] at h; cases h
        rw [if_neg h5] at h
        cases h6 : (colons.after.takeWhile (· ≠ '[')).after.takePrefix ['['] with
        | none => rw [h6] at h; cases h
        | some brace =>
          rw [h6] at h
          simp only [bind, Except.bind] at h
          generalize hq : Attrlist.parse (subs store .normal none) store
                (brace.after.takeN (brace.after.data.length - 1)) .inline = q at h
          cases q with
          | error e => cases h
          | ok q =>
            simp only at h
            generalize Res.ofOption (Span.trimRemainder? _ _) = a at h
            cases a with
            | error x => cases h
            | ok src =>
              simp only at h
              generalize trimmedLength src = a at h
              cases a with
              | error x => cases h
              | ok src' =>
                cases h
                have hal : q.1.source = brace.after.takeN (brace.after.data.length - 1) := by
                  obtain ⟨al, ws⟩ := q
                  obtain ⟨_, _, hs, _⟩ := Props.C33_elements hq; exact hs
                refine ⟨⟨?_, h5, ?_⟩, ?_, rfl⟩
                · rw [hal, takeN_data]
                  have e1 := takeIdent_data h2
                  have e2 := takePrefix_data h4
                  have e3 := cut_data colons.after (prefLen (· ≠ '[') colons.after.data)
                  have e4 := takePrefix_data h6
                  rw [mediaType_iff.mp h3, e2] at e1
                  have e3' : colons.after.data = (colons.after.takeWhile (· ≠ '[')).item.data ++
                    (colons.after.takeWhile (· ≠ '[')).after.data := e3
                  rw [e3', e4] at e1
                  obtain ⟨r, hr⟩ := endsWith_iff.mp h1
                  rw [e1]
                  obtain ⟨i, hi⟩ : ∃ i, brace.after.data = i ++ [']'] := by
                    rw [hr] at e1
                    refine closing_bracket (r := r) (P := (macroName ty).toList ++ ([':', ':'] ++ (colons.after.takeWhile (· ≠ '[')).item.data)) ?_
                    rw [e1]; simp only [List.append_assoc, List.singleton_append]
                  rw [hi]
                  simp
                · intro hm
                  have := prefLen_take (· ≠ '[') colons.after.data '[' (by
                    have e : (colons.after.takeWhile (· ≠ '[')).item.data =
                      colons.after.data.take (prefLen (· ≠ '[') colons.after.data) := takeN_data _ _
                    rw [← e]; exact hm)
                  simp at this
                · rw [hal]; exact hq

/-- A line that is a block macro is read as one. -/
theorem media_found {subs : Subs} {store : AttrStore} {m : BlockMetadata} {ty : MediaType} {target attrs : Text}
    (hl : MediaLine m.line ty target attrs) : MediaBlock.parse subs store m ≠ .ok none := by
  obtain ⟨he, hne, hnot⟩ := hl
  intro h
  unfold MediaBlock.parse at h
  simp only at h
  unfold BlockMetadata.line at he
  have h1 : endsWith m.blockStart.takeNormalizedLine.item.data [']'] = true :=
    endsWith_iff.mpr ⟨_, he⟩
  rw [h1] at h
  simp only [Bool.not_true, Bool.false_eq_true, if_false] at h
  generalize m.blockStart.takeNormalizedLine.item = L at h he
  obtain ⟨c, cs, hn, hc, hcs⟩ := mediaName_ident ty
  have h2 : L.takeIdent = some (L.cut (macroName ty).toList.length) := by
    unfold takeIdent
    rw [he, hn]
    simp only [List.cons_append, hc, if_true]
    rw [List.append_assoc, List.append_assoc, prefLen_append (a := cs) hcs]
    · simp [Nat.add_comm]
    · intro d r hd
      simp at hd
      rw [← hd.1]; decide
  rw [h2] at h
  simp only at h
  have h3 : (L.cut (macroName ty).toList.length).item.data = (macroName ty).toList := by
    show (L.takeN _).data = _
    rw [takeN_data, he]; simp
  have h3' : (L.cut (macroName ty).toList.length).after.data = ':' :: ':' :: target ++ '[' :: attrs ++ [']'] := by
    show (L.dropN _).data = _
    rw [dropN_data, he]; simp
  rw [mediaType_iff.mpr h3] at h
  simp only at h
  generalize (L.cut (macroName ty).toList.length).after = A at h h3'
  have h4 : A.takePrefix [':', ':'] = some (A.cut 2) := by
    unfold takePrefix
    rw [h3']
    rfl
  rw [h4] at h
  simp only at h
  have h5 : (A.cut 2).after.data = target ++ '[' :: attrs ++ [']'] := by
    show (A.dropN _).data = _
    rw [dropN_data, h3']; simp
  generalize (A.cut 2).after = B at h h5
  have hp : prefLen (· ≠ '[') B.data = target.length := by
    rw [h5, List.append_assoc]
    apply prefLen_append
    · intro d hd
      simp only [ne_eq, decide_not, Bool.not_eq_true', decide_eq_false_iff_not]
      rintro rfl
      exact hnot hd
    · intro d r hd
      simp at hd
      simp [← hd.1]
  have h6 : (B.takeWhile (· ≠ '[')).item.data = target := by
    show (B.takeN _).data = _
    rw [hp, takeN_data, h5]; simp
  have h7 : (B.takeWhile (· ≠ '[')).after.data = '[' :: attrs ++ [']'] := by
    show (B.dropN _).data = _
    rw [hp, dropN_data, h5]; simp
  rw [if_neg (by rw [h6]; exact hne)] at h
  generalize (B.takeWhile (· ≠ '[')) = T at h h7
  have h8 : T.after.takePrefix ['['] = some (T.after.cut 1) := by
    unfold takePrefix
    rw [h7]
    rfl
  rw [h8] at h
  simp only [bind, Except.bind] at h
  generalize Attrlist.parse _ _ _ _ = q at h
  cases q with
  | error e => cases h
  | ok q =>
    simp only at h
    generalize Res.ofOption (Span.trimRemainder? _ _) = a at h
    cases a with
    | error x => cases h
    | ok src =>
      simp only at h
      generalize trimmedLength src = a at h
      cases a <;> cases h

omit [Uni] in
theorem breakType_iff {l : Text} {ty : BreakType} : breakType l = some ty ↔ BreakLine l ty := by
  unfold breakType
  cases ty with
  | thematic =>
    simp only [BreakLine, List.mem_cons, List.not_mem_nil, or_false, exists_eq_or_imp, exists_eq_left]
    constructor
    · intro h
      split at h
      · rename_i hl; exact hl
      · split at h <;> cases h
    · intro h; rw [if_pos h]
  | page =>
    simp only [BreakLine]
    constructor
    · intro h
      split at h
      · cases h
      · split at h
        · rename_i hl; exact hl
        · cases h
    · rintro rfl; decide

omit [Uni] in
theorem compoundLine_iff {l context : Text} :
    (compoundKind l = some context ∧ isCompoundDelimiter l = true) ↔ CompoundLine l context := by
  rw [isCompoundDelimiter_iff]
  unfold CompoundLine CompoundDelim
  constructor
  · rintro ⟨h, hd⟩
    rcases hd with rfl | ⟨c, n, hc, rfl⟩
    · exact Or.inl ⟨rfl, (Option.some.inj h).symm⟩
    · right
      refine ⟨n, ?_⟩
      have e : (List.replicate (n + 4) c).take 4 = [c, c, c, c] := by simp [List.replicate_succ]
      unfold compoundKind at h
      rw [e] at h
      rcases hc with rfl | rfl | rfl
      · exact Or.inl ⟨rfl, (Option.some.inj h).symm⟩
      · exact Or.inr (Or.inl ⟨rfl, (Option.some.inj h).symm⟩)
      · exact Or.inr (Or.inr ⟨rfl, (Option.some.inj h).symm⟩)
  · have e : ∀ n (c : Char), (List.replicate (n + 4) c).take 4 = [c, c, c, c] := by simp [List.replicate_succ]
    rintro (⟨rfl, rfl⟩ | ⟨n, ⟨rfl, rfl⟩ | ⟨rfl, rfl⟩ | ⟨rfl, rfl⟩⟩)
    · exact ⟨rfl, Or.inl rfl⟩
    · refine ⟨?_, Or.inr ⟨'=', n, Or.inl rfl, rfl⟩⟩
      unfold compoundKind; rw [e]; rfl
    · refine ⟨?_, Or.inr ⟨'*', n, Or.inr (Or.inl rfl), rfl⟩⟩
      unfold compoundKind; rw [e]; rfl
    · refine ⟨?_, Or.inr ⟨'_', n, Or.inr (Or.inr rfl), rfl⟩⟩
      unfold compoundKind; rw [e]; rfl

theorem not_audio {l target attrs : Text} {ty : MediaType}
    (h : (startsWith l "image::".toList || startsWith l "video::".toList) = true) (hl : MediaLine l ty target attrs) :
    ty ≠ .audio := by
  rintro rfl
  obtain ⟨rfl, _⟩ := hl
  have e : (macroName .audio).toList = ['a', 'u', 'd', 'i', 'o'] := by decide
  rw [e] at h
  rw [Bool.or_eq_true] at h
  rcases h with h | h
  · obtain ⟨r, hr⟩ := startsWith_iff.mp h
    have := congrArg List.head? hr
    simp at this
  · obtain ⟨r, hr⟩ := startsWith_iff.mp h
    have := congrArg List.head? hr
    simp at this

end Adoc
