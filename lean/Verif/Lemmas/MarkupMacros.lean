import Verif.Lemmas.MarkupSteps
import Verif.Props.Macros
/-!
# Inline macros write no tags of their own
-/

namespace Adoc
open Re Spec

theorem ok_of_bind {α β : Type} {x : Res α} {f : α → Res β} {y : β} (h : (x >>= f) = .ok y) : ∃ a, x = .ok a ∧ f a = .ok y := by
  cases x with
  | error er => cases h
  | ok a => exact ⟨a, rfl, h⟩

theorem ok_of_ite {α : Type} {P : Prop} [Decidable P] {A B : Res α} {y : α} (h : (if P then A else B) = .ok y) :
    P ∧ A = .ok y ∨ ¬ P ∧ B = .ok y := by
  split at h
  · next hp => exact .inl ⟨hp, h⟩
  · next hp => exact .inr ⟨hp, h⟩

theorem plain_map {t : Text} {f : Char → Char} (h : Tagless t) (hf : ∀ c, f c = c ∨ f c = ' ') : Tagless (t.map f) := by
  intro c hc
  obtain ⟨d, hd, rfl⟩ := List.mem_map.mp hc
  rcases hf d with e | e
  · rw [e]; exact h d hd
  · rw [e]; decide

theorem basename_mem {t : Text} : ∀ c ∈ basename t, c ∈ t := by
  intro c hc
  unfold basename at hc
  split at hc
  · cases hc
  · next f hf =>
    have hm : ∀ x ∈ f, x ∈ t := splitChar_mem (List.mem_filter.mp (List.mem_of_getLast? hf)).1
    split at hc
    · cases hc
    · split at hc
      · dsimp only at hc
        split at hc
        · exact hm c hc
        · exact hm c (List.mem_reverse.mp ((List.dropWhile_suffix _).subset (List.mem_of_mem_tail (List.mem_reverse.mp hc))))
      · exact hm c hc

theorem normalizeText_plain {t : Text} (h : Tagless t) : Tagless (normalizeTextLfEscapedBracket t) :=
  plain_replaceStr (plain_replaceChar h (plain_lit (by decide))) (plain_lit (by decide))

theorem hexDigit_plain (n : Nat) : hexDigit (n % 16) ≠ '<' ∧ hexDigit (n % 16) ≠ '>' := by
  have : ∀ k < 16, hexDigit k ≠ '<' ∧ hexDigit k ≠ '>' := by decide
  exact this _ (Nat.mod_lt _ (by decide))

theorem pctByte_plain (b : UInt8) : Tagless (pctByte b) := by
  have h1 : hexDigit (b.toNat / 16) ≠ '<' ∧ hexDigit (b.toNat / 16) ≠ '>' := by
    have : b.toNat / 16 < 16 := by have := b.toNat_lt; omega
    rw [← Nat.mod_eq_of_lt this]
    exact hexDigit_plain _
  exact plain_cons (by decide) (plain_cons h1 (plain_cons (hexDigit_plain _) plain_nil))

theorem encodeUri_plain (t : Text) : Tagless (encodeUriComponent t) := by
  refine plain_replaceChar (plain_replaceStr ?_ (plain_lit (by decide))) (plain_lit (by decide))
  intro c hc
  obtain ⟨d, _, hc⟩ := List.mem_flatMap.mp hc
  split at hc
  · next hk =>
    rw [List.mem_singleton.mp hc]
    constructor <;> (rintro rfl; revert hk; decide)
  · obtain ⟨b, _, hc⟩ := List.mem_flatMap.mp hc
    exact pctByte_plain b c hc

variable [Uni]

theorem stripScheme_plain {t out : Text} (ht : Tagless t) (h : stripScheme t = .ok out) : Tagless out :=
  replaceAll_plain ht (fun _ _ _ hx => by cases hx; exact plain_nil) h

theorem imageReplacer_plain {e : Env} (hr : AddsNone e.r) (hs : PlainStore e.store) {mt : Match} {x : Text} (hm : PlainMatch mt)
    (h : imageReplacer e mt = .ok x) : Tagless x := by
  unfold imageReplacer at h
  split at h
  · cases h; exact plain_tail hm.text
  · obtain ⟨target, ht, h⟩ := ok_of_bind h
    obtain ⟨t2, ht2, h⟩ := ok_of_bind h
    obtain ⟨a, ha, h⟩ := ok_of_bind h
    have hp := inlineAttrlist_plain hs (hm.at ht2) ha
    have hb : Tagless (basename (target.map fun c => if c = '_' ∨ c = '-' then ' ' else c)) := by
      refine plain_of_mem (plain_map (f := fun c => if c = '_' ∨ c = '-' then ' ' else c) (hm.at ht) fun c => ?_) basename_mem
      split
      · exact .inr rfl
      · exact .inl rfl
    have halt : ∀ o : Option ElemAttr, (∀ v, o = some v → Tagless v.value) → Tagless (match o with
        | some v => normalizeTextLfEscapedBracket v.value
        | none => basename (target.map fun c => if c = '_' ∨ c = '-' then ' ' else c)) := by
      intro o ho
      cases o with
      | none => exact hb
      | some v => exact normalizeText_plain (ho v rfl)
    dsimp only at h
    split at h
    · exact hr.image _ _ _ hs (hm.at ht) (halt _ fun v hv => namedOrPositional_plain hp hv)
        (map_value_plain fun v hv => namedOrPositional_plain hp hv)
        (map_value_plain fun v hv => namedOrPositional_plain hp hv) hp h
    · exact hr.icon _ _ _ hs (hm.at ht) (halt _ fun v hv => namedPlain hp hv)
        (map_value_plain fun v hv => namedOrPositional_plain hp hv) hp h

theorem bareText_plain {e : Env} {t out : Text} (ht : Tagless t) (h : bareText e t = .ok out) : Tagless out := by
  unfold bareText at h
  split at h
  · exact stripScheme_plain ht h
  · cases h; exact ht

theorem extract_plain {e : Env} (hs : PlainStore e.store) {t x : Text} {a : Attrlist} (ht : Tagless t)
    (h : extractAttributesFromText e t = .ok (x, a)) : Tagless x ∧ PlainAttrs a := by
  unfold extractAttributesFromText at h
  obtain ⟨b, hb, h⟩ := ok_of_bind h
  have hp := inlineAttrlist_plain hs ht hb
  split at h
  · next y hy => cases h; exact ⟨nthPlain hp hy, hp⟩
  · cases h; exact ⟨plain_nil, hp⟩

omit [Uni] in
theorem caret_plain {t : Text} (ht : Tagless t) : Tagless (caretWindow t).1 ∧ ∀ w, (caretWindow t).2 = some w → Tagless w := by
  unfold caretWindow
  split
  · exact ⟨plain_dropLast ht, fun w hw => by cases hw; exact plain_lit (by decide)⟩
  · exact ⟨ht, nofun⟩

omit [Uni] in
theorem bare_roles : ∀ x ∈ ["bare".toList], Tagless x := by
  intro x hx
  rw [List.mem_singleton.mp hx]
  exact plain_lit (by decide)

/-- The end of `linkReplacer`, for a link with a text. -/
private def linkShow (e : Env) (pfx target lt : Text) (attrlist : Attrlist) : Res Text :=
  let (linkText, window) := caretWindow lt
  if linkText = [] then do
    let bt ← bareText e target
    .ok (pfx ++ e.r.link e.toPEnv ⟨target, bt, ["bare".toList], window, attrlist⟩)
  else .ok (pfx ++ e.r.link e.toPEnv ⟨target, linkText, [], window, attrlist⟩)

/-- The end of `linkReplacer`. -/
private def linkTail (e : Env) (mt : Match) (attrlist : Attrlist) (pfx scheme tail7 : Text) : Res Text := do
  let target := scheme ++ tail7
  match mt.get 5 with
  | some al =>
    let pfx := if pfx = "link:".toList then [] else pfx
    if al = [] then do
      let linkText ← bareText e target
      .ok (pfx ++ e.r.link e.toPEnv ⟨target, linkText, ["bare".toList], none, attrlist⟩)
    else do
      let linkText := replaceStr al ['\\', ']'] [']']
      if linkText.contains '=' then do
        let (lt, attrs) ← extractAttributesFromText e al
        linkShow e pfx target (replaceStr lt ['\\', '"'] ['"']) attrs
      else linkShow e pfx target linkText attrlist
  | none =>
    if pfx = "link".toList ∨ pfx = ['"'] ∨ pfx = ['\''] then .ok mt.text
    else do
      let tail ← mt.at! 8
      let (target, suffix) :=
        if tail = [';'] ∨ tail = [':'] then
          let t1 := target.dropLast
          if endsWith t1 [')'] then (t1.dropLast, ')' :: tail) else (t1, tail)
        else (target, [])
      let linkText ← bareText e target
      .ok (pfx ++ e.r.link e.toPEnv ⟨target, linkText, ["bare".toList], none, attrlist⟩ ++ suffix)

private theorem linkShow_plain {e : Env} (hr : AddsNone e.r) (hs : PlainStore e.store) {pfx target lt x : Text} {a : Attrlist}
    (hpfx : Tagless pfx) (ht : Tagless target) (hl : Tagless lt) (ha : PlainAttrs a) (h : linkShow e pfx target lt a = .ok x) : Tagless x := by
  unfold linkShow at h
  dsimp only at h
  obtain ⟨hc1, hc2⟩ := caret_plain hl
  rcases ok_of_ite h with ⟨_, h⟩ | ⟨_, h⟩
  · obtain ⟨bt, hb, h⟩ := ok_of_bind h
    cases h
    exact plain_append hpfx (hr.link _ _ hs ht (bareText_plain ht hb) bare_roles hc2 ha)
  · cases h
    exact plain_append hpfx (hr.link _ _ hs ht hc1 nofun hc2 ha)

private theorem linkTail_plain {e : Env} (hr : AddsNone e.r) (hs : PlainStore e.store) {mt : Match} {pfx scheme tail7 x : Text}
    {attrlist : Attrlist} (hm : PlainMatch mt) (hp : PlainAttrs attrlist) (hpfx : Tagless pfx) (h3 : Tagless scheme) (h7 : Tagless tail7)
    (h : linkTail e mt attrlist pfx scheme tail7 = .ok x) : Tagless x := by
  unfold linkTail at h
  have ht := plain_append h3 h7
  cases h5 : mt.get 5 with
  | some al =>
    rw [h5] at h
    dsimp only at h
    have hpfx' : Tagless (if pfx = "link:".toList then [] else pfx) := by
      split
      · exact plain_nil
      · exact hpfx
    rcases ok_of_ite h with ⟨_, h⟩ | ⟨_, h⟩
    · obtain ⟨lt, hl, h⟩ := ok_of_bind h
      cases h
      exact plain_append hpfx' (hr.link _ _ hs ht (bareText_plain ht hl) bare_roles nofun hp)
    · rcases ok_of_ite h with ⟨_, h⟩ | ⟨_, h⟩
      · obtain ⟨⟨y, b⟩, hy, h⟩ := ok_of_bind h
        have := extract_plain hs (hm _ _ h5) hy
        exact linkShow_plain hr hs hpfx' ht (plain_replaceStr this.1 (plain_lit (by decide))) this.2 h
      · exact linkShow_plain hr hs hpfx' ht (plain_replaceStr (hm _ _ h5) (plain_lit (by decide))) hp h
  | none =>
    rw [h5] at h
    dsimp only at h
    rcases ok_of_ite h with ⟨_, h⟩ | ⟨_, h⟩
    · cases h; exact hm.text
    · obtain ⟨tl, h8, h⟩ := ok_of_bind h
      have htl := hm.at h8
      have key : ∀ target suffix, Tagless target → Tagless suffix → (bareText e target >>= fun linkText =>
          .ok (pfx ++ e.r.link e.toPEnv ⟨target, linkText, ["bare".toList], none, attrlist⟩ ++ suffix)) =
          (.ok x : Res Text) → Tagless x := by
        intro target suffix ht hsuf h
        obtain ⟨lt, hl, h⟩ := ok_of_bind h
        cases h
        exact plain_append (plain_append hpfx (hr.link _ _ hs ht (bareText_plain ht hl) bare_roles nofun hp)) hsuf
      by_cases hc : tl = [';'] ∨ tl = [':']
      · rw [if_pos hc] at h
        by_cases hc2 : endsWith (scheme ++ tail7).dropLast [')'] = true
        · rw [if_pos hc2] at h
          exact key _ _ (plain_dropLast (plain_dropLast ht)) (plain_cons (by decide) htl) h
        · rw [if_neg hc2] at h
          exact key _ _ (plain_dropLast ht) htl h
      · rw [if_neg hc] at h
        exact key _ _ ht plain_nil h

theorem linkReplacer_plain {e : Env} (hr : AddsNone e.r) (hs : PlainStore e.store) {mt : Match} {x : Text} (hm : PlainMatch mt)
    (h : linkReplacer e mt = .ok x) : Tagless x := by
  unfold linkReplacer at h
  obtain ⟨attrlist, ha, h⟩ := ok_of_bind h
  have hp := inlineAttrlist_plain hs plain_nil ha
  rcases ok_of_ite h with ⟨_, h⟩ | ⟨_, h⟩
  · obtain ⟨c1, h1, h⟩ := ok_of_bind h
    rcases ok_of_ite h with ⟨_, h⟩ | ⟨_, h⟩
    · cases h; exact plain_tail hm.text
    · obtain ⟨c3, h3, h⟩ := ok_of_bind h
      rcases ok_of_ite h with ⟨_, h⟩ | ⟨_, h⟩
      · cases h; exact plain_append (hm.at h1) (plain_drop hm.text)
      · cases h6 : mt.get 6 with
        | none => rw [h6] at h; cases h; exact hm.text
        | some suf =>
          rw [h6] at h
          obtain ⟨lt, hl, h⟩ := ok_of_bind h
          cases h
          have ht := plain_append (hm.at h3) (hm _ _ h6)
          exact hr.link _ _ hs ht (bareText_plain ht hl) bare_roles nofun hp
  · obtain ⟨pfx, h1, h⟩ := ok_of_bind h
    obtain ⟨scheme, h3, h⟩ := ok_of_bind h
    rcases ok_of_ite h with ⟨_, h⟩ | ⟨_, h⟩
    · cases h; exact plain_append (hm.at h1) (plain_drop hm.text)
    · have hpfx := hm.at h1
      have h3 := hm.at h3
      cases h4 : mt.get 4 with
      | some y => rw [h4] at h; exact linkTail_plain hr hs hm hp hpfx h3 (hm _ _ h4) h
      | none =>
        rw [h4] at h
        obtain ⟨y, h7, h⟩ := ok_of_bind h
        exact linkTail_plain hr hs hm hp hpfx h3 (hm.at h7) h

theorem emailReplacer_plain {e : Env} (hr : AddsNone e.r) (hs : PlainStore e.store) {mt : Match} {x : Text} (hm : PlainMatch mt)
    (h : emailReplacer e mt = .ok x) : Tagless x := by
  unfold emailReplacer at h
  split at h
  · split at h
    · cases h; exact plain_tail hm.text
    · cases h; exact hm.text
  · obtain ⟨addr, h2, h⟩ := ok_of_bind h
    obtain ⟨a, ha, h⟩ := ok_of_bind h
    cases h
    exact hr.link _ _ hs (plain_append (plain_lit (by decide)) (hm.at h2)) (hm.at h2) nofun nofun
      (inlineAttrlist_plain hs plain_nil ha)

omit [Uni] in
theorem anchorReplacer_plain {e : Env} (hr : AddsNone e.r) {mt : Match} {x : Text} (hm : PlainMatch mt)
    (h : anchorReplacer e mt = .ok x) : Tagless x := by
  unfold anchorReplacer at h
  split at h
  · cases h; exact plain_tail hm.text
  · split at h
    · next id hid => cases h; exact hr.anchor _ _ (hm _ _ hid) fun x hx => hm _ _ hx
    · obtain ⟨id, hid, h⟩ := ok_of_bind h
      cases h
      refine hr.anchor _ _ (hm.at hid) fun x hx => ?_
      cases h5 : mt.get 5 with
      | none => rw [h5] at hx; cases hx
      | some y => rw [h5] at hx; cases hx; exact plain_replaceStr (hm _ _ h5) (plain_lit (by decide))

/-- The end of `linkMacroReplacer`. -/
private def macroShow (e : Env) (mailto : Bool) (c3 linkText target : Text) (al : Option Attrlist) (window : Option Text) : Res Text := do
  let attrlist ← match al with
    | some a => .ok a
    | none => inlineAttrlist e.store []
  if linkText = [] then
    if mailto then .ok (e.r.link e.toPEnv ⟨target, c3, [], window, attrlist⟩)
    else do
      let lt ←
        if e.store.isAttributeSet "hide-uri-scheme".toList then do
          let lt ← stripScheme target
          .ok (if lt = [] then target else lt)
        else .ok target
      .ok (e.r.link e.toPEnv ⟨target, lt, ["bare".toList], window, attrlist⟩)
  else .ok (e.r.link e.toPEnv ⟨target, linkText, [], window, attrlist⟩)

private theorem macroShow_plain {e : Env} (hr : AddsNone e.r) (hs : PlainStore e.store) (mailto : Bool) {c3 lt target x : Text}
    (al : Option Attrlist) (w : Option Text) (hc3 : Tagless c3) (hl : Tagless lt) (ht : Tagless target)
    (ha : ∀ a, al = some a → PlainAttrs a) (hw : ∀ y, w = some y → Tagless y) (h : macroShow e mailto c3 lt target al w = .ok x) :
    Tagless x := by
  have key : ∀ a, PlainAttrs a → (if lt = [] then
      if mailto then Except.ok (ε := Fail) (e.r.link e.toPEnv ⟨target, c3, [], w, a⟩)
      else if e.store.isAttributeSet "hide-uri-scheme".toList then do
          let lt ← stripScheme target
          .ok (e.r.link e.toPEnv ⟨target, if lt = [] then target else lt, ["bare".toList], w, a⟩)
        else .ok (e.r.link e.toPEnv ⟨target, target, ["bare".toList], w, a⟩)
      else .ok (e.r.link e.toPEnv ⟨target, lt, [], w, a⟩)) = .ok x → Tagless x := by
    intro a ha h
    rcases ok_of_ite h with ⟨_, h⟩ | ⟨_, h⟩
    · rcases ok_of_ite h with ⟨_, h⟩ | ⟨_, h⟩
      · cases h
        exact hr.link _ _ hs ht hc3 nofun hw ha
      · rcases ok_of_ite h with ⟨_, h⟩ | ⟨_, h⟩
        · obtain ⟨y, hy, h⟩ := ok_of_bind h
          cases h
          refine hr.link _ _ hs ht ?_ bare_roles hw ha
          dsimp only
          split
          · exact ht
          · exact stripScheme_plain ht hy
        · cases h
          exact hr.link _ _ hs ht ht bare_roles hw ha
    · cases h
      exact hr.link _ _ hs ht hl nofun hw ha
  unfold macroShow at h
  cases al with
  | some a => exact key a (ha a rfl) h
  | none =>
    obtain ⟨a, ha, h⟩ := ok_of_bind h
    exact key a (inlineAttrlist_plain hs plain_nil ha) h

theorem linkMacroReplacer_plain {e : Env} (hr : AddsNone e.r) (hs : PlainStore e.store) {mt : Match} {x : Text} (hm : PlainMatch mt)
    (h : linkMacroReplacer e mt = .ok x) : Tagless x := by
  unfold linkMacroReplacer at h
  rcases ok_of_ite h with ⟨_, h⟩ | ⟨_, h⟩
  · cases h; exact plain_tail hm.text
  · obtain ⟨c3, h3, h⟩ := ok_of_bind h
    have hc3 := hm.at h3
    have ht0 : Tagless (if (mt.get 1).isSome = true then "mailto:".toList ++ c3 else c3) := by
      split
      · exact plain_append (plain_lit (by decide)) hc3
      · exact hc3
    have htext : Tagless ((mt.get 5).getD []) := plain_getD fun x hx => hm _ _ hx
    have hfor : Tagless (replaceChar '\n' [' '] ((mt.get 5).getD [])) := plain_replaceChar htext (plain_lit (by decide))
    have hun : Tagless (replaceStr ((mt.get 5).getD []) ['\\', ']'] [']']) := plain_replaceStr htext (plain_lit (by decide))
    rcases ok_of_ite h with ⟨_, h⟩ | ⟨_, h⟩
    · exact macroShow_plain hr hs (mt.get 1).isSome none none hc3 htext ht0 nofun nofun h
    · rcases ok_of_ite h with ⟨_, h⟩ | ⟨_, h⟩
      · rcases ok_of_ite h with ⟨_, h⟩ | ⟨_, h⟩
        · obtain ⟨⟨y, attrs⟩, hy, h⟩ := ok_of_bind h
          obtain ⟨hy1, hy2⟩ := extract_plain hs hfor hy
          obtain ⟨hw1, hw2⟩ := caret_plain hy1
          refine macroShow_plain hr hs (mt.get 1).isSome (some attrs) (caretWindow y).2 hc3 hw1 ?_ (fun a ha => by cases ha; exact hy2) hw2 h
          clear h
          revert ht0
          generalize (if (mt.get 1).isSome = true then "mailto:".toList ++ c3 else c3) = tg
          intro ht0
          split
          · dsimp only
            split
            · exact plain_append (plain_append (plain_append (plain_append ht0 (plain_lit (t := "?subject=".toList) (by decide))) (encodeUri_plain _))
                (plain_lit (t := "&amp;body=".toList) (by decide))) (encodeUri_plain _)
            · exact plain_append (plain_append ht0 (plain_lit (t := "?subject=".toList) (by decide))) (encodeUri_plain _)
          · exact ht0
        · obtain ⟨hw1, hw2⟩ := caret_plain hun
          exact macroShow_plain hr hs (mt.get 1).isSome none (caretWindow (replaceStr ((mt.get 5).getD []) ['\\', ']'] [']'])).2 hc3 hw1 ht0 nofun hw2 h
      · rcases ok_of_ite h with ⟨_, h⟩ | ⟨_, h⟩
        · obtain ⟨⟨y, attrs⟩, hy, h⟩ := ok_of_bind h
          obtain ⟨hy1, hy2⟩ := extract_plain hs hfor hy
          obtain ⟨hw1, hw2⟩ := caret_plain hy1
          exact macroShow_plain hr hs (mt.get 1).isSome (some attrs) (caretWindow y).2 hc3 hw1 ht0 (fun a ha => by cases ha; exact hy2) hw2 h
        · obtain ⟨hw1, hw2⟩ := caret_plain hun
          exact macroShow_plain hr hs (mt.get 1).isSome none (caretWindow (replaceStr ((mt.get 5).getD []) ['\\', ']'] [']'])).2 hc3 hw1 ht0 nofun hw2 h

theorem macros_plain {e : Env} (hr : AddsNone e.r) (hs : PlainStore e.store) {t out : Text} (ht : Tagless t)
    (h : applyMacros e t = .ok out) : Tagless out := by
  have key : ∀ {c : Bool} {re : Re} {rep : Match → Res Text} {t out : Text},
      (∀ mt x, PlainMatch mt → rep mt = .ok x → Tagless x) → Tagless t → Props.when c re rep t = .ok out → Tagless out := by
    intro c re rep t out hrep ht h
    unfold Props.when at h
    rcases ok_of_ite h with ⟨_, h⟩ | ⟨_, h⟩
    · exact replaceAll_plain ht hrep h
    · cases h; exact ht
  rw [Props.applyMacros_eq] at h
  obtain ⟨r1, h1, h⟩ := ok_of_bind h
  obtain ⟨r2, h2, h⟩ := ok_of_bind h
  obtain ⟨r3, h3, h⟩ := ok_of_bind h
  obtain ⟨r4, h4, h⟩ := ok_of_bind h
  have h1 := key (fun mt x => imageReplacer_plain hr hs) ht h1
  have h2 := key (fun mt x => linkReplacer_plain hr hs) h1 h2
  have h3 := key (fun mt x => linkMacroReplacer_plain hr hs) h2 h3
  have h4 := key (fun mt x => emailReplacer_plain hr hs) h3 h4
  exact key (fun mt x => anchorReplacer_plain hr) h4 h

/-! ### All steps -/

theorem step_plain {e : Env} (hr : AddsNone e.r) (hs : PlainStore e.store) {al : Option Attrlist} {s : Step} {t out : Text}
    (ht : Tagless t) (h : s.apply e al t = .ok out) : Tagless out := by
  cases s with
  | specialCharacters => exact special_plain hr h
  | quotes => exact quotes_plain hr hs ht h
  | attributeReferences => exact applyAttributes_plain hs ht h
  | characterReplacements => exact charReplacements_plain hr ht h
  | macros => exact macros_plain hr hs ht h
  | postReplacement => exact post_plain hr ht h
  | callouts => cases h

theorem steps_plain {e : Env} (hr : AddsNone e.r) (hs : PlainStore e.store) {al : Option Attrlist} : ∀ (ss : List Step) (t out : Text),
    Tagless t → applySteps e al ss t = .ok out → Tagless out := by
  intro ss
  induction ss with
  | nil => intro t out ht h; cases h; exact ht
  | cons s ss ih =>
    intro t out ht h
    rw [applySteps] at h
    obtain ⟨u, hu, h⟩ := ok_of_bind h
    exact ih _ _ (step_plain hr hs ht hu) h

theorem steps_escaping {e : Env} (hr : AddsNone e.r) (hs : PlainStore e.store) {al : Option Attrlist} {g : Group} {t out : Text}
    (hg : EscapesFirst g) (h : applySteps e al g.steps t = .ok out) : Tagless out := by
  obtain ⟨ss, hg⟩ := hg
  rw [hg, applySteps] at h
  obtain ⟨u, hu, h⟩ := ok_of_bind h
  exact steps_plain hr hs ss _ _ (special_plain hr hu) h

end Adoc
