import Verif.Lemmas.MarkupGroup
import Verif.Lemmas.Author
import Verif.Lemmas.Section
import Verif.Props.Header
import Verif.Lemmas.Rendered
/-!
# Text that cannot write tags: the header
-/

namespace Adoc
open Spec Re

variable [Uni]

/-! ### The attributes -/

omit [Uni] in
theorem Spec.PlainStore.put {s : AttrStore} (h : PlainStore s) {n : Text} {av : AttrVal} (hv : ∀ v, av.value = .value v → Tagless v) :
    PlainStore (s.put n av) := by
  refine ⟨fun m x hx v hxv => ?_, h.default⟩
  unfold AttrStore.put at hx
  by_cases hm : m = n
  · subst hm
    rw [AMap.get_insert_self] at hx
    cases hx
    exact hv v hxv
  · rw [AMap.get_insert_ne _ _ hm] at hx
    exact h.value m x hx v hxv

theorem Spec.PlainStore.setByValue {s : AttrStore} (h : PlainStore s) {n v : Text} (hv : Tagless v) : PlainStore (s.setByValueFromHeader n v) :=
  h.put fun _ hx => by cases hx; exact hv

theorem Spec.PlainStore.setFromBody {s : AttrStore} (h : PlainStore s) {a : Attribute} (hv : ∀ v, a.value = .value v → Tagless v) :
    PlainStore (s.setFromBody a).1 := by
  unfold AttrStore.setFromBody
  dsimp only
  split
  · exact h
  · exact h.put hv

theorem Spec.PlainStore.setFromHeader {s : AttrStore} (h : PlainStore s) {a : Attribute} (hv : ∀ v, a.value = .value v → Tagless v) :
    PlainStore (s.setFromHeader a).1 := by
  unfold AttrStore.setFromHeader
  dsimp only
  split
  · exact h
  · refine h.put fun v hx => ?_
    dsimp only at hx
    unfold AttrStore.headerValue at hx
    split at hx
    · split at hx
      · next d hd => cases hx; exact h.default _ _ hd
      · cases hx
    · exact hv v hx

theorem Spec.PlainStore.setAll : ∀ (l : List (Text × Option Text)) {s : AttrStore}, PlainStore s → (∀ p ∈ l, ∀ v, p.2 = some v → Tagless v) →
    PlainStore (setAll s l) := by
  intro l
  induction l with
  | nil => intro s h _; exact h
  | cons p l ih =>
    obtain ⟨n, o⟩ := p
    intro s h hl
    cases o with
    | none => exact ih h fun q hq => hl q (List.mem_cons_of_mem _ hq)
    | some v => exact ih (h.setByValue (hl (n, some v) List.mem_cons_self v rfl)) fun q hq => hl q (List.mem_cons_of_mem _ hq)

/-! ### Authors -/

/-- An author without `<` and `>`. -/
structure PlainAuthor (a : Author) : Prop where
  name : Tagless a.name
  firstname : Tagless a.firstname
  middlename : ∀ x, a.middlename = some x → Tagless x
  lastname : ∀ x, a.lastname = some x → Tagless x
  email : ∀ x, a.email = some x → Tagless x

omit [Uni] in
theorem PlainAuthor.initials {a : Author} (h : PlainAuthor a) : Tagless a.initials :=
  plain_append (plain_append (plain_take h.firstname) (plain_take (getD_plain h.middlename))) (plain_take (getD_plain h.lastname))

omit [Uni] in
theorem spaces_plain {t : Text} (h : Tagless t) : Tagless (underscoresToSpaces t) := by
  exact plain_replaceChar h (plain_lit (by decide))

omit [Uni] in
theorem single_plain {t : Text} (h : Tagless t) : PlainAuthor (.single t) :=
  ⟨spaces_plain h, spaces_plain h, nofun, nofun, nofun⟩

theorem authorSubs_plain {r : Renderer} {s : AttrStore} (hr : AddsNone r) (hs : PlainStore s) {t x : Text} (ht : Tagless t)
    (h : applyAuthorSubs r s t = .ok x) : Tagless x := by
  unfold applyAuthorSubs at h
  obtain ⟨y, hy, h⟩ := ok_of_bind h
  rcases ok_of_ite h with ⟨_, h⟩ | ⟨_, h⟩
  · exact special_plain hr h
  · cases h; exact applyAttributes_plain hs ht hy

omit [Uni] in
theorem mapM_plain {f : Text → Res Text} (hf : ∀ t x, Tagless t → f t = .ok x → Tagless x) {o o' : Option Text}
    (ho : ∀ x, o = some x → Tagless x) (h : o.mapM f = .ok o') : ∀ x, o' = some x → Tagless x := by
  cases o with
  | none => cases h; nofun
  | some t =>
    obtain ⟨y, hy, h⟩ := ok_of_bind (show f t >>= (fun y => .ok (some y)) = .ok o' from h)
    cases h
    intro x hx
    cases hx
    exact hf t y (ho t rfl) hy

theorem ofCaptures_plain {f : Text → Res Text} (hf : ∀ t x, Tagless t → f t = .ok x → Tagless x) {source : Text} {caps : Match} {a : Author}
    (hn : Tagless (source.takeWhile (· != '<'))) (h1 : ∀ x, caps.get 1 = some x → Tagless x) (h2 : ∀ x, caps.get 2 = some x → Tagless x)
    (h3 : ∀ x, caps.get 3 = some x → Tagless x) (h4 : ∀ x, caps.get 4 = some x → Tagless x)
    (h : Author.ofCaptures f source caps = .ok a) : PlainAuthor a := by
  unfold Author.ofCaptures at h
  dsimp only at h
  obtain ⟨c1, hc, h⟩ := ok_of_bind h
  obtain ⟨first, hfirst, h⟩ := ok_of_bind h
  obtain ⟨mid, hmid, h⟩ := ok_of_bind h
  obtain ⟨last, hlast, h⟩ := ok_of_bind h
  obtain ⟨mail, hmail, h⟩ := ok_of_bind h
  have hc : Tagless c1 := by
    unfold Match.at! at hc
    cases hg : caps.get 1 with
    | none => simp only [hg] at hc; cases hc
    | some y => simp only [hg] at hc; cases hc; exact h1 _ hg
  have k1 := hf _ _ hc hfirst
  have k2 := mapM_plain hf h2 hmid
  have k3 := mapM_plain hf h3 hlast
  have k4 := mapM_plain hf h4 hmail
  have sp : ∀ {o : Option Text}, (∀ x, o = some x → Tagless x) → ∀ x, o.map underscoresToSpaces = some x → Tagless x := by
    intro o ho x hx
    cases o with
    | none => cases hx
    | some y => cases hx; exact spaces_plain (ho y rfl)
  have kn : Tagless (underscoresToSpaces (trim (source.takeWhile (· != '<')))) :=
    spaces_plain (plain_of_mem hn fun c hc => (trim_trimmed _).mem hc)
  rcases ok_of_ite h with ⟨_, h⟩ | ⟨_, h⟩
  · cases h
    exact ⟨kn, spaces_plain k1, nofun, sp k2, k4⟩
  · cases h
    exact ⟨kn, spaces_plain k1, sp k2, sp k3, k4⟩

/-- The names of an author are in the part with the names. -/
theorem names_plain {n f : Text} {m l : Option Text} (h : AuthorNames n f m l) (hn : Tagless n) :
    Tagless f ∧ (∀ x, m = some x → Tagless x) ∧ (∀ x, l = some x → Tagless x) := by
  cases h with
  | one _ => exact ⟨hn, nofun, nofun⟩
  | two _ _ _ => exact ⟨plain_left (plain_left hn), nofun, fun x hx => by cases hx; exact plain_right hn⟩
  | three _ _ _ _ _ =>
    exact ⟨plain_left (plain_left (plain_left (plain_left hn))), fun x hx => by cases hx; exact plain_right (plain_left (plain_left hn)),
      fun x hx => by cases hx; exact plain_right hn⟩

theorem authorCaptures_plain {f : Text → Res Text} (hf : ∀ t x, Tagless t → f t = .ok x → Tagless x) {t : Text} {mt : Match} {a : Author}
    (hc : captures authorRe t = some mt) (ht : ∀ n f m l e, AuthorForm t n f m l e → Tagless n ∧ ∀ x, e = some x → Tagless x)
    (hn : Tagless (t.takeWhile (· != '<'))) (h : Author.ofCaptures f t mt = .ok a) : PlainAuthor a := by
  rcases captures_author (t := t) with ⟨mt', n, f', g2, g3, e, m, l, hc', hF, e1, e2, e3, e4, hg⟩ | ⟨hc', _⟩
  · rw [hc] at hc'
    cases hc'
    obtain ⟨hn', he⟩ := ht _ _ _ _ _ hF
    obtain ⟨q, _, hN, _⟩ := hF.parts
    obtain ⟨k1, k2, k3⟩ := names_plain hN hn'
    refine ofCaptures_plain hf hn (fun x hx => ?_) (fun x hx => ?_) (fun x hx => ?_) (fun x hx => ?_) h
    · rw [e1] at hx; cases hx; exact k1
    · rw [e2] at hx
      rcases hg with ⟨_, _, _, hl⟩ | ⟨_, hm, _⟩
      · exact k3 x (hl.trans hx)
      · exact k2 x (hm.trans hx)
    · rw [e3] at hx
      rcases hg with ⟨_, hg3, _, _⟩ | ⟨_, _, hl⟩
      · rw [hx] at hg3; cases hg3
      · exact k3 x (hl.trans hx)
    · rw [e4] at hx; exact he x hx
  · rw [hc] at hc'; cases hc'

theorem form_plain {t n f : Text} {m l e : Option Text} (h : AuthorForm t n f m l e) (ht : Tagless t) :
    Tagless n ∧ ∀ x, e = some x → Tagless x := by
  cases h with
  | plain _ => exact ⟨ht, nofun⟩
  | mail _ _ _ _ => exact ⟨plain_left (plain_left (plain_left ht)), fun x hx => by cases hx; exact plain_tail (plain_right (plain_left ht))⟩

omit [Uni] in
theorem map_ok' {α β : Type} {f : α → β} {x : Res α} {b : β} (h : x.map f = .ok b) : ∃ a, x = .ok a ∧ f a = b := by
  cases x with
  | error e => cases h
  | ok a => cases h; exact ⟨a, rfl, rfl⟩

omit [Uni] in
theorem takeWhile_plain {p : Char → Bool} {t : Text} (ht : Tagless t) : Tagless (t.takeWhile p) :=
  plain_of_mem ht fun _ hc => (List.takeWhile_sublist p).mem hc

theorem encodeName_plain {r : Renderer} (hr : AddsNone r) {t x : Text} (ht : Tagless t ∨ '<' ∈ t ∧ '>' ∈ t) (h : encodeName r t = .ok x) :
    Tagless x := by
  unfold encodeName at h
  rcases ok_of_ite h with ⟨_, h⟩ | ⟨hn, h⟩
  · exact special_plain hr h
  · cases h
    rcases ht with ht | ⟨h1, h2⟩
    · exact ht
    · exact absurd (by simp [h1, h2]) hn

theorem author_plain [LawfulUni] {r : Renderer} {s : AttrStore} (hr : AddsNone r) (hs : PlainStore s) {t : Text} {a : Author}
    (ht : SafeAuthor t) (h : Author.parse r s t = .ok (some a)) : PlainAuthor a := by
  unfold Author.parse at h
  dsimp only at h
  have hf := fun t x (ht : Tagless t) h => authorSubs_plain (r := r) (x := x) hr hs ht h
  rcases ok_of_ite h with ⟨_, h⟩ | ⟨_, h⟩
  · cases h
  cases ht with
  | plain ht =>
    have ht : Tagless (trim t) := plain_of_mem ht fun c hc => (trim_trimmed _).mem hc
    rcases ok_of_ite h with ⟨_, h⟩ | ⟨_, h⟩
    · obtain ⟨x, hx, e⟩ := map_ok' h
      cases e
      exact single_plain (hf _ _ ht hx)
    · cases hc : captures authorRe (trim t) with
      | some mt =>
        rw [hc] at h
        obtain ⟨x, hx, e⟩ := map_ok' h
        cases e
        exact authorCaptures_plain hf hc (fun _ _ _ _ _ hF => form_plain hF ht) (takeWhile_plain ht) hx
      | none =>
        rw [hc] at h
        rcases ok_of_ite h with ⟨_, h⟩ | ⟨_, h⟩
        · obtain ⟨x, hx, h⟩ := ok_of_bind h
          have hx := hf _ _ ht hx
          cases hc2 : captures authorRe x with
          | some mt =>
            rw [hc2] at h
            obtain ⟨y, hy, e⟩ := map_ok' h
            cases e
            exact authorCaptures_plain (fun t x ht h => by cases h; exact ht) hc2 (fun _ _ _ _ _ hF => form_plain hF hx)
              (takeWhile_plain hx) hy
          | none =>
            rw [hc2] at h
            obtain ⟨y, hy, e⟩ := map_ok' h
            cases e
            exact single_plain (encodeName_plain hr (.inl hx) hy)
        · obtain ⟨y, hy, e⟩ := map_ok' h
          cases e
          exact single_plain (encodeName_plain hr (.inl ht) hy)
  | @mail n e ht hn he hb1 hb2 =>
    rw [ht.trim_eq] at h
    have hb : '{' ∉ n ++ '<' :: e ++ ['>'] := by simp [hb1, hb2]
    rcases ok_of_ite h with ⟨hsingle, h⟩ | ⟨_, h⟩
    · exfalso
      unfold isSingleAttribute countChar at hsingle
      simp only [Bool.and_eq_true, beq_iff_eq] at hsingle
      have : (n ++ '<' :: e ++ ['>']).count '{' = 1 := hsingle.2
      rw [List.count_eq_zero.mpr hb] at this
      cases this
    · cases hc : captures authorRe (n ++ '<' :: e ++ ['>']) with
      | some mt =>
        rw [hc] at h
        obtain ⟨x, hx, e'⟩ := map_ok' h
        cases e'
        have hlt : '<' ∉ n := fun h => (hn _ h).1 rfl
        refine authorCaptures_plain hf hc (fun n' f m l e1 hF => ?_) ?_ hx
        · generalize hq : n ++ '<' :: e ++ ['>'] = q at hF
          cases hF with
          | plain hN =>
            have := hN.ends.2.2.2.1
            rw [← hq] at this
            exact absurd (by simp) this
          | @mail _ sp e1 _ _ _ hN hG _ _ =>
            have h1 : '<' ∉ n' ++ sp := by
              intro hm
              rcases List.mem_append.mp hm with hm | hm
              · exact hN.ends.2.2.2.1 hm
              · exact absurd (hG.2 _ hm) (by decide)
            rw [List.append_assoc, List.append_assoc, List.append_assoc] at hq
            have hq : n ++ '<' :: (e ++ ['>']) = (n' ++ sp) ++ '<' :: (e1 ++ ['>']) := by simpa using hq
            obtain ⟨k1, k2⟩ := append_sep_inj hlt h1 hq
            have k2 : e = e1 := by simpa using k2
            subst k1 k2
            exact ⟨plain_left hn, fun x hx => by cases hx; exact he⟩
        · have : (n ++ '<' :: e ++ ['>']).takeWhile (· != '<') = n := by
            rw [List.append_assoc, List.takeWhile_append_of_pos]
            · simp
            · intro c hc
              simp only [bne_iff_ne, ne_eq]
              exact (hn c hc).1
          rw [this]
          exact hn
      | none =>
        rw [hc] at h
        rcases ok_of_ite h with ⟨hx, _⟩ | ⟨_, h⟩
        · exact absurd (by simpa using hx) hb
        · obtain ⟨y, hy, e'⟩ := map_ok' h
          cases e'
          exact single_plain (encodeName_plain hr (.inr (by simp)) hy)

/-! ### The lines of a header -/

theorem setAuthors_plain : ∀ (as : List Author) {s : AttrStore} (i : Nat), PlainStore s → (∀ a ∈ as, PlainAuthor a) →
    PlainStore (setAuthors s i as) := by
  intro as
  induction as with
  | nil => intro s i h _; exact h
  | cons a as ih =>
    intro s i h ha
    have hp := ha a List.mem_cons_self
    have opt : ∀ {s : AttrStore} {n : Text} {o : Option Text}, PlainStore s → (∀ x, o = some x → Tagless x) →
        PlainStore (setNthOptional s n i o) := by
      intro s n o h ho
      cases o with
      | none => exact h
      | some v => exact h.setByValue (ho v rfl)
    refine ih (i + 1) ?_ fun x hx => ha x (List.mem_cons_of_mem _ hx)
    unfold setAuthor
    exact opt (opt (opt (((h.setByValue hp.name).setByValue hp.initials).setByValue hp.firstname) hp.middlename) hp.lastname) hp.email

theorem parseAuthors_plain [LawfulUni] {r : Renderer} {s : AttrStore} (hr : AddsNone r) (hs : PlainStore s) : ∀ (ps : List Text)
    (as : List Author), (∀ p ∈ ps, SafeAuthor p) → parseAuthors r s ps = .ok as → ∀ a ∈ as, PlainAuthor a := by
  intro ps
  induction ps with
  | nil => intro as _ h; cases h; nofun
  | cons p ps ih =>
    intro as hp h
    rw [parseAuthors] at h
    obtain ⟨o, ho, h⟩ := ok_of_bind h
    obtain ⟨rest, hrest, h⟩ := ok_of_bind h
    have ihr := ih rest (fun q hq => hp q (List.mem_cons_of_mem _ hq)) hrest
    cases o with
    | none => cases h; exact ihr
    | some a =>
      cases h
      intro x hx
      rcases List.mem_cons.mp hx with rfl | hx
      · exact author_plain hr hs (hp p List.mem_cons_self) ho
      · exact ihr x hx

theorem strip_plain {t : Text} (h : Tagless t) : Tagless (stripNonNumericPrefix t) := by
  unfold stripNonNumericPrefix captures
  have : nonNumericPrefixRe = .seq .bot (cat [star true (cls fun c => !isAsciiDigit c), cap 1 (star true dot), eot]) := rfl
  rw [this, search_bot]
  cases hm : matchAt (.seq .bot (cat [star true (cls fun c => !isAsciiDigit c), cap 1 (star true dot), eot])) none t with
  | none => exact h
  | some p =>
    have hp := (matchAt_plain hm h).1
    show Tagless (match p.1.get 1 with | some x => x | none => t)
    cases hg : p.1.get 1 with
    | none => exact h
    | some x => exact hp 1 x hg

theorem trim_plain {t : Text} (h : Tagless t) : Tagless (trim t) := plain_of_mem h fun _ hc => (trim_trimmed _).mem hc

theorem revisionParts_plain {t : Text} (h : Tagless t) : (∀ x, (revisionParts t).1 = some x → Tagless x) ∧ Tagless (revisionParts t).2.1 ∧
    (∀ x, (revisionParts t).2.2 = some x → Tagless x) := by
  have left : ∀ (l : Text) (r : Option Text), Tagless l → (∀ n, r = some n → Tagless n) →
      ∀ q, q = (match splitOnce ',' l with
        | some (rev, date) => (some (stripNonNumericPrefix (trim rev)), trim date, r)
        | none => if isMatch standaloneRevisionRe (trim l) then (some (stripNonNumericPrefix (trim l)), [], r)
          else (none, trim l, r) : Option Text × Text × Option Text) →
      (∀ n, q.1 = some n → Tagless n) ∧ Tagless q.2.1 ∧ ∀ n, q.2.2 = some n → Tagless n := by
    rintro l r hl hr q rfl
    cases hs : splitOnce ',' l with
    | some p =>
      obtain ⟨rev, date⟩ := p
      have hm := (splitOnce_some.mp hs).1
      rw [hm] at hl
      exact ⟨fun n e => by cases e; exact strip_plain (trim_plain (plain_left hl)), trim_plain (plain_tail (plain_right hl)), hr⟩
    | none =>
      simp only
      split
      · exact ⟨fun n e => by cases e; exact strip_plain (trim_plain hl), plain_nil, hr⟩
      · exact ⟨nofun, trim_plain hl, hr⟩
  unfold revisionParts
  cases hs : splitOnce ':' t with
  | some p =>
    obtain ⟨l, r⟩ := p
    have hm := (splitOnce_some.mp hs).1
    rw [hm] at h
    exact left l (some (trim r)) (plain_left h) (fun n e => by cases e; exact trim_plain (plain_tail (plain_right h))) _ rfl
  | none => exact left t none h nofun _ rfl

theorem line_plain [LawfulUni] {hdr : HeaderSubs} {r : Renderer} (hr : AddsNone r)
    (hh : ∀ s t x, PlainStore s → Escaped .header t → hdr s t = .ok x → Tagless x) {s s' : AttrStore} {l : HLine} (hs : PlainStore s)
    (hl : SafeLine l) (h : LineEffect hdr r s l s') : PlainStore s' := by
  cases h with
  | blank => exact hs
  | comment => exact hs
  | @entry s' n k v hv ha =>
    have k1 : ∀ x, v = .value x → Tagless x := by
      intro x hx
      cases hv with
      | unset => cases hx
      | set => cases hx
      | value hv => cases hx; exact hh s _ _ hs hl.1 hv
    have k2 : PlainStore s' := by
      cases ha with
      | other _ => exact hs
      | noValue _ => exact hs
      | blank _ => exact hs
      | author hn ha =>
        have hp := author_plain hr hs (hl.2 hn) ha
        refine hs.setAll _ fun p hp' v hv => ?_
        simp only [authorEntryAttrs, List.mem_cons, List.not_mem_nil, or_false] at hp'
        rcases hp' with rfl | rfl | rfl | rfl | rfl
        · cases hv; exact hp.firstname
        · exact hp.middlename v hv
        · exact hp.lastname v hv
        · cases hv; exact hp.initials
        · exact hp.email v hv
    exact k2.setFromHeader k1
  | @title _ v hv => exact hs.setByValue (hh s _ _ hs hl hv)
  | @author l a _ h =>
    unfold AuthorLine.parse at h
    obtain ⟨as, has, h⟩ := ok_of_bind h
    cases h
    obtain ⟨h1, h2⟩ := splitStr_spec l
    exact setAuthors_plain as 0 hs (parseAuthors_plain hr hs _ as (hl _ h1 h2) has)
  | @revision l a _ h =>
    unfold RevisionLine.parse at h
    dsimp only at h
    obtain ⟨n, _, h⟩ := ok_of_bind h
    obtain ⟨d, _, h⟩ := ok_of_bind h
    obtain ⟨m, _, h⟩ := ok_of_bind h
    cases h
    obtain ⟨k1, k2, k3⟩ := revisionParts_plain hl
    have opt : ∀ {s : AttrStore} {n : Text} {o : Option Text}, PlainStore s → (∀ x, o = some x → Tagless x) →
        PlainStore (match o with | some v => s.setByValueFromHeader n v | none => s) := by
      intro s n o h ho
      cases o with
      | none => exact h
      | some v => exact h.setByValue (ho v rfl)
    exact opt ((opt hs k1).setByValue k2) k3

theorem effect_plain [LawfulUni] {hdr : HeaderSubs} {r : Renderer} (hr : AddsNone r)
    (hh : ∀ s t x, PlainStore s → Escaped .header t → hdr s t = .ok x → Tagless x) {s s' : AttrStore} {ls : List HLine} (hs : PlainStore s)
    (hl : ∀ l ∈ ls, SafeLine l) (h : HeaderEffect hdr r s ls s') : PlainStore s' := by
  induction h with
  | nil => exact hs
  | cons h _ ih => exact ih (line_plain hr hh hs (hl _ List.mem_cons_self) h) fun l hl' => hl l (List.mem_cons_of_mem _ hl')

end Adoc
