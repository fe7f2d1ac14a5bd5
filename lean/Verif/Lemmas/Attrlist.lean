import Verif.Spec.Attrlist
import Verif.Props.Span
/-!
# Lemmas on attribute lists
-/

namespace Adoc
open Span Spec Props

/-! ### Spans to texts -/

theorem prefLen_takeWhile (p : Char → Bool) (t : Text) :
    t.take (prefLen p t) = t.takeWhile p ∧ t.drop (prefLen p t) = t.dropWhile p := by
  induction t with
  | nil => simp
  | cons c cs ih =>
    rw [prefLen, List.takeWhile_cons, List.dropWhile_cons]
    split
    · simp [ih.1, ih.2]
    · simp

theorem takeWhile_item_data (s : Span) (p : Char → Bool) : (s.takeWhile p).item.data = s.data.takeWhile p := by
  simp [Span.takeWhile, cut, (prefLen_takeWhile p s.data).1]

theorem takeWhile_after_data (s : Span) (p : Char → Bool) : (s.takeWhile p).after.data = s.data.dropWhile p := by
  simp [Span.takeWhile, cut, (prefLen_takeWhile p s.data).2]

def wsC (c : Char) : Bool := c == ' ' || c == '\t' || c == '\n'

theorem wsC_iff {c : Char} : wsC c = true ↔ WsChar c := by
  unfold wsC WsChar; simp [or_assoc]

theorem wsC_false {c : Char} : wsC c = false ↔ ¬ WsChar c := by
  rw [← wsC_iff]; simp

theorem wsnl_after (s : Span) : s.takeWhitespaceWithNewline.after.data = s.data.dropWhile wsC :=
  takeWhile_after_data s _

theorem dropWhile_ws_append {w b : Text} (hw : Ws w) (hb : ∀ c cs, b = c :: cs → ¬ WsChar c) :
    (w ++ b).dropWhile wsC = b := by
  induction w with
  | nil =>
    cases b with
    | nil => rfl
    | cons c cs => simp [wsC_false.mpr (hb c cs rfl)]
  | cons x xs ih =>
    rw [List.cons_append, List.dropWhile_cons, if_pos (wsC_iff.mpr (hw x (by simp)))]
    exact ih (fun c hc => hw c (by simp [hc]))

theorem dropWhile_ws_spec (t : Text) : ∃ w, t = w ++ t.dropWhile wsC ∧ Ws w ∧
    ∀ c cs, t.dropWhile wsC = c :: cs → ¬ WsChar c := by
  refine ⟨t.takeWhile wsC, (List.takeWhile_append_dropWhile).symm, fun c hc => wsC_iff.mp (mem_takeWhile hc), ?_⟩
  intro c cs h
  have := List.head?_dropWhile_not (p := wsC) t
  rw [h] at this
  simpa [wsC_false] using this

def nameC (c : Char) : Bool := isAsciiAlnum c || c == '-'

theorem nameC_iff {c : Char} : nameC c = true ↔ (Letter c ∨ Digit c) ∨ c = '-' := by
  unfold nameC; rw [Bool.or_eq_true, isAsciiAlnum_iff]; simp

/-- `attrNamePart` on texts. -/
def nameSplit : Text → Option (Text × Text)
  | [] => none
  | c :: cs =>
    if isAsciiAlnum c then
      match (cs.dropWhile nameC).dropWhile wsC with
      | '=' :: r =>
        match r.dropWhile wsC with
        | [] => none
        | d :: b => if d = ',' then none else some (c :: cs.takeWhile nameC, d :: b)
      | _ => none
    else none

theorem attrNamePart_eq (s : Span) : ((attrNamePart s).1, (attrNamePart s).2.data) =
    match nameSplit s.data with
    | some (n, b) => (some n, b)
    | none => (none, s.data) := by
  unfold attrNamePart takeAttrName
  cases hd : s.data with
  | nil => simp [nameSplit, hd]
  | cons c cs =>
    rw [nameSplit]
    simp only
    by_cases hc : isAsciiAlnum c = true
    · rw [if_pos hc, if_pos hc]
      simp only [takePrefix, wsnl_after, cut, dropN_data, takeN_data, hd]
      have e1 : (c :: cs).drop (1 + prefLen (fun c => isAsciiAlnum c || c == '-') cs) = cs.dropWhile nameC := by
        rw [Nat.add_comm, List.drop_succ_cons]; exact (prefLen_takeWhile nameC cs).2
      have e2 : (c :: cs).take (1 + prefLen (fun c => isAsciiAlnum c || c == '-') cs) = c :: cs.takeWhile nameC := by
        rw [Nat.add_comm, List.take_succ_cons]; exact congrArg _ (prefLen_takeWhile nameC cs).1
      rw [e1, e2]
      cases hr : (cs.dropWhile nameC).dropWhile wsC with
      | nil => simp [startsWith, hd]
      | cons e r =>
        by_cases he : e = '='
        · subst he
          simp only [startsWith, List.isPrefixOf, beq_self_eq_true, Bool.true_and, if_true, dropN_data, wsnl_after,
            List.length_singleton, hd, e1, hr]
          simp only [List.drop_succ_cons, List.drop_zero]
          cases hb : r.dropWhile wsC with
          | nil => simp [hd]
          | cons d b =>
            by_cases hdc : d = ','
            · subst hdc; simp [hd]
            · have hn : ',' ≠ d := fun e => hdc e.symm
              simp [hdc, hn, hb, wsnl_after, hr, e1, hd]
        · have h1 : ('=' == e) = false := by simpa using fun x => he x.symm
          simp only [startsWith, List.isPrefixOf, h1, Bool.false_and]
          simp [hd, he]
    · simp [hc, hd]

theorem dropWhile_append_stop {p : Char → Bool} {a b : Text} (ha : ∀ c ∈ a, p c = true)
    (hb : ∀ c cs, b = c :: cs → p c = false) : (a ++ b).dropWhile p = b ∧ (a ++ b).takeWhile p = a := by
  induction a with
  | nil =>
    cases b with
    | nil => simp
    | cons c cs => simp [hb c cs rfl]
  | cons x xs ih =>
    have := ih (fun c hc => ha c (by simp [hc]))
    simp [ha x (by simp), this.1, this.2]

theorem nameC_ws {c : Char} (h : WsChar c) : nameC c = false := by
  rcases h with rfl | rfl | rfl <;> decide

theorem nameSplit_iff {t n b : Text} : nameSplit t = some (n, b) ↔ NamedForm t n b := by
  constructor
  · intro h
    cases t with
    | nil => cases h
    | cons c cs =>
      rw [nameSplit] at h
      split at h
      · rename_i hc
        split at h
        · rename_i r hr
          split at h
          · cases h
          · rename_i d b' hb
            split at h
            · cases h
            · rename_i hd
              cases h
              obtain ⟨w1, h1, h1', _⟩ := dropWhile_ws_spec (cs.dropWhile nameC)
              obtain ⟨w2, h2, h2', h2''⟩ := dropWhile_ws_spec r
              rw [hr] at h1
              rw [hb] at h2
              refine ⟨w1, w2, ?_, ⟨c, _, rfl, (isAsciiAlnum_iff c).mp hc, ?_⟩, h1', h2', d, b', rfl, h2'' _ _ hb, hd⟩
              · rw [← h2, ← h1]; simp [List.takeWhile_append_dropWhile]
              · intro x hx; exact nameC_iff.mp (mem_takeWhile hx)
        · cases h
      · cases h
  · rintro ⟨w1, w2, rfl, ⟨c, cs, rfl, hc, hcs⟩, h1, h2, d, b', rfl, hd, hd'⟩
    rw [List.cons_append, nameSplit, if_pos ((isAsciiAlnum_iff c).mpr hc)]
    have e := dropWhile_append_stop (p := nameC) (a := cs) (b := w1 ++ '=' :: (w2 ++ d :: b'))
      (fun x hx => nameC_iff.mpr (hcs x hx)) (by
        intro x xs hx
        cases w1 with
        | nil => simp only [List.nil_append, List.cons.injEq] at hx; rw [← hx.1]; decide
        | cons y ys =>
          simp only [List.cons_append, List.cons.injEq] at hx
          rw [← hx.1]; exact nameC_ws (h1 y (by simp)))
    rw [e.1, e.2, dropWhile_ws_append h1 (by intro x xs hx; cases hx; rintro (h | h | h) <;> cases h)]
    simp only
    rw [dropWhile_ws_append h2 (by intro x xs hx; cases hx; exact hd)]
    simp [hd']

/-- The text in which the value starts. -/
theorem body_iff {t : Text} {name : Option Text} {body : Text} : Body t name body ↔
    name = (nameSplit t).map Prod.fst ∧ body = ((nameSplit t).map Prod.snd).getD (t.dropWhile wsC) := by
  cases h : nameSplit t with
  | some p =>
    obtain ⟨n, b⟩ := p
    cases name with
    | some name =>
      show NamedForm t name body ↔ _
      rw [← nameSplit_iff, h]
      simp [eq_comm]
    | none =>
      constructor
      · intro hb; exact absurd (nameSplit_iff.mp h) (hb.1 n b)
      · rintro ⟨h1, _⟩; cases h1
  | none =>
    cases name with
    | some name =>
      show NamedForm t name body ↔ _
      rw [← nameSplit_iff, h]
      simp
    | none =>
      constructor
      · rintro ⟨_, w, rfl, hw, hb⟩
        exact ⟨rfl, (dropWhile_ws_append hw hb).symm⟩
      · rintro ⟨_, rfl⟩
        refine ⟨fun n b hn => ?_, ?_⟩
        · rw [nameSplit_iff.mpr hn] at h; cases h
        · obtain ⟨w, h1, h2, h3⟩ := dropWhile_ws_spec t
          exact ⟨w, h1, h2, h3⟩

/-- The body computed by the parser. -/
theorem attrNamePart_body (t : Text) :
    Body t (attrNamePart (Span.new t)).1 ((attrNamePart (Span.new t)).2.takeWhitespaceWithNewline.after.data) := by
  rw [wsnl_after]
  have h := attrNamePart_eq (Span.new t)
  rw [show (Span.new t).data = t from rfl] at h
  rw [body_iff]
  cases hn : nameSplit t with
  | none =>
    rw [hn] at h
    simp only [Prod.mk.injEq] at h
    rw [h.1, h.2]; simp
  | some p =>
    obtain ⟨n, b⟩ := p
    rw [hn] at h
    simp only [Prod.mk.injEq] at h
    obtain ⟨_, _, _, _, _, _, d, b', rfl, hd, _⟩ := nameSplit_iff.mp hn
    rw [h.1, h.2]
    simp [wsC_false.mpr hd]

/-! ### Values -/

theorem quotedForm_unique {body r1 a1 r2 a2 : Text} (h1 : QuotedForm body r1 a1) (h2 : QuotedForm body r2 a2) :
    r1 = r2 ∧ a1 = a2 := by
  obtain ⟨q, _, e1, x1, y1⟩ := h1
  obtain ⟨q', _, e2, x2, y2⟩ := h2
  rw [e1] at e2
  simp only [List.cons.injEq] at e2
  obtain ⟨rfl, e2⟩ := e2
  rcases List.append_eq_append_iff.mp e2 with ⟨a, ha, hb⟩ | ⟨a, ha, hb⟩
  · cases a with
    | nil => simp at ha hb; exact ⟨ha.symm, hb⟩
    | cons z zs =>
      simp only [List.cons_append, List.cons.injEq] at hb
      obtain ⟨rfl, _⟩ := hb
      exact absurd (x2 _ _ ha) y1
  · cases a with
    | nil => simp at ha hb; exact ⟨ha, hb.symm⟩
    | cons z zs =>
      simp only [List.cons_append, List.cons.injEq] at hb
      obtain ⟨rfl, _⟩ := hb
      exact absurd (x1 _ _ ha) y2

theorem takeQuoted_iff (s : Span) {m : MI Span} (h : s.takeQuotedString = some m) :
    QuotedForm s.data m.item.data m.after.data := by
  obtain ⟨q, hq, h1, h2, h3, _⟩ := C36_quoted_string_some s m h
  exact ⟨q, hq, by rw [h1]; simp, h3, h2⟩

theorem takeQuoted_none {s : Span} (h : s.takeQuotedString = none) : ∀ r a, ¬ QuotedForm s.data r a := by
  rintro r a ⟨q, hq, h1, h2, h3⟩
  exact h3 ((C36_quoted_string_none s).mp h q _ h1 hq r a rfl)

theorem trimEndP_not_ends {p : Char → Bool} {t : Text} {c : Char} (hp : p c = true) : ¬ EndsIn (trimEndP p t) c := by
  rintro ⟨r, hr⟩
  have := trimEndP_last p t c r hr
  rw [hp] at this; cases this

theorem bare_raw (s : Span) (hq : ∀ r a, ¬ QuotedForm s.data r a) :
    RawValue s.data ((s.takeWhile (· ≠ ',')).trimItemTrailingSpaces).item.data false
      ((s.takeWhile (· ≠ ',')).trimItemTrailingSpaces).after.data := by
  have hi : ((s.takeWhile (· ≠ ',')).trimItemTrailingSpaces).item.data =
      trimEndP (· == ' ') (s.data.takeWhile (· ≠ ',')) := by
    simp only [MI.trimItemTrailingSpaces, takeN_data, takeWhile_item_data, trimEndP_take]
  have ha : ((s.takeWhile (· ≠ ',')).trimItemTrailingSpaces).after.data = s.data.dropWhile (· ≠ ',') :=
    takeWhile_after_data s _
  rw [hi, ha]
  unfold RawValue
  rw [if_neg (by decide)]
  refine ⟨hq, ?_⟩
  obtain ⟨sp, h1, h2⟩ := trimEndP_spec (· == ' ') (s.data.takeWhile (· ≠ ','))
  refine ⟨sp, ?_, ?_, ?_, trimEndP_not_ends (by rfl), ?_⟩
  · rw [← h1, List.takeWhile_append_dropWhile]
  · rw [← h1]; intro hm; have := mem_takeWhile hm; simp at this
  · intro c hc; simpa using List.all_eq_true.mp h2 c hc
  · cases hd : s.data.dropWhile (· ≠ ',') with
    | nil => exact Or.inl rfl
    | cons c cs =>
      have := List.head?_dropWhile_not (p := (· ≠ ',')) s.data
      rw [hd] at this
      right; exact ⟨cs, by simpa using this⟩

/-- The value part meets its specification. -/
theorem attrValuePart_raw {s : Span} {vp : MI Span × Bool × List WarningType} (h : attrValuePart s = vp) :
    RawValue s.data vp.1.item.data vp.2.1 vp.1.after.data ∧
    vp.2.2 = if startsQuote s.data = true ∧ vp.2.1 = false then [.attributeValueMissingTerminatingQuote] else [] := by
  have nq : (∀ c r, s.data = c :: r → ¬ Quote c) → ∀ r a, ¬ QuotedForm s.data r a := by
    rintro h r a ⟨q, hq, e, _⟩
    exact h q _ e hq
  unfold attrValuePart at h
  cases hd : s.data with
  | nil =>
    rw [hd] at h
    simp only [List.head?_nil] at h
    subst h
    refine ⟨?_, rfl⟩
    have := bare_raw s (nq (by simp [hd]))
    rw [hd] at this; exact this
  | cons c cs =>
    rw [hd] at h
    simp only [List.head?_cons] at h
    by_cases hc : c = '\'' ∨ c = '"'
    · rw [if_pos hc] at h
      cases hq : s.takeQuotedString with
      | some v =>
        rw [hq] at h
        subst h
        refine ⟨?_, by simp⟩
        have := takeQuoted_iff s hq
        rw [hd] at this
        unfold RawValue; rw [if_pos rfl]; exact this
      | none =>
        rw [hq] at h
        subst h
        refine ⟨?_, ?_⟩
        · have := bare_raw s (takeQuoted_none hq)
          rw [hd] at this; exact this
        · rw [if_pos]; exact ⟨by simpa [startsQuote] using hc, rfl⟩
    · rw [if_neg hc] at h
      subst h
      refine ⟨?_, ?_⟩
      · have := bare_raw s (nq (by intro c' r h; rw [hd] at h; cases h; exact hc))
        rw [hd] at this; exact this
      · rw [if_neg]; rintro ⟨h, _⟩; exact hc (by simpa [startsQuote] using h)

theorem rawValue_unique {body r1 a1 r2 a2 : Text} {c1 c2 : Bool} (h1 : RawValue body r1 c1 a1)
    (h2 : RawValue body r2 c2 a2) : r1 = r2 ∧ c1 = c2 ∧ a1 = a2 := by
  unfold RawValue at h1 h2
  cases c1 <;> cases c2
  · simp only [Bool.false_eq_true, if_false] at h1 h2
    obtain ⟨_, s1, e1, n1, p1, l1, f1⟩ := h1
    obtain ⟨_, s2, e2, n2, p2, l2, f2⟩ := h2
    have t1 : body.takeWhile (· ≠ ',') = r1 ++ s1 ∧ body.dropWhile (· ≠ ',') = a1 := by
      rw [e1]
      have := dropWhile_append_stop (p := fun c => decide (c ≠ ',')) (a := r1 ++ s1) (b := a1)
        (fun c hc => by have : c ≠ ',' := (fun e => n1 (by rw [← e]; exact hc)); simpa using this) (by
          intro c cs hc; rcases f1 with rfl | ⟨r, rfl⟩ <;> cases hc; simp)
      exact ⟨this.2, this.1⟩
    have t2 : body.takeWhile (· ≠ ',') = r2 ++ s2 ∧ body.dropWhile (· ≠ ',') = a2 := by
      rw [e2]
      have := dropWhile_append_stop (p := fun c => decide (c ≠ ',')) (a := r2 ++ s2) (b := a2)
        (fun c hc => by have : c ≠ ',' := (fun e => n2 (by rw [← e]; exact hc)); simpa using this) (by
          intro c cs hc; rcases f2 with rfl | ⟨r, rfl⟩ <;> cases hc; simp)
      exact ⟨this.2, this.1⟩
    refine ⟨?_, rfl, by rw [← t1.2, ← t2.2]⟩
    have key : ∀ {r s : Text}, (∀ c ∈ s, c = ' ') → ¬ EndsIn r ' ' → trimEndP (· == ' ') (r ++ s) = r := by
      intro r s hs hr
      rw [trimEndP_append_all (by simpa using hs)]
      apply trimEndP_eq_self
      intro c r' h
      by_cases hc : c = ' '
      · subst hc; exact absurd ⟨r', h⟩ hr
      · simpa using hc
    rw [← key p1 l1, ← key p2 l2, ← t1.1, ← t2.1]
  · simp only [Bool.false_eq_true, if_false] at h1
    simp only [if_true] at h2
    exact absurd h2 (h1.1 _ _)
  · simp only [Bool.false_eq_true, if_false] at h2
    simp only [if_true] at h1
    exact absurd h1 (h2.1 _ _)
  · simp only [if_true] at h1 h2
    have := quotedForm_unique h1 h2
    exact ⟨this.1, rfl, this.2⟩

theorem unescape_eq (q : Char) (hq : q ≠ '\\') (t : Text) : replaceStr t ['\\', q] [q] = unescape q t := by
  unfold replaceStr
  induction t using unescape.induct (q := q) with
  | case1 => rfl
  | case2 c => simp [replaceStrGo, unescape, List.isPrefixOf]
  | case3 c d r h ih =>
    obtain ⟨rfl, rfl⟩ := h
    rw [unescape, if_pos ⟨rfl, rfl⟩, replaceStrGo, if_pos (by simp [List.isPrefixOf])]
    simp only [List.length_cons, List.length_nil, Nat.add_sub_cancel]
    rw [replaceStrGo, ih]; rfl
  | case4 c d r h ih =>
    rw [unescape, if_neg h, replaceStrGo, if_neg, ih]
    simp only [List.isPrefixOf, Bool.and_true, Bool.and_eq_true, beq_iff_eq]
    rintro ⟨rfl, rfl⟩; exact h ⟨rfl, rfl⟩

theorem attrUnquote_value (nrm : Text → Res Text) (ctx : AttrlistCtx) (body raw value : Text) :
    attrUnquote nrm ctx body.head? raw = .ok value ↔ ValueOf nrm ctx body raw value := by
  unfold attrUnquote ValueOf
  cases body with
  | nil => simp [eq_comm]
  | cons c cs =>
    simp only [List.head?_cons]
    by_cases hc : c = '\'' ∨ c = '"'
    · have hne : c ≠ '\\' := by rcases hc with rfl | rfl <;> decide
      rw [if_pos hc]
      simp only [unescape_eq c hne]
      constructor
      · intro h
        refine ⟨?_, fun hno => absurd hc (hno c cs rfl)⟩
        intro q r e hq
        cases e
        split at h
        · rename_i hs; rw [if_pos hs]; exact h
        · rename_i hs; rw [if_neg hs]; cases h; rfl
      · rintro ⟨h, _⟩
        have := h c cs rfl hc
        split at this
        · rename_i hs; rw [if_pos hs]; exact this
        · rename_i hs; rw [if_neg hs]; rw [this]
    · rw [if_neg hc]
      constructor
      · intro h
        cases h
        exact ⟨fun q r e hq => by cases e; exact absurd hq hc, fun _ => rfl⟩
      · rintro ⟨_, h⟩
        rw [h (fun q r e => by cases e; exact hc)]

theorem valueOf_unique {nrm : Text → Res Text} {ctx : AttrlistCtx} {body raw v1 v2 : Text}
    (h1 : ValueOf nrm ctx body raw v1) (h2 : ValueOf nrm ctx body raw v2) : v1 = v2 := by
  have e1 := (attrUnquote_value nrm ctx body raw v1).mpr h1
  have e2 := (attrUnquote_value nrm ctx body raw v2).mpr h2
  rw [e1] at e2
  exact Except.ok.inj e2

/-! ### Elements -/

/-- The warnings of one element. -/
def elemWarnings (body value : Text) (closed sh : Bool) (name : Option Text) : List WarningType :=
  (if startsQuote body = true ∧ closed = false then [.attributeValueMissingTerminatingQuote] else []) ++
  (if name = none ∧ sh = true ∧ closed = false then (parseShorthandItems value).2 else [])

theorem elem_parse {nrm : Text → Res Text} {t : Text} {sh : Bool} {ctx : AttrlistCtx} {a : ElemAttr} {after : Text}
    {ws : List WarningType} (h : ElemAttr.parse nrm t sh ctx = .ok (a, after, ws)) :
    ∃ closed, Reads nrm ctx t a.name a.value closed after ∧
      a.shorthand = (if a.name = none ∧ sh = true ∧ closed = false then (parseShorthandItems a.value).1 else []) ∧
      ∃ body, Body t a.name body ∧ ws = elemWarnings body a.value closed sh a.name := by
  unfold ElemAttr.parse at h
  simp only [bind, Except.bind] at h
  have hb := attrNamePart_body t
  generalize attrNamePart (Span.new t) = np at h hb
  generalize np.2.takeWhitespaceWithNewline.after = body at h hb
  have hv := attrValuePart_raw (s := body) rfl
  generalize attrValuePart body = vp at h hv
  cases hu : attrUnquote nrm ctx body.data.head? vp.1.item.data with
  | error e => rw [hu] at h; cases h
  | ok v =>
    rw [hu] at h
    simp only [Except.ok.injEq, Prod.mk.injEq] at h
    obtain ⟨rfl, rfl, rfl⟩ := h
    refine ⟨vp.2.1, ⟨body.data, _, hb, hv.1, (attrUnquote_value ..).mp hu⟩, ?_, body.data, hb, ?_⟩
    · simp only
      split <;> rfl
    · unfold elemWarnings
      rw [← hv.2]
      simp only
      split <;> rfl

theorem replaceStrGo_mem {needle w : Text} : ∀ {t : Text} {k : Nat} {c : Char}, c ∈ replaceStrGo needle w k t → c ∈ t ∨ c ∈ w := by
  intro t
  induction t with
  | nil => intro k c h; cases k <;> cases h
  | cons d t ih =>
    intro k c h
    cases k with
    | succ k =>
      rw [replaceStrGo] at h
      rcases ih h with h | h
      · exact Or.inl (List.mem_cons_of_mem _ h)
      · exact Or.inr h
    | zero =>
      rw [replaceStrGo] at h
      split at h
      · rcases List.mem_append.mp h with h | h
        · exact Or.inr h
        · rcases ih h with h | h
          · exact Or.inl (List.mem_cons_of_mem _ h)
          · exact Or.inr h
      · rcases List.mem_cons.mp h with rfl | h
        · exact Or.inl List.mem_cons_self
        · rcases ih h with h | h
          · exact Or.inl (List.mem_cons_of_mem _ h)
          · exact Or.inr h

/-- Parsing one element fails only when the substitution of its value does. -/
theorem elem_error {nrm : Text → Res Text} {t : Text} {sh : Bool} {ctx : AttrlistCtx} {e : Fail}
    (h : ElemAttr.parse nrm t sh ctx = .error e) : ctx = .block ∧ ∃ v, (∀ c ∈ v, c ∈ t) ∧ nrm v = .error e := by
  unfold ElemAttr.parse at h
  simp only [bind, Except.bind] at h
  split at h
  · rename_i e' hu
    cases h
    have hb := attrNamePart_body t
    generalize (attrNamePart (Span.new t)).2.takeWhitespaceWithNewline.after = body at hu hb
    have hsuf : ∀ c ∈ body.data, c ∈ t := by
      cases hn : (attrNamePart (Span.new t)).1 with
      | some n =>
        rw [hn] at hb
        obtain ⟨w1, w2, e, _⟩ := hb
        intro c hc; rw [e]; simp [hc]
      | none =>
        rw [hn] at hb
        obtain ⟨_, w, e, _⟩ := hb
        intro c hc; rw [e]; simp [hc]
    have hv := (attrValuePart_raw (s := body) rfl).1
    generalize attrValuePart body = vp at hu hv
    have hraw : ∀ c ∈ vp.1.item.data, c ∈ body.data := by
      unfold RawValue at hv
      split at hv
      · obtain ⟨q, _, e, _⟩ := hv
        intro c hc; rw [e]; simp [hc]
      · obtain ⟨_, sp, e, _⟩ := hv
        intro c hc; rw [e]; simp [hc]
    unfold attrUnquote at hu
    split at hu
    · rename_i q hq
      split at hu
      · simp only at hu
        split at hu
        · rename_i hs
          refine ⟨hs.2, _, fun c hc => ?_, hu⟩
          rcases replaceStrGo_mem hc with hc | hc
          · exact hsuf c (hraw c hc)
          · rw [List.mem_singleton.mp hc]
            exact hsuf _ (List.mem_of_mem_head? hq)
        · cases hu
      · cases hu
    · cases hu
  · cases h

theorem reads_unique {nrm : Text → Res Text} {ctx : AttrlistCtx} {t : Text} {n1 n2 : Option Text} {v1 v2 a1 a2 : Text}
    {c1 c2 : Bool} (h1 : Reads nrm ctx t n1 v1 c1 a1) (h2 : Reads nrm ctx t n2 v2 c2 a2) :
    n1 = n2 ∧ v1 = v2 ∧ c1 = c2 ∧ a1 = a2 := by
  obtain ⟨b1, r1, hb1, hr1, hv1⟩ := h1
  obtain ⟨b2, r2, hb2, hr2, hv2⟩ := h2
  rw [body_iff] at hb1 hb2
  obtain ⟨rfl, rfl⟩ := hb1
  obtain ⟨rfl, rfl⟩ := hb2
  obtain ⟨rfl, rfl, rfl⟩ := rawValue_unique hr1 hr2
  exact ⟨rfl, valueOf_unique hv1 hv2, rfl, rfl⟩

/-- An element is a prefix of the text. -/
theorem reads_prefix {nrm : Text → Res Text} {ctx : AttrlistCtx} {t : Text} {n : Option Text} {v a : Text} {c : Bool}
    (h : Reads nrm ctx t n v c a) : ∃ region, t = region ++ a := by
  obtain ⟨b, r, hb, hr, _⟩ := h
  have h1 : ∃ p, t = p ++ b := by
    cases n with
    | some n => obtain ⟨w1, w2, e, _⟩ := hb; exact ⟨n ++ (w1 ++ '=' :: w2), by rw [e]; simp⟩
    | none => obtain ⟨_, w, e, _⟩ := hb; exact ⟨w, e⟩
  have h2 : ∃ p, b = p ++ a := by
    unfold RawValue at hr
    split at hr
    · obtain ⟨q, _, e, _⟩ := hr; exact ⟨q :: (r ++ [q]), by rw [e]; simp⟩
    · obtain ⟨_, sp, e, _⟩ := hr; exact ⟨r ++ sp, e⟩
  obtain ⟨p, rfl⟩ := h1
  obtain ⟨p', rfl⟩ := h2
  exact ⟨p ++ p', by simp⟩

/-- Locality: an element is determined by its own text. -/
theorem reads_local {nrm : Text → Res Text} {ctx : AttrlistCtx} {region : Text} {n : Option Text} {v a : Text} {c : Bool}
    (h : Reads nrm ctx (region ++ a) n v c a) : Reads nrm ctx region n v c [] := by
  obtain ⟨b, r, hb, hr, hv⟩ := h
  -- the part of the body inside the region
  have h2 : ∃ b', b = b' ++ a := by
    unfold RawValue at hr
    split at hr
    · obtain ⟨q, _, e, _⟩ := hr; exact ⟨q :: (r ++ [q]), by rw [e]; simp⟩
    · obtain ⟨_, sp, e, _⟩ := hr; exact ⟨r ++ sp, e⟩
  obtain ⟨b', rfl⟩ := h2
  have qext : ∀ r' a', QuotedForm b' r' a' → QuotedForm (b' ++ a) r' (a' ++ a) := by
    rintro r' a' ⟨q, hq, e, h1, h2⟩
    exact ⟨q, hq, by rw [e]; simp, h1, h2⟩
  have hraw : RawValue b' r c [] := by
    unfold RawValue at hr ⊢
    split
    · rename_i hc; rw [if_pos hc] at hr
      obtain ⟨q, hq, e, h1, h2⟩ := hr
      refine ⟨q, hq, ?_, h1, h2⟩
      have : b' ++ a = (q :: (r ++ [q])) ++ a := by rw [e]; simp
      have := List.append_cancel_right this
      rw [this]
    · rename_i hc; rw [if_neg hc] at hr
      obtain ⟨hno, sp, e, h1, h2, h3, _⟩ := hr
      refine ⟨fun r' a' hq => hno _ _ (qext _ _ hq), sp, ?_, h1, h2, h3, Or.inl rfl⟩
      rw [List.append_cancel_right e]; simp
  -- a body that starts with a quote does so inside the region, unless the value is empty
  have hhead : ∀ q x, b' ++ a = q :: x → Quote q → ∃ y, b' = q :: y := by
    intro q x e hq
    cases b' with
    | cons z zs => simp only [List.cons_append, List.cons.injEq] at e; exact ⟨zs, by rw [e.1]⟩
    | nil =>
      exfalso
      simp only [List.nil_append] at e
      unfold RawValue at hr
      split at hr
      · obtain ⟨q', _, e', _⟩ := hr
        have := congrArg List.length e'
        simp at this; omega
      · obtain ⟨_, sp, e', _, _, _, f⟩ := hr
        rcases f with rfl | ⟨r', rfl⟩
        · cases e
        · cases e; rcases hq with h | h <;> cases h
  have hval : ValueOf nrm ctx b' r v := by
    refine ⟨fun q x e hq => hv.1 q (x ++ a) (by rw [e]; simp) hq, fun hno => hv.2 ?_⟩
    intro q x e hq
    obtain ⟨y, hy⟩ := hhead q x e hq
    exact hno q y hy hq
  refine ⟨b', r, ?_, hraw, hval⟩
  cases n with
  | some n =>
    obtain ⟨w1, w2, e, h1, h2, h3, d, ds, e', h4, h5⟩ := hb
    cases b' with
    | nil =>
      exfalso
      simp only [List.nil_append] at e'
      unfold RawValue at hr
      split at hr
      · obtain ⟨q', _, e'', _⟩ := hr
        have := congrArg List.length e''
        simp at this; omega
      · obtain ⟨_, sp, _, _, _, _, f⟩ := hr
        rcases f with rfl | ⟨r', rfl⟩
        · cases e'
        · cases e'; exact h5 rfl
    | cons z zs =>
      simp only [List.cons_append, List.cons.injEq] at e'
      refine ⟨w1, w2, ?_, h1, h2, h3, z, zs, rfl, by rw [e'.1]; exact h4, by rw [e'.1]; exact h5⟩
      have : region ++ a = (n ++ (w1 ++ '=' :: (w2 ++ z :: zs))) ++ a := by rw [e]; simp
      exact List.append_cancel_right this
  | none =>
    obtain ⟨hno, w, e, hw, hb⟩ := hb
    refine ⟨?_, w, ?_, hw, ?_⟩
    · rintro n' b'' ⟨w1, w2, e', h1, h2, h3, d, ds, e'', h4, h5⟩
      exact hno n' (b'' ++ a) ⟨w1, w2, by rw [e']; simp, h1, h2, h3, d, ds ++ a, by rw [e'']; rfl, h4, h5⟩
    · rw [← List.append_assoc] at e; exact List.append_cancel_right e
    · intro d ds e'; exact hb d (ds ++ a) (by rw [e']; rfl)

/-! ### Lists -/

theorem elem_at {nrm : Text → Res Text} {t : Text} {sh : Bool} {ctx : AttrlistCtx} {a : ElemAttr} {after : Text}
    {ws : List WarningType} (h : ElemAttr.parse nrm t sh ctx = .ok (a, after, ws)) : ElemAt nrm ctx sh t a ws after := by
  obtain ⟨closed, ⟨body, raw, h1, h2, h3⟩, h4, body', h5, h6⟩ := elem_parse h
  have hb : body' = body := by
    rw [body_iff] at h1 h5
    rw [h1.2, h5.2]
  subst hb
  refine ⟨body', raw, closed, h1, h2, h3, ?_, ?_, _, _, h6, rfl, ?_, ?_⟩
  · intro hs; rw [h4, if_pos hs]
  · intro hs; rw [h4, if_neg hs]
  · intro hs; rw [if_pos hs]
  · intro hs; rw [if_neg hs]

theorem elemAt_reads {nrm : Text → Res Text} {t : Text} {sh : Bool} {ctx : AttrlistCtx} {a : ElemAttr} {after : Text}
    {ws : List WarningType} (h : ElemAt nrm ctx sh t a ws after) : ∃ c, Reads nrm ctx t a.name a.value c after := by
  obtain ⟨body, raw, closed, h1, h2, h3, _⟩ := h
  exact ⟨closed, body, raw, h1, h2, h3⟩

theorem elemAt_unique {nrm : Text → Res Text} {t : Text} {sh : Bool} {ctx : AttrlistCtx} {a1 a2 : ElemAttr}
    {after1 after2 : Text} {ws1 ws2 : List WarningType} (h1 : ElemAt nrm ctx sh t a1 ws1 after1)
    (h2 : ElemAt nrm ctx sh t a2 ws2 after2) : a1 = a2 ∧ ws1 = ws2 ∧ after1 = after2 := by
  obtain ⟨b1, r1, c1, x1, x2, x3, x4, x5, w1, v1, rfl, rfl, x6, x7⟩ := h1
  obtain ⟨b2, r2, c2, y1, y2, y3, y4, y5, w2, v2, rfl, rfl, y6, y7⟩ := h2
  have hb : b1 = b2 := by rw [body_iff] at x1 y1; rw [x1.2, y1.2]
  have hn : a1.name = a2.name := by rw [body_iff] at x1 y1; rw [x1.1, y1.1]
  subst hb
  obtain ⟨rfl, rfl, rfl⟩ := rawValue_unique x2 y2
  have hv := valueOf_unique x3 y3
  obtain ⟨n1, val1, s1⟩ := a1
  obtain ⟨n2, val2, s2⟩ := a2
  simp only at *
  subst hn hv
  by_cases hs : n1 = none ∧ sh = true ∧ c1 = false
  · rw [x4 hs, y4 hs, x6 hs, y6 hs]; simp
  · rw [x5 hs, y5 hs, x7 hs, y7 hs]; simp

theorem dropWhile_blank_spec (t : Text) : ∃ b, t = b ++ t.dropWhile isBlank ∧ Blank b ∧
    ∀ c cs, t.dropWhile isBlank = c :: cs → c ≠ ' ' ∧ c ≠ '\t' := by
  refine ⟨t.takeWhile isBlank, (List.takeWhile_append_dropWhile).symm, fun c hc => (isBlank_iff c).mp (mem_takeWhile hc), ?_⟩
  intro c cs h
  have := List.head?_dropWhile_not (p := isBlank) t
  rw [h] at this
  simpa [isBlank] using this

theorem dropWhile_blank_append {b t : Text} (hb : Blank b) (ht : ∀ c cs, t = c :: cs → c ≠ ' ' ∧ c ≠ '\t') :
    (b ++ t).dropWhile isBlank = t :=
  (dropWhile_append_stop (fun c hc => (isBlank_iff c).mpr (hb c hc)) (by
    intro c cs h
    have := ht c cs h
    simp [isBlank, this.1, this.2])).1

theorem separator_inr {after r : Text} (h : Attrlist.separator after = .inr r) :
    r = after.dropWhile isBlank ∧ ∀ b r', Blank b → after ≠ b ++ ',' :: r' := by
  unfold Attrlist.separator at h
  split at h
  · split at h <;> cases h
  · rename_i hno
    cases h
    refine ⟨rfl, ?_⟩
    rintro b r' hb rfl
    exact hno r' (dropWhile_blank_append hb (by intro c cs e; cases e; decide))

theorem separator_inl {after next : Text} {doubled : Bool} (h : Attrlist.separator after = .inl (next, doubled)) :
    ∃ sep, after = sep ++ next ∧ IsSeparator doubled sep ∧
      (doubled = false → ∀ c r, next = c :: r → c ≠ ' ' ∧ c ≠ '\t' ∧ c ≠ ',') := by
  unfold Attrlist.separator at h
  obtain ⟨a, ha, ha', _⟩ := dropWhile_blank_spec after
  split at h
  · rename_i r hr
    rw [hr] at ha
    obtain ⟨b, hb, hb', hb''⟩ := dropWhile_blank_spec r
    split at h
    · rename_i r' hr'
      cases h
      rw [hr'] at hb
      refine ⟨a ++ ',' :: b ++ [','], ?_, ⟨a, b, ha', hb', by simp⟩, by intro h; cases h⟩
      rw [ha, hb]; simp
    · rename_i hno
      cases h
      refine ⟨a ++ ',' :: b, ?_, ⟨a, b, ha', hb', by simp⟩, ?_⟩
      · conv => lhs; rw [ha, hb]
        simp
      · intro _ c cs hc
        have := hb'' c cs hc
        refine ⟨this.1, this.2, ?_⟩
        rintro rfl
        exact hno cs hc
  · cases h

theorem separator_unique {sep1 t1 sep2 t2 : Text} {d1 d2 : Bool} (h1 : IsSeparator d1 sep1)
    (f1 : d1 = false → ∀ c r, t1 = c :: r → c ≠ ' ' ∧ c ≠ '\t' ∧ c ≠ ',') (h2 : IsSeparator d2 sep2)
    (f2 : d2 = false → ∀ c r, t2 = c :: r → c ≠ ' ' ∧ c ≠ '\t' ∧ c ≠ ',') (e : sep1 ++ t1 = sep2 ++ t2) :
    t1 = t2 ∧ d1 = d2 := by
  have key : ∀ {sep t : Text} {d : Bool}, IsSeparator d sep →
      (d = false → ∀ c r, t = c :: r → c ≠ ' ' ∧ c ≠ '\t' ∧ c ≠ ',') →
      Attrlist.separator (sep ++ t) = .inl (t, d) := by
    rintro sep t d ⟨a, b, ha, hb, rfl⟩ f
    unfold Attrlist.separator
    have e1 : (a ++ ',' :: b ++ (if d then [','] else []) ++ t).dropWhile isBlank =
        ',' :: (b ++ (if d then [','] else []) ++ t) := by
      rw [show a ++ ',' :: b ++ (if d then [','] else []) ++ t = a ++ (',' :: (b ++ (if d then [','] else []) ++ t)) by simp]
      exact dropWhile_blank_append ha (by intro c cs e; cases e; decide)
    rw [e1]
    simp only
    cases d with
    | true =>
      have e2 : (b ++ (if true = true then [','] else []) ++ t).dropWhile isBlank = ',' :: t := by
        rw [if_pos rfl, List.append_assoc]
        exact dropWhile_blank_append hb (by intro c cs e; cases e; decide)
      rw [e2]
      rfl
    | false =>
      have e2 : (b ++ (if false = true then [','] else []) ++ t).dropWhile isBlank = t := by
        rw [if_neg (by decide), List.append_nil]
        exact dropWhile_blank_append hb (fun c cs e => ⟨(f rfl c cs e).1, (f rfl c cs e).2.1⟩)
      rw [e2]
      cases t with
      | nil => rfl
      | cons c cs =>
        have := (f rfl c cs rfl).2.2
        split
        · rename_i h; cases h; exact absurd rfl this
        · rfl
  have k1 := key h1 f1
  rw [e, key h2 f2] at k1
  simp only [Sum.inl.injEq, Prod.mk.injEq] at k1
  exact ⟨k1.1.symm, k1.2.symm⟩

theorem elements_unique {nrm : Text → Res Text} {ctx : AttrlistCtx} {sh : Bool} {t : Text} {as1 as2 : List ElemAttr}
    {ws1 ws2 : List WarningType} {l1 l2 f1 f2 : Text} (h1 : Elements nrm ctx sh t as1 ws1 l1 f1)
    (h2 : Elements nrm ctx sh t as2 ws2 l2 f2) : as1 = as2 ∧ ws1 = ws2 ∧ l1 = l2 ∧ f1 = f2 := by
  induction h1 generalizing as2 ws2 l2 f2 with
  | last x y =>
    cases h2 with
    | last x' y' => obtain ⟨rfl, rfl, rfl⟩ := elemAt_unique x x'; exact ⟨rfl, rfl, rfl, rfl⟩
    | more x' y' _ _ =>
      obtain ⟨_, _, rfl⟩ := elemAt_unique x x'
      obtain ⟨a, b, ha, _, rfl⟩ := y'
      exact absurd (by rw [List.append_assoc, List.append_assoc, List.cons_append]) (y a _ ha)
  | more x y z _ ih =>
    cases h2 with
    | last x' y' =>
      obtain ⟨_, _, rfl⟩ := elemAt_unique x x'
      obtain ⟨a, b, ha, _, rfl⟩ := y
      exact absurd (by rw [List.append_assoc, List.append_assoc, List.cons_append]) (y' a _ ha)
    | more x' y' z' r' =>
      obtain ⟨rfl, rfl, e⟩ := elemAt_unique x x'
      obtain ⟨rfl, rfl⟩ := separator_unique y z y' z' e
      obtain ⟨rfl, rfl, rfl, rfl⟩ := ih r'
      exact ⟨rfl, rfl, rfl, rfl⟩

theorem recorded_iff (a : ElemAttr) : (a.name = none ∨ a.value ≠ "None".toList) ↔ Recorded a = true := by
  unfold Recorded
  cases a.name <;> simp

theorem elements_ne_nil {nrm : Text → Res Text} {ctx : AttrlistCtx} {sh : Bool} {t : Text} {as : List ElemAttr}
    {ws : List WarningType} {l f : Text} (h : Elements nrm ctx sh t as ws l f) : as ≠ [] := by
  cases h <;> simp

theorem loop_elements {nrm : Text → Res Text} {source : Span} {ctx : AttrlistCtx} :
    ∀ (n : Nat) {t : Text} {sh : Bool} {attrs attrs' : List ElemAttr} {ws ws' : List Warning} {r : Text},
    Attrlist.loop nrm source ctx n t sh attrs ws = .ok (attrs', ws', r) →
    ∃ as wts lastAt after, Elements nrm ctx sh t as wts lastAt after ∧
      ws' = ws ++ wts.map (fun w => ⟨source, w⟩) ∧
      (attrs = [] ∧ OnlyEmpty as after → attrs' = [] ∧ r = lastAt) ∧
      (¬ (attrs = [] ∧ OnlyEmpty as after) →
        attrs' = attrs ++ as.filter Recorded ∧ r = after.dropWhile isBlank) := by
  intro n
  induction n with
  | zero => intro t sh attrs attrs' ws ws' r h; cases h
  | succ n ih =>
    intro t sh attrs attrs' ws ws' r h
    rw [Attrlist.loop] at h
    simp only [bind, Except.bind] at h
    cases hp : ElemAttr.parse nrm t sh ctx with
    | error e => rw [hp] at h; cases h
    | ok p =>
      obtain ⟨a, after, wts⟩ := p
      rw [hp] at h
      simp only at h
      have hat := elem_at hp
      by_cases hspecial : a.name = none ∧ a.value = [] ∧ after = [] ∧ attrs = []
      · rw [if_pos hspecial] at h
        simp only [Except.ok.injEq, Prod.mk.injEq] at h
        obtain ⟨rfl, rfl, rfl⟩ := h
        obtain ⟨h1, h2, rfl, rfl⟩ := hspecial
        refine ⟨[a], wts, t, [], .last hat (by simp), rfl, fun _ => ⟨rfl, rfl⟩, fun hno => ?_⟩
        exact absurd ⟨rfl, by simp, rfl, a, rfl, h1, h2⟩ hno
      · rw [if_neg hspecial] at h
        have hrec : (if a.name = none ∨ a.value ≠ "None".toList then attrs ++ [a] else attrs) =
            attrs ++ [a].filter Recorded := by
          by_cases hr : Recorded a = true
          · rw [if_pos ((recorded_iff a).mpr hr)]; simp [hr]
          · rw [if_neg (fun x => hr ((recorded_iff a).mp x))]; simp [hr]
        rw [hrec] at h
        have hsh : (if a.name = none then false else sh) = (sh && a.name.isSome) := by
          cases a.name <;> simp
        rw [hsh] at h
        cases hs : Attrlist.separator after with
        | inr r' =>
          rw [hs] at h
          simp only [Except.ok.injEq, Prod.mk.injEq] at h
          obtain ⟨rfl, rfl, rfl⟩ := h
          obtain ⟨rfl, h2⟩ := separator_inr hs
          refine ⟨[a], wts, t, after, .last hat h2, rfl, ?_, fun _ => ⟨rfl, rfl⟩⟩
          rintro ⟨rfl, _, rfl, a', ha', h3, h4⟩
          cases ha'
          exact absurd ⟨h3, h4, rfl, rfl⟩ hspecial
        | inl p =>
          obtain ⟨next, doubled⟩ := p
          rw [hs] at h
          simp only at h
          obtain ⟨sep, rfl, h2, h3⟩ := separator_inl hs
          obtain ⟨as, wts', lastAt, after', e1, e2, e3, e4⟩ := ih h
          refine ⟨a :: as, _, lastAt, after', .more hat h2 h3 e1, ?_, ?_, ?_⟩
          · rw [e2]; cases doubled <;> simp
          · rintro ⟨rfl, o1, o2, o3⟩
            have hne := elements_ne_nil e1
            have hdl : (a :: as).dropLast = a :: as.dropLast := List.dropLast_cons_of_ne_nil hne
            rw [hdl] at o1
            have hra : Recorded a = false := by
              cases hr : Recorded a with
              | false => rfl
              | true => rw [List.filter_cons_of_pos hr] at o1; cases o1
            rw [List.filter_cons_of_neg (by simp [hra])] at o1
            apply e3
            refine ⟨by simp [hra], o1, o2, ?_⟩
            obtain ⟨x, hx, hx'⟩ := o3
            refine ⟨x, ?_, hx'⟩
            cases as with
            | nil => exact absurd rfl hne
            | cons y ys => rwa [List.getLast?_cons_cons] at hx
          · intro hno
            have := e4 (by
              rintro ⟨f1, f2, f3, f4⟩
              apply hno
              have hne := elements_ne_nil e1
              have hdl : (a :: as).dropLast = a :: as.dropLast := List.dropLast_cons_of_ne_nil hne
              simp only [List.append_eq_nil_iff] at f1
              obtain ⟨rfl, hra⟩ := f1
              refine ⟨rfl, ?_, f3, ?_⟩
              · rw [hdl]
                have : Recorded a = false := by
                  cases hr : Recorded a with
                  | false => rfl
                  | true => rw [List.filter_cons_of_pos hr] at hra; cases hra
                rw [List.filter_cons_of_neg (by simp [this])]; exact f2
              · obtain ⟨x, hx, hx'⟩ := f4
                refine ⟨x, ?_, hx'⟩
                cases as with
                | nil => cases hx
                | cons y ys => rwa [List.getLast?_cons_cons])
            refine ⟨?_, this.2⟩
            rw [this.1, List.append_assoc, ← List.filter_append]; rfl

/-- The loop ends: every element is followed by a comma. -/
theorem loop_error {nrm : Text → Res Text} {source : Span} {ctx : AttrlistCtx} {e : Fail} :
    ∀ (n : Nat) {t : Text} {sh : Bool} {attrs : List ElemAttr} {ws : List Warning}, t.length < n →
    Attrlist.loop nrm source ctx n t sh attrs ws = .error e → ctx = .block ∧ ∃ v, (∀ c ∈ v, c ∈ t) ∧ nrm v = .error e := by
  intro n
  induction n with
  | zero => intro t _ _ _ hl; omega
  | succ n ih =>
    intro t sh attrs ws hl h
    rw [Attrlist.loop] at h
    simp only [bind, Except.bind] at h
    cases hp : ElemAttr.parse nrm t sh ctx with
    | error e' => rw [hp] at h; cases h; exact elem_error hp
    | ok p =>
      obtain ⟨a, after, wts⟩ := p
      rw [hp] at h
      simp only at h
      split at h
      · cases h
      · split at h
        · rename_i next doubled hs
          obtain ⟨sep, rfl, ⟨x, y, _, _, rfl⟩, _⟩ := separator_inl hs
          obtain ⟨_, hr⟩ := elemAt_reads (elem_at hp)
          obtain ⟨region, hreg⟩ := reads_prefix hr
          have := congrArg List.length hreg
          obtain ⟨h1, v, h2, h3⟩ := ih (by simp at this; omega) h
          exact ⟨h1, v, fun c hc => by rw [hreg]; simp [h2 c hc], h3⟩
        · cases h

/-- Completeness for one element. -/
theorem elem_complete {nrm : Text → Res Text} {t : Text} {sh : Bool} {ctx : AttrlistCtx} {a : ElemAttr} {after : Text}
    {ws : List WarningType} (h : ElemAt nrm ctx sh t a ws after) : ElemAttr.parse nrm t sh ctx = .ok (a, after, ws) := by
  cases hp : ElemAttr.parse nrm t sh ctx with
  | ok p =>
    obtain ⟨a', after', ws'⟩ := p
    obtain ⟨rfl, rfl, rfl⟩ := elemAt_unique h (elem_at hp)
    rfl
  | error e =>
    exfalso
    obtain ⟨bd, raw, closed, hb, hr, hv, _⟩ := h
    unfold ElemAttr.parse at hp
    simp only [bind, Except.bind] at hp
    have hb' := attrNamePart_body t
    generalize attrNamePart (Span.new t) = np at hp hb'
    generalize np.2.takeWhitespaceWithNewline.after = body at hp hb'
    have hr' := (attrValuePart_raw (s := body) rfl).1
    generalize attrValuePart body = vp at hp hr'
    rw [body_iff] at hb hb'
    obtain ⟨_, rfl⟩ := hb
    have e := hb'.2
    rw [e] at hr' hp
    obtain ⟨rfl, _, _⟩ := rawValue_unique hr hr'
    rw [(attrUnquote_value ..).mpr hv] at hp
    cases hp

/-- Completeness for a list. -/
theorem loop_ok {nrm : Text → Res Text} {source : Span} {ctx : AttrlistCtx} {sh : Bool} {t : Text} {as : List ElemAttr}
    {wts : List WarningType} {l f : Text} (h : Elements nrm ctx sh t as wts l f) :
    ∀ (n : Nat) (attrs : List ElemAttr) (ws : List Warning), t.length < n →
    ∃ r, Attrlist.loop nrm source ctx n t sh attrs ws = .ok r := by
  induction h with
  | @last sh t a wts after x y =>
    intro n attrs ws hl
    obtain ⟨n, rfl⟩ : ∃ m, n = m + 1 := ⟨n - 1, by omega⟩
    rw [Attrlist.loop, elem_complete x]
    simp only [bind, Except.bind]
    split
    · exact ⟨_, rfl⟩
    · split
      · rename_i next d hs
        obtain ⟨sep, e, ⟨a', b', ha, _, rfl⟩, _⟩ := separator_inl hs
        exact absurd (by rw [e, List.append_assoc, List.append_assoc, List.cons_append]) (y a' _ ha)
      · exact ⟨_, rfl⟩
  | @more sh t a w wts sep t' d as l f x y z _ ih =>
    intro n attrs ws hl
    obtain ⟨n, rfl⟩ : ∃ m, n = m + 1 := ⟨n - 1, by omega⟩
    rw [Attrlist.loop, elem_complete x]
    simp only [bind, Except.bind]
    split
    · exact ⟨_, rfl⟩
    · split
      · rename_i next d' hs
        obtain ⟨sep', e, h3, h4⟩ := separator_inl hs
        obtain ⟨rfl, rfl⟩ := separator_unique y z h3 h4 e
        have hsh : (if a.name = none then false else sh) = (sh && a.name.isSome) := by
          cases a.name <;> simp
        rw [hsh]
        apply ih
        obtain ⟨x', y', _, _, rfl⟩ := y
        obtain ⟨_, hr⟩ := elemAt_reads x
        obtain ⟨region, hreg⟩ := reads_prefix hr
        have := congrArg List.length hreg
        simp at this; omega
      · exact ⟨_, rfl⟩

end Adoc
