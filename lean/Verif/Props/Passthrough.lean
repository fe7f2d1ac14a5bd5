import Verif.Lemmas.PassBack
import Verif.Props.Pass
/-!
# C66: which pieces of a text are passthroughs, and what becomes of them
-/

namespace Adoc.Props
open Adoc Adoc.Spec Adoc.Re
variable [Uni]

/-- **What is taken out of a text**, for every text: exactly the passthroughs of the specification, in the order of their
numbers, and placeholders are left in their places.  There is one reading only, and the program never fails. -/
theorem C66_extracted (t : Text) :
    ∃ ps out, extractPassthroughs t = .ok (ps, out) ∧ Extracted t ps out ∧
      ∀ ps' out', Extracted t ps' out' → ps' = ps ∧ out' = out := by
  obtain ⟨ps, out, e, h⟩ := extract_all t
  exact ⟨ps, out, e, h, fun ps' out' h' => extracted_det h' h⟩

/-- The same as an equivalence. -/
theorem C66_exact {t out : Text} {ps : List Passthrough} : extractPassthroughs t = .ok (ps, out) ↔ Extracted t ps out := extract_iff

/-- **What becomes of a text with passthroughs**, for every text, every group of substitutions and every renderer: the
passthroughs are taken out, the steps of the group are applied to what remains, and every placeholder in the outcome is
replaced by what has become of its passthrough, which may have placeholders of its own.  If and only if this comes to an end
with a text, it is the text that the program arrives at. -/
theorem C66_substituted [LawfulUni] {e : Env} {g : Group} {al : Option Attrlist} {t out : Text} :
    (∃ f0, ∀ f ≥ f0, Group.apply f e g al t = .ok out) ↔ Substituted e g al t out := substituted_iff

/-- With however little recursion, nothing else ever comes out. -/
theorem C66_nothing_else [LawfulUni] {e : Env} {g : Group} {al : Option Attrlist} {t out : Text} {f : Nat}
    (h : Group.apply f e g al t = .ok out) : Substituted e g al t out ∧ ∀ out', Substituted e g al t out' → out' = out :=
  ⟨(subst_sound e f).1 _ _ _ _ h, fun _ h' => substituted_det h' ((subst_sound e f).1 _ _ _ _ h)⟩

/-- Non-vacuity: single marks, with and without attributes, in the old style, with a backslash in front or behind a colon. -/
example :
    letI := asciiUni
    Group.apply 6 htmlEnv .normal none "+a+ and [r]+b <+ and [x-]`*c*` and [x-]+*d*+ \\+e+ :+f+ +++g+++".toList =
      .ok "a and <span class=\"r\">b &lt;</span> and <code>*c*</code> and <code><strong>d</strong></code> +e+ :+f+ g".toList := by
  decide +kernel

/-- And what was taken out of a shorter text. -/
example :
    letI := asciiUni
    Extracted "+a+ :+f+ [x-]`c` +++g+++".toList
      [⟨"g".toList, .none, none, none⟩, ⟨"a".toList, .verbatim, none, none⟩, ⟨"c".toList, .verbatim, some .monospaced, some []⟩]
      (placeholder 1 ++ " :+f+ ".toList ++ placeholder 2 ++ " ".toList ++ placeholder 0) := by
  letI := asciiUni
  exact C66_exact.mp (by decide +kernel)

/-! ### C31, for passthroughs of all forms -/

theorem placeholderAt [LawfulUni] {i : Nat} (hi : i < 2 ^ 64) : PlaceholderAt (placeholder i) i := by
  refine ⟨decimal i, rfl, decimal_ne_nil i, ?_, numbered_iff.mpr (parseIndex_decimal hi).symm⟩
  intro c hc
  have hd := Nat.isDigit_of_mem_toDigits (b := 10) (by omega) (by omega) hc
  have hd' := isAsciiDigit_of_isDigit hd
  rw [LawfulUni.nd, hd']
  unfold isAsciiDigit at hd'
  simp only [Bool.and_eq_true, decide_eq_true_eq] at hd'
  have e6 : '9'.toNat = 57 := rfl
  omega

theorem restored_append [LawfulUni] {e : Env} {ps : List Passthrough} {u t out : Text} (hu : markStart ∉ u) (h : Restored e ps t out) :
    Restored e ps (u ++ t) (u ++ out) := by
  induction u with
  | nil => exact h
  | cons c u ih =>
    refine .miss ?_ (ih fun hm => hu (by simp [hm]))
    rintro piece behind n eq ⟨ds, rfl, _⟩
    have eq := (List.cons.inj eq).1
    exact hu (by simp [eq])

theorem restored_parts [LawfulUni] {e : Env} {ps : List Passthrough} {parts : List (Text × Nat)} {last : Text} {shown : Nat → Text}
    (hn : ps.length < 2 ^ 64) (hi : ∀ p ∈ parts, p.2 < ps.length) (hp : ∀ p ∈ parts, markStart ∉ p.1) (hl : markStart ∉ last)
    (hs : ∀ i p, ps[i]? = some p → ∃ x y, Substituted e p.subs none p.text x ∧ ShownAs e p x y ∧ Restored e ps y (shown i)) :
    Restored e ps (interleave (parts.map fun p => (p.1, placeholder p.2)) last)
      (interleave (parts.map fun p => (p.1, shown p.2)) last) := by
  induction parts with
  | nil => simpa [interleave] using restored_plain hl
  | cons p parts ih =>
    rw [List.map_cons, List.map_cons, interleave_cons, interleave_cons]
    refine restored_append (hp p (by simp)) ?_
    have hlt := hi p (by simp)
    have hg : ps[p.2]? = some ps[p.2] := List.getElem?_eq_getElem hlt
    obtain ⟨x, y, hx, hy, hr⟩ := hs p.2 _ hg
    exact .known (placeholderAt (by omega)) hg hx hy hr (ih (fun q hq => hi q (by simp [hq])) fun q hq => hp q (by simp [hq]))

/-- **Passthroughs of all forms survive substitution**: whatever the passthroughs are, and whatever the steps make of the text
between them, as long as the result still is text with placeholders, moved or repeated as may be, in the final result every
placeholder has become what its own passthrough is rendered as, and everything else is what the steps made of it. -/
theorem C31_all_forms [LawfulUni] (e : Env) (g : Group) (al : Option Attrlist) (hg : TakesOut g) {t u : Text} {ps : List Passthrough}
    (hx : Extracted t ps u) (hn : ps.length < 2 ^ 64) {shown : Nat → Text}
    (hs : ∀ i p, ps[i]? = some p → ∃ x y, Substituted e p.subs none p.text x ∧ ShownAs e p x y ∧ Restored e ps y (shown i))
    {parts : List (Text × Nat)} {last : Text}
    (hsteps : applySteps e al g.steps u = .ok (interleave (parts.map fun p => (p.1, placeholder p.2)) last))
    (hi : ∀ p ∈ parts, p.2 < ps.length) (hp : ∀ p ∈ parts, markStart ∉ p.1) (hl : markStart ∉ last) :
    ∃ f0, ∀ f ≥ f0, Group.apply f e g al t = .ok (interleave (parts.map fun p => (p.1, shown p.2)) last) := by
  refine substituted_complete ?_
  by_cases h0 : ps = []
  · subst h0
    have : parts = [] := by
      cases parts with
      | nil => rfl
      | cons p _ => exact absurd (hi p (by simp)) (by simp)
    subst this
    exact .none hg hx hsteps
  · exact .some hg hx h0 hsteps (restored_parts hn hi hp hl hs)

/-! ### Single marks in running text -/

omit [Uni] in
theorem longAt_word {u b : Text} {x : TakenOut} (h : LongAt u b x) :
    Occurs "++".toList u ∨ Occurs "$$".toList u ∨ Occurs "pass:".toList u := by
  have hm : ∀ {d body b : Text} (p : Text), Marked d body b →
      Occurs "++".toList (p ++ d ++ body ++ d) ∨ Occurs "$$".toList (p ++ d ++ body ++ d) ∨
        Occurs "pass:".toList (p ++ d ++ body ++ d) := by
    intro d body b p hd
    cases hd with
    | triple _ => exact .inl ⟨p, '+' :: (body ++ "+++".toList), by simp⟩
    | double _ _ => exact .inl ⟨p, body ++ "++".toList, by simp⟩
    | dollars _ => exact .inr (.inl ⟨p, body ++ "$$".toList, by simp⟩)
  cases h with
  | bare h => exact hm [] h
  | bareEscaped h _ => exact hm _ h
  | attrs _ h _ => exact hm _ h
  | attrsEscaped _ h => exact hm _ h
  | markEscaped _ _ h _ => exact hm _ h
  | pass _ _ => exact .inr (.inr ⟨[], _, by simp; rfl⟩)
  | passEscaped _ _ => exact .inr (.inr ⟨['\\'], _, by simp; rfl⟩)

theorem shortOut_prefix {u r out : Text} {ps : List Passthrough} {n : Nat} {pv : Option Char}
    (h1 : '[' ∉ u) (h2 : '\\' ∉ u) (h3 : '+' ∉ u) (h : ShortOut n (prevAfter pv u) r ps out) :
    ShortOut n pv (u ++ r) ps (u ++ out) := by
  induction u generalizing pv with
  | nil => exact h
  | cons c u ih =>
    refine .miss ?_ (ih (fun hm => h1 (by simp [hm])) (fun hm => h2 (by simp [hm])) (fun hm => h3 (by simp [hm])) ?_)
    · intro _ piece behind x e hx
      cases hx <;> (have e := (List.cons.inj e).1; subst e; simp at h1 h2 h3)
    · rw [show c :: u = [c] ++ u from rfl, ← prevAfter_append] at h
      exact h

omit [Uni] in
theorem first_at {c : Char} : ∀ {x y u w : Text}, x ++ c :: y = u ++ c :: w → c ∉ u →
    (x = u ∧ y = w) ∨ ∃ x', x = u ++ c :: x' ∧ x' ++ c :: y = w := by
  intro x
  induction x with
  | nil =>
    intro y u w e hu
    cases u with
    | nil => exact .inl ⟨rfl, by simpa using e⟩
    | cons d u => cases e; exact absurd (by simp) hu
  | cons d x ih =>
    intro y u w e hu
    cases u with
    | nil =>
      cases e
      exact .inr ⟨x, rfl, rfl⟩
    | cons d' u =>
      obtain ⟨rfl, e1⟩ : d = d' ∧ x ++ c :: y = u ++ c :: w := by simpa using e
      rcases ih e1 (fun hm => hu (by simp [hm])) with ⟨rfl, rfl⟩ | ⟨x', rfl, h⟩
      · exact .inl ⟨rfl, rfl⟩
      · exact .inr ⟨x', rfl, h⟩

omit [Uni] in
theorem no_double_plus {u body v : Text} (hu : '+' ∉ u) (hb : '+' ∉ body) (hv : '+' ∉ v) (hne : body ≠ []) :
    ¬ Occurs "++".toList (u ++ ('+' :: (body ++ '+' :: v))) := by
  rintro ⟨x, y, e⟩
  have e0 : x ++ '+' :: ('+' :: y) = u ++ '+' :: (body ++ '+' :: v) := by rw [e]; simp
  clear e
  rcases first_at e0 hu with ⟨rfl, e1⟩ | ⟨x', rfl, e1⟩
  · cases body with
    | nil => exact hne rfl
    | cons c body => exact hb (by rw [← (List.cons.inj e1).1]; simp)
  · rcases first_at e1 hb with ⟨rfl, e2⟩ | ⟨x'', rfl, e2⟩
    · exact hv (by rw [← e2]; simp)
    · exact hv (by rw [← e2]; simp)

/-- **Text between two plus signs**: in running text without anything to substitute, the marks go, and the text between them
stays as it is, with its special characters replaced.  It may be full of quotes, references and macros. -/
theorem C31_plus [LawfulUni] (e : Env) (al : Option Attrlist) (hb : ¬ HardBreaks e al)
    (hr : ∀ x, markStart ∉ e.r.special x) (g : Group) (hg : g.steps = normalSteps) {u body v : Text}
    (hu : NoPass u ∧ Inert u ∧ markStart ∉ u) (hv : NoPass v ∧ Inert v ∧ markStart ∉ v)
    (hbody : Solid body ∧ '+' ∉ body ∧ ¬ Occurs "$$".toList body ∧ ¬ Occurs "pass:".toList body ∧ markStart ∉ body)
    (hbefore : NotInWord u.getLast?) (hbefore' : u.getLast? ≠ some ':' ∧ u.getLast? ≠ some ';') (hbehind : WordEnds v) :
    ∃ f0, ∀ f ≥ f0, Group.apply f e g al (u ++ ('+' :: (body ++ '+' :: v))) = .ok (u ++ (specialsShown e.r body ++ v)) := by
  obtain ⟨⟨u1, u2, u3, u4, u5⟩, hui, hum⟩ := hu
  obtain ⟨⟨v1, v2, v3, v4, v5⟩, hvi, hvm⟩ := hv
  obtain ⟨b1, b2, b3, b4, b5⟩ := hbody
  have hlong : LongOut 0 (u ++ ('+' :: (body ++ '+' :: v))) [] (u ++ ('+' :: (body ++ '+' :: v))) := by
    refine longOut_none (fun a w b x eq hx => ?_) 0
    have up : ∀ {k : Text}, Occurs k w → Occurs k (u ++ ('+' :: (body ++ '+' :: v))) := by
      rintro k ⟨p, q, rfl⟩
      exact ⟨a ++ p, q ++ b, by rw [eq]; simp⟩
    rcases longAt_word hx with h | h | h
    · exact no_double_plus u3 b2 v3 (solid_ne b1) (up h)
    · rcases occurs_split (m := ['+']) (by simp) (by decide) (up h) with h | h
      · obtain ⟨p, q, e⟩ := h
        exact u4 (by rw [e]; simp)
      · rcases occurs_split (m := ['+']) (by simp) (by decide) h with h | h
        · exact b3 h
        · obtain ⟨p, q, e⟩ := h
          exact v4 (by rw [e]; simp)
    · rcases occurs_split (m := ['+']) (by simp) (by decide) (up h) with h | h
      · exact u5 h
      · rcases occurs_split (m := ['+']) (by simp) (by decide) h with h | h
        · exact b4 h
        · exact v5 h
  have hq : Quoted '+' body v := by
    refine ⟨b1, ⟨v, rfl, hbehind⟩, ?_⟩
    rintro b' r' eq hl hb' ⟨y, rfl, hy⟩
    have hn : '+' ∉ b' := by
      intro hm
      obtain ⟨p, q, rfl⟩ := List.append_of_mem hm
      have e2 : p ++ '+' :: (q ++ ('+' :: y)) = body ++ '+' :: v := by simpa using eq
      rcases first_at e2 b2 with ⟨rfl, _⟩ | ⟨x', rfl, _⟩
      · simp at hl; omega
      · simp at hl; omega
    have := until_inj b2 hn (show body ++ '+' :: v = b' ++ '+' :: y by simpa using eq.symm)
    rw [this] at hl
    omega
  have hshort : ShortOut 0 none (u ++ ('+' :: (body ++ '+' :: v))) [⟨body, .verbatim, none, none⟩] (u ++ (placeholder 0 ++ v)) := by
    refine shortOut_prefix u1 u2 u3 ?_
    have h0 : ShortOut 1 ('+' :: body ++ ['+']).getLast? v [] v := by
      have := shortOut_prefix (r := []) (out := []) (ps := []) (n := 1) (pv := ('+' :: body ++ ['+']).getLast?) v1 v2 v3 .done
      simpa using this
    have hpv : prevAfter none u = u.getLast? := by
      unfold prevAfter
      cases u.getLast? <;> rfl
    rw [hpv]
    have := ShortOut.hit (n := 0) (before := u.getLast?) hbefore ?_ (.bare hq) h0
    · have e2 : '+' :: body ++ ['+'] ++ v = '+' :: (body ++ '+' :: v) := by simp
      rw [e2] at this
      exact this
    · rintro (h | h | h)
      · exact u2 (List.mem_of_getLast? h)
      · exact hbefore'.1 h
      · exact hbefore'.2 h
  have hx : Extracted (u ++ ('+' :: (body ++ '+' :: v))) [⟨body, .verbatim, none, none⟩] (u ++ (placeholder 0 ++ v)) :=
    ⟨[], _, _, hlong, hshort, rfl⟩
  have hmarked : u ++ (placeholder 0 ++ v) = interleave (withPlaceholders 0 [u]) v := by simp [withPlaceholders, interleave]
  have hst : applySteps e al g.steps (u ++ (placeholder 0 ++ v)) = .ok (interleave ([(u, 0)].map fun p => (p.1, placeholder p.2)) v) := by
    rw [hg, hmarked]
    have := normalSteps_inert e al hb (inert_marked (us := [u]) (last := v) (by simpa using hui) hvi)
      (mem_marked v1 (by simpa using u1) (not_mem_placeholder (by decide) (by decide) (by decide)) 0)
      (mem_marked v3 (by simpa using u3) (not_mem_placeholder (by decide) (by decide) (by decide)) 0)
    rw [this]
    rfl
  have := C31_all_forms e g al (.inl (by rw [hg]; decide)) hx (by simp) (shown := fun _ => specialsShown e.r body)
    ?_ hst (by simp) (by simpa using hum) hvm
  · simpa [interleave] using this
  · intro i p hi
    obtain rfl : p = ⟨body, .verbatim, none, none⟩ := by
      cases i with
      | zero => simpa using hi.symm
      | succ i => simp at hi
    refine ⟨specialsShown e.r body, specialsShown e.r body, ?_, rfl, restored_plain (specialsShown_mem hr b5)⟩
    refine .plain (show ¬ TakesOut .verbatim by unfold TakesOut; decide) ?_
    show (applySpecialCharacters e.r body).bind (fun t' => .ok t') = _
    rw [applySpecialCharacters_eq]; rfl

/-- Non-vacuity. -/
example :
    letI := asciiUni
    Group.apply 3 htmlEnv .normal none "see +*x* <{y}> image:z[]+, please".toList =
      .ok "see *x* &lt;{y}&gt; image:z[], please".toList := by
  decide +kernel

/-! ### A finding -/

/-- **Nested passthroughs get each other's numbers**: the passthroughs within a passthrough that is itself substituted are
numbered from zero again, although it may still have placeholders with numbers of the text around it.  Here `b` is lost, and
`c` is shown in its place.  There are no placeholder characters in the text. -/
theorem C31_numbers_clash :
    letI := asciiUni
    Group.apply 12 htmlEnv .normal none "[x-]+a +++b+++ [x-]`c` d+".toList =
      .ok "<code>a <code>c</code> <code>c</code> d</code>".toList := by
  decide +kernel

end Adoc.Props
