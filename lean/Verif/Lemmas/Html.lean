import Verif.Spec.Html
import Verif.Model.Renderer
/-!
# Reading the tags the HTML renderer writes
-/

namespace Adoc
open Spec

/-- Where a name ends the next character is not a lower-case letter. -/
def NoLetter (t : Text) : Prop := ∀ c ∈ t.head?, ¬ ('a' ≤ c ∧ c ≤ 'z')

theorem name_unique {n m s t : Text} (hn : ∀ c ∈ n, 'a' ≤ c ∧ c ≤ 'z') (hm : ∀ c ∈ m, 'a' ≤ c ∧ c ≤ 'z')
    (h : n ++ s = m ++ t) (hs : NoLetter s) (ht : NoLetter t) : n = m ∧ s = t := by
  induction n generalizing m with
  | nil =>
    cases m with
    | nil => exact ⟨rfl, h⟩
    | cons c m =>
      simp only [List.nil_append] at h
      subst h
      exact absurd (hm c (by simp)) (hs c (by simp))
  | cons a n ih =>
    cases m with
    | nil =>
      simp only [List.nil_append] at h
      subst h
      exact absurd (hn a (by simp)) (ht a (by simp))
    | cons b m =>
      simp only [List.cons_append, List.cons.injEq] at h
      have := ih (fun c hc => hn c (by simp [hc])) (fun c hc => hm c (by simp [hc])) h.2
      simp [h.1, this]

theorem value_unique {v w s t : Text} (hv : '"' ∉ v) (hw : '"' ∉ w) (h : v ++ '"' :: s = w ++ '"' :: t) :
    v = w ∧ s = t := by
  induction v generalizing w with
  | nil =>
    cases w with
    | nil => simpa using h
    | cons c w =>
      simp only [List.nil_append, List.cons_append, List.cons.injEq] at h
      exact absurd (List.mem_cons.2 (Or.inl h.1)) hw
  | cons a v ih =>
    cases w with
    | nil =>
      simp only [List.nil_append, List.cons_append, List.cons.injEq] at h
      exact absurd (List.mem_cons.2 (Or.inl h.1.symm)) hv
    | cons b w =>
      simp only [List.cons_append, List.cons.injEq] at h
      have := ih (fun hc => hv (by simp [hc])) (fun hc => hw (by simp [hc])) h.2
      simp [h.1, this]

theorem HtmlAttrs.noLetter {t : Text} {l rest} (h : HtmlAttrs t l rest) : NoLetter t := by
  cases h <;> simp only [NoLetter, List.cons_append, List.head?_cons, Option.mem_def, Option.some.injEq] <;>
    (intro c hc; subst hc; decide)

theorem noLetter_eq (t : Text) : NoLetter ('=' :: t) := by
  simp only [NoLetter, List.head?_cons, Option.mem_def, Option.some.injEq]
  intro c hc; subst hc; decide

/-- A start tag is read in one way. -/
theorem Spec.HtmlAttrs.det {t : Text} {l m r s} (h : HtmlAttrs t l r) (k : HtmlAttrs t m s) : l = m ∧ r = s := by
  induction h generalizing m with
  | close rest =>
    generalize ht : '>' :: rest = t at k
    cases k with
    | close => simp at ht; simp [ht]
    | bare => simp at ht
    | pair => simp at ht
  | @bare n t l rest hn h ih =>
    generalize ht : ' ' :: n ++ t = t' at k
    cases k with
    | close => simp at ht
    | bare hm k =>
      simp only [List.cons_append, List.cons.injEq, true_and] at ht
      have := name_unique hn.2 hm.2 ht (HtmlAttrs.noLetter h) (HtmlAttrs.noLetter k)
      obtain ⟨rfl, rfl⟩ := this
      simp [ih k]
    | pair hm _ k =>
      simp only [List.cons_append, List.append_assoc, List.cons.injEq, true_and] at ht
      have := (name_unique hn.2 hm.2 ht (HtmlAttrs.noLetter h) (noLetter_eq _)).2
      subst this
      generalize hq : '=' :: _ = x at h
      cases h <;> simp at hq
  | @pair n v t l rest hn hv h ih =>
    generalize ht : ' ' :: n ++ '=' :: '"' :: v ++ '"' :: t = t' at k
    cases k with
    | close => simp at ht
    | bare hm k =>
      simp only [List.cons_append, List.append_assoc, List.cons.injEq, true_and] at ht
      have := (name_unique hn.2 hm.2 ht (noLetter_eq _) (HtmlAttrs.noLetter k)).2
      subst this
      generalize hq : '=' :: _ = x at k
      cases k <;> simp at hq
    | pair hm hw k =>
      simp only [List.cons_append, List.append_assoc, List.cons.injEq, true_and] at ht
      have := name_unique hn.2 hm.2 ht (noLetter_eq _) (noLetter_eq _)
      obtain ⟨rfl, h2⟩ := this
      simp only [List.cons.injEq, true_and] at h2
      obtain ⟨rfl, rfl⟩ := value_unique hv hw h2
      simp [ih k]

theorem Spec.StartTag.det {t n m : Text} {k l r s} (h : StartTag t n k r) (g : StartTag t m l s) :
    n = m ∧ k = l ∧ r = s := by
  obtain ⟨hn, x, rfl, hx⟩ := h
  obtain ⟨hm, y, h, hy⟩ := g
  simp only [List.cons_append, List.cons.injEq, true_and] at h
  obtain ⟨rfl, rfl⟩ := name_unique hn.2 hm.2 h (HtmlAttrs.noLetter hx) (HtmlAttrs.noLetter hy)
  exact ⟨rfl, hx.det hy⟩

/-- The value of an attribute that is read has no quotation mark. -/
theorem Spec.HtmlAttrs.quoteFree {t : Text} {l r} (h : HtmlAttrs t l r) : ∀ n v, (n, some v) ∈ l → '"' ∉ v := by
  induction h with
  | close => simp
  | bare _ _ ih => intro n v hm; simp at hm; exact ih n v hm
  | @pair n v t l rest _ hv _ ih =>
    intro n' v' hm
    simp only [List.mem_cons, Prod.mk.injEq, Option.some.injEq] at hm
    rcases hm with ⟨_, rfl⟩ | hm
    · exact hv
    · exact ih n' v' hm

theorem htmlName_of (n : Text) (h : (n != [] && n.all fun c => decide ('a' ≤ c) && decide (c ≤ 'z')) = true) :
    HtmlName n := by
  simp only [Bool.and_eq_true, bne_iff_ne, ne_eq, List.all_eq_true, decide_eq_true_eq] at h
  exact h

/-- An attribute in front of attributes. -/
theorem attrs_pair (n : String) {v t : Text} {l rest}
    (hn : (n.toList != [] && n.toList.all fun c => decide ('a' ≤ c) && decide (c ≤ 'z')) = true) (hv : '"' ∉ v)
    (h : HtmlAttrs t l rest) :
    HtmlAttrs (' ' :: (n.toList ++ ("=\"".toList ++ v ++ ['"'])) ++ t) ((n.toList, some v) :: l) rest := by
  have := HtmlAttrs.pair (htmlName_of _ hn) hv h
  simpa using this

/-- The same, for the text the attribute starts with. -/
theorem attrs_open (p n : Text) {v t : Text} {l rest}
    (hn : (n != [] && n.all fun c => decide ('a' ≤ c) && decide (c ≤ 'z')) = true)
    (hp : p = ' ' :: (n ++ ['=', '"'])) (hv : '"' ∉ v) (h : HtmlAttrs t l rest) :
    HtmlAttrs (p ++ (v ++ ('"' :: t))) ((n, some v) :: l) rest := by
  have := HtmlAttrs.pair (htmlName_of _ hn) hv h
  rw [hp]
  simpa using this

/-- Attributes one after the other. -/
theorem attrs_list (l : List (String × Text))
    (hn : ∀ p ∈ l, (p.1.toList != [] && p.1.toList.all fun c => decide ('a' ≤ c) && decide (c ≤ 'z')) = true)
    (hv : ∀ p ∈ l, '"' ∉ p.2) {t k rest} (h : HtmlAttrs t k rest) :
    HtmlAttrs (l.flatMap (fun p => ' ' :: Html.attrText p.1 p.2) ++ t)
      (l.map (fun p => (p.1.toList, some p.2)) ++ k) rest := by
  induction l with
  | nil => exact h
  | cons p l ih =>
    have := attrs_pair p.1 (hn p (by simp)) (hv p (by simp))
      (ih (fun q hq => hn q (by simp [hq])) (fun q hq => hv q (by simp [hq])))
    simp only [List.flatMap_cons, List.map_cons, Html.attrText, List.append_assoc, List.cons_append] at this ⊢
    exact this

theorem joinWith_blank (t : Text) (l : List Text) :
    ' ' :: joinWith [' '] (t :: l) = (t :: l).flatMap (fun x => ' ' :: x) := by
  induction l generalizing t with
  | nil => simp [joinWith]
  | cons u l ih =>
    have := ih u
    rw [List.flatMap_cons, ← this]
    simp [joinWith]

theorem mem_joinWith {c : Char} {sep : Text} (hc : c ∉ sep) (l : List Text) : c ∈ joinWith sep l ↔ ∃ t ∈ l, c ∈ t := by
  match l with
  | [] => simp [joinWith]
  | [t] => simp [joinWith]
  | t :: u :: l =>
    have := mem_joinWith hc (u :: l)
    simp only [joinWith, List.mem_append, hc, or_false, this]
    simp

theorem encode_cons (c : Char) (t : Text) : Html.encodeAttributeValue (c :: t) =
    (if c = '"' then "&quot;".toList else [c]) ++ Html.encodeAttributeValue t := rfl

theorem prefix_of_encode (w t : Text) (hw : '&' ∉ w) (h : w.isPrefixOf (Html.encodeAttributeValue t) = true) :
    w.isPrefixOf t = true := by
  induction w generalizing t with
  | nil => rfl
  | cons a w ih =>
    cases t with
    | nil => exact h
    | cons d t =>
      rw [encode_cons] at h
      split at h
      · change ((a == '&') && _) = true at h
        simp only [Bool.and_eq_true, beq_iff_eq] at h
        exact absurd (by simp [h.1]) hw
      · simp only [List.cons_append, List.nil_append, List.isPrefixOf, Bool.and_eq_true, beq_iff_eq] at h ⊢
        exact ⟨h.1, ih t (fun hm => hw (by simp [hm])) h.2⟩

theorem unescape_encode (t : Text) (h : containsSub t "&quot;".toList = false) :
    replaceStr (Html.encodeAttributeValue t) "&quot;".toList ['"'] = t := by
  unfold replaceStr
  induction t with
  | nil => rfl
  | cons c t ih =>
    simp only [containsSub, Bool.or_eq_false_iff] at h
    have ih := ih h.2
    rw [encode_cons]
    split
    · rename_i hc
      subst hc
      have : ∀ x : Text, replaceStrGo "&quot;".toList ['"'] 0 ("&quot;".toList ++ x) =
          '"' :: replaceStrGo "&quot;".toList ['"'] 0 x := by
        intro x
        have : "&quot;".toList = ['&', 'q', 'u', 'o', 't', ';'] := rfl
        simp [this, replaceStrGo]
      rw [this, ih]
    · rw [List.cons_append, List.nil_append, replaceStrGo, if_neg, ih]
      intro hp
      have : "&quot;".toList = '&' :: "quot;".toList := rfl
      rw [this] at hp h
      simp only [List.isPrefixOf, Bool.and_eq_true, beq_iff_eq] at hp
      have := prefix_of_encode "quot;".toList t (by decide) hp.2
      have h := h.1
      simp only [List.isPrefixOf, hp.1, this] at h
      simp at h

theorem not_mem_replaceChar {c : Char} {w t : Text} (hc : c ∉ w) : c ∉ replaceChar c w t := by
  simp only [replaceChar, List.mem_flatMap, not_exists, not_and]
  intro d _
  split
  · exact hc
  · rename_i h; simp; exact fun h' => h h'.symm

end Adoc
