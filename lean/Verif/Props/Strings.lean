import Verif.Model.Macros
import Verif.Model.Strings
import Verif.Spec.Uri
/-!
# C38, C39: URI components and string representations
-/

namespace Adoc.Props
open Adoc Adoc.Spec

/-! ### UTF-8 -/

theorem bytesOf_utf8 (t : Text) : (bytesOf t).toByteArray = t.utf8Encode := rfl

theorem fromUtf8_bytesOf (t : Text) : fromUtf8 (bytesOf t) = some t := by
  unfold fromUtf8
  rw [bytesOf_utf8, List.utf8Decode?_utf8Encode]
  simp

theorem bytesOf_inj {a b : Text} (h : bytesOf a = bytesOf b) : a = b := by
  have := fromUtf8_bytesOf a
  rw [h, fromUtf8_bytesOf b] at this
  simpa using this.symm

theorem bytesOf_length : ∀ t : Text, (bytesOf t).length = blen t
  | [] => rfl
  | c :: t => by
    have := bytesOf_length t
    simp only [bytesOf, List.flatMap_cons, List.length_append, String.length_utf8EncodeChar, blen] at this ⊢
    omega

/-! ### C39 -/

theorem take_fill {b : List UInt8} : (InlineStr.fill b).take b.length = b := by
  simp [InlineStr.fill]

/-- An inline string stores exactly the text it was built from. -/
theorem C39_inline_exact {t : Text} {s : InlineStr} (h : InlineStr.tryFrom t = some s) :
    s.deref = t ∧ s.inner.length = 22 ∧ s.len.toNat = blen t := by
  unfold InlineStr.tryFrom at h
  by_cases hl : blen t ≤ maxInlineStrLen
  · rw [if_pos hl, Option.some.injEq] at h
    subst h
    have hl' : blen t ≤ 22 := hl
    have e : (UInt8.ofNat (blen t)).toNat = blen t := by
      rw [UInt8.toNat_ofNat']; omega
    refine ⟨?_, ?_, e⟩
    · show (fromUtf8 ((InlineStr.fill (bytesOf t)).take (UInt8.ofNat (blen t)).toNat)).getD [] = t
      rw [e, ← bytesOf_length, take_fill, fromUtf8_bytesOf]; rfl
    · show (InlineStr.fill (bytesOf t)).length = 22
      unfold InlineStr.fill
      rw [List.length_append, List.length_replicate, bytesOf_length]
      show blen t + (22 - blen t) = 22
      omega
  · rw [if_neg hl] at h; cases h

/-- Construction fails exactly when the text is longer than 22 bytes. -/
theorem C39_inline_fits (t : Text) : InlineStr.tryFrom t = none ↔ 22 < (bytesOf t).length := by
  unfold InlineStr.tryFrom
  rw [bytesOf_length]
  have : maxInlineStrLen = 22 := rfl
  split <;> simp <;> omega

/-- An inline string built from a character is that character. -/
theorem C39_inline_char (c : Char) : (InlineStr.ofChar c).deref = [c] := by
  have hs : c.utf8Size ≤ 4 := c.utf8Size_le_four
  have e : (UInt8.ofNat c.utf8Size).toNat = c.utf8Size := by
    rw [UInt8.toNat_ofNat']; omega
  have hb : String.utf8EncodeChar c = bytesOf [c] := by simp [bytesOf]
  show (fromUtf8 ((InlineStr.fill (String.utf8EncodeChar c)).take (UInt8.ofNat c.utf8Size).toNat)).getD [] = [c]
  rw [e, ← String.length_utf8EncodeChar, take_fill, hb, fromUtf8_bytesOf]; rfl

example : InlineStr.tryFrom "héllo".toList ≠ none ∧ InlineStr.tryFrom "0123456789abcdefghijklm".toList = none := by decide +kernel

/-- All ways of making a string give the text put in, and cloning, boxing and converting keep it. -/
theorem C39_same_text (t : Text) (c : Char) (s : CowStr) :
    (CowStr.ofStr t).deref = t ∧ (CowStr.ofString t).deref = t ∧ (CowStr.ofChar c).deref = [c] ∧
    s.clone.deref = s.deref ∧ s.intoString = s.deref ∧ (CowStr.ofCow s.toCow).deref = s.deref := by
  refine ⟨rfl, rfl, C39_inline_char c, ?_, ?_, ?_⟩
  · cases s with
    | boxed t =>
      simp only [CowStr.clone]
      cases h : InlineStr.tryFrom t with
      | none => rfl
      | some i => exact (C39_inline_exact h).1
    | borrowed t => rfl
    | inlined i => rfl
  · cases s <;> rfl
  · cases s <;> rfl

/-- Equality and hashing depend only on the text, whatever the representation; equality is equality of texts. -/
theorem C39_eq_hash {H : Type} (hash : Text → H) (a b : CowStr) :
    (a.eq b = true ↔ a.deref = b.deref) ∧ (a.eq b = true → a.hash hash = b.hash hash) ∧ a.clone.eq a = true := by
  have h1 : a.eq b = true ↔ a.deref = b.deref := by simp [CowStr.eq]
  refine ⟨h1, fun h => by unfold CowStr.hash; rw [h1.mp h], ?_⟩
  simp [CowStr.eq, (C39_same_text [] 'a' a).2.2.2.1]

/-- The three representations of one text are equal. -/
example (i : InlineStr) (h : InlineStr.tryFrom ['a', 'b'] = some i) :
    (CowStr.boxed ['a', 'b']).eq (.inlined i) = true ∧ (CowStr.inlined i).eq (.borrowed ['a', 'b']) = true := by
  simp [CowStr.eq, CowStr.deref, (C39_inline_exact h).1]

/-! ### C38 -/

theorem uriKeep_plain (c : Char) (h : uriKeep c = true) : Plain c ∧ c.toNat < 128 := by
  have hlt : c.toNat < 127 := by
    unfold uriKeep at h
    simp only [Bool.and_eq_true, decide_eq_true_eq] at h
    exact h.1.2
  have key : ∀ n : Fin 127, uriKeep (Char.ofNat n.val) = true → Plain (Char.ofNat n.val) := by decide +kernel
  have := key ⟨c.toNat, hlt⟩
  rw [Char.ofNat_toNat] at this
  exact ⟨this h, by omega⟩

theorem utf8_ascii (c : Char) (h : c.toNat < 128) : String.utf8EncodeChar c = [UInt8.ofNat c.toNat] := by
  have key : ∀ n : Fin 128, String.utf8EncodeChar (Char.ofNat n.val) = [UInt8.ofNat (Char.ofNat n.val).toNat] := by decide +kernel
  have := key ⟨c.toNat, h⟩
  rw [Char.ofNat_toNat] at this
  exact this

theorem hexValue_hexDigit {n : Nat} (h : n < 16) : hexValue (hexDigit n) = some n := by
  have key : ∀ n : Fin 16, hexValue (hexDigit n.val) = some n.val := by decide
  exact key ⟨n, h⟩

theorem pct_append {a b : Text} {x y : List UInt8} (ha : PctText a x) (hb : PctText b y) : PctText (a ++ b) (x ++ y) := by
  induction ha with
  | nil => exact hb
  | plain h _ ih => exact .plain h ih
  | escape h1 h2 _ ih => exact .escape h1 h2 ih

theorem pct_bytes : ∀ b : List UInt8, PctText (b.flatMap pctByte) b
  | [] => .nil
  | x :: b => by
    have h : UInt8.ofNat (16 * (x.toNat / 16) + x.toNat % 16) = x := by
      rw [Nat.div_add_mod]; exact UInt8.ofNat_toNat
    have := PctText.escape (hexValue_hexDigit (n := x.toNat / 16) (by have := x.toNat_lt; omega))
      (hexValue_hexDigit (n := x.toNat % 16) (by omega)) (pct_bytes b)
    rw [h] at this
    exact this

theorem pct_encode : ∀ t : Text, PctText (percentEncode t) (bytesOf t)
  | [] => .nil
  | c :: t => by
    rw [percentEncode, bytesOf, List.flatMap_cons, List.flatMap_cons]
    refine pct_append ?_ (pct_encode t)
    split
    · rename_i h
      obtain ⟨h1, h2⟩ := uriKeep_plain c h
      rw [utf8_ascii c h2]
      exact .plain h1 .nil
    · exact pct_bytes _

theorem pct_no_plus {t : Text} {b : List UInt8} (h : PctText t b) : '+' ∉ t := by
  induction h with
  | nil => simp
  | @plain c t b h _ ih =>
    rw [List.mem_cons, not_or]
    refine ⟨?_, ih⟩
    rintro rfl; revert h; decide
  | @escape x y i j t b h1 h2 _ ih =>
    simp only [List.mem_cons, not_or]
    refine ⟨by decide, ?_, ?_, ih⟩
    · rintro rfl; rw [show hexValue '+' = none from by decide] at h1; cases h1
    · rintro rfl; rw [show hexValue '+' = none from by decide] at h2; cases h2

/-- Replacing `%20` by `+` and back changes nothing in a text without `+`. -/
theorem plus_back : ∀ (n : Nat) (t : Text), t.length ≤ n → '+' ∉ t →
    replaceChar '+' ['%', '2', '0'] (replaceStrGo ['%', '2', '0'] ['+'] 0 t) = t
  | _, [], _, _ => rfl
  | 0, _ :: _, h, _ => by simp at h
  | n + 1, c :: t, hn, hp => by
    rw [List.mem_cons, not_or] at hp
    rw [replaceStrGo]
    split
    · rename_i h
      obtain ⟨r, e⟩ := List.isPrefixOf_iff_prefix.mp h
      simp only [List.cons_append, List.nil_append, List.cons.injEq] at e
      obtain ⟨rfl, rfl⟩ := e
      have e2 : replaceStrGo ['%', '2', '0'] ['+'] ((['%', '2', '0'] : Text).length - 1) ('2' :: '0' :: r) =
          replaceStrGo ['%', '2', '0'] ['+'] 0 r := rfl
      rw [e2]
      have := plus_back n r (by simp at hn; omega) (fun h => hp.2 (by simp [h]))
      unfold replaceChar at this ⊢
      rw [List.flatMap_append, this]
      rfl
    · have := plus_back n t (by simp at hn; omega) hp.2
      unfold replaceChar at this ⊢
      rw [List.flatMap_cons, this, if_neg (Ne.symm hp.1)]
      rfl

theorem encode_eq (t : Text) : encodeUriComponent t = percentEncode t := by
  unfold encodeUriComponent replaceStr
  exact plus_back _ _ (Nat.le_refl _) (pct_no_plus (pct_encode t))

/-- The encoding of a text consists of plain characters and escapes, and stands for exactly the UTF-8 bytes of the text. -/
theorem C38_safe (t : Text) : PctText (encodeUriComponent t) (bytesOf t) := by
  rw [encode_eq]; exact pct_encode t

theorem pct_det {t : Text} {a b : List UInt8} (h : PctText t a) (h' : PctText t b) : a = b := by
  induction h generalizing b with
  | nil => cases h'; rfl
  | @plain c t a hc _ ih =>
    cases h' with
    | plain _ h2 => rw [ih h2]
    | escape _ _ _ => exact absurd hc (by decide)
  | @escape x y i j t a h1 h2 _ ih =>
    cases h' with
    | plain hc _ => exact absurd hc (by decide)
    | escape h3 h4 h5 =>
      rw [h1] at h3; rw [h2] at h4
      cases h3; cases h4
      rw [ih h5]

/-- Distinct texts have distinct encodings: the text can be recovered. -/
theorem C38_injective {a b : Text} (h : encodeUriComponent a = encodeUriComponent b) : a = b := by
  have h1 := C38_safe a
  rw [h] at h1
  exact bytesOf_inj (pct_det h1 (C38_safe b))

example : encodeUriComponent "a b+é/100%".toList = "a%20b%2B%C3%A9%2F100%25".toList := by decide +kernel

end Adoc.Props
