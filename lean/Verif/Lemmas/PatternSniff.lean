import Verif.Lemmas.Pattern
import Verif.Lemmas.RegexRel
import Verif.Lemmas.Search
import Verif.Lemmas.Attrlist
import Verif.Spec.Path
/-!
# What the path resolver takes for an address
-/

namespace Adoc
open Re Pattern Spec
variable [Uni]

/-- `URI_SNIFF` of the path resolver, written as an expression. -/
def pathSniffRe : Re :=
  cat [.bot, .cls Uni.isAlphabetic, plus (.cls Path.schemeChar), chr ':', upTo (chr '/') 2]

theorem m_upToSlashes (u : RS) : m (upTo (chr '/') 2) some u = some (match u with
    | ⟨_, '/' :: '/' :: r, cs⟩ => ⟨some '/', r, cs⟩
    | ⟨_, '/' :: r, cs⟩ => ⟨some '/', r, cs⟩
    | u => u) := by
  obtain ⟨pv, t, cs⟩ := u
  match t with
  | [] => simp [upTo, opt, m, chr]
  | [a] =>
    by_cases h : a = '/'
    · subst h; simp [upTo, opt, m, chr]
    · simp [upTo, opt, m, chr, h]
  | a :: b :: r =>
    by_cases h : a = '/'
    · subst h
      by_cases h : b = '/'
      · subst h; simp [upTo, opt, m, chr]
      · simp [upTo, opt, m, chr, h]
    · simp [upTo, opt, m, chr, h]

omit [Uni] in
theorem drop_prefLen (p : Char → Bool) (t : Text) : t.drop (Span.prefLen p t) = t.dropWhile p := by
  induction t with
  | nil => rfl
  | cons c t ih =>
    by_cases h : p c = true
    · simp [Span.prefLen, h, ih]
    · simp [Span.prefLen, h]

omit [Uni] in
theorem length_dropWhile_prefLen (p : Char → Bool) (t : Text) : Span.prefLen p t + (t.dropWhile p).length = t.length := by
  induction t with
  | nil => rfl
  | cons c t ih =>
    by_cases h : p c = true
    · simp [Span.prefLen, h]; omega
    · simp [Span.prefLen, h]

theorem captures_pathSniff [LawfulUni] (t : Text) :
    captures pathSniffRe t = (Path.uriSniff t).map fun n => ⟨t.take n, []⟩ := by
  have hcolon : Path.schemeChar ':' = false := by
    simp only [Path.schemeChar, LawfulUni.alpha ':' (by decide), LawfulUni.num ':' (by decide)]
    decide
  have e : pathSniffRe =
      .seq .bot (cat [.cls Uni.isAlphabetic, plus (.cls Path.schemeChar), chr ':', upTo (chr '/') 2]) := rfl
  unfold captures
  rw [e, search_bot, Option.map_map]
  unfold matchAt
  rw [Option.map_map]
  have hb : ∀ u : Text, m (.seq .bot (cat [.cls Uni.isAlphabetic, plus (.cls Path.schemeChar), chr ':', upTo (chr '/') 2])) some
      ⟨none, u, []⟩ = m (cat [.cls Uni.isAlphabetic, plus (.cls Path.schemeChar), chr ':', upTo (chr '/') 2]) some ⟨none, u, []⟩ := by
    intro u; rw [m_seq]; simp [m]
  rw [hb]
  cases t with
  | nil => simp [cat, m, Path.uriSniff]
  | cons c cs =>
    simp only [cat, m_seq, plus]
    rw [m_cls_cons]
    by_cases hc : Uni.isAlphabetic c = true
    · rw [if_pos hc]
      simp only [Path.uriSniff, hc, if_true]
      cases cs with
      | nil => rw [m_seq, m_seq, m_cls_nil]; simp [Span.prefLen]
      | cons d ds =>
        rw [m_seq, m_seq, m_cls_cons]
        by_cases hd : Path.schemeChar d = true
        · rw [if_pos hd, m_star_cls_det]
          · have hn : Span.prefLen Path.schemeChar (d :: ds) = Span.prefLen Path.schemeChar ds + 1 := by simp [Span.prefLen, hd]
            have hl := length_dropWhile_prefLen Path.schemeChar ds
            rw [hn, if_neg (by omega), List.drop_succ_cons, drop_prefLen]
            generalize Span.prefLen Path.schemeChar ds = n at hl ⊢
            generalize ds.dropWhile Path.schemeChar = u at hl ⊢
            match u, hl with
            | [], hl => rw [m_seq, m_chr_nil]; simp
            | x :: r, hl =>
              rw [m_seq, m_chr]
              by_cases hx : x = ':'
              · subst hx
                rw [if_pos rfl, m_upToSlashes]
                have hk : ∀ a b : Nat, a = b → some (Match.mk (List.take a (c :: d :: ds)) []) =
                    some (Match.mk (List.take b (c :: d :: ds)) []) := fun a b h => by rw [h]
                match r, hl with
                | [], hl => refine hk _ _ ?_; simp only [List.length_cons] at hl ⊢; omega
                | [a], hl =>
                  by_cases ha : a = '/'
                  · subst ha; refine hk _ _ ?_; simp only [List.length_cons] at hl ⊢; omega
                  · split <;> (try (exfalso; simp_all; done)) <;> split <;> (try (exfalso; simp_all; done)) <;>
                      (refine hk _ _ ?_; simp_all only [RS.mk.injEq, List.cons.injEq, List.length_cons, List.length_nil]; omega)
                | a :: b :: r, hl =>
                  by_cases ha : a = '/'
                  · subst ha
                    by_cases hb : b = '/'
                    · subst hb; refine hk _ _ ?_; simp only [List.length_cons] at hl ⊢; omega
                    · split
                      · rename_i h; cases h; exact absurd rfl hb
                      · rename_i h; cases h
                        split
                        · rename_i h; cases h; exact absurd rfl hb
                        · refine hk _ _ ?_; simp only [List.length_cons] at hl ⊢; omega
                        · rename_i hno h; cases h; exact (hno _ rfl).elim
                        · exfalso; simp_all
                      · rename_i hno; exact absurd rfl (hno _ _ _)
                  · split <;> (try (exfalso; simp_all; done)) <;> split <;> (try (exfalso; simp_all; done)) <;>
                      (refine hk _ _ ?_; simp_all only [RS.mk.injEq, List.cons.injEq, List.length_cons, List.length_nil]; omega)
              · rw [if_neg hx]
                simp [hx]
          · intro pv x xs caps hx
            rw [m_seq, m_chr]
            exact if_neg (by rintro rfl; rw [hcolon] at hx; cases hx)
        · rw [if_neg hd]
          simp [Span.prefLen, hd]
    · simp [hc, Path.uriSniff]

end Adoc
