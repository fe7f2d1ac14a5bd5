import Verif.Spec.Around
import Verif.Lemmas.LineEnds
import Verif.Lemmas.Includes
/-!
# Empty lines around a document
-/

namespace Adoc
open Span Spec Props

private theorem first_exists (t : Text) : ∃ l sep rest, FirstLine t l sep rest := by
  letI := asciiUni
  exact firstLine_exists t

/-! ### At the end -/

private theorem whole_mem {t : Text} (h : WholeLines t) (hne : t ≠ []) : '\n' ∈ t := by
  rcases h with rfl | ⟨a, rfl⟩
  · exact absurd rfl hne
  · simp

theorem first_further {t l sep rest : Text} (h : WholeLines t) (hne : t ≠ []) (hf : FirstLine t l sep rest) (post : Text) :
    FirstLine (t ++ post) l sep (rest ++ post) ∧ WholeLines rest ∧ LineEnd sep := by
  have hs : LineEnd sep := by
    rcases hf.term with e | e | ⟨rfl, e⟩
    · exact Or.inl e
    · exact Or.inr e
    · have hm := whole_mem h hne
      rw [hf.eq, List.append_nil] at hm
      rcases List.mem_append.mp hm with hm | hm
      · exact absurd hm hf.noNl
      · rcases e with rfl | rfl <;> simp at hm
  refine ⟨⟨by rw [hf.eq]; simp, hf.noNl, hs.elim Or.inl fun h => Or.inr (Or.inl h), hf.cr⟩, ?_, hs⟩
  rcases rest.eq_nil_or_concat with rfl | ⟨r, c, rfl⟩
  · exact Or.inl rfl
  · rcases h with rfl | ⟨a, e⟩
    · exact absurd rfl hne
    · rw [hf.eq, List.concat_eq_append, ← List.append_assoc] at e
      have := (List.cons.inj (List.append_inj' e rfl).2).1
      exact Or.inr ⟨r, by rw [this, List.concat_eq_append]⟩

theorem lines_further (post : Text) : ∀ {t : Text}, WholeLines t → lines (t ++ post) = lines t ++ lines post := by
  intro t
  induction hn : t.length using Nat.strongRecOn generalizing t with
  | _ n ih =>
    intro h
    by_cases hne : t = []
    · subst hne; rfl
    · obtain ⟨l, sep, rest, hf⟩ := first_exists t
      obtain ⟨g1, g2, g3⟩ := first_further h hne hf post
      rw [firstLine_lines hf hne, firstLine_lines g1 (by simp [hne]), ih rest.length ?_ rfl g2]
      · rfl
      · rw [← hn, hf.eq]
        have : 0 < sep.length := by rcases g3 with rfl | rfl <;> decide
        simp
        omega

theorem Spec.EmptyLines.lines {t : Text} (h : EmptyLines t) : ∀ l ∈ lines t, l = [] := by
  induction h with
  | nil => intro l hl; simp [Spec.lines, rawLines, splitChar] at hl
  | @cons sp e t h1 h2 _ ih =>
    have hf : FirstLine (sp ++ e ++ t) sp e t := lineEnd_first (fun hm => absurd (h1 _ hm) (by decide))
      (fun ⟨r, e⟩ => absurd (h1 '\r' (by rw [e]; simp)) (by decide)) h2
    rw [firstLine_lines hf (by rcases h2 with rfl | rfl <;> simp)]
    intro l hl
    rcases List.mem_cons.mp hl with rfl | hl
    · have := trimEndP_append_all (p := (· == ' ')) (t := []) (w := sp) (by simpa using h1)
      simpa [trimEndP] using this
    · exact ih l hl

theorem extent_further {t c sep rest : Text} (h : WholeLines t) (he : Extent t c sep rest) (hr : rest ≠ []) (post : Text) :
    Extent (t ++ post) c sep (rest ++ post) ∧ WholeLines rest := by
  induction he with
  | @last t l sep rest h1 h2 =>
    have hne : t ≠ [] := fun e => hr (by have := h1.eq; rw [e] at this; simpa using (List.append_eq_nil_iff.mp this.symm).2)
    obtain ⟨g1, g2, _⟩ := first_further h hne h1 post
    exact ⟨.last g1 (h2.imp id fun e => absurd e hr), g2⟩
  | @more t l sep rest c sep' rest' h1 h2 h3 _ ih =>
    have hne : t ≠ [] := fun e => h3 (by have := h1.eq; rw [e] at this; simpa using (List.append_eq_nil_iff.mp this.symm).2)
    obtain ⟨g1, g2, _⟩ := first_further h hne h1 post
    obtain ⟨k1, k2⟩ := ih g2 hr
    exact ⟨.more g1 h2 (by simp [h3]) k1, k2⟩

private theorem ne_of_first {t l sep rest : Text} (hf : FirstLine t l sep rest) (h : rest ≠ []) : t ≠ [] :=
  fun e => h (by have := hf.eq; rw [e] at this; simpa using (List.append_eq_nil_iff.mp this.symm).2)

theorem headLine_further {t l rest : Text} (h : WholeLines t) (hne : t ≠ []) (hl : HeadLine t l rest) (post : Text) :
    HeadLine (t ++ post) l (rest ++ post) ∧ WholeLines rest := by
  obtain ⟨l0, sep, h1, h2⟩ := hl
  obtain ⟨g1, g2, _⟩ := first_further h hne h1 post
  exact ⟨⟨l0, sep, g1, h2⟩, g2⟩

theorem headLine_back {t l r : Text} {post : Text} (h : WholeLines t) (hne : t ≠ []) (hl : HeadLine (t ++ post) l r) :
    ∃ r0, HeadLine t l r0 := by
  obtain ⟨l0, sep, h1, h2⟩ := hl
  obtain ⟨l1, s1, r1, hf⟩ := first_exists t
  obtain ⟨rfl, rfl, _⟩ := h1.det (first_further h hne hf post).1
  exact ⟨r1, _, _, hf, h2⟩

/-- An entry begins with a colon. -/
theorem entry_colon {t n rest : Text} {k : EntryKind} (h : HeaderEntry t n k rest) : t.head? = some ':' := by
  obtain ⟨c, sep, u, h1, ⟨s, h2, _⟩, h3⟩ := h
  have hu : u.head? = some ':' := by cases h3 <;> rfl
  have hc : c.head? = some ':' := by
    rw [h2]
    cases u with
    | nil => cases hu
    | cons => exact hu
  have : ∃ x, t = c ++ x := by
    clear h2 h3 hu hc
    induction h1 with
    | last h1 _ => exact ⟨_, by rw [h1.eq, List.append_assoc]⟩
    | more h1 _ _ _ ih => obtain ⟨x, e⟩ := ih; exact ⟨x, by rw [h1.eq, e]; simp⟩
  obtain ⟨x, rfl⟩ := this
  cases c with
  | nil => cases hc
  | cons => exact hc

private theorem head_append {t post : Text} (hne : t ≠ []) : (t ++ post).head? = t.head? := by
  cases t with
  | nil => exact absurd rfl hne
  | cons => rfl

/-- An author line or revision line stays one, unless it begins with a colon. -/
theorem headerReads_further {s s2 : Stage} {t rest : Text} {ls : List HLine} (hl : HeaderReads s t ls s2 rest) (h : WholeLines t)
    (hr : rest ≠ []) (hc : rest.head? ≠ some ':') (ha : ∀ l, (HLine.author l ∈ ls ∨ HLine.revision l ∈ ls) → l.head? ≠ some ':')
    (post : Text) : HeaderReads s (t ++ post) ls s2 (rest ++ post) ∧ WholeLines rest := by
  induction hl with
  | @stop s t h1 =>
    refine ⟨.stop fun _ l s' r hx => ?_, h⟩
    have noEntry : ∀ {t' : Text} n k r, t'.head? ≠ some ':' → ¬ HeaderEntry t' n k r := fun n k r h he => h (entry_colon he)
    have hc' : (t ++ post).head? ≠ some ':' := by rw [head_append hr]; exact hc
    cases hx with
    | blank h2 => obtain ⟨r0, h3⟩ := headLine_back h hr h2; exact h1 hr _ _ _ (.blank h3)
    | comment h2 h4 => obtain ⟨r0, h3⟩ := headLine_back h hr h2; exact h1 hr _ _ _ (.comment h3 h4)
    | entry h2 => exact noEntry _ _ _ hc' h2
    | title h2 h4 h5 => obtain ⟨r0, h3⟩ := headLine_back h hr h2; exact h1 hr _ _ _ (.title h3 h4 h5)
    | author h2 =>
      obtain ⟨r0, h3⟩ := headLine_back h hr h2.1
      exact h1 hr _ _ _ (.author ⟨h3, h2.2.1, h2.2.2.1, fun n k r => noEntry n k r hc⟩)
    | revision h2 =>
      obtain ⟨r0, h3⟩ := headLine_back h hr h2.1
      exact h1 hr _ _ _ (.revision ⟨h3, h2.2.1, h2.2.2.1, fun n k r => noEntry n k r hc⟩)
  | @line s t l s1 r ls s2 rest h1 h2 h3 ih =>
    have hrne : r ≠ [] := by
      rintro rfl
      have : rest = [] := by
        cases h3 with
        | stop _ => rfl
        | line h _ _ => exact absurd rfl h
      exact hr this
    have plain : ∀ {x : Text}, (x.head? ≠ some ':') → PlainLine t x r → PlainLine (t ++ post) x (r ++ post) ∧ WholeLines r := by
      intro x hx hp
      obtain ⟨g1, g2⟩ := headLine_further h h1 hp.1 post
      refine ⟨⟨g1, hp.2.1, hp.2.2.1, fun n k r he => ?_⟩, g2⟩
      obtain ⟨l0, sep, hf, sp, e, _⟩ := hp.1
      have := entry_colon he
      rw [head_append h1, hf.eq, e] at this
      cases x with
      | nil => exact hp.2.1 rfl
      | cons => exact hx this
    have key : HeaderLine s (t ++ post) l s1 (r ++ post) ∧ WholeLines r := by
      cases h2 with
      | blank h2 => obtain ⟨g1, g2⟩ := headLine_further h h1 h2 post; exact ⟨.blank g1, g2⟩
      | comment h2 h4 => obtain ⟨g1, g2⟩ := headLine_further h h1 h2 post; exact ⟨.comment g1 h4, g2⟩
      | entry h2 =>
        obtain ⟨c, sep, u, h4, h5, h6⟩ := h2
        obtain ⟨g1, g2⟩ := extent_further h h4 hrne post
        exact ⟨.entry ⟨c, sep, u, g1, h5, h6⟩, g2⟩
      | title h2 h4 h5 => obtain ⟨g1, g2⟩ := headLine_further h h1 h2 post; exact ⟨.title g1 h4 h5, g2⟩
      | author h2 => obtain ⟨g1, g2⟩ := plain (ha _ (Or.inl (by simp))) h2; exact ⟨.author g1, g2⟩
      | revision h2 => obtain ⟨g1, g2⟩ := plain (ha _ (Or.inr (by simp))) h2; exact ⟨.revision g1, g2⟩
    obtain ⟨g1, g2⟩ := ih key.2 hr hc fun l hl => ha l (hl.imp (List.mem_cons_of_mem _) (List.mem_cons_of_mem _))
    exact ⟨.line (by simp [h1]) key.1 g1, g2⟩

theorem skipEmpty_further {t u : Text} (hs : SkipEmpty t u) (h : WholeLines t) (hu : u ≠ []) (post : Text) :
    SkipEmpty (t ++ post) (u ++ post) ∧ WholeLines u := by
  induction hs with
  | @stop t h1 =>
    refine ⟨.stop fun l sep rest hf _ hb => ?_, h⟩
    obtain ⟨l1, s1, r1, hf1⟩ := first_exists t
    obtain ⟨rfl, rfl, _⟩ := hf.det (first_further h hu hf1 post).1
    exact h1 _ _ _ hf1 hu hb
  | skip h1 h2 h3 _ ih =>
    obtain ⟨g1, g2, _⟩ := first_further h h1 h2 post
    obtain ⟨k1, k2⟩ := ih g2 hu
    exact ⟨.skip (by simp [h1]) g1 h3 k1, k2⟩

theorem paragraph_more {b : Bool} {ls taken rest xs : List Text} (h : Paragraph b ls taken rest) (hx : ∀ l ∈ xs, l = []) :
    Paragraph b (ls ++ xs) taken (rest ++ xs) := by
  induction h with
  | @stop b ls h1 =>
    refine .stop fun l r e => ?_
    cases ls with
    | nil => exact Or.inl (hx l (by rw [List.nil_append] at e; rw [e]; simp))
    | cons a as => cases e; exact h1 _ _ rfl
  | comment h1 h2 _ ih => exact .comment h1 h2 ih
  | line h1 h2 h3 _ ih => exact .line h1 h2 h3 ih

private theorem takes_bare {R : Rendering} {as : Option (List ElemAttr)} {x : Token} {skips : Bool} {ls rest xs : List Text}
    (h : Takes R as x skips ls rest) (hx : ∀ l ∈ xs, l = []) (hb : ∀ label b, x ≠ .leaf (.labelled label b)) :
    Takes R as x skips (ls ++ xs) (rest ++ xs) ∧ (x.closed = false → skips = true) ∧ rest.length ≤ ls.length := by
  cases h with
  | para h1 h2 h3 h4 =>
    refine ⟨?_, fun _ => rfl, by simp; try omega⟩
    have := paragraph_more h2 hx
    rw [List.append_assoc] at this ⊢
    exact .para h1 this h3 h4
  | verbatim h1 h2 h3 h4 =>
    refine ⟨?_, (fun h => by cases h), by simp; try omega⟩
    simp only [List.cons_append, List.append_assoc]
    exact .verbatim h1 h2 h3 h4
  | brk h1 h2 => exact ⟨.brk h1 h2, fun _ => rfl, by simp⟩
  | media h1 h2 h3 h4 => exact ⟨.media h1 h2 h3 h4, fun _ => rfl, by simp⟩
  | container h1 h2 h3 h4 h5 =>
    refine ⟨?_, (fun h => by cases h), by simp; try omega⟩
    simp only [List.cons_append, List.append_assoc]
    exact .container h1 h2 h3 h4 h5
  | discrete h1 h2 h3 => exact ⟨.discrete h1 h2 h3, fun _ => rfl, by simp⟩
  | labelled _ _ _ _ _ => exact absurd rfl (hb _ _)
  | heading h1 h2 h3 =>
    refine ⟨?_, fun _ => rfl, by simp; try omega⟩
    rw [List.append_assoc]
    exact .heading h1 h2 h3

theorem takes_more {R : Rendering} {as : Option (List ElemAttr)} {x : Token} {skips : Bool} {ls rest xs : List Text}
    (h : Takes R as x skips ls rest) (hx : ∀ l ∈ xs, l = []) :
    Takes R as x skips (ls ++ xs) (rest ++ xs) ∧ (x.closed = false → skips = true) ∧ rest.length ≤ ls.length := by
  by_cases hb : ∀ label b, x ≠ .leaf (.labelled label b)
  · exact takes_bare h hx hb
  · cases h with
    | labelled h1 h2 h3 h4 h5 =>
      obtain ⟨g1, g2, g3⟩ := takes_bare h5 hx fun label b e => h3 label b (by cases e; rfl)
      refine ⟨?_, fun h => g2 (by simpa [Token.closed, Leaf.closed] using h), by simp; omega⟩
      rw [List.append_assoc]
      exact .labelled h1 h2 h3 h4 g1
    | _ => exact absurd (by rintro label b ⟨⟩) hb

/-- Empty lines may stand at the end, unless it is a delimiter line. -/
theorem layout_more {R : Rendering} {xs : List Text} (hx : ∀ l ∈ xs, l = []) : ∀ (n : Nat) {ls : List Text} {skips : Bool} {ps : List Token},
    ls.length + ps.length ≤ n → Layout R skips ps ls → (ps = [] → skips = true) → (∀ x, ps.getLast? = some x → x.closed = false) →
    Layout R skips ps (ls ++ xs) := by
  intro n
  have blank : ∀ l ∈ xs, ∀ c ∈ l, c = ' ' ∨ c = '\t' := fun l hl c hc => by rw [hx l hl] at hc; cases hc
  induction n with
  | zero =>
    intro ls skips ps hn h hs hl
    cases ps with
    | nil =>
      rw [hs rfl] at h ⊢
      cases h with
      | nil => exact .done (by simpa using blank)
      | done h => exact .done fun l hm => (List.mem_append.mp hm).elim (h l) (blank l)
    | cons => simp at hn
  | succ n ih =>
    intro ls skips ps hn h hs hl
    cases h with
    | nil => rw [hs rfl]; exact .done (by simpa using blank)
    | done h => exact .done fun l hm => (List.mem_append.mp hm).elim (h l) (blank l)
    | blank h1 h2 =>
      exact .blank h1 (ih (by simp at hn ⊢; omega) h2 hs hl)
    | @piece _ x ps skips' ls rest h1 h2 =>
      obtain ⟨g1, g2, g3⟩ := takes_more h1 hx
      refine .piece g1 (ih ?_ h2 ?_ ?_)
      · simp at hn
        omega
      · rintro rfl
        exact g2 (hl x rfl)
      · intro y hy
        refine hl y ?_
        cases ps with
        | nil => cases hy
        | cons a as => rw [List.getLast?_cons_cons]; exact hy

/-! ### At the beginning -/

theorem headerReads_front {pre t rest : Text} {ls : List HLine} {s2 : Stage} (hp : EmptyLines pre) (h : HeaderReads .start t ls s2 rest) :
    ∃ n, HeaderReads .start (pre ++ t) (List.replicate n .blank ++ ls) s2 rest := by
  induction hp with
  | nil => exact ⟨0, h⟩
  | @cons sp e u h1 h2 _ ih =>
    obtain ⟨n, hn⟩ := ih
    refine ⟨n + 1, ?_⟩
    rw [List.replicate_succ, List.cons_append, List.append_assoc]
    refine .line (by rcases h2 with rfl | rfl <;> simp) (.blank ⟨sp, e, ?_, sp, by simp, h1, ?_⟩) hn
    · exact lineEnd_first (fun hm => absurd (h1 _ hm) (by decide)) (fun ⟨r, e⟩ => absurd (h1 '\r' (by rw [e]; simp)) (by decide)) h2
    · rintro ⟨r, e⟩
      simp at e

variable [Uni]

theorem headerEffect_front {hdr : HeaderSubs} {r : Renderer} {s s' : AttrStore} {ls : List HLine} (h : HeaderEffect hdr r s ls s') :
    ∀ n, HeaderEffect hdr r s (List.replicate n .blank ++ ls) s'
  | 0 => h
  | n + 1 => .cons .blank (headerEffect_front h n)

theorem headerShows_front {hdr : HeaderSubs} {r : Renderer} {s : AttrStore} {ls : List HLine} {c : Contents} :
    ∀ n, HeaderShows hdr r s (List.replicate n .blank ++ ls) c → HeaderShows hdr r s ls c
  | 0, h => h
  | n + 1, h => by
    rw [List.replicate_succ, List.cons_append] at h
    cases h with
    | cons h1 h2 h3 =>
      cases h1
      cases h2
      exact headerShows_front n h3

omit [Uni] in
theorem split_front {p : Text} (hp : EmptyLines p) (t : Text) :
    ∀ l ∈ splitChar '\n' (p ++ t), l ∈ splitChar '\n' t ∨ ∀ c ∈ l, c = ' ' ∨ c = '\r' := by
  induction hp with
  | nil => exact fun l hl => Or.inl hl
  | @cons sp e u h1 h2 _ ih =>
    intro l hl
    have hn : '\n' ∉ sp := fun hm => absurd (h1 _ hm) (by decide)
    rcases h2 with rfl | rfl
    · rw [List.append_assoc, List.append_assoc, List.singleton_append, splitChar_append hn] at hl
      rcases List.mem_cons.mp hl with rfl | hl
      · exact Or.inr fun c hc => Or.inl (h1 c hc)
      · exact ih l hl
    · rw [show sp ++ ['\r', '\n'] ++ u ++ t = (sp ++ ['\r']) ++ '\n' :: (u ++ t) by simp, splitChar_append (by simp [hn])] at hl
      rcases List.mem_cons.mp hl with rfl | hl
      · refine Or.inr fun c hc => ?_
        rcases List.mem_append.mp hc with hc | hc
        · exact Or.inl (h1 c hc)
        · exact Or.inr (by simpa using hc)
      · exact ih l hl

omit [Uni] in
/-- The lines, as split at the line feeds. -/
theorem split_around {pre text post : Text} (h1 : EmptyLines pre) (h2 : EmptyLines post) (h : ∃ a, text = a ++ ['\n']) :
    ∀ l ∈ splitChar '\n' (pre ++ (text ++ post)), l ∈ splitChar '\n' text ∨ ∀ c ∈ l, c = ' ' ∨ c = '\r' := by
  obtain ⟨a, rfl⟩ := h
  intro l hl
  rcases split_front h1 _ l hl with hl | hl
  · rw [List.append_assoc, List.singleton_append, splitChar_mid] at hl
    rw [splitChar_mid]
    rcases List.mem_append.mp hl with hl | hl
    · exact Or.inl (List.mem_append_left _ hl)
    · have := split_front h2 [] l (by rw [List.append_nil]; exact hl)
      exact this.imp (List.mem_append_right _) id
  · exact Or.inr hl

end Adoc
