import Verif.Spec.Comments
import Verif.Lemmas.Around
import Verif.Lemmas.Kinds
/-!
# Comment lines in a document
-/

namespace Adoc
open Span Spec Props

section

variable {S : Text → Prop}

/-! ### In paragraphs -/

theorem comment_ends {l : Text} (h : CommentLine l) : ¬ EndsParagraph l := by
  obtain ⟨r, rfl, h⟩ := h
  rintro (e | ⟨a, e⟩ | ⟨c, hc, n, e⟩ | (e | ⟨c, n, hc, e⟩))
  · cases e
  · cases e
  · simp only [List.replicate_succ] at e
    obtain ⟨rfl, e⟩ := List.cons.inj e
    obtain ⟨_, rfl⟩ := List.cons.inj e
    simp at h
  · cases e
  · rw [List.replicate_succ] at e
    obtain ⟨rfl, _⟩ := List.cons.inj e
    rcases hc with hc | hc | hc <;> cases hc

theorem remarked_same {ls ls' : List Text} (h : Remarked S ls ls') (hb : ∀ l ∈ ls, ¬ (S l ∧ ParagraphLine l)) : ls' = ls := by
  induction h with
  | nil => rfl
  | @cons l cs ls ls' h1 _ _ ih =>
    have hc : cs = [] := Classical.byContradiction fun hne => hb l (by simp) (h1 hne)
    rw [hc, ih fun x hx => hb x (List.mem_cons_of_mem _ hx)]
    rfl

theorem remarked_split {a : List Text} : ∀ {b x : List Text}, Remarked S (a ++ b) x →
    ∃ a' b', x = a' ++ b' ∧ Remarked S a a' ∧ Remarked S b b' := by
  induction a with
  | nil => exact fun h => ⟨[], _, rfl, .nil, h⟩
  | cons l a ih =>
    intro b x h
    cases h with
    | @cons _ cs _ ls' h1 h2 h3 =>
      obtain ⟨a', b', rfl, h4, h5⟩ := ih h3
      exact ⟨l :: (cs ++ a'), b', by simp, .cons h1 h2 h4, h5⟩

theorem remarked_one {l : Text} {ls x : List Text} (h : Remarked S (l :: ls) x) (hl : ¬ (S l ∧ ParagraphLine l)) :
    ∃ ls', x = l :: ls' ∧ Remarked S ls ls' := by
  cases h with
  | @cons _ cs _ ls' h1 h2 h3 =>
    have hc : cs = [] := Classical.byContradiction fun hne => hl (h1 hne)
    exact ⟨ls', by rw [hc]; rfl, h3⟩

theorem remarked_mem {ls ls' : List Text} (h : Remarked S ls ls') {l : Text} (hl : l ∈ ls') : l ∈ ls ∨ CommentLine l := by
  induction h with
  | nil => cases hl
  | cons _ h2 _ ih =>
    rcases List.mem_cons.mp hl with rfl | hl
    · exact Or.inl (by simp)
    · rcases List.mem_append.mp hl with hl | hl
      · exact Or.inr (h2 l hl)
      · exact (ih hl).imp (List.mem_cons_of_mem _) id

private theorem paragraph_comments {b : Bool} {y t r : List Text} (h : Paragraph b y t r) : ∀ {cs : List Text},
    (∀ c ∈ cs, CommentLine c) → Paragraph b (cs ++ y) (cs ++ t) r := by
  intro cs hc
  induction cs with
  | nil => exact h
  | cons c cs ih =>
    exact .comment (hc c (by simp)) (fun e => comment_ends (hc c (by simp)) e.2) (ih fun x hx => hc x (List.mem_cons_of_mem _ hx))

theorem paragraph_remarked {b : Bool} {x taken rest : List Text} (h : Paragraph b x taken rest) : ∀ {taken' rest' : List Text},
    Remarked S taken taken' → Remarked S rest rest' → Paragraph b (taken' ++ rest') taken' rest' := by
  induction h with
  | @stop b ls h1 =>
    intro t' r' ht hr
    cases ht
    refine .stop fun l r e => ?_
    cases hr with
    | nil => cases e
    | cons _ _ _ => cases e; exact h1 _ _ rfl
  | comment h1 h2 _ ih =>
    intro t' r' ht hr
    cases ht with
    | cons _ h4 h5 =>
      have := paragraph_comments (ih h5 hr) h4
      rw [List.cons_append, List.append_assoc]
      exact .comment h1 h2 this
  | line h1 h2 h3 _ ih =>
    intro t' r' ht hr
    cases ht with
    | cons _ h4 h5 =>
      have := paragraph_comments (ih h5 hr) h4
      rw [List.cons_append, List.append_assoc]
      exact .line h1 h2 h3 this

private theorem text_comments {n : Nat} {t x : List Text} (h : ParagraphText n t x) : ∀ {cs : List Text},
    (∀ c ∈ cs, CommentLine c) → ParagraphText n (cs ++ t) x := by
  intro cs hc
  induction cs with
  | nil => exact h
  | cons c cs ih => exact .comment (hc c (by simp)) (ih fun x hx => hc x (List.mem_cons_of_mem _ hx))

theorem text_remarked {n : Nat} {ls x : List Text} (h : ParagraphText n ls x) : ∀ {ls' : List Text}, Remarked S ls ls' →
    ParagraphText n ls' x := by
  induction h with
  | nil => intro _ hr; cases hr; exact .nil
  | comment h1 _ ih =>
    intro _ hr
    cases hr with
    | cons _ h4 h5 => exact .comment h1 (text_comments (ih h5) h4)
  | line h1 h2 _ ih =>
    intro _ hr
    cases hr with
    | cons _ h4 h5 => exact .line h1 h2 (text_comments (ih h5) h4)

private theorem blank_begins {l : Text} (h : ∀ c ∈ l, c = ' ' ∨ c = '\t') : ¬ (S l ∧ ParagraphLine l) := by
  rintro ⟨_, hb⟩
  obtain ⟨c, hc, h1, h2⟩ := hb.solid
  exact (h c hc).elim h1 h2

private theorem form_begins {l : Text} {f : Form} (h : LineForm l f) (hf : f ≠ .text) : ¬ (S l ∧ ParagraphLine l) :=
  fun hb => hf (lineForm_text hb.2.form h)

private theorem label_begins {R : Rendering} {label : Label} {mls : List Text} (h : LabelLines R label mls) :
    ∀ l ∈ mls, ¬ (S l ∧ ParagraphLine l) := by
  induction h with
  | nil => simp
  | title h1 _ ih =>
    intro l hl hb
    rcases List.mem_cons.mp hl with rfl | hl
    · obtain ⟨t, h2, h3, h4, h5, _⟩ := h1
      exact hb.2.title ⟨t, h2, h3, h4, h5⟩
    · exact ih l hl hb
  | attrs h1 _ ih =>
    intro l hl hb
    rcases List.mem_cons.mp hl with rfl | hl
    · obtain ⟨a, h2, _⟩ := h1
      exact hb.2.bracket ⟨a, h2⟩
    · exact ih l hl hb
  | @anchor l i _ _ _ h1 _ ih =>
    intro l' hl hb
    rcases List.mem_cons.mp hl with rfl | hl
    · exact hb.2.bracket ⟨'[' :: i.inside ++ [']'], by rw [h1.1]; simp⟩
    · exact ih l' hl hb

theorem layout_remarked {R : Rendering} {s : Bool} {ps : List Token} {ls ls' : List Text} (h : Layout R s ps ls)
    (hp : ∀ x ∈ ps, x.Apart S) (hr : Remarked S ls ls') : Layout R s ps ls' := by
  refine Layout.rec (R := R) (motive_1 := fun s ps ls _ => ∀ ls', (∀ x ∈ ps, x.Apart S) → Remarked S ls ls' → Layout R s ps ls')
    (motive_2 := fun as x s ls rest _ => ∀ ls', x.Apart S → Remarked S ls ls' → ∃ rest', Takes R as x s ls' rest' ∧ Remarked S rest rest')
    ?_ ?_ ?_ ?_ ?_ ?_ ?_ ?_ ?_ ?_ ?_ ?_ h ls' hp hr
  · intro s ls' _ hr
    cases hr; exact .nil
  · intro ls h ls' _ hr
    rw [remarked_same hr fun l hl => blank_begins (h l hl)]; exact .done h
  · intro s l x ps ls h1 _ ih ls' hp hr
    obtain ⟨x, rfl, hx⟩ := remarked_one hr (blank_begins (by rcases h1 with rfl | h1; simp; exact h1.2))
    exact .blank h1 (ih _ hp hx)
  · intro s x ps s' ls rest h1 _ ih1 ih2 ls' hp hr
    obtain ⟨rest', g1, g2⟩ := ih1 _ (hp _ (by simp)) hr
    exact .piece g1 (ih2 _ (fun x hx => hp x (List.mem_cons_of_mem _ hx)) g2)
  · intro as l p rest texts r h1 h2 h3 h4 ls' _ hr
    obtain ⟨a', rest', rfl, g1, g2⟩ := remarked_split hr
    have k1 := paragraph_remarked h2 g1 g2
    have k2 := text_remarked h3 g1
    cases g1 with
    | cons _ _ _ => exact ⟨rest', .para h1 k1 k2 h4, g2⟩
  · intro as c d body rest h1 h2 h3 h4 ls' hp hr
    have hd : ¬ (S d ∧ ParagraphLine d) := form_begins (.verbatim h1) (by simp)
    obtain ⟨x, rfl, hx⟩ := remarked_one hr hd
    obtain ⟨body', y, rfl, g1, g2⟩ := remarked_split hx
    obtain ⟨rest', rfl, g3⟩ := remarked_one g2 hd
    cases hp with
    | verbatim h =>
      rw [remarked_same g1 fun l hl e => h l hl e.1]
      exact ⟨rest', .verbatim h1 h2 h3 h4, g3⟩
  · intro as ty l rest h1 h2 ls' _ hr
    obtain ⟨x, rfl, hx⟩ := remarked_one hr (form_begins (.brk h1) (by simp))
    exact ⟨x, .brk h1 h2, hx⟩
  · intro as ty target a attrs l rest h1 h2 h3 h4 ls' _ hr
    obtain ⟨x, rfl, hx⟩ := remarked_one hr (form_begins (.media h1 h2) (by simp))
    exact ⟨x, .media h1 h2 h3 h4, hx⟩
  · intro as context d blocks body rest h1 h2 h3 h4 h5 ih ls' hp hr
    have hd : ¬ (S d ∧ ParagraphLine d) := form_begins (.container h1) (by simp)
    obtain ⟨x, rfl, hx⟩ := remarked_one hr hd
    obtain ⟨body', y, rfl, g1, g2⟩ := remarked_split hx
    obtain ⟨rest', rfl, g3⟩ := remarked_one g2 hd
    have hp' : ∀ x ∈ blocks.map Token.leaf, x.Apart S := by
      intro x hx
      obtain ⟨b, hb, rfl⟩ := List.mem_map.mp hx
      cases hp with
      | container h => exact h b hb
    refine ⟨rest', .container h1 h2 (fun hm => ?_) (ih _ hp' g1) h5, g3⟩
    rcases remarked_mem g1 hm with hm | ⟨r, e, _⟩
    · exact h3 hm
    · rcases h1 with ⟨e', _⟩ | ⟨n, ⟨e', _⟩ | ⟨e', _⟩ | ⟨e', _⟩⟩ <;> rw [e] at e' <;> simp [List.replicate_succ] at e'
  · intro as n title r l rest h1 h2 h3 ls' _ hr
    obtain ⟨x, rfl, hx⟩ := remarked_one hr (form_begins (.heading h2) (by simp))
    exact ⟨x, .discrete h1 h2 h3, hx⟩
  · intro label b s mls ls rest h1 h2 h3 h4 _ ih ls' hp hr
    obtain ⟨a', b', rfl, g1, g2⟩ := remarked_split hr
    rw [remarked_same g1 (label_begins h1)]
    have hp' : (Token.leaf b).Apart S := by cases hp with | labelled h => exact h
    obtain ⟨rest', k1, k2⟩ := ih _ hp' g2
    exact ⟨rest', .labelled h1 h2 h3 h4 k1, k2⟩
  · intro n title r l rest label ls h1 h2 h3 ls' _ hr
    obtain ⟨a', b', rfl, g1, g2⟩ := remarked_split hr
    rw [remarked_same g1 (label_begins h1.written)]
    obtain ⟨x, rfl, hx⟩ := remarked_one g2 (form_begins (.heading h2) (by simp))
    exact ⟨x, .heading h1 h2 h3, hx⟩

end

/-! ### In headers -/

variable [Uni]

theorem headerShows_telling {hdr : HeaderSubs} {r : Renderer} {s : AttrStore} {ls : List HLine} {c : Contents}
    (h : HeaderShows hdr r s ls c) : HeaderShows hdr r s (HLine.telling ls) c := by
  induction h with
  | nil => exact .nil
  | @cons s l s1 c ls cs h1 h2 h3 ih =>
    cases l with
    | blank => cases h1; cases h2; exact ih
    | comment x => cases h1; cases h2; exact ih
    | _ => exact .cons h1 h2 ih

theorem headerEffect_telling {hdr : HeaderSubs} {r : Renderer} {s s' : AttrStore} {ls : List HLine}
    (h : HeaderEffect hdr r s ls s') : HeaderEffect hdr r s (HLine.telling ls) s' := by
  induction h with
  | nil => exact .nil
  | @cons s l s1 ls s2 h1 h2 ih =>
    cases l with
    | blank => cases h1; exact ih
    | comment x => cases h1; exact ih
    | _ => exact .cons h1 ih

theorem headerEffect_told {hdr : HeaderSubs} {r : Renderer} {s' : AttrStore} : ∀ {ls : List HLine} {s : AttrStore},
    HeaderEffect hdr r s (HLine.telling ls) s' → HeaderEffect hdr r s ls s'
  | [], _, h => h
  | .blank :: _, _, h => .cons .blank (headerEffect_told h)
  | .comment _ :: _, _, h => .cons .comment (headerEffect_told h)
  | .entry _ _ :: _, _, h => by cases h with | cons h1 h2 => exact .cons h1 (headerEffect_told h2)
  | .title _ :: _, _, h => by cases h with | cons h1 h2 => exact .cons h1 (headerEffect_told h2)
  | .author _ :: _, _, h => by cases h with | cons h1 h2 => exact .cons h1 (headerEffect_told h2)
  | .revision _ :: _, _, h => by cases h with | cons h1 h2 => exact .cons h1 (headerEffect_told h2)

omit [Uni] in
/-- Comments in front of a document. -/
theorem headerReads_comments {pre t rest : Text} {ls : List HLine} {s2 : Stage} (hp : CommentLines pre)
    (h : HeaderReads .start t ls s2 rest) :
    ∃ ls', HeaderReads .start (pre ++ t) ls' s2 rest ∧ HLine.telling ls' = HLine.telling ls := by
  induction hp with
  | nil => exact ⟨ls, h, rfl⟩
  | @comment l e u h1 hn hcr h2 _ ih =>
    obtain ⟨ls', g1, g2⟩ := ih
    obtain ⟨v, hv⟩ := stripSpaces_exists l
    refine ⟨.comment v :: ls', ?_, g2⟩
    rw [List.append_assoc]
    refine .line (by rcases h2 with rfl | rfl <;> simp) (.comment ⟨l, e, ?_, hv⟩ ?_) g1
    · exact lineEnd_first hn (fun ⟨r, e⟩ => hcr r e) h2
    · obtain ⟨r, rfl, h3⟩ := h1
      obtain ⟨sp, e, h4, _⟩ := hv
      have h5 : ∀ c ∈ sp, c ≠ '/' := fun c hc => by rw [h4 c hc]; decide
      match v, e with
      | [], e => exact absurd rfl (h5 '/' (by rw [show sp = '/' :: '/' :: r by simpa using e.symm]; simp))
      | [a], e => exact absurd rfl (h5 '/' (by rw [show sp = '/' :: r by simp at e; exact e.2.symm]; simp))
      | a :: b :: v, e =>
        simp only [List.cons_append, List.cons.injEq] at e
        obtain ⟨rfl, rfl, rfl⟩ := e
        refine ⟨v, rfl, fun hh => h3 ?_⟩
        cases v with
        | nil => cases hh
        | cons => exact hh
  | @empty sp e u h1 h2 _ ih =>
    obtain ⟨ls', g1, g2⟩ := ih
    refine ⟨.blank :: ls', ?_, g2⟩
    rw [List.append_assoc]
    refine .line (by rcases h2 with rfl | rfl <;> simp) (.blank ⟨sp, e, ?_, sp, by simp, h1, ?_⟩) g1
    · exact lineEnd_first (fun hm => absurd (h1 _ hm) (by decide)) (fun ⟨r, e⟩ => absurd (h1 '\r' (by rw [e]; simp)) (by decide)) h2
    · rintro ⟨r, e⟩
      simp at e

omit [Uni] in
theorem split_comments {p : Text} (hp : CommentLines p) (t : Text) :
    ∀ l ∈ splitChar '\n' (p ++ t), l ∈ splitChar '\n' t ∨ l.head? ≠ some 'i' := by
  have key : ∀ {x e u : Text}, '\n' ∉ x → x.head? ≠ some 'i' → LineEnd e →
      (∀ l ∈ splitChar '\n' (u ++ t), l ∈ splitChar '\n' t ∨ l.head? ≠ some 'i') →
      ∀ l ∈ splitChar '\n' (x ++ e ++ u ++ t), l ∈ splitChar '\n' t ∨ l.head? ≠ some 'i' := by
    intro x e u hn hx he ih l hl
    rcases he with rfl | rfl
    · rw [List.append_assoc, List.append_assoc, List.singleton_append, splitChar_append hn] at hl
      rcases List.mem_cons.mp hl with rfl | hl
      · exact Or.inr hx
      · exact ih l hl
    · rw [show x ++ ['\r', '\n'] ++ u ++ t = (x ++ ['\r']) ++ '\n' :: (u ++ t) by simp, splitChar_append (by simp [hn])] at hl
      rcases List.mem_cons.mp hl with rfl | hl
      · refine Or.inr ?_
        cases x with
        | nil => decide
        | cons => exact hx
      · exact ih l hl
  induction hp with
  | nil => exact fun l hl => Or.inl hl
  | comment h1 hn _ h2 _ ih =>
    refine key hn ?_ h2 ih
    obtain ⟨r, rfl, _⟩ := h1
    simp
  | @empty sp e u h1 h2 _ ih =>
    refine key (fun hm => absurd (h1 _ hm) (by decide)) (fun hh => ?_) h2 ih
    cases sp with
    | nil => cases hh
    | cons a sp => cases hh; exact absurd (h1 'i' (by simp)) (by decide)

end Adoc
