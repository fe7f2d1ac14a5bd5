import Verif.Lemmas.PassDet
/-!
# Passthroughs with single marks
-/

namespace Adoc
open Adoc.Spec Re
variable [Uni]

/-! ### The matcher -/

theorem m_passBody (n : Nat) (k : RS → Option RS) (s : RS) : m (passBodyRe n) k s = m (cap n quotedBody) k s := by
  unfold passBodyRe quotedBody
  rw [m_cap, m_cap]
  generalize (fun s' : RS => k { s' with caps := (n, s.rest.take (s.rest.length - s'.rest.length)) :: s'.caps }) = k'
  obtain ⟨pv, t, caps⟩ := s
  simp only [cat]
  rw [m_seq, m, m_seq]
  cases t with
  | nil => rw [nonSpace, m_cls_nil, m_cls_nil, m_cls_nil]
  | cons c t =>
    rw [nonSpace, m_cls_cons, m_cls_cons, m_cls_cons]
    split
    · show m (alt eps _) k' _ = _
      rw [m]
      rfl
    · rfl

theorem passBody_rel {n : Nat} {b : Text} (hb : Solid b) (pv : Option Char) (r : Text) (caps : List (Nat × Text)) :
    Rel (passBodyRe n) ⟨pv, b ++ r, caps⟩ ⟨prevAfter pv b, r, (n, b) :: caps⟩ := by
  refine rel_cap_iff.mpr ⟨⟨prevAfter pv b, r, caps⟩, b, ?_, rfl, rfl⟩
  obtain ⟨c, u, rfl, hc⟩ := hb.first
  simp only [cat]
  refine rel_seq_iff.mpr ⟨⟨some c, u ++ r, caps⟩, rel_cls_iff.mpr ⟨c, _, rfl, by simp [hc], rfl⟩, ?_⟩
  rcases List.eq_nil_or_concat u with rfl | ⟨u, d, rfl⟩
  · exact rel_alt_iff.mpr (Or.inl (rel_eps_iff.mpr rfl))
  · rw [List.concat_eq_append] at hb ⊢
    have hd : isWhite d = false := hb.last d (by rw [← List.cons_append, List.getLast?_append]; rfl)
    refine rel_alt_iff.mpr (Or.inr ?_)
    refine rel_seq_iff.mpr ⟨⟨prevAfter (some c) u, d :: r, caps⟩,
      rel_star_cls_iff.mpr ⟨u, _, by simp, fun _ _ => rfl, rfl⟩, rel_cls_iff.mpr ⟨d, r, rfl, by simp [hd], ?_⟩⟩
    have : prevAfter pv (c :: (u ++ [d])) = some d := by
      rw [prevAfter, ← List.cons_append, List.getLast?_append]; rfl
    rw [this]

theorem endHalf_iff {s z : RS} : m endHalf some s = some z ↔ WordEnds s.rest ∧ z = s := by
  have : (!wordAt s.rest.head?) = true ↔ WordEnds s.rest := by
    unfold WordEnds wordAt
    cases s.rest.head? <;> simp
  rw [m, ← this]
  split
  · rename_i h
    rw [h]
    simp [eq_comm]
  · rename_i h
    simp [h]

/-- The body of a passthrough, its closing mark and what is behind that. -/
theorem m_quoted {n : Nat} {q : Char} {s z : RS} (h : m (passBodyRe n) (m (chr q) (m endHalf some)) s = some z) :
    ∃ b r, s.rest = b ++ q :: r ∧ Quoted q b r ∧ z = ⟨some q, r, (n, b) :: s.caps⟩ := by
  rw [m_passBody] at h
  obtain ⟨b, r, e, hb, hk, hmin⟩ := m_quotedBody h
  obtain ⟨r2, e2, hk⟩ := m_chr_some hk
  simp only at e2
  subst e2
  obtain ⟨hw, rfl⟩ := endHalf_iff.mp hk
  refine ⟨b, r2, e, ⟨hb, ⟨r2, rfl, hw⟩, ?_⟩, rfl⟩
  rintro b' r' e' hl hb' ⟨y, rfl, hy⟩
  have := hmin b' ([q] ++ y) (by rw [e]; exact e') hl hb'
  rw [List.singleton_append, m_chr, if_pos rfl, endHalf_iff.mpr ⟨hy, rfl⟩] at this
  cases this

theorem quoted_rel {n : Nat} {q : Char} {b r : Text} (h : Quoted q b r) (pv : Option Char) (caps : List (Nat × Text)) :
    Rel (seq (passBodyRe n) (chr q)) ⟨pv, b ++ q :: r, caps⟩ ⟨some q, r, (n, b) :: caps⟩ ∧
      Rel endHalf ⟨some q, r, (n, b) :: caps⟩ ⟨some q, r, (n, b) :: caps⟩ := by
  obtain ⟨hb, ⟨y, e, hw⟩, -⟩ := h
  have hy : r = y := by simpa using e
  subst hy
  refine ⟨rel_seq_iff.mpr ⟨_, passBody_rel hb pv (q :: r) caps, rel_chr_iff.mpr ⟨_, rfl, rfl⟩⟩, .endHalf ?_⟩
  unfold WordEnds at hw
  unfold wordAt
  cases h : r.head? with
  | none => rfl
  | some c => simp [hw c h]

/-- Where the search may begin. -/
theorem startHalf_some {k : RS → Option RS} {s z : RS} (h : m startHalf k s = some z) : NotInWord s.prev ∧ k s = some z := by
  rw [m] at h
  split at h
  · rename_i hw
    refine ⟨?_, h⟩
    rintro c e
    rw [e] at hw
    simpa [wordAt] using hw
  · cases h

theorem startHalf_rel {s : RS} (h : NotInWord s.prev) : Rel startHalf s s := by
  refine .startHalf ?_
  unfold wordAt
  cases hp : s.prev with
  | none => rfl
  | some c => simp [h c hp]

/-! ### The replacer -/

/-- What the replacer makes of a match, where nothing forbids it. -/
def DoesShort (t : Text) (z : RS) : Prop :=
  ∃ c u q x, t = c :: (u ++ [q]) ++ z.rest ∧ c.utf8Size = 1 ∧ (q = '+' ∨ q = '`') ∧ z.prev = some q ∧ u ≠ [] ∧
    ShortAt (c :: (u ++ [q])) z.rest x ∧
    ∀ fuel ps dest, ¬ Forbids dest.getLast? →
      inlinePassReplacer (fuel + 1) ps ⟨c :: (u ++ [q]), z.caps⟩ dest = .ok (ps ++ x.entries, dest ++ x.text ps.length)

omit [Uni] in
theorem forbids_iff {dest : Text} :
    (endsWith dest ['\\'] || endsWith dest [':'] || endsWith dest [';']) = true ↔ Forbids dest.getLast? := by
  unfold Forbids
  rw [Bool.or_eq_true, Bool.or_eq_true, endsWith_one, endsWith_one, endsWith_one, or_assoc]

theorem replacer_short {ps : List Passthrough} {mt : Match} {dest : Text} (fuel : Nat) (h : ¬ Forbids dest.getLast?) :
    inlinePassReplacer (fuel + 1) ps mt dest =
      let escapeCount := (((mt.get 4).or (mt.get 6)).getD []).length
      let mark := if (mt.get 2).isSome then '`' else '+'
      let quotedText := ((mt.get 2).or ((mt.get 5).or (mt.get 7))).getD []
      match (mt.get 1).or (mt.get 3) with
      | some a =>
        if escapeCount > 0 then
          .ok (ps, dest ++ ['['] ++ a ++ [']'] ++ List.replicate (escapeCount - 1) '\\' ++ [mark] ++ quotedText ++ [mark])
        else
          let (a', old) := oldBehavior a
          .ok (passPush ps ⟨quotedText, if old = true ∧ mark ≠ '`' then .normal else .verbatim,
            some (if old then .monospaced else .unquoted), some a'⟩ dest)
      | none =>
        if escapeCount > 0 then
          .ok (ps, dest ++ List.replicate (escapeCount - 1) '\\' ++ [mark] ++ quotedText ++ [mark])
        else .ok (passPush ps ⟨quotedText, .verbatim, none, none⟩ dest) := by
  rw [inlinePassReplacer, if_neg fun hb => h (forbids_iff.mp hb)]
  rfl

theorem inlinePassRe_eq : inlinePassRe = seq startHalf (seq (alt
    (seq (chr '[') (seq (cap 1 (alt (lit "x-".toList) (cat [plus (cls fun c => c != '[' && c != ']'), lit " x-".toList])))
      (seq (chr ']') (seq (chr '`') (seq (passBodyRe 2) (chr '`'))))))
    (alt (seq (chr '[') (seq (cap 3 (plus (cls fun c => c != '[' && c != ']'))) (seq (chr ']') (seq (cap 4 (upTo (chr '\\') 2))
      (seq (chr '+') (seq (passBodyRe 5) (chr '+')))))))
      (seq (opt (cap 6 (chr '\\'))) (seq (chr '+') (seq (passBodyRe 7) (chr '+')))))) endHalf) := rfl

theorem solid_ne {b : Text} (h : Solid b) : b ≠ [] := by
  obtain ⟨c, u, rfl, _⟩ := h.first
  simp

theorem m_short {pv : Option Char} {t : Text} {z : RS} (h : m inlinePassRe some ⟨pv, t, []⟩ = some z) :
    NotInWord pv ∧ DoesShort t z := by
  rw [inlinePassRe_eq, m_seq] at h
  obtain ⟨hp, h⟩ := startHalf_some h
  refine ⟨hp, ?_⟩
  rw [m_seq] at h
  rcases m_alt_some h with h | ⟨-, h⟩
  · rw [m_seq] at h
    obtain ⟨r1, e1, h⟩ := m_chr_some h
    rw [m_seq, m_cap] at h
    obtain ⟨a, b, r2, pv2, ha, hb, hx, e2, h⟩ : ∃ a b r2 pv2, Attrs a ∧ OldStyle a b ∧ a ≠ " x-".toList ∧ r1 = a ++ r2 ∧
        m (seq (chr ']') (seq (chr '`') (seq (passBodyRe 2) (chr '`')))) (m endHalf some) ⟨pv2, r2, [(1, a)]⟩ = some z := by
      rcases m_alt_some h with h | ⟨-, h⟩
      · obtain ⟨r2, e2, h⟩ := m_lit_some h
        simp only at e2 h
        subst e2
        rw [take_used] at h
        exact ⟨"x-".toList, [], r2, _, (attrs_iff (by decide)).mp (by decide), .inl ⟨rfl, rfl⟩, by decide, rfl, h⟩
      · simp only [cat] at h
        rw [m_seq, plus, m_seq] at h
        obtain ⟨c, r2, e2, hc, h⟩ := m_cls_some h
        obtain ⟨b, r3, e3, hb, h, -⟩ := m_star_greedy h
        obtain ⟨r4, e4, hl⟩ := m_lit_some h
        clear h
        simp only at e2 e3 e4 hl
        subst e4 e3 e2
        have e5 : c :: (b ++ (" x-".toList ++ r4)) = (c :: b ++ " x-".toList) ++ r4 := by simp
        rw [e5, take_used] at hl
        have h := hl
        refine ⟨c :: b ++ " x-".toList, c :: b, r4, _, ?_, .inr rfl, ?_, e5, h⟩
        · refine (attrs_iff (by simp)).mp ?_
          intro d hd
          rcases List.mem_append.mp hd with hd | hd
          · rcases List.mem_cons.mp hd with rfl | hd
            · exact hc
            · exact hb d hd
          · exact (by decide : ∀ d ∈ " x-".toList, (d != '[' && d != ']') = true) d hd
        · intro e
          have := congrArg List.length e
          simp at this
    rw [m_seq] at h
    obtain ⟨r3, e3, h⟩ := m_chr_some h
    rw [m_seq] at h
    obtain ⟨r4, e4, h⟩ := m_chr_some h
    rw [m_seq] at h
    obtain ⟨body, r5, e5, hq, rfl⟩ := m_quoted h
    simp only at e1 e3 e4 e5
    subst e5 e4 e3 e2
    refine ⟨'[', a ++ [']', '`'] ++ body, '`', .out [] ⟨body, .verbatim, some .monospaced, some b⟩, by rw [e1]; simp, by decide, .inr rfl, rfl, by simp, ?_, ?_⟩
    · exact .backquotes ha hb hx hq
    · intro fuel ps dest hf
      rw [replacer_short fuel hf]
      show (let (a', old) := oldBehavior a
        Except.ok (passPush ps ⟨body, if old = true ∧ '`' ≠ '`' then .normal else .verbatim,
          some (if old then .monospaced else .unquoted), some a'⟩ dest)) = _
      rw [oldBehavior_old hb]
      simp [passPush, passMark_eq, TakenOut.entries, TakenOut.text]
  rcases m_alt_some h with h | ⟨-, h⟩
  · rw [m_seq] at h
    obtain ⟨r1, e1, h⟩ := m_chr_some h
    rw [m_seq] at h
    obtain ⟨a, r2, e2, ha, hc, h⟩ := m_plusCls h
    have ha := (attrs_iff ha).mp hc
    rw [m_seq] at h
    obtain ⟨r3, e3, h⟩ := m_chr_some h
    rw [m_seq] at h
    obtain ⟨j, r4, pv4, hj, e4, h⟩ := m_backslashes h
    rw [m_seq] at h
    obtain ⟨r5, e5, h⟩ := m_chr_some h
    rw [m_seq] at h
    obtain ⟨body, r6, e6, hq, rfl⟩ := m_quoted h
    simp only at e1 e2 e3 e4 e5 e6
    subst e6 e5 e4 e3 e2
    cases j with
    | zero =>
      by_cases ho : ∃ b, OldStyle a b
      · obtain ⟨b, hb⟩ := ho
        refine ⟨'[', a ++ [']', '+'] ++ body, '+', .out [] ⟨body, .normal, some .monospaced, some b⟩, by rw [e1]; simp, by decide, .inl rfl, rfl, by simp, ?_, ?_⟩
        · exact .old ha hb hq
        · intro fuel ps dest hf
          rw [replacer_short fuel hf]
          show (let (a', old) := oldBehavior a
            Except.ok (passPush ps ⟨body, if old = true ∧ '+' ≠ '`' then .normal else .verbatim,
              some (if old then .monospaced else .unquoted), some a'⟩ dest)) = _
          rw [oldBehavior_old hb]
          simp [passPush, passMark_eq, TakenOut.entries, TakenOut.text]
      · refine ⟨'[', a ++ [']', '+'] ++ body, '+', .out [] ⟨body, .verbatim, some .unquoted, some a⟩, by rw [e1]; simp, by decide, .inl rfl, rfl, by simp, ?_, ?_⟩
        · exact .attrs ha ho hq
        · intro fuel ps dest hf
          rw [replacer_short fuel hf]
          show (let (a', old) := oldBehavior a
            Except.ok (passPush ps ⟨body, if old = true ∧ '+' ≠ '`' then .normal else .verbatim,
              some (if old then .monospaced else .unquoted), some a'⟩ dest)) = _
          rw [oldBehavior_new ho]
          simp [passPush, passMark_eq, TakenOut.entries, TakenOut.text]
    | succ k =>
      refine ⟨'[', a ++ ']' :: '\\' :: List.replicate k '\\' ++ '+' :: body, '+', .stays ('[' :: a ++ ']' :: List.replicate k '\\' ++ '+' :: body ++ ['+']), ?_, by decide, .inl rfl, rfl, by simp, ?_, ?_⟩
      · rw [e1]; simp [List.replicate_succ]
      · have := ShortAt.escaped (k := k) ha hq (by omega)
        simpa using this
      · intro fuel ps dest hf
        rw [replacer_short fuel hf]
        show (if (List.replicate (k + 1) '\\').length > 0 then
          Except.ok (ps, dest ++ ['['] ++ a ++ [']'] ++ List.replicate ((List.replicate (k + 1) '\\').length - 1) '\\' ++ ['+'] ++ body ++ ['+'])
          else _) = _
        rw [if_pos (by simp)]
        simp [TakenOut.entries, TakenOut.text]
  · rw [m_seq] at h
    rcases m_opt_some h with h | ⟨-, h⟩
    · rw [m_cap] at h
      obtain ⟨r1, e1, h⟩ := m_chr_some h
      simp only at e1
      subst e1
      rw [show '\\' :: r1 = ['\\'] ++ r1 from rfl, take_used, m_seq] at h
      obtain ⟨r2, e2, h⟩ := m_chr_some h
      rw [m_seq] at h
      obtain ⟨body, r3, e3, hq, rfl⟩ := m_quoted h
      simp only at e2 e3
      subst e3 e2
      refine ⟨'\\', '+' :: body, '+', .stays ('+' :: body ++ ['+']), by simp, by decide, .inl rfl, rfl, by simp, .bareEscaped hq, ?_⟩
      intro fuel ps dest hf
      rw [replacer_short fuel hf]
      show Except.ok (ps, dest ++ [] ++ ['+'] ++ body ++ ['+']) = _
      simp [TakenOut.entries, TakenOut.text]
    · rw [m_seq] at h
      obtain ⟨r2, e2, h⟩ := m_chr_some h
      rw [m_seq] at h
      obtain ⟨body, r3, e3, hq, rfl⟩ := m_quoted h
      simp only at e2 e3
      subst e3 e2
      refine ⟨'+', body, '+', .out [] ⟨body, .verbatim, none, none⟩, by simp, by decide, .inl rfl, rfl, solid_ne hq.1, .bare hq, ?_⟩
      intro fuel ps dest hf
      rw [replacer_short fuel hf]
      show Except.ok (passPush ps ⟨body, .verbatim, none, none⟩ dest) = _
      simp [passPush, passMark_eq, TakenOut.entries, TakenOut.text]

/-! ### All are found -/

theorem short_of_alt {pv : Option Char} {t : Text} (hp : NotInWord pv)
    (h : ∃ s, Rel (seq (alt
    (seq (chr '[') (seq (cap 1 (alt (lit "x-".toList) (cat [plus (cls fun c => c != '[' && c != ']'), lit " x-".toList])))
      (seq (chr ']') (seq (chr '`') (seq (passBodyRe 2) (chr '`'))))))
    (alt (seq (chr '[') (seq (cap 3 (plus (cls fun c => c != '[' && c != ']'))) (seq (chr ']') (seq (cap 4 (upTo (chr '\\') 2))
      (seq (chr '+') (seq (passBodyRe 5) (chr '+')))))))
      (seq (opt (cap 6 (chr '\\'))) (seq (chr '+') (seq (passBodyRe 7) (chr '+')))))) endHalf) ⟨pv, t, []⟩ s) :
    ∃ s, Rel inlinePassRe ⟨pv, t, []⟩ s := by
  obtain ⟨s, h⟩ := h
  exact ⟨s, rel_seq_iff.mpr ⟨_, startHalf_rel hp, h⟩⟩

theorem short_rel {u b : Text} {x : TakenOut} {pv : Option Char} (hp : NotInWord pv) (h : ShortAt u b x) :
    ∃ s, Rel inlinePassRe ⟨pv, u ++ b, []⟩ s := by
  refine short_of_alt hp ?_
  have hbr : ∀ {a body k}, Attrs a → Quoted '+' body b → k ≤ 2 →
      ∃ s, Rel (seq (chr '[') (seq (cap 3 (plus (cls fun c => c != '[' && c != ']'))) (seq (chr ']') (seq (cap 4 (upTo (chr '\\') 2))
      (seq (chr '+') (seq (passBodyRe 5) (chr '+'))))))) ⟨pv, '[' :: (a ++ ']' :: (List.replicate k '\\' ++ '+' :: (body ++ '+' :: b))), []⟩ s ∧
        Rel endHalf s s := by
    intro a body k ha hq hk
    have hc := (attrs_iff ha.1).mpr ha
    obtain ⟨c, a', rfl⟩ : ∃ c a', a = c :: a' := by
      cases a with
      | nil => exact absurd rfl ha.1
      | cons c a' => exact ⟨c, a', rfl⟩
    obtain ⟨pv', hbs⟩ := backslashes_rel (n := 4) hk (some ']') ('+' :: (body ++ '+' :: b)) [(3, c :: a')]
    refine ⟨_, rel_seq_iff.mpr ⟨_, rel_chr_iff.mpr ⟨_, rfl, rfl⟩, rel_seq_iff.mpr ⟨_, rel_cap_iff.mpr ⟨⟨prevAfter (some c) a', _, []⟩, c :: a', ?_, rfl, rfl⟩,
      rel_seq_iff.mpr ⟨_, rel_chr_iff.mpr ⟨_, rfl, rfl⟩, rel_seq_iff.mpr ⟨_, hbs, rel_seq_iff.mpr ⟨_, rel_chr_iff.mpr ⟨_, rfl, rfl⟩,
      (quoted_rel hq _ _).1⟩⟩⟩⟩⟩, (quoted_rel hq none _).2⟩
    exact rel_seq_iff.mpr ⟨_, rel_cls_iff.mpr ⟨c, _, rfl, hc c (by simp), rfl⟩,
      rel_star_cls_iff.mpr ⟨a', _, rfl, fun d hd => hc d (by simp [hd]), rfl⟩⟩
  have fin : ∀ {t s} {r1 r2 r3 : Re}, (Rel r1 t s ∨ Rel r2 t s ∨ Rel r3 t s) → Rel endHalf s s →
      ∃ s, Rel (seq (alt r1 (alt r2 r3)) endHalf) t s := by
    intro t s r1 r2 r3 h he
    refine ⟨s, rel_seq_iff.mpr ⟨s, rel_alt_iff.mpr ?_, he⟩⟩
    rcases h with h | h | h
    · exact .inl h
    · exact .inr (rel_alt_iff.mpr (.inl h))
    · exact .inr (rel_alt_iff.mpr (.inr h))
  cases h with
  | @bare body _ hq =>
    have : '+' :: body ++ ['+'] ++ b = '+' :: (body ++ '+' :: b) := by simp
    rw [this]
    exact fin (.inr (.inr (rel_seq_iff.mpr ⟨_, rel_alt_iff.mpr (.inr (rel_eps_iff.mpr rfl)),
      rel_seq_iff.mpr ⟨_, rel_chr_iff.mpr ⟨_, rfl, rfl⟩, (quoted_rel hq _ _).1⟩⟩))) (quoted_rel hq none _).2
  | @bareEscaped body _ hq =>
    have : '\\' :: '+' :: body ++ ['+'] ++ b = '\\' :: '+' :: (body ++ '+' :: b) := by simp
    rw [this]
    exact fin (.inr (.inr (rel_seq_iff.mpr ⟨_, rel_alt_iff.mpr (.inl (rel_cap_iff.mpr ⟨_, ['\\'], rel_chr_iff.mpr ⟨_, rfl, rfl⟩, rfl, rfl⟩)),
      rel_seq_iff.mpr ⟨_, rel_chr_iff.mpr ⟨_, rfl, rfl⟩, (quoted_rel hq _ _).1⟩⟩))) (quoted_rel hq none _).2
  | @attrs a body _ ha ho hq =>
    obtain ⟨s, h1, h2⟩ := hbr (k := 0) ha hq (by omega)
    have : '[' :: a ++ [']', '+'] ++ body ++ ['+'] ++ b = '[' :: (a ++ ']' :: (List.replicate 0 '\\' ++ '+' :: (body ++ '+' :: b))) := by simp
    rw [this]
    exact fin (.inr (.inl h1)) h2
  | @old a a' body _ ha ho hq =>
    obtain ⟨s, h1, h2⟩ := hbr (k := 0) ha hq (by omega)
    have : '[' :: a ++ [']', '+'] ++ body ++ ['+'] ++ b = '[' :: (a ++ ']' :: (List.replicate 0 '\\' ++ '+' :: (body ++ '+' :: b))) := by simp
    rw [this]
    exact fin (.inr (.inl h1)) h2
  | @escaped a body _ k ha hq hk =>
    obtain ⟨s, h1, h2⟩ := hbr (k := k + 1) ha hq (by omega)
    have : '[' :: a ++ ']' :: '\\' :: List.replicate k '\\' ++ '+' :: body ++ ['+'] ++ b =
        '[' :: (a ++ ']' :: (List.replicate (k + 1) '\\' ++ '+' :: (body ++ '+' :: b))) := by simp [List.replicate_succ]
    rw [this]
    exact fin (.inr (.inl h1)) h2
  | @backquotes a a' body _ ha ho hx hq =>
    have : '[' :: a ++ [']', '`'] ++ body ++ ['`'] ++ b = '[' :: (a ++ ']' :: '`' :: (body ++ '`' :: b)) := by simp
    rw [this]
    refine fin (.inl (rel_seq_iff.mpr ⟨_, rel_chr_iff.mpr ⟨_, rfl, rfl⟩, rel_seq_iff.mpr ⟨_, rel_cap_iff.mpr ⟨⟨prevAfter (some '[') a, _, []⟩, a, ?_, rfl, rfl⟩,
      rel_seq_iff.mpr ⟨_, rel_chr_iff.mpr ⟨_, rfl, rfl⟩, rel_seq_iff.mpr ⟨_, rel_chr_iff.mpr ⟨_, rfl, rfl⟩, (quoted_rel hq _ _).1⟩⟩⟩⟩)) (quoted_rel hq none _).2
    rcases ho with ⟨rfl, -⟩ | rfl
    · exact rel_alt_iff.mpr (.inl (rel_lit_iff.mpr ⟨_, rfl, rfl⟩))
    · cases a' with
      | nil => exact absurd rfl hx
      | cons c a' =>
        have hc := (attrs_iff ha.1).mpr ha
        refine rel_alt_iff.mpr (.inr (rel_seq_iff.mpr ⟨⟨prevAfter (some '[') (c :: a'), " x-".toList ++ ']' :: '`' :: (body ++ '`' :: b), []⟩, ?_, rel_lit_iff.mpr ⟨_, rfl, ?_⟩⟩))
        · refine rel_seq_iff.mpr ⟨_, rel_cls_iff.mpr ⟨c, _, rfl, hc c (by simp), rfl⟩,
            rel_star_cls_iff.mpr ⟨a', " x-".toList ++ ']' :: '`' :: (body ++ '`' :: b), by simp, fun d hd => hc d (by simp [hd]), ?_⟩⟩
          rw [show (c :: a') = [c] ++ a' from rfl, ← prevAfter_append]; rfl
        · rw [prevAfter_append]

/-! ### There is one reading only -/

theorem quoted_det {q : Char} {b b' r r' : Text} (h : Quoted q b r) (h' : Quoted q b' r') (e : b ++ q :: r = b' ++ q :: r') :
    b = b' ∧ r = r' := by
  have := shortest_unique h h' e
  obtain ⟨rfl, e⟩ := this
  exact ⟨rfl, by simpa using e⟩

/-- What is behind the attributes of a passthrough. -/
inductive BracketForm : Text → Text → Text → TakenOut → Prop
  | attrs {a body behind} : (¬ ∃ b, OldStyle a b) → Quoted '+' body behind →
      BracketForm a ('+' :: body ++ ['+']) behind (.out [] ⟨body, .verbatim, some .unquoted, some a⟩)
  | old {a b body behind} : OldStyle a b → Quoted '+' body behind →
      BracketForm a ('+' :: body ++ ['+']) behind (.out [] ⟨body, .normal, some .monospaced, some b⟩)
  | escaped {a body behind k} : Quoted '+' body behind → k < 2 →
      BracketForm a ('\\' :: List.replicate k '\\' ++ '+' :: body ++ ['+']) behind
        (.stays ('[' :: a ++ ']' :: List.replicate k '\\' ++ '+' :: body ++ ['+']))
  | backquotes {a b body behind} : OldStyle a b → a ≠ " x-".toList → Quoted '`' body behind →
      BracketForm a ('`' :: body ++ ['`']) behind (.out [] ⟨body, .verbatim, some .monospaced, some b⟩)

/-- A passthrough with single marks in three forms. -/
theorem shortAt_forms {u b : Text} {x : TakenOut} (h : ShortAt u b x) :
    (∃ body, u = '+' :: body ++ ['+'] ∧ Quoted '+' body b ∧ x = .out [] ⟨body, .verbatim, none, none⟩) ∨
    (∃ body, u = '\\' :: '+' :: body ++ ['+'] ∧ Quoted '+' body b ∧ x = .stays ('+' :: body ++ ['+'])) ∨
    ∃ a v, Attrs a ∧ u = '[' :: (a ++ ']' :: v) ∧ BracketForm a v b x := by
  cases h with
  | bare hq => exact .inl ⟨_, rfl, hq, rfl⟩
  | bareEscaped hq => exact .inr (.inl ⟨_, rfl, hq, rfl⟩)
  | attrs ha ho hq => exact .inr (.inr ⟨_, _, ha, by simp, .attrs ho hq⟩)
  | old ha ho hq => exact .inr (.inr ⟨_, _, ha, by simp, .old ho hq⟩)
  | escaped ha hq hk => exact .inr (.inr ⟨_, _, ha, by simp, .escaped hq hk⟩)
  | backquotes ha ho hx hq => exact .inr (.inr ⟨_, _, ha, by simp, .backquotes ho hx hq⟩)

theorem bracketForm_det {a v v' b b' : Text} {x x' : TakenOut} (h : BracketForm a v b x) (h' : BracketForm a v' b' x')
    (e : v ++ b = v' ++ b') : v = v' ∧ b = b' ∧ x = x' := by
  cases h with
  | attrs ho hq =>
    cases h' with
    | attrs ho' hq' =>
      obtain ⟨rfl, rfl⟩ := quoted_det hq hq' (by simpa using e)
      exact ⟨rfl, rfl, rfl⟩
    | old ho' hq' => exact absurd ⟨_, ho'⟩ ho
    | escaped => simp at e
    | backquotes => simp at e
  | old ho hq =>
    cases h' with
    | attrs ho' hq' => exact absurd ⟨_, ho⟩ ho'
    | old ho' hq' =>
      obtain ⟨rfl, rfl⟩ := quoted_det hq hq' (by simpa using e)
      obtain rfl := oldStyle_det ho ho'
      exact ⟨rfl, rfl, rfl⟩
    | escaped => simp at e
    | backquotes => simp at e
  | @escaped body _ k hq hk =>
    cases h' with
    | attrs => simp at e
    | old => simp at e
    | @escaped body' _ k' hq' hk' =>
      have e' : List.replicate k '\\' ++ ('+' :: (body ++ '+' :: b)) = List.replicate k' '\\' ++ ('+' :: (body' ++ '+' :: b')) := by
        simpa using e
      obtain ⟨rfl, e2⟩ := strip_backslashes (by simp) (by simp) e'
      obtain ⟨rfl, rfl⟩ := quoted_det hq hq' (by simpa using e2)
      exact ⟨rfl, rfl, rfl⟩
    | backquotes => simp at e
  | backquotes ho hx hq =>
    cases h' with
    | attrs => simp at e
    | old => simp at e
    | escaped => simp at e
    | backquotes ho' hx' hq' =>
      obtain ⟨rfl, rfl⟩ := quoted_det hq hq' (by simpa using e)
      obtain rfl := oldStyle_det ho ho'
      exact ⟨rfl, rfl, rfl⟩

theorem shortAt_det {u u' b b' : Text} {x x' : TakenOut} (h : ShortAt u b x) (h' : ShortAt u' b' x') (e : u ++ b = u' ++ b') :
    u = u' ∧ b = b' ∧ x = x' := by
  rcases shortAt_forms h with ⟨body, rfl, hq, rfl⟩ | ⟨body, rfl, hq, rfl⟩ | ⟨a, v, ha, rfl, hf⟩ <;>
    rcases shortAt_forms h' with ⟨body', rfl, hq', rfl⟩ | ⟨body', rfl, hq', rfl⟩ | ⟨a', v', ha', rfl, hf'⟩
  · obtain ⟨rfl, rfl⟩ := quoted_det hq hq' (by simpa using e)
    exact ⟨rfl, rfl, rfl⟩
  · simp at e
  · simp at e
  · simp at e
  · obtain ⟨rfl, rfl⟩ := quoted_det hq hq' (by simpa using e)
    exact ⟨rfl, rfl, rfl⟩
  · simp at e
  · simp at e
  · simp at e
  · have e' : '[' :: a ++ ']' :: (v ++ b) = '[' :: a' ++ ']' :: (v' ++ b') := by simpa using e
    obtain ⟨rfl, e2⟩ := attrs_inj ha ha' e'
    obtain ⟨rfl, rfl, rfl⟩ := bracketForm_det hf hf' e2
    exact ⟨rfl, rfl, rfl⟩

/-- A passthrough ends with its mark, and has a first character that can be cut off. -/
theorem shortAt_shape {u b : Text} {x : TakenOut} (h : ShortAt u b x) :
    ∃ c v q, u = c :: (v ++ [q]) ∧ (q = '+' ∨ q = '`') ∧ v ≠ [] := by
  cases h with
  | bare hq => exact ⟨_, _, _, rfl, .inl rfl, solid_ne hq.1⟩
  | @bareEscaped body _ hq => exact ⟨_, '+' :: body, _, rfl, .inl rfl, by simp⟩
  | @attrs a body _ ha ho hq => exact ⟨'[', a ++ [']', '+'] ++ body, '+', by simp, .inl rfl, by simp⟩
  | @old a _ body _ ha ho hq => exact ⟨'[', a ++ [']', '+'] ++ body, '+', by simp, .inl rfl, by simp⟩
  | @escaped a body _ k ha hq hk =>
    exact ⟨'[', a ++ ']' :: '\\' :: List.replicate k '\\' ++ '+' :: body, '+', by simp, .inl rfl, by simp⟩
  | @backquotes a _ body _ ha ho hx hq => exact ⟨'[', a ++ [']', '`'] ++ body, '`', by simp, .inr rfl, by simp⟩

theorem shortAt_ne {u b : Text} {x : TakenOut} (h : ShortAt u b x) : u ≠ [] := by
  obtain ⟨c, v, q, rfl, _⟩ := shortAt_shape h
  simp

omit [Uni] in
theorem not_forbids_mark {q : Char} (h : q = '+' ∨ q = '`') : ¬ Forbids (some q) := by
  rcases h with rfl | rfl <;> (unfold Forbids; decide)

theorem shortAt_last {u b : Text} {x : TakenOut} (h : ShortAt u b x) : ¬ Forbids u.getLast? := by
  obtain ⟨c, v, q, rfl, hq, _⟩ := shortAt_shape h
  rw [← List.cons_append, List.getLast?_append]
  exact not_forbids_mark hq

/-- What stands for a passthrough does not end with one of the characters that forbid one. -/
theorem shortAt_text_last {u b : Text} {x : TakenOut} (h : ShortAt u b x) (n : Nat) :
    x.text n ≠ [] ∧ ¬ Forbids (x.text n).getLast? := by
  have hp : ∀ front : Text, front ++ placeholder n ≠ [] ∧ ¬ Forbids (front ++ placeholder n).getLast? := by
    intro front
    have : front ++ placeholder n = front ++ (markStart :: Nat.toDigits 10 n) ++ [markEnd] := by simp [placeholder]
    rw [this, List.getLast?_append]
    exact ⟨by simp, (by unfold Forbids; decide : ¬ Forbids (some markEnd))⟩
  have hs : ∀ a : Text, a ++ ['+'] ≠ [] ∧ ¬ Forbids (a ++ ['+']).getLast? := by
    intro a
    rw [List.getLast?_append]
    exact ⟨by simp, not_forbids_mark (.inl rfl)⟩
  cases h with
  | bare hq => exact hp _
  | bareEscaped hq => exact hs _
  | attrs ha ho hq => exact hp _
  | old ha ho hq => exact hp _
  | escaped ha hq hk => exact hs _
  | backquotes ha ho hx hq => exact hp _

theorem shortOut_nil {n : Nat} {pv : Option Char} {ps : List Passthrough} {out : Text} (h : ShortOut n pv [] ps out) :
    ps = [] ∧ out = [] := by
  generalize hz : ([] : Text) = z at h
  cases h with
  | done => exact ⟨rfl, rfl⟩
  | hit _ _ h1 _ => exact absurd (List.append_eq_nil_iff.mp hz.symm).1 (shortAt_ne h1)
  | retry _ _ _ _ _ => simp at hz
  | miss => cases hz

theorem shortOut_det {n : Nat} {pv : Option Char} {t : Text} {ps ps' : List Passthrough} {out out' : Text} (h : ShortOut n pv t ps out)
    (h' : ShortOut n pv t ps' out') : ps = ps' ∧ out = out' := by
  induction h generalizing ps' out' with
  | done =>
    obtain ⟨rfl, rfl⟩ := shortOut_nil h'
    exact ⟨rfl, rfl⟩
  | @hit n pv u b x ps out hp hf h1 h2 ih =>
    generalize hz : u ++ b = z at h'
    cases h' with
    | done => exact absurd (List.append_eq_nil_iff.mp hz).1 (shortAt_ne h1)
    | @hit _ _ u' b' x' ps' out' hp' hf' h1' h2' =>
      obtain ⟨rfl, rfl, rfl⟩ := shortAt_det h1 h1' hz
      obtain ⟨rfl, rfl⟩ := ih h2'
      exact ⟨rfl, rfl⟩
    | retry hp' hf' => exact absurd hf' hf
    | miss hn _ => exact absurd h1 (hn hp _ _ _ hz.symm)
  | @retry n pv c r b x ps out ps2 out2 hp hf h1 h2 h3 ih2 ih3 =>
    generalize hz : c :: r ++ b = z at h'
    cases h' with
    | done => simp at hz
    | hit hp' hf' => exact absurd hf hf'
    | @retry _ _ c' r' b' x' ps' out' ps2' out2' hp' hf' h1' h2' h3' =>
      obtain ⟨e, rfl, rfl⟩ := shortAt_det h1 h1' hz
      cases e
      obtain ⟨rfl, rfl⟩ := ih2 h2'
      obtain ⟨rfl, rfl⟩ := ih3 h3'
      exact ⟨rfl, rfl⟩
    | miss hn _ => exact absurd h1 (hn hp _ _ _ hz.symm)
  | @miss n pv c t ps out hn h2 ih =>
    generalize hz : c :: t = z at h'
    cases h' with
    | done => cases hz
    | @hit _ _ u' b' x' ps' out' hp' hf' h1' h2' => exact absurd h1' (hn hp' _ _ _ hz)
    | @retry _ _ c' r' b' x' ps' out' ps2' out2' hp' hf' h1' h2' h3' => exact absurd h1' (hn hp' _ _ _ hz)
    | @miss _ _ c' t' ps' out' hn' h2' =>
      cases hz
      obtain ⟨rfl, rfl⟩ := ih h2'
      exact ⟨rfl, rfl⟩

/-- The last character of what remains forbids a passthrough if that of the text did. -/
theorem shortOut_last {n : Nat} {pv : Option Char} {t : Text} {ps : List Passthrough} {out : Text} (h : ShortOut n pv t ps out)
    (ht : t ≠ []) : out ≠ [] ∧ (Forbids out.getLast? ↔ Forbids t.getLast?) := by
  have app : ∀ {a b : Text}, b ≠ [] → (a ++ b).getLast? = b.getLast? := by
    intro a b hb
    rw [List.getLast?_append]
    cases h : b.getLast? with
    | none => exact absurd (List.getLast?_eq_none_iff.mp h) hb
    | some _ => rfl
  induction h with
  | done => exact absurd rfl ht
  | @hit n pv u b x ps out hp hf h1 h2 ih =>
    by_cases hb : b = []
    · subst hb
      obtain ⟨rfl, rfl⟩ := shortOut_nil h2
      obtain ⟨h3, h4⟩ := shortAt_text_last h1 n
      have := shortAt_last h1
      simp only [List.append_nil]
      exact ⟨h3, ⟨fun h => absurd h h4, fun h => absurd h this⟩⟩
    · obtain ⟨h3, h4⟩ := ih hb
      rw [app h3, app hb]
      exact ⟨by simp [h3], h4⟩
  | @retry n pv c r b x ps out ps2 out2 hp hf h1 h2 h3 ih2 ih3 =>
    by_cases hb : b = []
    · subst hb
      obtain ⟨rfl, rfl⟩ := shortOut_nil h3
      obtain ⟨c', v, q, e, _, _⟩ := shortAt_shape h1
      cases e
      obtain ⟨h4, h5⟩ := ih2 (by simp)
      simp only [List.append_nil]
      rw [← List.singleton_append, app h4, ← List.singleton_append (l := v ++ [q]), app (by simp)]
      exact ⟨by simp, h5⟩
    · obtain ⟨h4, h5⟩ := ih3 hb
      rw [app h4, app hb]
      exact ⟨by simp, h5⟩
  | @miss n pv c t ps out hn h2 ih =>
    by_cases hb : t = []
    · subst hb
      obtain ⟨rfl, rfl⟩ := shortOut_nil h2
      exact ⟨by simp, Iff.rfl⟩
    · obtain ⟨h4, h5⟩ := ih hb
      rw [← List.singleton_append, app h4, ← List.singleton_append (l := t), app hb]
      exact ⟨by simp, h5⟩

/-! ### The loop -/

theorem short_loop : ∀ (R fuel : Nat) (ps : List Passthrough) (pv : Option Char) (t : Text) (em : Bool) (dest : Text),
    t.length < fuel → t.length < R → (Forbids dest.getLast? ↔ Forbids pv) →
    ∃ ps' out, replLoop inlinePassRe (inlinePassReplacer R) fuel ps pv t em dest = .ok (ps ++ ps', dest ++ out) ∧
      ShortOut ps.length pv t ps' out := by
  have app : ∀ {a b : Text}, b ≠ [] → (a ++ b).getLast? = b.getLast? := by
    intro a b hb
    rw [List.getLast?_append]
    cases h : b.getLast? with
    | none => exact absurd (List.getLast?_eq_none_iff.mp h) hb
    | some _ => rfl
  intro R
  induction R with
  | zero => intro fuel ps pv t em dest _ h; omega
  | succ R ihR =>
    intro fuel
    induction fuel with
    | zero => intro ps pv t em dest h; omega
    | succ fuel ih =>
      intro ps pv t em dest hl hR hd
      rw [replLoop]
      rcases matchAt_cases inlinePassRe pv t with ⟨hn, hr⟩ | ⟨z, hz, hm⟩
      · rw [hn]
        cases t with
        | nil => exact ⟨[], [], by simp, .done⟩
        | cons c t =>
          simp only
          obtain ⟨ps', out, e, h⟩ := ih ps (some c) t true (dest ++ [c]) (by simpa using hl)
            (by simp at hR; omega) (by rw [List.getLast?_append]; rfl)
          refine ⟨ps', c :: out, by rw [e]; simp, .miss ?_ h⟩
          intro hp u b x he hx
          obtain ⟨s, hs⟩ := short_rel hp hx
          rw [← he] at hs
          exact hr s hs
      · obtain ⟨hp, c, v, q, x, e, hc, hq, hprev, hv, hx, hrep⟩ := m_short hz
        have ht : t.take (t.length - z.rest.length) = c :: (v ++ [q]) := by
          have := take_used (c :: (v ++ [q])) z.rest
          rw [← e] at this
          exact this
        rw [hm, ht]
        simp only [if_pos (List.cons_ne_nil _ _)]
        have hlast : (c :: (v ++ [q])).getLast? = some q := by rw [← List.cons_append, List.getLast?_append]; rfl
        have hq' := not_forbids_mark hq
        have hlen : z.rest.length + 1 ≤ t.length := by
          rw [e]; simp; omega
        by_cases hf : Forbids pv
        · have hin : (v ++ [q]).length < R := by
            have : (v ++ [q]).length + 1 ≤ t.length := by rw [e]; simp
            omega
          obtain ⟨ps1, out1, e1, h1⟩ := ihR ((v ++ [q]).length + 1) ps none (v ++ [q]) true [] (Nat.lt_succ_self _) hin
            Iff.rfl
          have hrep' : inlinePassReplacer (R + 1) ps ⟨c :: (v ++ [q]), z.caps⟩ dest = .ok (ps ++ ps1, dest ++ [c] ++ out1) := by
            rw [inlinePassReplacer, if_pos (forbids_iff.mpr (hd.mpr hf))]
            simp only [hc]
            unfold replaceAllS
            rw [e1]
            simp [bind, Except.bind]
          rw [hrep']
          simp only
          obtain ⟨h3, h4⟩ := shortOut_last h1 (by simp)
          obtain ⟨ps2, out2, e2, h2⟩ := ih (ps ++ ps1) z.prev z.rest false (dest ++ [c] ++ out1) (by omega) (by omega) (by
            rw [app h3, hprev, h4, List.getLast?_append]; rfl)
          refine ⟨ps1 ++ ps2, c :: out1 ++ out2, by rw [e2]; simp, ?_⟩
          rw [e]
          rw [List.length_append, hprev, ← hlast] at h2
          exact .retry hp hf hx h1 h2
        · rw [hrep R ps dest (fun h => hf (hd.mp h))]
          simp only
          obtain ⟨h3, h4⟩ := shortAt_text_last hx ps.length
          obtain ⟨ps', out, e2, h⟩ := ih (ps ++ x.entries) z.prev z.rest false (dest ++ x.text ps.length) (by omega) (by omega) (by
            rw [app h3, hprev]
            exact ⟨fun h => absurd h h4, fun h => absurd h hq'⟩)
          refine ⟨x.entries ++ ps', x.text ps.length ++ out, by rw [e2]; simp, ?_⟩
          rw [e]
          rw [List.length_append, hprev, ← hlast] at h
          exact .hit hp hf hx h

theorem short_all (ps : List Passthrough) (t : Text) :
    ∃ ps' out, replaceAllS inlinePassRe (inlinePassReplacer (t.length + 1)) ps t = .ok (ps ++ ps', out) ∧
      ShortOut ps.length none t ps' out := by
  obtain ⟨ps', out, e, h⟩ := short_loop (t.length + 1) (t.length + 1) ps none t true [] (Nat.lt_succ_self _) (Nat.lt_succ_self _) Iff.rfl
  exact ⟨ps', out, by unfold replaceAllS; rw [e]; simp, h⟩

/-- Nothing is taken out where no passthrough can begin. -/
theorem shortOut_none {t : Text} (h : ∀ a u b x, t = a ++ (u ++ b) → ¬ ShortAt u b x) (n : Nat) (pv : Option Char) :
    ShortOut n pv t [] t := by
  induction t generalizing pv with
  | nil => exact .done
  | cons c t ih =>
    exact .miss (fun _ u b x e => h [] u b x e) (ih (fun a u b x e => h (c :: a) u b x (by rw [e]; rfl)) _)

theorem shortAt_sniff {u b : Text} {x : TakenOut} (h : ShortAt u b x) : '+' ∈ u ∨ Occurs "-]".toList u := by
  cases h with
  | bare => exact .inl (by simp)
  | bareEscaped => exact .inl (by simp)
  | attrs => exact .inl (by simp)
  | old => exact .inl (by simp)
  | escaped => exact .inl (by simp)
  | @backquotes a b' body _ ha ho hx hq =>
    refine .inr ?_
    rcases ho with ⟨rfl, -⟩ | rfl
    · exact ⟨"[x".toList, '`' :: (body ++ ['`']), by simp⟩
    · exact ⟨'[' :: b' ++ " x".toList, '`' :: (body ++ ['`']), by simp⟩

end Adoc
