import Verif.Lemmas.Bound
import Verif.Lemmas.Parse
/-!
# C21: parsing terminates

The claim is false: there are short texts for which `parse` never returns.  A loop of the code is modelled by a function
with a bound on the number of iterations; `.error .fuel` says that the bound was reached.  A text for which that is the
result for every bound is one for which the code runs for ever.
-/

namespace Adoc.Props
open Adoc Adoc.Spec Span

/-- The result does not depend on the bound: if a parse ends at all, it ends after at most as many iterations of each loop
over blocks as the text has characters, and one more, and the nesting of blocks is not deeper either. -/
theorem C21_bound [Uni] {e : BlockEnv} {hr : Renderer} {n : Nat} {p : ParserState} {text : Text}
    (h : Document.parse e hr n p text ≠ .error .fuel) :
    ∀ m, text.length < m → Document.parse e hr m p text = Document.parse e hr n p text := by
  intro m hm
  unfold Document.parse at h ⊢
  simp only [bind, Except.bind] at h ⊢
  cases h1 : Header.parse (fun s t => e.subs s .header none t) hr p.store (Span.new text) with
  | error x => rw [h1] at h
  | ok y =>
    obtain ⟨mi, hw, store⟩ := y
    rw [h1] at h
    simp only at h ⊢
    have hl : mi.after.discardEmptyLines.data.length ≤ text.length := by
      refine Nat.le_trans (suf_len (discardEmptyLines_suf _)) ?_
      obtain ⟨i, j, _, e⟩ := header_after h1
      rw [e, takeN_data, dropN_data]
      show (List.take _ (List.drop _ text)).length ≤ _
      simp only [List.length_take, List.length_drop]; omega
    have hb : parseBlocksUntil e n .never { p with store := store, sectnumlevels := sectnumlevelsOf store } mi.after ≠
        .error .fuel := by
      intro hx; rw [hx] at h; exact h rfl
    have h2 := blocksLoop_bound _ _ _ hb
    have h3 := blocksLoop_mono _ _ _ (by rw [h2]; exact hb) m (by simp only; omega)
    have h4 : parseBlocksUntil e m .never { p with store := store, sectnumlevels := sectnumlevelsOf store } mi.after =
        parseBlocksUntil e n .never { p with store := store, sectnumlevels := sectnumlevelsOf store } mi.after :=
      h3.trans h2
    rw [h4]

/-- Non-vacuity: a parse that ends. -/
example : letI := asciiUni
    Document.parse ((Config.default .checked).env 5) Html.renderer 9 ParserState.default.fresh "== S\n\na\n".toList ≠
      .error .fuel := by
  letI := asciiUni
  have h : (Document.parse ((Config.default .checked).env 5) Html.renderer 9 ParserState.default.fresh
    "== S\n\na\n".toList).toOption.isSome = true := by decide +kernel
  intro hx
  rw [hx] at h
  cases h

/-- Without blocks in front, the loop over the blocks of a document never ends. -/
private def Forever [Uni] (e : BlockEnv) (p : ParserState) (s : Span) : Prop :=
  ∀ n bs ws sw, blocksLoop e n .never ⟨bs, s, ws, sw, p⟩ = .error .fuel

private theorem forever_stuck [Uni] {e : BlockEnv} {p : ParserState} {s : Span} (hne : s.data ≠ [])
    (h : ∃ ws p', parseBlock e (nestedCall e 0) p s = .ok (none, ws, p')) : Forever e p s := by
  obtain ⟨ws, p', h⟩ := h
  intro n bs ws sw
  exact stuck_forever hne h n .never .never [] _ rfl rfl rfl

private theorem forever_step [Uni] {e : BlockEnv} {p : ParserState} {s : Span} (s' : Span) (P : ParserState → Prop)
    (hne : s.data ≠ []) (h : ∀ nested, ∃ b ws p', parseBlock e nested p s = .ok (some ⟨b, s'⟩, ws, p') ∧ P p')
    (hf : ∀ p, P p → Forever e p s') : Forever e p s := by
  intro n bs ws sw
  cases n with
  | zero => rfl
  | succ n =>
    obtain ⟨b, ws', p', h1, h2⟩ := h (nestedCall e n)
    rw [blocksLoop_succ _ _ _ _ hne]
    show Except.bind (Except.ok (false, Stop.never, [])) _ = _
    simp only [Except.bind, Bool.false_eq_true, if_false, h1]
    exact hf _ h2 _ _ _ _

private theorem document_forever [Uni] {e : BlockEnv} {hr : Renderer} {p : ParserState} {text : Text} (s : Span)
    (h1 : ∃ mi hw, Header.parse (fun s t => e.subs s .header none t) hr p.store (Span.new text) = .ok (mi, hw, p.store) ∧
      mi.after.discardEmptyLines = s)
    (h2 : Forever e { p with store := p.store, sectnumlevels := sectnumlevelsOf p.store } s) :
    ∀ n, Document.parse e hr n p text = .error .fuel := by
  intro n
  obtain ⟨mi, hw, h1, rfl⟩ := h1
  unfold Document.parse
  simp only [bind, Except.bind]
  rw [h1]
  simp only
  have : parseBlocksUntil e n .never { p with store := p.store, sectnumlevels := sectnumlevelsOf p.store } mi.after =
    .error .fuel := h2 n [] [] []
  rw [this]

/-- Texts without any text to substitute on which `parse` never returns. -/
def hanging : List Text :=
  ["[[foo]]".toList, "[[foo]]\n\npara".toList, "[literal]".toList, "[literal]\n\npara".toList, "\r\r\n".toList,
    [Char.ofNat 0xa0]]

/-- There are texts on which parsing never ends: a lone block anchor, an anchor in front of a blank line, the style
`literal` without a block behind it, a line of white space other than spaces and tabs.  This is so for every renderer, every
set of attributes and every configuration. -/
theorem C21_diverges : letI := asciiUni
    ∀ t ∈ hanging, ∀ e hr p n, Document.parse e hr n p t = .error .fuel := by
  letI := asciiUni
  intro t ht e hr p
  unfold hanging at ht
  simp only [List.mem_cons, List.not_mem_nil, or_false] at ht
  rcases ht with rfl | rfl | rfl | rfl | rfl | rfl
  · exact document_forever (Span.new "[[foo]]".toList) ⟨_, _, rfl, rfl⟩ (forever_stuck nofun ⟨_, _, rfl⟩)
  · exact document_forever (Span.new "[[foo]]\n\npara".toList) ⟨_, _, rfl, rfl⟩ (forever_stuck nofun ⟨_, _, rfl⟩)
  · exact document_forever (Span.new "[literal]".toList) ⟨_, _, rfl, rfl⟩ (forever_stuck nofun ⟨_, _, rfl⟩)
  · exact document_forever (Span.new "[literal]\n\npara".toList) ⟨_, _, rfl, rfl⟩ (forever_stuck nofun ⟨_, _, rfl⟩)
  · exact document_forever (Span.new "\r\r\n".toList) ⟨_, _, rfl, rfl⟩ (forever_stuck nofun ⟨_, _, rfl⟩)
  · exact document_forever (Span.new [Char.ofNat 0xa0]) ⟨_, _, rfl, rfl⟩ (forever_stuck nofun ⟨_, _, rfl⟩)

private theorem parse_forever [Uni] {c : Config} {p : ParserState} {text : Text} (hn : noDirectives text c.primary = true)
    (h : ∀ k n, Document.parse (c.env (k + 1)) c.renderer n p.fresh text = .error .fuel)
    (h0 : Document.parse (c.env 0) c.renderer 0 p.fresh text = .error .fuel) : ∀ n, c.parse n p text = .error .fuel := by
  intro n
  unfold Config.parse parseDocument preprocess
  rw [if_pos hn]
  simp only [bind, Except.bind]
  cases n with
  | zero => rw [h0]
  | succ n => rw [h]

/-- Ordinary texts on which `parse` never returns. -/
def hangingToo : List Text := ["----\nx\n----\n\n".toList, "a\n\n----\nx\n----\n\n".toList]

section
attribute [local instance] asciiUni

private def startState (n : Nat) : ParserState := { ParserState.default.fresh with sectnumlevels := n }

private theorem listing_forever (a : Arith) (k n : Nat) :
    Forever ((Config.default a).env (k + 1)) (startState n) (Span.new "----\nx\n----\n\n".toList) :=
  forever_step ⟨['\n'], 4, 1, 12⟩ (fun _ => True) nofun (fun _ => ⟨_, _, _, rfl, trivial⟩)
    fun _ _ => forever_stuck nofun ⟨_, _, rfl⟩

private theorem listing_forever' (a : Arith) (k n : Nat) :
    Forever ((Config.default a).env (k + 1)) (startState n) ⟨"----\nx\n----\n\n".toList, 3, 1, 3⟩ :=
  forever_step ⟨['\n'], 6, 1, 15⟩ (fun _ => True) nofun (fun _ => ⟨_, _, _, rfl, trivial⟩)
    fun _ _ => forever_stuck nofun ⟨_, _, rfl⟩

private theorem two_forever (a : Arith) (k n : Nat) :
    Forever ((Config.default a).env (k + 1)) (startState n) (Span.new "a\n\n----\nx\n----\n\n".toList) :=
  forever_step ⟨"----\nx\n----\n\n".toList, 3, 1, 3⟩ (fun p => p = startState n) nofun (fun _ => ⟨_, _, startState n, rfl, rfl⟩)
    fun p hp => by subst hp; exact listing_forever' a k n

end

/-- Parsing with the default parser never ends either when the last block is a listing that is followed
by a blank line. -/
theorem C21_diverges_ordinary (a : Arith) : letI := asciiUni
    ∀ t ∈ hangingToo, ∀ n, (Config.default a).parse n .default t = .error .fuel := by
  letI := asciiUni
  intro t ht
  unfold hangingToo at ht
  simp only [List.mem_cons, List.not_mem_nil, or_false] at ht
  rcases ht with rfl | rfl
  · refine parse_forever rfl ?_ rfl
    exact fun k => document_forever (Span.new "----\nx\n----\n\n".toList) ⟨_, _, rfl, rfl⟩ (listing_forever a k _)
  · refine parse_forever rfl ?_ rfl
    exact fun k => document_forever (Span.new "a\n\n----\nx\n----\n\n".toList) ⟨_, _, rfl, rfl⟩ (two_forever a k _)

end Adoc.Props
