import Verif.Spec.Pass
import Verif.Spec.InlineMacros
import Verif.Model.SubGroup
/-!
# Specification: what becomes of every text with passthroughs

First the passthroughs written with `+++`, `++`, `$$` and `pass:` are taken out, then those written with single marks; each
leaves a placeholder with its number.  Then the steps of the substitution are made.  At the end each placeholder is replaced
by what the passthrough with its number has become.  `Passthrough` is what is remembered of one: its text, how that is to be
substituted, and the format and attributes in which it is to be rendered, if any.
-/

namespace Adoc.Spec
open Adoc

/-- What becomes of a piece of text: it stays, possibly without a backslash; or it is taken out, possibly behind something that
stays. -/
inductive TakenOut where
  | stays (t : Text)
  | out (front : Text) (p : Passthrough)

/-- The text that takes the place of the piece, when `n` passthroughs have been taken out before. -/
def TakenOut.text (n : Nat) : TakenOut → Text
  | .stays t => t
  | .out front _ => front ++ placeholder n

/-- The passthroughs that are taken out. -/
def TakenOut.entries : TakenOut → List Passthrough
  | .stays _ => []
  | .out _ p => [p]

/-! ### The longer marks and `pass:` -/

/-- A body between two marks `d`, up to the first place where the mark occurs again. -/
def Nearest (d body behind : Text) : Prop :=
  Shortest (fun _ => True) (Closes d fun _ => True) body (d ++ behind)

/-- Two of three pluses are a mark only when three are none. -/
inductive Marked : Text → Text → Text → Prop
  | triple {body behind} : Nearest "+++".toList body behind → Marked "+++".toList body behind
  | double {body behind} : (¬ ∃ b r, "++".toList ++ body ++ "++".toList ++ behind = "+++".toList ++ b ++ "+++".toList ++ r) →
      Nearest "++".toList body behind → Marked "++".toList body behind
  | dollars {body behind} : Nearest "$$".toList body behind → Marked "$$".toList body behind

/-- The text between triple pluses is left alone; in the others special characters are replaced. -/
def TakenOut.group (d : Text) : Group := if d = "+++".toList then .none else .verbatim

/-- What stands between the brackets in front of a passthrough. -/
def Attrs (a : Text) : Prop := a ≠ [] ∧ '[' ∉ a ∧ ']' ∉ a

/-- The attributes of a passthrough in the old style, `x-` or with ` x-` at the end, and what there is besides that. -/
def OldStyle (a b : Text) : Prop := (a = "x-".toList ∧ b = []) ∨ a = b ++ " x-".toList

/-- What is remembered of a passthrough with attributes: between two pluses, the old style is monospaced and substituted as
usual. -/
inductive WithAttrs : Text → Text → Text → Passthrough → Prop
  | old {a b body} : OldStyle a b → WithAttrs "++".toList a body ⟨body, .normal, some .monospaced, some b⟩
  | new {d a body} : ¬ (d = "++".toList ∧ ∃ b, OldStyle a b) →
      WithAttrs d a body ⟨body, TakenOut.group d, some .unquoted, some a⟩

/-- A comma-separated list of names of substitutions: small letters, and hyphens but for the first. -/
def StepNames (t : Text) : Prop :=
  ∃ (w : Text) (ws : List Text), t = w ++ ws.flatMap (',' :: ·) ∧ (w ≠ [] ∧ ∀ c ∈ w, 'a'.toNat ≤ c.toNat ∧ c.toNat ≤ 'z'.toNat) ∧
    ∀ v ∈ ws, v ≠ [] ∧ ∀ c ∈ v, ('a'.toNat ≤ c.toNat ∧ c.toNat ≤ 'z'.toNat) ∨ c = '-'

/-- The substitutions for a `pass:` macro: none, when none are named or some name is unknown. -/
def passGroup (names : Text) : Group := if names = [] then .none else (Group.fromCustomString none names).getD .none

/-- A piece of text that is a passthrough, and what becomes of it.  One or two backslashes in front of the mark, or one in
front of `pass:`, escape it: it stays, with one backslash less.  A backslash in front of the attributes makes these stay. -/
inductive LongAt : Text → Text → TakenOut → Prop
  | bare {d body behind} : Marked d body behind →
      LongAt (d ++ body ++ d) behind (.out [] ⟨body, TakenOut.group d, none, none⟩)
  | bareEscaped {d body behind k} : Marked d body behind → k < 2 →
      LongAt ('\\' :: List.replicate k '\\' ++ d ++ body ++ d) behind (.stays (List.replicate k '\\' ++ d ++ body ++ d))
  | attrs {a d body behind p} : Attrs a → Marked d body behind → WithAttrs d a body p →
      LongAt ('[' :: a ++ [']'] ++ d ++ body ++ d) behind (.out [] p)
  | attrsEscaped {a d body behind} : Attrs a → Marked d body behind →
      LongAt ('\\' :: '[' :: a ++ [']'] ++ d ++ body ++ d) behind (.out ('[' :: a ++ [']']) ⟨body, TakenOut.group d, none, none⟩)
  | markEscaped {esc a d body behind k} : (esc = [] ∨ esc = ['\\']) → Attrs a → Marked d body behind → k < 2 →
      LongAt (esc ++ '[' :: a ++ [']'] ++ '\\' :: List.replicate k '\\' ++ d ++ body ++ d) behind
        (.stays (esc ++ '[' :: a ++ [']'] ++ List.replicate k '\\' ++ d ++ body ++ d))
  | pass {names body behind} : (names = [] ∨ StepNames names) → Enclosed body →
      LongAt ("pass:".toList ++ names ++ '[' :: body ++ [']']) behind (.out [] ⟨unescape ']' body, passGroup names, none, none⟩)
  | passEscaped {names body behind} : (names = [] ∨ StepNames names) → Enclosed body →
      LongAt ('\\' :: "pass:".toList ++ names ++ '[' :: body ++ [']']) behind
        (.stays ("pass:".toList ++ names ++ '[' :: body ++ [']']))

/-- The passthroughs of the first kind are taken out from the left to the right, `n` having been taken out before. -/
inductive LongOut : Nat → Text → List Passthrough → Text → Prop
  | done {n} : LongOut n [] [] []
  | hit {n piece behind x ps out} : LongAt piece behind x → LongOut (n + x.entries.length) behind ps out →
      LongOut n (piece ++ behind) (x.entries ++ ps) (x.text n ++ out)
  | miss {n c t ps out} : (∀ piece behind x, c :: t = piece ++ behind → ¬ LongAt piece behind x) → LongOut n t ps out →
      LongOut n (c :: t) ps (c :: out)

/-! ### Single marks -/

/-- Whole words between two marks: no white space at the ends, and no word goes on behind the mark. -/
def Quoted [Uni] (mark : Char) (body behind : Text) : Prop :=
  Shortest Solid (Closes [mark] WordEnds) body (mark :: behind)

/-- A piece of text that is a passthrough with single marks, and what becomes of it.  Between pluses, the old style is
substituted as usual. -/
inductive ShortAt [Uni] : Text → Text → TakenOut → Prop
  | bare {body behind} : Quoted '+' body behind → ShortAt ('+' :: body ++ ['+']) behind (.out [] ⟨body, .verbatim, none, none⟩)
  | bareEscaped {body behind} : Quoted '+' body behind →
      ShortAt ('\\' :: '+' :: body ++ ['+']) behind (.stays ('+' :: body ++ ['+']))
  | attrs {a body behind} : Attrs a → (¬ ∃ b, OldStyle a b) → Quoted '+' body behind →
      ShortAt ('[' :: a ++ [']', '+'] ++ body ++ ['+']) behind (.out [] ⟨body, .verbatim, some .unquoted, some a⟩)
  | old {a b body behind} : Attrs a → OldStyle a b → Quoted '+' body behind →
      ShortAt ('[' :: a ++ [']', '+'] ++ body ++ ['+']) behind (.out [] ⟨body, .normal, some .monospaced, some b⟩)
  | escaped {a body behind k} : Attrs a → Quoted '+' body behind → k < 2 →
      ShortAt ('[' :: a ++ ']' :: '\\' :: List.replicate k '\\' ++ '+' :: body ++ ['+']) behind
        (.stays ('[' :: a ++ ']' :: List.replicate k '\\' ++ '+' :: body ++ ['+']))
  | backquotes {a b body behind} : Attrs a → OldStyle a b → a ≠ " x-".toList → Quoted '`' body behind →
      ShortAt ('[' :: a ++ [']', '`'] ++ body ++ ['`']) behind (.out [] ⟨body, .verbatim, some .monospaced, some b⟩)

/-- Where such a passthrough may not begin: within a word. -/
def NotInWord [Uni] (before : Option Char) : Prop := ∀ c, before = some c → Uni.isWord c = false

/-- What keeps the passthrough behind it from being one. -/
def Forbids (before : Option Char) : Prop := before = some '\\' ∨ before = some ':' ∨ before = some ';'

/-- The passthroughs of the second kind are taken out from the left to the right, `n` having been taken out before.  Behind a
backslash, colon or semicolon the first character of the piece is kept, and the rest of the piece is treated as a text of its
own. -/
inductive ShortOut [Uni] : Nat → Option Char → Text → List Passthrough → Text → Prop
  | done {n before} : ShortOut n before [] [] []
  | hit {n before piece behind x ps out} : NotInWord before → ¬ Forbids before → ShortAt piece behind x →
      ShortOut (n + x.entries.length) piece.getLast? behind ps out →
      ShortOut n before (piece ++ behind) (x.entries ++ ps) (x.text n ++ out)
  | retry {n before c rest behind x ps out ps' out'} : NotInWord before → Forbids before → ShortAt (c :: rest) behind x →
      ShortOut n none rest ps out → ShortOut (n + ps.length) (c :: rest).getLast? behind ps' out' →
      ShortOut n before (c :: rest ++ behind) (ps ++ ps') (c :: out ++ out')
  | miss {n before c t ps out} :
      (NotInWord before → ∀ piece behind x, c :: t = piece ++ behind → ¬ ShortAt piece behind x) →
      ShortOut n (some c) t ps out → ShortOut n before (c :: t) ps (c :: out)

/-- The passthroughs of a text, and what remains of the text. -/
def Extracted [Uni] (t : Text) (ps : List Passthrough) (out : Text) : Prop :=
  ∃ ps₁ u ps₂, LongOut 0 t ps₁ u ∧ ShortOut ps₁.length none u ps₂ out ∧ ps = ps₁ ++ ps₂

/-! ### The way back -/

/-- The number written with the digits.  Digits of other scripts, and numbers from 2 to the power of 64 on, count as zero. -/
def Numbered (digits : Text) (n : Nat) : Prop :=
  let v := digits.foldl (fun n c => n * 10 + (c.toNat - '0'.toNat)) 0
  n = if (∀ c ∈ digits, '0'.toNat ≤ c.toNat ∧ c.toNat ≤ '9'.toNat) ∧ v < 2 ^ 64 then v else 0

/-- A piece of text that looks like a placeholder. -/
def PlaceholderAt [Uni] (piece : Text) (n : Nat) : Prop :=
  ∃ digits, piece = markStart :: digits ++ [markEnd] ∧ digits ≠ [] ∧ (∀ c ∈ digits, Uni.isNd c = true) ∧ Numbered digits n

/-- How what has become of the text of a passthrough is rendered. -/
def ShownAs [Uni] (e : Env) (p : Passthrough) (x y : Text) : Prop :=
  match p.type, p.attrlist with
  | none, _ => y = x
  | some ty, none => y = e.r.quoted ty .unconstrained none none x
  | some ty, some a => ∃ l, inlineAttrlist e.store a = .ok l ∧ y = e.r.quoted ty .unconstrained (some l) l.id x

/-- Whether passthroughs are taken out of texts that are substituted in this way. -/
def TakesOut (g : Group) : Prop := Step.macros ∈ g.steps ∨ g = .header

/-! What follows is said for any account `S` of what the steps make of a text, and any account `F` of the texts on which they
panic. -/

mutual

/-- What a text becomes when it is substituted. -/
inductive SubstitutedBy [Uni] (S : Option Attrlist → List Step → Text → Text → Prop) (e : Env) :
    Group → Option Attrlist → Text → Text → Prop
  | plain {g al t out} : ¬ TakesOut g → S al g.steps t out → SubstitutedBy S e g al t out
  | none {g al t u out} : TakesOut g → Extracted t [] u → S al g.steps u out → SubstitutedBy S e g al t out
  | some {g al t ps u v out} : TakesOut g → Extracted t ps u → ps ≠ [] → S al g.steps u v →
      RestoredBy S e ps v out → SubstitutedBy S e g al t out

/-- Each placeholder is replaced by what has become of the passthrough with that number, in which placeholders are replaced in
the same way; a message stands for a passthrough that does not exist. -/
inductive RestoredBy [Uni] (S : Option Attrlist → List Step → Text → Text → Prop) (e : Env) :
    List Passthrough → Text → Text → Prop
  | done {ps} : RestoredBy S e ps [] []
  | miss {ps c t out} : (∀ piece behind n, c :: t = piece ++ behind → ¬ PlaceholderAt piece n) → RestoredBy S e ps t out →
      RestoredBy S e ps (c :: t) (c :: out)
  | unknown {ps piece n t out} : PlaceholderAt piece n → ps[n]? = none → RestoredBy S e ps t out →
      RestoredBy S e ps (piece ++ t) ("(INTERNAL ERROR: Unresolved passthrough index ".toList ++ decimal n ++ [')'] ++ out)
  | known {ps piece n p x y z t out} : PlaceholderAt piece n → ps[n]? = some p → SubstitutedBy S e p.subs none p.text x →
      ShownAs e p x y → RestoredBy S e ps y z → RestoredBy S e ps t out → RestoredBy S e ps (piece ++ t) (z ++ out)

end

mutual

/-- The substitution of a text panics: a step does, or one does when the passthroughs are put back. -/
inductive PanicsBy [Uni] (S : Option Attrlist → List Step → Text → Text → Prop) (F : Option Attrlist → List Step → Text → Prop)
    (e : Env) : Group → Option Attrlist → Text → Prop
  | plain {g al t} : ¬ TakesOut g → F al g.steps t → PanicsBy S F e g al t
  | steps {g al t ps u} : TakesOut g → Extracted t ps u → F al g.steps u → PanicsBy S F e g al t
  | back {g al t ps u v} : TakesOut g → Extracted t ps u → ps ≠ [] → S al g.steps u v → BackPanicsBy S F e ps v →
      PanicsBy S F e g al t

/-- Putting the passthroughs back panics, at the first placeholder whose passthrough panics: when it is itself substituted, or
when placeholders in it are replaced. -/
inductive BackPanicsBy [Uni] (S : Option Attrlist → List Step → Text → Text → Prop) (F : Option Attrlist → List Step → Text → Prop)
    (e : Env) : List Passthrough → Text → Prop
  | miss {ps c t} : (∀ piece behind n, c :: t = piece ++ behind → ¬ PlaceholderAt piece n) → BackPanicsBy S F e ps t →
      BackPanicsBy S F e ps (c :: t)
  | unknown {ps piece n t} : PlaceholderAt piece n → ps[n]? = none → BackPanicsBy S F e ps t → BackPanicsBy S F e ps (piece ++ t)
  | here {ps piece n p t} : PlaceholderAt piece n → ps[n]? = some p → PanicsBy S F e p.subs none p.text →
      BackPanicsBy S F e ps (piece ++ t)
  | within {ps piece n p x y t} : PlaceholderAt piece n → ps[n]? = some p → SubstitutedBy S e p.subs none p.text x →
      ShownAs e p x y → BackPanicsBy S F e ps y → BackPanicsBy S F e ps (piece ++ t)
  | behind {ps piece n p x y z t} : PlaceholderAt piece n → ps[n]? = some p → SubstitutedBy S e p.subs none p.text x →
      ShownAs e p x y → RestoredBy S e ps y z → BackPanicsBy S F e ps t → BackPanicsBy S F e ps (piece ++ t)

end

/-- What a text becomes, by the steps of the program. -/
abbrev Substituted [Uni] (e : Env) := SubstitutedBy (fun al ss t out => applySteps e al ss t = .ok out) e

/-- What a text becomes when the passthroughs are put back, by the steps of the program. -/
abbrev Restored [Uni] (e : Env) := RestoredBy (fun al ss t out => applySteps e al ss t = .ok out) e

/-- The substitution panics, by the steps of the program. -/
abbrev SubstPanics [Uni] (e : Env) :=
  PanicsBy (fun al ss t out => applySteps e al ss t = .ok out) (fun al ss t => applySteps e al ss t = .error .panic) e

/-- Putting the passthroughs back panics, by the steps of the program. -/
abbrev BackPanics [Uni] (e : Env) :=
  BackPanicsBy (fun al ss t out => applySteps e al ss t = .ok out) (fun al ss t => applySteps e al ss t = .error .panic) e

end Adoc.Spec
