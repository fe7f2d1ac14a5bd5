import Verif.Model.Macros
import Verif.Model.Catalog
/-!
# Substitution groups and passthroughs

Model of `parser/src/content/substitution_group.rs` and `parser/src/content/passthroughs.rs`.
-/

namespace Adoc
open Re

/-- `SubstitutionGroup` (content/substitution_group.rs 12-67). -/
inductive Group where
  | normal | title | header | verbatim | pass | none | attributeEntryValue
  | custom (steps : List Step)
deriving DecidableEq, Repr

/-- The six steps of the normal group, in order (content/substitution_group.rs 95-102, 215-222). -/
def normalSteps : List Step :=
  [.specialCharacters, .quotes, .attributeReferences, .characterReplacements, .macros, .postReplacement]

/-- `SubstitutionGroup::steps` (content/substitution_group.rs 213-235). -/
def Group.steps : Group → List Step
  | .normal => normalSteps
  | .title => normalSteps
  | .header => [.specialCharacters, .attributeReferences]
  | .attributeEntryValue => [.specialCharacters, .attributeReferences]
  | .verbatim => [.specialCharacters]
  | .pass => []
  | .none => []
  | .custom s => s

/-- The names of the steps (content/substitution_group.rs 139-149). -/
def stepOfName (t : Text) : Option Step :=
  if t = "c".toList ∨ t = "specialcharacters".toList ∨ t = "specialchars".toList then some .specialCharacters
  else if t = "q".toList ∨ t = "quotes".toList then some .quotes
  else if t = "a".toList ∨ t = "attributes".toList then some .attributeReferences
  else if t = "r".toList ∨ t = "replacements".toList then some .characterReplacements
  else if t = "m".toList ∨ t = "macros".toList then some .macros
  else if t = "p".toList ∨ t = "post_replacements".toList then some .postReplacement
  else none

/-- How an item of a custom list changes the steps (content/substitution_group.rs 111-130). -/
inductive SubMod where
  | append | prepend | subtract | plain
deriving DecidableEq, Repr

/-- The modifier of an item and the item without it (content/substitution_group.rs 111-130). -/
def subMod (step : Text) : SubMod × Text :=
  if startsWith step ['+'] then (.append, step.tail)
  else if endsWith step ['+'] then (.prepend, step.dropLast)
  else if startsWith step ['-'] then (.subtract, step.tail)
  else (.plain, step)

/-- The loop of `from_custom_string` (content/substitution_group.rs 91-160). -/
def customLoop (startFrom : Option Group) : Nat → List Text → List Step → Option (List Step)
  | _, [], steps => some steps
  | count, item :: items, steps =>
    let step := trim item
    if step = "n".toList ∨ step = "normal".toList then customLoop startFrom (count + 1) items normalSteps
    else if step = "v".toList ∨ step = "verbatim".toList then
      customLoop startFrom (count + 1) items [.specialCharacters]
    else
      let (md, name) := subMod step
      let steps := match startFrom with
        | some g => if count = 0 ∧ md ≠ .plain then g.steps else steps
        | none => steps
      match stepOfName name with
      | none => none
      | some s =>
        let steps := match md with
          | .prepend => s :: steps
          | .append => steps ++ [s]
          | .subtract => steps.filter (fun x => x ≠ s)
          | .plain => steps ++ [s]
        customLoop startFrom (count + 1) items steps

/-- `SubstitutionGroup::from_custom_string` (content/substitution_group.rs 74-163). -/
def Group.fromCustomString (startFrom : Option Group) (custom : Text) : Option Group :=
  let c := trim custom
  if c = "none".toList then some .none
  else if c = "n".toList ∨ c = "normal".toList then some .normal
  else if c = "v".toList ∨ c = "verbatim".toList then some .verbatim
  else (customLoop startFrom 0 (splitChar ',' c) []).map .custom

/-- `SubstitutionGroup::override_via_attrlist` (content/substitution_group.rs 189-211). -/
def Group.overrideViaAttrlist (g : Group) (attrlist : Option Attrlist) : Group :=
  match attrlist with
  | Option.none => g
  | some a =>
    let result := match (a.nthAttribute 1).bind ElemAttr.blockStyle with
      | some s => if s = "pass".toList then .none else g
      | Option.none => g
    match (a.namedAttribute "subs".toList).bind (fun x => Group.fromCustomString (some g) x.value) with
    | some g' => g'
    | Option.none => result

/-- `SubstitutionStep::apply` (content/substitution_step.rs 50-81); `todo!()` for callouts. -/
def Step.apply [Uni] (e : Env) (attrlist : Option Attrlist) (t : Text) : Step → Res Text
  | .specialCharacters => applySpecialCharacters e.r t
  | .quotes => applyQuotes e t
  | .attributeReferences => applyAttributes e.store t
  | .characterReplacements => applyCharacterReplacements e.r t
  | .macros => applyMacros e t
  | .postReplacement => applyPostReplacements e attrlist t
  | .callouts => .error .panic

/-- The loop over the steps (content/substitution_group.rs 180-182). -/
def applySteps [Uni] (e : Env) (attrlist : Option Attrlist) : List Step → Text → Res Text
  | [], t => .ok t
  | s :: ss, t => do
    let t' ← s.apply e attrlist t
    applySteps e attrlist ss t'

/-! ## Passthroughs -/

/-- `Passthrough` (content/passthroughs.rs 15-20). -/
structure Passthrough where
  text : Text
  subs : Group
  type : Option QuoteType
  attrlist : Option Text
deriving DecidableEq, Repr

def passStart : Char := Char.ofNat 0x96
def passEnd : Char := Char.ofNat 0x97

/-- What stands for the passthrough with the given index (content/passthroughs.rs 83-85). -/
def passMark (i : Nat) : Text := passStart :: decimal i ++ [passEnd]

/-- `Passthroughs::push` (content/passthroughs.rs 79-87). -/
def passPush (ps : List Passthrough) (p : Passthrough) (dest : Text) : List Passthrough × Text :=
  (ps ++ [p], dest ++ passMark ps.length)

/-- A span between delimiters: `(<d>) (.*?) (<d>)` with groups `n`, `n+1`, `n+2`. -/
def passSpanRe (d : Text) (n : Nat) : Re :=
  cat [cap n (lit d), cap (n + 1) (star false anyChar), cap (n + 2) (lit d)]

/-- `[a-z]` -/
def lowerRe : Re := cls fun c => 'a'.toNat ≤ c.toNat && c.toNat ≤ 'z'.toNat

/-- `INLINE_PASS_MACRO` (content/passthroughs.rs 100-135). -/
def inlinePassMacroRe : Re :=
  alt
    (cat [
      opt (cat [cap 1 (opt (chr '\\')), chr '[', cap 2 (plus (cls fun c => c != '[' && c != ']')), chr ']']),
      cap 3 (upTo (chr '\\') 2),
      oneOf [passSpanRe "+++".toList 4, passSpanRe "++".toList 7, passSpanRe "$$".toList 10]])
    (cat [cap 13 (opt (chr '\\')), lit "pass:".toList,
      opt (cap 14 (cat [plus lowerRe,
        star true (cat [chr ',', plus (cls fun c => ('a'.toNat ≤ c.toNat && c.toNat ≤ 'z'.toNat) || c == '-')])])),
      chr '[', bracketed 15, chr ']'])

/-- The attribute list text of a passthrough with the suffix `x-`, which requests the old behaviour
(content/passthroughs.rs 225-233, 372-378). -/
def oldBehavior (a : Text) : Text × Bool :=
  if a = "x-".toList then ([], true)
  else if endsWith a " x-".toList then (a.take (a.length - 3), true)
  else (a, false)

/-- `InlinePassMacroReplacer::handle_quoted_text` (content/passthroughs.rs 190-291). -/
def handleQuotedText (ps : List Passthrough) (mt : Match) (qi : Nat) (dest : Text) : Res (List Passthrough × Text) := do
  let escapeCount := ((mt.get 3).getD []).length
  let boundary := ((mt.get 4).or ((mt.get 7).or (mt.get 10))).getD []
  let quotedText := ((mt.get 5).or ((mt.get 8).or (mt.get 11))).getD []
  let body := (mt.get qi).getD []
  let group := if boundary = "+++".toList then Group.none else Group.verbatim
  match mt.get 2 with
  | some a => do
    let c1 ← mt.at! 1
    if escapeCount > 0 then do
      let d ← mt.at! (qi - 1)
      let q ← mt.at! qi
      .ok (ps, dest ++ c1 ++ ['['] ++ a ++ [']'] ++ List.replicate (escapeCount - 1) '\\' ++ d ++ q ++ d)
    else if c1 = ['\\'] then
      .ok (passPush ps ⟨body, group, none, none⟩ (dest ++ ['['] ++ a ++ [']']))
    else if boundary = "++".toList then
      let (a', old) := oldBehavior a
      if old then .ok (passPush ps ⟨body, .normal, some .monospaced, some a'⟩ dest)
      else .ok (passPush ps ⟨body, group, some .unquoted, some a'⟩ dest)
    else .ok (passPush ps ⟨body, group, some .unquoted, some a⟩ dest)
  | none =>
    if escapeCount > 0 then
      .ok (ps, dest ++ List.replicate (escapeCount - 1) '\\' ++ boundary ++ quotedText ++ boundary)
    else .ok (passPush ps ⟨body, group, none, none⟩ dest)

/-- `InlinePassMacroReplacer::replace_append` (content/passthroughs.rs 140-187). -/
def passMacroReplacer (ps : List Passthrough) (mt : Match) (dest : Text) : Res (List Passthrough × Text) :=
  if (mt.get 4).isSome then handleQuotedText ps mt 5 dest
  else if (mt.get 7).isSome then handleQuotedText ps mt 8 dest
  else if (mt.get 10).isSome then handleQuotedText ps mt 11 dest
  else do
    let body ← mt.at! 15
    if (mt.get 13).getD [] ≠ [] then
      .ok (ps, dest ++ "pass:".toList ++ (mt.get 14).getD [] ++ ['['] ++ body ++ [']'])
    else
      let subs := ((mt.get 14).bind (Group.fromCustomString none)).getD .none
      .ok (passPush ps ⟨replaceStr body ['\\', ']'] [']'], subs, none, none⟩ dest)

/-- `(\S(?:.*?\S)??)` -/
def passBodyRe (n : Nat) : Re := cap n (cat [nonSpace, optLazy (cat [star false anyChar, nonSpace])])

/-- `INLINE_PASS` (content/passthroughs.rs 308-336). -/
def inlinePassRe : Re :=
  cat [startHalf,
    oneOf [
      cat [chr '[',
        cap 1 (alt (lit "x-".toList) (cat [plus (cls fun c => c != '[' && c != ']'), lit " x-".toList])),
        chr ']', chr '`', passBodyRe 2, chr '`'],
      cat [chr '[', cap 3 (plus (cls fun c => c != '[' && c != ']')), chr ']', cap 4 (upTo (chr '\\') 2),
        chr '+', passBodyRe 5, chr '+'],
      cat [opt (cap 6 (chr '\\')), chr '+', passBodyRe 7, chr '+']],
    endHalf]

/-- `InlinePassReplacer::replace_append` (content/passthroughs.rs 341-431).  The nested `replace_all` works on a
shorter text; the first argument bounds the nesting. -/
def inlinePassReplacer [Uni] : Nat → List Passthrough → Match → Text → Res (List Passthrough × Text)
  | 0, _, _, _ => .error .fuel
  | fuel + 1, ps, mt, dest =>
    if endsWith dest ['\\'] || endsWith dest [':'] || endsWith dest [';'] then
      match mt.text with
      | [] => .error .panic
      | c :: rem => do
        if c.utf8Size ≠ 1 then .error .panic
        else
          let (ps', new) ← replaceAllS inlinePassRe (inlinePassReplacer fuel) ps rem
          .ok (ps', dest ++ [c] ++ new)
    else
      let escapeCount := (((mt.get 4).or (mt.get 6)).getD []).length
      let mark := if (mt.get 2).isSome then '`' else '+'
      let quotedText := ((mt.get 2).or ((mt.get 5).or (mt.get 7))).getD []
      match (mt.get 1).or (mt.get 3) with
      | some a =>
        if escapeCount > 0 then
          .ok (ps, dest ++ ['['] ++ a ++ [']'] ++ List.replicate (escapeCount - 1) '\\' ++ [mark] ++ quotedText ++ [mark])
        else
          let (a', old) := oldBehavior a
          .ok (passPush ps ⟨quotedText, if old = true ∧ mark ≠ '`' then .normal else .verbatim,
            some (if old then .monospaced else .unquoted), some a'⟩ dest)
      | none =>
        if escapeCount > 0 then
          .ok (ps, dest ++ List.replicate (escapeCount - 1) '\\' ++ [mark] ++ quotedText ++ [mark])
        else .ok (passPush ps ⟨quotedText, .verbatim, none, none⟩ dest)

/-- `Passthroughs::extract_from` (content/passthroughs.rs 28-63). -/
def extractPassthroughs [Uni] (t : Text) : Res (List Passthrough × Text) := do
  let (ps, t) ←
    if containsSub t "++".toList || containsSub t "$$".toList || containsSub t "ss:".toList then
      replaceAllS inlinePassMacroRe passMacroReplacer [] t
    else .ok ([], t)
  if t.contains '+' || containsSub t "-]".toList then
    replaceAllS inlinePassRe (inlinePassReplacer (t.length + 1)) ps t
  else .ok (ps, t)

/-- `PASS_WITH_INDEX` (content/passthroughs.rs 294-297). -/
def passWithIndexRe [Uni] : Re := cat [chr passStart, cap 1 (plus (cls Uni.isNd)), chr passEnd]

/-- `str::parse::<usize>().unwrap_or_default()` on a 64-bit machine, for a non-empty string of `\d` characters: other
digits than the ASCII ones and numbers that are too large give 0. -/
def parseIndex (t : Text) : Nat :=
  if t.all isAsciiDigit then
    let n := t.foldl (fun n c => n * 10 + (c.toNat - 48)) 0
    if n < 2 ^ 64 then n else 0
  else 0

mutual

/-- `SubstitutionGroup::apply` (content/substitution_group.rs 165-187).  The recursion through the restored
passthroughs need not end (`C31_recursion_diverges`); the first argument bounds its depth. -/
def Group.apply [Uni] : Nat → Env → Group → Option Attrlist → Text → Res Text
  | 0, _, _, _, _ => .error .fuel
  | fuel + 1, e, g, attrlist, t =>
    if g.steps.contains .macros || g = .header then do
      let (ps, t) ← extractPassthroughs t
      let t ← applySteps e attrlist g.steps t
      if ps = [] then .ok t else restorePassthroughs fuel e ps t
    else applySteps e attrlist g.steps t

/-- `Passthroughs::restore_to` and `PassthroughRestoreReplacer` (content/passthroughs.rs 65-77, 436-487). -/
def restorePassthroughs [Uni] : Nat → Env → List Passthrough → Text → Res Text
  | 0, _, _, _ => .error .fuel
  | fuel + 1, e, ps, t =>
    replaceAll passWithIndexRe (fun mt => do
      let digits ← mt.at! 1
      let index := parseIndex digits
      match ps[index]? with
      | none => .ok ("(INTERNAL ERROR: Unresolved passthrough index ".toList ++ decimal index ++ [')'])
      | some p => do
        let x ← Group.apply fuel e p.subs none p.text
        let x ← match p.type with
          | none => .ok x
          | some ty => do
            let al ← match p.attrlist with
              | some a => (inlineAttrlist e.store a).map some
              | none => .ok none
            .ok (e.r.quoted ty .unconstrained al (al.bind Attrlist.id) x)
        if x.contains passStart then restorePassthroughs fuel e ps x else .ok x) t

end

end Adoc
