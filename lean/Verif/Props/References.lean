import Verif.Lemmas.Requests
import Verif.Lemmas.Parse
import Verif.Props.Steps
import Verif.Props.Header
import Verif.Model.IsBlock
/-!
# C71: attributes can be used under the names they are defined with
-/

set_option linter.unusedSectionVars false
namespace Adoc.Props
open Adoc Adoc.Spec

section
variable [Uni]

/-- A capital letter of ASCII. -/
def Capital (c : Char) : Prop := 'A' ≤ c ∧ c ≤ 'Z'

instance (c : Char) : Decidable (Capital c) := inferInstanceAs (Decidable (_ ∧ _))

/-- Texts in lower case have no capital letters.  (This is so for the tables of Unicode.) -/
def Lowers : Prop := ∀ t : Text, ∀ c ∈ Uni.toLowercase t, ¬ Capital c

omit [Uni] in
private theorem lower_id {c : Char} (h : ¬ Capital c) : c.toLower = c := by
  unfold Char.toLower
  split
  · rename_i hc
    exact absurd ⟨hc.1, hc.2⟩ h
  · rfl

omit [Uni] in
private theorem refName_ascii {n : Text} (h : RefName n) : ∀ c ∈ n, c.toNat < 128 := by
  obtain ⟨c, cs, rfl, h1, h2⟩ := h
  have alnum : ∀ {c : Char}, isAsciiAlnum c = true → c.toNat < 128 := by
    intro c h
    unfold isAsciiAlnum isAsciiAlpha isAsciiDigit at h
    simp only [Bool.or_eq_true, Bool.and_eq_true, decide_eq_true_eq] at h
    have h1 : 'z'.toNat = 122 := rfl
    have h2 : 'Z'.toNat = 90 := rfl
    have h3 : '9'.toNat = 57 := rfl
    omega
  intro d hd
  rcases List.mem_cons.mp hd with rfl | hd
  · rcases h1 with h | rfl
    · exact alnum h
    · decide
  · rcases h2 d hd with h | rfl | rfl
    · exact alnum h
    · decide
    · decide

/-- C71. An attribute that an entry defines under a name in lower case (and not `hardbreaks`) can be referred to by this name.
What is missing: names with capital letters (`C71_capitals_lost`) and `hardbreaks`. -/
theorem C71_usable_partial [LawfulUni] {s : AttrStore} {a : Attribute} {w : Write} {v pre post : Text}
    (hw : w = .headerEntry a ∨ w = .bodyEntry a) (hr : ¬ Refused (cellOf s (entryKey a.name.data)) w)
    (hn : RefName a.name.data) (hc : ∀ c ∈ a.name.data, ¬ Capital c) (hh : a.name.data ≠ "hardbreaks".toList)
    (hv : a.value = .value v) (hpre : '{' ∉ pre ∧ pre.getLast? ≠ some '\\') (hpost : '{' ∉ post) :
    applyAttributes (attrExec s w).1 (pre ++ '{' :: a.name.data ++ '}' :: post) = .ok (pre ++ v ++ post) := by
  have hk : entryKey a.name.data = a.name.data :=
    key_ascii (fun c h => ⟨refName_ascii hn c h, lower_id (hc c h)⟩) hh
  have ht : w.target = a.name.data := by rcases hw with rfl | rfl <;> exact hk
  have he : w.effect = (.value v, .anywhere) := by rcases hw with rfl | rfl <;> simp [Write.effect, hv]
  rw [hk, ← ht] at hr
  obtain ⟨_, h2⟩ := (C07_warning_iff_refused s w).2 hr
  rw [ht, he] at h2
  have hval : (attrExec s w).1.attributeValue a.name.data = .value v := h2
  refine C30_once _ hn ?_ hval hpre hpost
  unfold AttrStore.attributeValue at hval
  unfold AttrStore.hasAttribute AMap.contains
  cases hg : (attrExec s w).1.values.get a.name.data with
  | some x => rfl
  | none => rw [hg] at hval; cases hval

private theorem default_lower {n : Text} (h : AttrStore.default.hasAttribute n = true) : ∀ c ∈ n, ¬ Capital c := by
  have all : ∀ e ∈ AttrStore.default.values.entries, ∀ c ∈ e.1, ¬ Capital c := by decide
  unfold AttrStore.hasAttribute AMap.contains AMap.get at h
  rw [Option.isSome_map, List.find?_isSome] at h
  obtain ⟨e, he, hk⟩ := h
  rw [← eq_of_beq hk]
  exact all e he

omit [Uni] in
/-- The only occurrence of a character. -/
private theorem split_first (x : Char) : ∀ {a b c d : Text}, x ∉ a → x ∉ b → a ++ x :: b = c ++ x :: d → a = c ∧ b = d := by
  intro a
  induction a with
  | nil =>
    intro b c d _ hb e
    cases c with
    | nil => exact ⟨rfl, (List.cons.inj e).2⟩
    | cons y c =>
      have := (List.cons.inj e).2
      exact absurd (by rw [this]; simp) hb
  | cons y a ih =>
    intro b c d ha hb e
    cases c with
    | nil => exact absurd (by rw [(List.cons.inj e).1]; simp) ha
    | cons z c =>
      obtain ⟨h1, h2⟩ := List.cons.inj e
      obtain ⟨h3, h4⟩ := ih (fun h => ha (by simp [h])) hb h2
      exact ⟨by rw [h1, h3], h4⟩

omit [Uni] in
private theorem split_second (x : Char) : ∀ {a b c d : Text}, x ∉ a → x ∉ c → a ++ x :: b = c ++ x :: d → a = c := by
  intro a
  induction a with
  | nil =>
    intro b c d _ hc e
    cases c with
    | nil => rfl
    | cons y c => exact absurd (by rw [(List.cons.inj e).1]; simp) hc
  | cons y a ih =>
    intro b c d ha hc e
    cases c with
    | nil => exact absurd (by rw [(List.cons.inj e).1]; simp) ha
    | cons z c =>
      obtain ⟨h1, h2⟩ := List.cons.inj e
      rw [h1, ih (fun h => ha (by simp [h])) (fun h => hc (by simp [h])) h2]

/-- C71. A name with a capital letter is never known, whatever is defined through the program, in headers and in documents: a
reference to it is left as it is, although an entry has defined it. -/
theorem C71_capitals_lost (hu : Lowers) (ws : List Write) {n : Text} (hc : ∃ c ∈ n, Capital c) :
    (attrRun AttrStore.default ws).1.hasAttribute n = false ∧
    ∀ pre post, RefName n → '{' ∉ pre → '{' ∉ post →
      applyAttributes (attrRun AttrStore.default ws).1 (pre ++ '{' :: n ++ '}' :: post) = .ok (pre ++ '{' :: n ++ '}' :: post) := by
  have hno : (attrRun AttrStore.default ws).1.hasAttribute n = false := by
    rw [Bool.eq_false_iff]
    intro h
    obtain ⟨c, hcn, hcap⟩ := hc
    rcases (C08_known_iff_requested AttrStore.default ws n).mp h with h | ⟨w, _, rfl⟩
    · exact default_lower h c hcn hcap
    · have key : ∀ m : Text, c ∈ entryKey m → ¬ Capital c := by
        intro m hm
        unfold entryKey at hm
        split at hm
        · exact (by decide : ∀ c ∈ "hardbreaks-option".toList, ¬ Capital c) c hm
        · exact hu m c hm
      cases w with
      | api m v x => exact hu m c hcn hcap
      | apiBool m v x => exact hu m c hcn hcap
      | headerEntry a => exact key _ hcn hcap
      | implicitHeader m v => exact key _ hcn hcap
      | bodyEntry a => exact key _ hcn hcap
  refine ⟨hno, fun pre post hn hp hq => C30_unknown_kept _ fun pre' name post' e hname => ?_⟩
  have no : ∀ {n : Text} {x : Char}, RefName n → isAsciiAlnum x = false → x ≠ '_' → x ≠ '-' → x ∉ n := by
    rintro n x ⟨c, cs, rfl, h1, h2⟩ hx h3 h4 hm
    rcases List.mem_cons.mp hm with rfl | hm
    · rcases h1 with h | h
      · rw [hx] at h; cases h
      · exact h3 h
    · rcases h2 x hm with h | h | h
      · rw [hx] at h; cases h
      · exact h3 h
      · exact h4 h
  simp only [List.append_assoc, List.cons_append] at e
  obtain ⟨_, e⟩ := split_first '{' hp (by
    simp only [List.mem_append, List.mem_cons, not_or]
    exact ⟨no hn (by decide) (by decide) (by decide), by decide, hq⟩) e
  rw [← split_second '}' (no hn (by decide) (by decide) (by decide)) (no hname (by decide) (by decide) (by decide)) e]
  exact hno

/-- C71. So it is with every document: whatever it defines, no attribute with a capital letter in its name is known behind it, and
none was known in it. -/
theorem C71_document (hu : Lowers) {c : Config} {fuel : Nat} {p p' : ParserState} {api : List Write} {text : Text}
    {d : Document} {map : SourceMap} (hp : p.store = (attrRun AttrStore.default api).1)
    (h : c.parse fuel p text = .ok (d, map, p')) {n : Text} (hc : ∃ c ∈ n, Capital c) : p'.store.hasAttribute n = false := by
  obtain ⟨t, ht, hd⟩ := c.parse_parts h
  obtain ⟨lines, stage, rest, hist, _, _, _, h4⟩ := document_asked hd
  have hs : p.fresh.store = p.store := rfl
  rw [hs, hp] at h4
  have := (C71_capitals_lost hu (api ++ (hist ++ asked (preorderAll d.blocks))) hc).1
  rw [attrRun_append, h4] at this
  exact this

end

section
attribute [local instance] asciiUni

private theorem ascii_lowers : Lowers := by
  intro t c hc
  obtain ⟨d, _, rfl⟩ := List.mem_map.mp hc
  unfold Char.toLower
  split
  · rename_i h
    rintro ⟨-, h2⟩
    have k1 : d.val.toNat ≤ 90 := UInt32.le_iff_toNat_le.mp h.2
    have k2 : 65 ≤ d.val.toNat := UInt32.le_iff_toNat_le.mp h.1
    have k3 : (d.val + ('a'.val - 'A'.val)).toNat ≤ 90 := UInt32.le_iff_toNat_le.mp h2
    rw [UInt32.toNat_add, show ('a'.val - 'A'.val).toNat = 32 from rfl] at k3
    omega
  · rename_i h
    exact fun hc => h ⟨hc.1, hc.2⟩

/-- The full claim is false, in the header and among the blocks. -/
theorem C71_seen :
    parsed ((Config.default .checked).parse 40 .default "= T\n:Foo: bar\n\n{Foo} {foo}".toList)
      (fun d => d.blocks.map Block.renderedContent == [some "{Foo} bar".toList]) = true ∧
    parsed ((Config.default .checked).parse 40 .default "a\n\n:fooBar: x\n\n{fooBar} {foobar}".toList)
      (fun d => d.blocks.map Block.renderedContent == [some "a".toList, none, some "{fooBar} x".toList]) = true ∧
    parsed ((Config.default .checked).parse 40 .default "= T\n:hardbreaks: x\n\n{hardbreaks}{hardbreaks-option}".toList)
      (fun d => d.blocks.map Block.renderedContent == [some "{hardbreaks}x".toList]) = true := by
  decide +kernel

/-- Non-vacuity: an entry whose name has a dash and a digit, and a text with a name that has capital letters. -/
example : RefName "foo-2".toList ∧ (∀ c ∈ "foo-2".toList, ¬ Capital c) ∧ RefName "fooBar".toList ∧
    (∃ c ∈ "fooBar".toList, Capital c) ∧ Lowers := by
  refine ⟨⟨'f', "oo-2".toList, rfl, by decide, by decide⟩, by decide, ⟨'f', "ooBar".toList, rfl, by decide, by decide⟩, by decide,
    ascii_lowers⟩

end
end Adoc.Props
