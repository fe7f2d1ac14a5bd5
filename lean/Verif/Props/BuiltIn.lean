import Verif.Spec.BuiltIn
import Verif.Props.Carry
import Verif.Props.References
/-!
# C73: the attributes every parser knows from the start
-/

set_option linter.unusedSectionVars false
namespace Adoc.Props
open Adoc Adoc.Spec

section
variable [Uni]

/-! ### Helper lemmas -/

omit [Uni] in
private theorem get_mem {α : Type} {m : AMap α} {n : Text} {v : α} (h : m.get n = some v) : (n, v) ∈ m.entries := by
  unfold AMap.get at h
  rw [Option.map_eq_some_iff] at h
  obtain ⟨e, he, rfl⟩ := h
  have := List.find?_some he
  rw [← eq_of_beq this]
  exact List.mem_of_find?_eq_some he

omit [Uni] in
private theorem known {n : Text} (h : AttrStore.default.hasAttribute n = true) : n ∈ builtIns.map Prod.fst := by
  unfold AttrStore.hasAttribute AMap.contains at h
  obtain ⟨v, hv⟩ := Option.isSome_iff_exists.mp h
  have all : ∀ e ∈ AttrStore.default.values.entries, e.1 ∈ builtIns.map Prod.fst := by decide
  exact all _ (get_mem hv)

private theorem program_kept {s : AttrStore} {n : Text} {api : List Write} (h : ∀ w ∈ api, w.target ≠ n) :
    (attrRun s api).1.values.get n = s.values.get n :=
  (locked_run s n api fun w hw ht => absurd ht (h w hw)).1

private theorem derived_suffix {base : Text} {i : Nat} : ∃ t, suffixed base (i + 1) = base ++ t := by
  unfold suffixed
  split
  · exact ⟨[], (List.append_nil _).symm⟩
  · exact ⟨_, List.append_assoc _ _ _⟩

private theorem prefix_derived {n : Text} (h : DerivedName n) :
    ∃ b ∈ ["doctitle", "rev", "author", "firstname", "middlename", "lastname", "email"], b.toList <+: n := by
  rcases h with h | ⟨base, hb, i, rfl⟩
  · simp only [List.mem_cons, List.not_mem_nil, or_false] at h
    rcases h with rfl | rfl | rfl | rfl
    · exact ⟨"doctitle", by decide, by decide⟩
    · exact ⟨"rev", by decide, by decide⟩
    · exact ⟨"rev", by decide, by decide⟩
    · exact ⟨"rev", by decide, by decide⟩
  · obtain ⟨t, ht⟩ := derived_suffix (base := base.toList) (i := i)
    rw [ht]
    have key : ∃ b ∈ ["doctitle", "rev", "author", "firstname", "middlename", "lastname", "email"],
        b.toList <+: base.toList := by
      simp only [List.mem_cons, List.not_mem_nil, or_false] at hb
      rcases hb with rfl | rfl | rfl | rfl | rfl | rfl
      · exact ⟨"author", by decide, by decide⟩
      · exact ⟨"author", by decide, by decide⟩
      · exact ⟨"firstname", by decide, by decide⟩
      · exact ⟨"middlename", by decide, by decide⟩
      · exact ⟨"lastname", by decide, by decide⟩
      · exact ⟨"email", by decide, by decide⟩
    obtain ⟨b, h1, h2⟩ := key
    exact ⟨b, h1, h2.trans (List.prefix_append _ _)⟩

private theorem not_derived {n : Text} (h : n ∈ builtIns.map Prod.fst) : ¬ DerivedName n := by
  intro hd
  obtain ⟨b, hb, hp⟩ := prefix_derived hd
  have all : ∀ n ∈ builtIns.map Prod.fst, ∀ b ∈ ["doctitle", "rev", "author", "firstname", "middlename", "lastname", "email"],
      ¬ (b.toList <+: n) := by decide
  exact all n h b hb hp

/-- What the parses leave alone: an attribute for which every request of the documents is refused. -/
private theorem parses_keep [LawfulUni] {c : Config} {fuel : Nat} {start : AttrStore} {ds : List Document} {p : ParserState}
    (h : HasParsed c fuel start ds p) {n : Text} (hn : ¬ DerivedName n)
    (hr : ∀ d ∈ ds, (∀ a ∈ d.header.attributes, entryKey a.name.data = n → Refused (cellOf start n) (.headerEntry a)) ∧
      ∀ a ∈ entriesAmong (preorderAll d.blocks), entryKey a.name.data = n → Refused (cellOf start n) (.bodyEntry a)) :
    p.store.values.get n = start.values.get n ∧ p.store.defaults = start.defaults := by
  induction h with
  | new => exact ⟨rfl, rfl⟩
  | @parse ds p text d map p' h1 h2 ih =>
    obtain ⟨e1, e2⟩ := ih fun d hd => hr d (by simp [hd])
    obtain ⟨t, ht, hd⟩ := c.parse_parts h2
    obtain ⟨lines, stage, rest, hist, _, k2, k3, k4⟩ := document_asked hd
    have hs : p.fresh.store = p.store := rfl
    rw [hs] at k2 k4
    have hcell : cellOf p.store n = cellOf start n := by unfold cellOf; rw [e1]
    obtain ⟨r1, r2⟩ := hr d (by simp)
    have hl := (locked_run p.store n (hist ++ asked (preorderAll d.blocks)) (by
      intro w hw htt
      rw [hcell]
      rcases List.mem_append.mp hw with hw | hw
      · rcases headerAsks_from k2 w hw with ⟨a, rfl⟩ | ⟨m, v, rfl, hdn⟩
        · refine r1 a ?_ htt
          rw [← k3]
          unfold entriesOf
          exact List.mem_filterMap.mpr ⟨_, hw, rfl⟩
        · exact absurd (htt ▸ hdn) hn
      · obtain ⟨a, ha, rfl⟩ := List.mem_map.mp hw
        exact r2 a ha htt)).1
    have hd2 := run_defaults p.store (hist ++ asked (preorderAll d.blocks))
    rw [k4] at hl hd2
    exact ⟨hl.trans e1, hd2.trans e2⟩

/-! ### Theorems -/

omit [Uni] in
/-- C73. A new parser knows exactly the attributes of the list, with the values of the list. -/
theorem C73_new (n : Text) :
    (AttrStore.default.hasAttribute n = true ↔ n ∈ builtIns.map Prod.fst) ∧
    (∀ v, (n, v) ∈ builtIns → AttrStore.default.attributeValue n = v) ∧
    (n ∉ builtIns.map Prod.fst → AttrStore.default.attributeValue n = .unset) := by
  refine ⟨⟨known, fun h => ?_⟩, fun v h => ?_, fun h => ?_⟩
  · have all : ∀ n ∈ builtIns.map Prod.fst, AttrStore.default.hasAttribute n = true := by decide
    exact all n h
  · have all : ∀ e ∈ builtIns, AttrStore.default.attributeValue e.1 = e.2 := by decide
    exact all _ h
  · have hk : ¬ AttrStore.default.hasAttribute n = true := fun hk => h (known hk)
    unfold AttrStore.hasAttribute AMap.contains at hk
    unfold AttrStore.attributeValue
    cases hg : AttrStore.default.values.get n with
    | none => rfl
    | some x => rw [hg] at hk; exact absurd rfl hk

/-- C73. The attributes that stand for characters stand for them in every text, whatever documents have been parsed and whatever
other attributes the program has defined. -/
theorem C73_characters [LawfulUni] {c : Config} {fuel : Nat} {api : List Write} {ds : List Document} {p : ParserState}
    (h : HasParsed c fuel (attrRun AttrStore.default api).1 ds p) {n t : Text} (hn : (n, t) ∈ characterAttrs)
    (hapi : ∀ w ∈ api, w.target ≠ n) :
    p.store.attributeValue n = .value t ∧
    ∀ pre post, '{' ∉ pre ∧ pre.getLast? ≠ some '\\' → '{' ∉ post →
      applyAttributes p.store (pre ++ '{' :: n ++ '}' :: post) = .ok (pre ++ t ++ post) := by
  have hb : n ∈ builtIns.map Prod.fst := by
    have all : ∀ e ∈ characterAttrs, e.1 ∈ builtIns.map Prod.fst := by decide
    exact all _ hn
  have hg : AttrStore.default.values.get n = some ⟨.apiOnly, .value t⟩ := by
    have all : ∀ e ∈ characterAttrs, AttrStore.default.values.get e.1 = some ⟨.apiOnly, .value e.2⟩ := by decide
    exact all _ hn
  have hs := (program_kept (s := AttrStore.default) hapi).trans hg
  have hc : cellOf (attrRun AttrStore.default api).1 n = some (.value t, .apiOnly) := by unfold cellOf; rw [hs]; rfl
  obtain ⟨e1, _⟩ := parses_keep h (not_derived hb) fun d _ =>
    ⟨fun a _ _ => by rw [hc]; simp [Refused, HeaderMay], fun a _ _ => by rw [hc]; simp [Refused, BodyMay]⟩
  rw [hs] at e1
  have hv : p.store.attributeValue n = .value t := by unfold AttrStore.attributeValue; rw [e1]
  refine ⟨hv, fun pre post hpre hpost => C30_once _ ?_ ?_ hv hpre hpost⟩
  · have all : ∀ e ∈ characterAttrs, ∃ c cs, e.1 = c :: cs ∧ (isAsciiAlnum c = true ∨ c = '_') ∧
        ∀ d ∈ cs, isAsciiAlnum d = true ∨ d = '_' ∨ d = '-' := by
      intro e he
      simp only [characterAttrs, List.mem_cons, List.not_mem_nil, or_false] at he
      rcases he with rfl | rfl | rfl | rfl
      · exact ⟨'e', "mpty".toList, rfl, by decide, by decide⟩
      · exact ⟨'s', "p".toList, rfl, by decide, by decide⟩
      · exact ⟨'d', "eg".toList, rfl, by decide, by decide⟩
      · exact ⟨'p', "lus".toList, rfl, by decide, by decide⟩
    exact all _ hn
  · unfold AttrStore.hasAttribute AMap.contains
    rw [e1]
    rfl

/-- C73. The attributes that are for the header keep their values in documents whose headers do not mention them, whatever the
entries among the blocks ask for. -/
theorem C73_header_only [LawfulUni] {c : Config} {fuel : Nat} {api : List Write} {ds : List Document} {p : ParserState}
    (h : HasParsed c fuel (attrRun AttrStore.default api).1 ds p) {n : Text} {v : IVal} (hn : (n, v) ∈ headerAttrs)
    (hapi : ∀ w ∈ api, w.target ≠ n) (hh : ∀ d ∈ ds, ∀ a ∈ d.header.attributes, entryKey a.name.data ≠ n) :
    p.store.attributeValue n = v ∧ p.store.isAttributeSet n = (v != .unset) := by
  have hb : n ∈ builtIns.map Prod.fst := by
    have all : ∀ e ∈ headerAttrs, e.1 ∈ builtIns.map Prod.fst := by decide
    exact all _ hn
  have hg : AttrStore.default.values.get n = some ⟨.apiOrHeader, v⟩ ∧ v ≠ .set := by
    have all : ∀ e ∈ headerAttrs, AttrStore.default.values.get e.1 = some ⟨.apiOrHeader, e.2⟩ ∧ e.2 ≠ .set := by decide
    exact all _ hn
  have hs := (program_kept (s := AttrStore.default) hapi).trans hg.1
  have hc : cellOf (attrRun AttrStore.default api).1 n = some (v, .apiOrHeader) := by unfold cellOf; rw [hs]; rfl
  obtain ⟨e1, _⟩ := parses_keep h (not_derived hb) fun d hd =>
    ⟨fun a ha e => absurd e (hh d hd a ha), fun a _ _ => by rw [hc]; simp [Refused, BodyMay]⟩
  rw [hs] at e1
  constructor
  · unfold AttrStore.attributeValue
    rw [e1]
    cases v with
    | set => exact absurd rfl hg.2
    | _ => rfl
  · unfold AttrStore.isAttributeSet
    rw [e1]

/-- C73. A document can change every other attribute: an entry about it, in a header or among the blocks, is accepted, whatever
was asked for before in documents. -/
theorem C73_free {ws : List Write} (hw : ∀ w ∈ ws, ¬ OfProgram w) {n : Text} (hn : n ∉ (characterAttrs.map Prod.fst))
    (hn' : n ∉ headerAttrs.map Prod.fst) {w : Write} (ht : w.target = n) :
    ¬ Refused (cellOf (attrRun AttrStore.default ws).1 n) w := by
  obtain ⟨cell, h1, _, h3⟩ := C08_last_accepted_write AttrStore.default ws n
  have hl : ∀ w ∈ ws, w.target = n → Loosens w := by
    intro w hm _
    have := hw w hm
    cases w <;> first | rfl | exact absurd trivial this
  have hopen : cell = none ∨ ∃ v, cell = some (v, .anywhere) := by
    rcases h1.loose hl with rfl | h
    · unfold cellOf
      cases hg : AttrStore.default.values.get n with
      | none => exact .inl rfl
      | some x =>
        have all : ∀ e ∈ AttrStore.default.values.entries, e.1 ∉ characterAttrs.map Prod.fst →
            e.1 ∉ headerAttrs.map Prod.fst → e.2.ctx = .anywhere := by decide
        have := all _ (get_mem hg) hn hn'
        exact .inr ⟨x.value, by simp [← this]⟩
    · exact .inr h
  have : ∀ {c : Option (IVal × ModCtx)}, (c.map Prod.snd = none ∨ c.map Prod.snd = some .anywhere) → ¬ Refused c w := by
    intro c hc
    cases c with
    | none => cases w <;> simp [Refused]
    | some x =>
      obtain ⟨v, x⟩ := x
      simp only [Option.map_some, Option.some.injEq, reduceCtorEq, false_or] at hc
      subst hc
      cases w <;> simp [Refused, HeaderMay, BodyMay]
  refine this ?_
  rw [h3]
  rcases hopen with rfl | ⟨v, rfl⟩
  · exact .inl rfl
  · exact .inr rfl

/-- C73. What an attribute stands for behind an entry without a value that is accepted. -/
theorem C73_bare {ws : List Write} {a : Attribute} {w : Write} (hw : w = .headerEntry a ∨ w = .bodyEntry a)
    (hr : ¬ Refused (cellOf (attrRun AttrStore.default ws).1 (entryKey a.name.data)) w) (hv : a.value = .set) :
    (attrRun AttrStore.default (ws ++ [w])).1.attributeValue (entryKey a.name.data) = bareValue (entryKey a.name.data) := by
  have ht : w.target = entryKey a.name.data := by rcases hw with rfl | rfl <;> rfl
  have he : w.effect = (.set, .anywhere) := by rcases hw with rfl | rfl <;> simp [Write.effect, hv]
  rw [← ht] at hr
  obtain ⟨_, h2⟩ := (C07_warning_iff_refused _ w).2 hr
  rw [ht, he, run_defaults] at h2
  rw [run_snoc]
  simp only
  rw [h2]
  generalize entryKey a.name.data = n
  cases hg : AttrStore.default.defaults.get n with
  | some d =>
    have all : ∀ e ∈ AttrStore.default.defaults.entries, bareValue e.1 = .value e.2 := by decide
    exact (all _ (get_mem hg)).symm
  | none =>
    have ne : ∀ m : Text, (AttrStore.default.defaults.get m).isSome = true → n ≠ m := by
      rintro m hm rfl
      rw [hg] at hm
      cases hm
    unfold bareValue
    rw [if_neg (ne _ (by decide)), if_neg (ne _ (by decide)), if_neg (ne _ (by decide)), if_neg (ne _ (by decide))]
    rfl

end

section
attribute [local instance] asciiUni

/-- Non-vacuity: a document that tries to change `sp` and `sectnumlevels` among its blocks. -/
example : parsed ((Config.default .checked).parse 40 .default ":sp: x\n\na\n\n:sectnumlevels: 5\n\n{sp}{sectnumlevels}".toList)
    (fun d => d.blocks.map Block.renderedContent == [some "a".toList, none, some " 3".toList]) = true := by
  decide +kernel

/-- Non-vacuity: the program has defined an attribute of its own, and a document has been parsed since. -/
example : ∃ ds p, HasParsed (Config.default .checked) 40 (attrRun AttrStore.default [.api "foo".toList "bar".toList .apiOnly]).1 ds p ∧
    ds.length = 1 ∧ (∀ w ∈ [Write.api "foo".toList "bar".toList .apiOnly], w.target ≠ "sp".toList) := by
  have h : ∃ r, (Config.default .checked).parse 40 (newParser (attrRun AttrStore.default
      [.api "foo".toList "bar".toList .apiOnly]).1) ":sp: x\n\n{foo}{sp}".toList = .ok r := by
    have : ((Config.default .checked).parse 40 (newParser (attrRun AttrStore.default
      [.api "foo".toList "bar".toList .apiOnly]).1) ":sp: x\n\n{foo}{sp}".toList).toBool = true := by decide +kernel
    revert this
    generalize (Config.default .checked).parse 40 _ _ = r
    cases r with
    | ok r => exact fun _ => ⟨r, rfl⟩
    | error e => exact fun h => by cases h
  obtain ⟨⟨d, map, p⟩, h⟩ := h
  exact ⟨_, _, .parse .new h, rfl, by decide⟩

end
end Adoc.Props
