import Verif.Lemmas.Rendered
import Verif.Lemmas.Parse
/-!
# C61: every block is rendered with the attributes in force at its place
-/

namespace Adoc.Props
open Adoc Adoc.Spec Span

variable [Uni]

/-- Every block of a document, wherever it is nested, shows what its text is with the attributes the header and the
attribute entries in front of it have left (`Shown`, `MetaShown`): the content of paragraphs and delimited blocks, the values
of attribute entries, the attributes of media blocks, block titles and attribute lists.  Titles of sections are the exception:
they are made with the attributes at the end of the section. -/
theorem C61_document {c : Config} {fuel : Nat} {p p' : ParserState} {text : Text} {d : Document} {map : SourceMap}
    (h : c.parse fuel p text = .ok (d, map, p')) :
    ∃ store, BehindHeader c fuel p text store ∧
      ∀ pre b post, preorderAll d.blocks = pre ++ b :: post →
        Shown (c.env fuel).subs (attrsBehind store pre) (attrsBehind store (pre ++ preorder b)) b ∧
        MetaShown (c.env fuel).subs (attrsBehind store pre) b.fields := by
  obtain ⟨t, ht, hd⟩ := c.parse_parts h
  obtain ⟨mi, ws, store, h1, _, h2⟩ := document_shown hd
  exact ⟨store, ⟨t, map, mi, ws, ht, h1⟩, h2⟩

private theorem behind_same {s : AttrStore} {bs : List Block} (h : ∀ b ∈ bs, ¬ IsEntry b) : attrsBehind s bs = s := by
  induction bs with
  | nil => rfl
  | cons b bs ih =>
    rw [attrsBehind_skip (h b (by simp)), ih fun x hx => h x (List.mem_cons_of_mem _ hx)]

/-- The title of a section without attribute entries in it is made with the attributes in force at the heading.
Missing: sections with attribute entries (`C61_title_late`). -/
theorem C61_heading_partial {c : Config} {fuel : Nat} {p p' : ParserState} {text : Text} {d : Document} {map : SourceMap}
    (h : c.parse fuel p text = .ok (d, map, p')) :
    ∃ store, BehindHeader c fuel p text store ∧
      ∀ pre b post l title t i n, preorderAll d.blocks = pre ++ b :: post → b.kind = .section l title t i n →
        (∀ x ∈ preorder b, ¬ IsEntry x) →
        (c.env fuel).subs (attrsBehind store pre) .title b.fields.attrlist title.original.data = .ok title.rendered := by
  obtain ⟨store, h1, h2⟩ := C61_document h
  refine ⟨store, h1, fun pre b post l title t i n he hk hn => ?_⟩
  have := (h2 pre b post he).1
  rw [attrsBehind_append, behind_same hn] at this
  cases this with
  | «section» hk' h => rw [hk] at hk'; cases hk'; exact h
  | paragraph hk' _ _ _ _ => rw [hk] at hk'; cases hk'
  | delimited hk' _ => rw [hk] at hk'; cases hk'
  | unclosed hk' _ _ => rw [hk] at hk'; cases hk'
  | entry hk' _ => rw [hk] at hk'; cases hk'
  | media hk' _ => rw [hk] at hk'; cases hk'
  | compound hk' => rw [hk] at hk'; cases hk'
  | preamble hk' => rw [hk] at hk'; cases hk'
  | brk hk' => rw [hk] at hk'; cases hk'

/-- What the blocks of a document show, in document order: their titles and their contents. -/
private def shown (bs : List Block) : List (Option Text × Option Text) :=
  bs.map fun b => (b.fields.title, match b.kind with
    | .simple c _ => some c.rendered
    | .raw c _ _ _ => some c.rendered
    | .section _ c _ _ _ => some c.rendered
    | .docAttr a => (match a.value with | .value v => some v | _ => none)
    | _ => none)

omit [Uni] in
/-- The code: an attribute entry in a section changes the title of the section, which stands in front of it. -/
theorem C61_title_late : letI := asciiUni
    parsed ((Config.default .checked).parse 60 .default "= T\n:x: 1\n\n== A {x}\n\nb {x}\n\n:x: 2\n\nc {x}\n".toList)
      (fun d => shown (preorderAll d.blocks) ==
        [(none, some "A 2".toList), (none, some "b 1".toList), (none, some ['2']), (none, some "c 2".toList)]) = true := by
  decide +kernel

omit [Uni] in
/-- Non-vacuity: entries in the header, between blocks and in a delimited block; references in paragraphs, block titles,
values and a delimited block. -/
example : letI := asciiUni
    parsed ((Config.default .checked).parse 60 .default
        "= T\n:x: 1\n\na{x}\n\n====\n:x: 2\n\n.t{x}\nb{x}\n\n:x: {x}3\n====\n\n[subs=attributes]\n----\n{x}\n----\n:x!:\n\n.{x}\nc{x}\n".toList)
      (fun d => shown (preorderAll d.blocks) ==
        [(none, some "a1".toList), (none, none), (none, some ['2']), (some "t2".toList, some "b2".toList),
         (none, some "23".toList), (none, some "23".toList), (none, none), (some [], some ['c'])]) = true := by
  decide +kernel

end Adoc.Props
