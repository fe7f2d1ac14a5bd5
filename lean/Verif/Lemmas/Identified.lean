import Verif.Lemmas.SectionId
import Verif.Lemmas.Rendered
import Verif.Lemmas.Refs
import Verif.Props.Catalog
/-!
# Lemmas about the ids of the sections of a document
-/

namespace Adoc
open Span Spec

variable [Uni]

omit [Uni] in
theorem uniqueId_generated {c : Catalog} {log : List RefEntry} (hk : Knows c log) {base id : Text} (h : c.uniqueId base = some id) :
    GeneratedId log base id := by
  have taken : ∀ i, c.containsId i = true ↔ Taken log i := hk.1
  unfold Catalog.uniqueId at h
  split at h
  · rename_i hf
    cases h
    refine .inl ⟨?_, rfl⟩
    rw [← taken]; simpa using hf
  · rename_i hf
    obtain ⟨n, h1, h2, h3, h4⟩ := Props.findFree_spec c base _ _ _ h
    refine .inr ⟨by rw [← taken]; simpa using hf, n, h1, h2, ?_, fun m a b => (taken _).mp (h4 m a b)⟩
    rw [← taken, h3]; simp

variable [LawfulUni]

/-- What a section is called. -/
theorem close_identified {e : BlockEnv} {m : BlockMetadata} {mi : MI (Nat × Span)} {sectids : Bool} {after : Span}
    {p1 p2 : ParserState} {src dupSrc : Span} {title base : Text} {id dup : Option Text}
    (h : SectionClose e m mi sectids after p1 p2 src dupSrc title base id dup) {c : Catalog} {log : List RefEntry}
    (hc : p1.catalog = some c) (hk : Knows c log) {s : AttrStore} (hs : s.isAttributeSet "sectids".toList = sectids)
    {b : Block} (hb : b.fields = m.fields) (t : Content) (ht : t.rendered = title) (post : List RefEntry) :
    Identified (log ++ ((sectionId? b id).map fun i => (⟨i, some (sectionReftext b t), .section⟩ : RefEntry)).toList ++ post)
      s p1.store b t id := by
  have hm : sectionId? b none = (m.fields.attrlist.bind Attrlist.id).or (m.fields.anchor.map Span.data) := by
    unfold sectionId?; rw [hb, Option.or_none]
  have hr : sectionReftext b t = ((m.fields.attrlist.bind (·.namedAttribute "reftext".toList)).map ElemAttr.value).getD title := by
    unfold sectionReftext; rw [hb, ht]
  have hreg := h.register
  rw [← hm, ← hr] at hreg
  unfold registerSection at hreg
  rw [hc] at hreg
  simp only at hreg
  cases ho : sectionId? b none with
  | some i =>
    rw [ho] at hreg
    have : id = none := by
      dsimp only at hreg
      split at hreg <;> · cases hreg; rfl
    rw [this]
    exact .own ho
  | none =>
    rw [ho] at hreg
    dsimp only at hreg
    cases sectids with
    | false => cases hreg; exact .off ho hs
    | true =>
      simp only [if_true, Catalog.generate] at hreg
      cases hu : c.uniqueId base with
      | none => rw [hu] at hreg; cases hreg
      | some i =>
        rw [hu] at hreg
        cases hreg
        have e : sectionId? b (some i) = some i := by
          unfold sectionId? at ho ⊢
          rw [Option.or_none] at ho
          rw [ho]; rfl
        rw [e]
        refine .generated (behind := post) ho hs (ht ▸ generateSectionId_iff.mp h.generate) ?_ (uniqueId_generated hk hu)
        simp

/-- The ids of all sections. -/
def NamedIn (all : List RefEntry) (a a' : AttrStore) (b : Block) : Prop :=
  ∀ l t ty i n, b.kind = .section l t ty i n → Identified all a a' b t i

theorem run_identified {e : BlockEnv} {stop : Stop} {p p' : ParserState} {s s' : Span} {bs : List Block} {ws sw : List Warning}
    (h : Run e stop p s bs s' ws sw p') : Aligned s → ∀ c log, p.catalog = some c → Knows c log →
      ∀ post, Everywhere (NamedIn (log ++ refsAll bs ++ post)) p.store bs := by
  induction h with
  | done _ => exact fun _ _ _ _ _ _ => .nil
  | halt _ _ => exact fun _ _ _ _ _ _ => .nil
  | @leaf stop stop' p p1 p2 s s' sw sw' ws ws' b after bs _ _ hl _ ih =>
    intro hs c log hc hk post
    have ha := (leaf_lineSuf hl).1
    obtain ⟨c1, hc1, r1, _⟩ := leaf_reg hl hc
    obtain ⟨l1, l2, l3, l4⟩ := leaf_shown hs hl p1.store
    have := ih (hs.of_lineSuf ha) c1 _ hc1 (r1.1 log hk) post
    rw [refsAll, ← List.append_assoc]
    refine .cons l4 (by rw [l3]; rfl) ?_ (by rw [l3]; exact .nil) this
    intro l t ty i n hkind
    exact absurd ⟨l, t, ty, i, n, hkind⟩ (leaf_kind hl).2.1
  | stuck _ _ hl _ ih =>
    intro hs c log hc hk post
    obtain ⟨c1, hc1, r1, _⟩ := leaf_reg hl hc
    obtain rfl := leaf_none hl
    exact ih hs c log hc hk post
  | @compound stop stop' p p1 p2 s s' sw sw' ws' bs m mw context inside closing after src cbs cs cws csw h1 hk hm ho r1 r2
      ih1 ih2 =>
    intro hs c log hc hkn post
    obtain ⟨⟨c1, hc1, q1⟩, _, _⟩ := run_reg r1 c hc
    obtain ⟨c2, hc2, q2, _⟩ := registerBlockId_reg hc1 m.fields src.trimTrailingWhitespace
    obtain ⟨l1, l2⟩ := meta_lineSuf hm.parse
    obtain ⟨g1, ⟨k, g2⟩, k', rfl⟩ := compound_lineSuf ho
    have ha := g1.trans (l2.trans l1)
    have hin : LineSuf m.blockStart.takeLine.after s := (takeLine_lineSuf _).trans (l2.trans l1)
    have hi : Aligned inside := by rw [g2]; exact (hs.of_lineSuf hin).takeN k
    have hi := hi.of_lineSuf (discardEmptyLines_lineSuf inside)
    obtain ⟨a1, _⟩ := run_shown r1 hi
    have reg := congrArg Tally.attrs (registerBlockId_rest p1 m.fields (m.source.takeN k').trimTrailingWhitespace).1
    change (registerBlockId p1 m.fields (m.source.takeN k').trimTrailingWhitespace).1.store = p1.store at reg
    have own : refs (.mk (.compound context) (m.source.takeN k').trimTrailingWhitespace m.fields cbs) = refsAll cbs ++
        (m.fields.id.map fun i => (⟨i, m.fields.title, .anchor⟩ : RefEntry)).toList := by
      rw [refs, ownRef]; simp [blockId, Meta.id, Block.kind, Block.fields]
    have b2 := ih2 (hs.of_lineSuf ha) c2 (log ++ refsAll cbs ++ (m.fields.id.map fun i => (⟨i, m.fields.title, .anchor⟩ : RefEntry)).toList)
      (by rw [hc2]) (q2.1 _ (q1.1 log hkn)) post
    have a2 := ih1 hi c log hc hkn ((m.fields.id.map fun i => (⟨i, m.fields.title, .anchor⟩ : RefEntry)).toList ++ refsAll bs ++ post)
    rw [reg] at b2
    rw [refsAll, own]
    simp only [List.append_assoc] at a2 b2 ⊢
    exact .cons (attrsBehind_skip (not_entry_mk (fun _ h => (by cases h))) _ _) a1.symm (fun _ _ _ _ _ h => by cases h) a2 b2
  | @«section» stop stop' p p1 p2 p3 s s' sw sw' ws' bs m mw mi tw cbs cs cws csw src dupSrc title base id dup h1 hk hm
      hstart ht r1 hclose r2 ih1 ih2 =>
    intro hs c log hc hkn post
    have hop : (openSection p m mi.item.1).2.2.catalog = some c := by
      unfold openSection sectionNumber
      simp only
      split <;> exact hc
    obtain ⟨⟨c1, hc1, q1⟩, _, _⟩ := run_reg r1 c hop
    obtain ⟨c2, hc2, q2, _⟩ := registerSection_reg hc1 hclose.register dupSrc
    have hcl : (closeSection p2 m mi.item.1).catalog = some c2 := by
      unfold closeSection
      split <;> rw [hc2]
    obtain ⟨l1, l2⟩ := meta_lineSuf hm.parse
    have ha : LineSuf mi.after.discardEmptyLines s := by
      rw [(titleLine_geo ht).2.1]
      exact (discardEmptyLines_lineSuf _).trans ((takeLine_lineSuf _).trans
        ((discardEmptyLines_lineSuf _).trans (l2.trans l1)))
    have hcs := (run_made r1).1.trans ha
    obtain ⟨a1, _⟩ := run_shown r1 (hs.of_lineSuf ha)
    have ho : (openSection p m mi.item.1).2.2.store = p.store := by
      unfold openSection sectionNumber
      simp only
      split <;> rfl
    have hcls : (closeSection p2 m mi.item.1).store = p1.store := by
      have hr := congrArg Tally.attrs (registerSection_rest hclose.register).1
      unfold closeSection
      split <;> exact hr
    rw [ho] at a1
    generalize hblk : Block.mk (.section mi.item.1 ⟨mi.item.2, title⟩ (openSection p m mi.item.1).1 id
          (openSection p m mi.item.1).2.1) src.trimTrailingWhitespace m.fields cbs = blk
    have hfields : blk.fields = m.fields := by rw [← hblk]; rfl
    have hkind : blk.kind = .section mi.item.1 ⟨mi.item.2, title⟩ (openSection p m mi.item.1).1 id (openSection p m mi.item.1).2.1 := by
      rw [← hblk]; rfl
    have hchild : blk.children = cbs := by rw [← hblk]; rfl
    have own : refs blk = refsAll cbs ++ ((sectionId? blk id).map fun i =>
        (⟨i, some (sectionReftext blk ⟨mi.item.2, title⟩), .section⟩ : RefEntry)).toList := by
      rw [← hblk, refs, ownRef]; rfl
    have q2' : Knows c2 (log ++ refsAll cbs ++ ((sectionId? blk id).map fun i =>
        (⟨i, some (sectionReftext blk ⟨mi.item.2, title⟩), .section⟩ : RefEntry)).toList) := by
      have := q2.1 _ (q1.1 log hkn)
      simpa [sectionId?, sectionReftext, hfields] using this
    have b2 := ih2 (hs.of_lineSuf hcs) c2 _ hcl q2' post
    have a2 := ih1 (hs.of_lineSuf ha) c log hop hkn (((sectionId? blk id).map fun i =>
        (⟨i, some (sectionReftext blk ⟨mi.item.2, title⟩), .section⟩ : RefEntry)).toList ++ refsAll bs ++ post)
    have mine := close_identified hclose hc1 (q1.1 log hkn) (s := p.store) rfl hfields ⟨mi.item.2, title⟩ rfl (refsAll bs ++ post)
    rw [hcls] at b2
    rw [ho] at a2
    rw [refsAll, own]
    simp only [List.append_assoc] at a2 b2 mine ⊢
    refine .cons (attrsBehind_skip (by rw [← hblk]; exact not_entry_mk (fun _ h => (by cases h))) _ _) (by rw [hchild]; exact a1.symm) ?_ (by rw [hchild]; exact a2) b2
    intro l t ty i n hk'
    rw [hkind] at hk'
    cases hk'
    exact mine

end Adoc
