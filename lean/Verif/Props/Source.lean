import Verif.Spec.Source
import Verif.Lemmas.LinkMacro
import Verif.Props.Path
import Verif.Props.Html
/-!
# C15 exactly, and C68: where the images of a document are
-/

namespace Adoc.Props
open Adoc Adoc.Path Adoc.Spec Adoc.Re
variable [Uni]

/-! ### Resolved paths are unique -/

private theorem cancel (root : Option Text) (acc : List Text) (s : Text) (h : s ≠ ['.', '.']) :
    resolveStep root (resolveStep root acc s) ['.', '.'] = acc := by
  have : resolveStep root acc s = s :: acc := by unfold resolveStep; rw [if_neg h]
  rw [this]
  unfold resolveStep
  rw [if_pos rfl]
  simp [h]

private theorem reduce_same {rooted : Bool} {root : Option Text} (hr : rooted = true → root = some ['/'])
    {a c : List Text} (h : Reduce rooted a c) (hc : ['.'] ∉ c) :
    (nd a).foldl (resolveStep root) [] = c.foldl (resolveStep root) [] := by
  induction h with
  | refl => rw [nd_id hc]
  | @dot a b c _ ih =>
    rw [← ih hc]
    simp [nd]
  | @up a s b c h1 h2 _ ih =>
    rw [← ih hc]
    have : nd (a ++ [s, ['.', '.']] ++ b) = nd a ++ (s :: ['.', '.'] :: nd b) := by
      simp [nd, List.filter_append, List.filter_cons, h2]
    rw [this]
    have : nd (a ++ b) = nd a ++ nd b := by simp [nd]
    rw [this, List.foldl_append, List.foldl_append, List.foldl_cons, List.foldl_cons, cancel _ _ _ h1]
  | @top b c h _ ih =>
    rw [← ih hc]
    have : nd (['.', '.'] :: b) = ['.', '.'] :: nd b := by simp [nd]
    rw [this, List.foldl_cons, hr h]
    rfl

private theorem push_all (root : Option Text) {c : List Text} (h : ['.', '.'] ∉ c) :
    ∀ acc, c.foldl (resolveStep root) acc = c.reverse ++ acc := by
  induction c with
  | nil => simp
  | cons x xs ih =>
    intro acc
    rw [List.foldl_cons, ih (fun hh => h (by simp [hh]))]
    have : resolveStep root acc x = x :: acc := by
      unfold resolveStep
      rw [if_neg (fun e => h (by simp [e]))]
    rw [this]
    simp

private theorem push_ups (k j : Nat) : (List.replicate k ['.', '.']).foldl (resolveStep none) (List.replicate j ['.', '.']) =
    List.replicate (k + j) ['.', '.'] := by
  induction k generalizing j with
  | zero => simp
  | succ k ih =>
    rw [List.replicate_succ, List.foldl_cons]
    have : resolveStep none (List.replicate j ['.', '.']) ['.', '.'] = List.replicate (j + 1) ['.', '.'] := by
      cases j with
      | zero => rfl
      | succ j => rfl
    rw [this, ih]
    congr 1
    omega

private theorem normal_same {rooted : Bool} {root : Option Text} (hr : root = if rooted then some ['/'] else none) {c : List Text}
    (h1 : rooted = true → ['.', '.'] ∉ c) (h2 : DotsLead c) : c.foldl (resolveStep root) [] = c.reverse := by
  cases rooted with
  | true => rw [push_all root (h1 rfl)]; simp
  | false =>
    obtain ⟨_, k, rest, rfl, hrest⟩ := h2
    simp at hr
    subst hr
    rw [List.foldl_append, show ([] : List Text) = List.replicate 0 ['.', '.'] from rfl, push_ups, push_all _ hrest]
    simp

theorem reduce_unique {rooted : Bool} {a c d : List Text} (hc : Reduce rooted a c) (hd : Reduce rooted a d)
    (c1 : rooted = true → ['.', '.'] ∉ c) (c2 : DotsLead c) (d1 : rooted = true → ['.', '.'] ∉ d) (d2 : DotsLead d) : c = d := by
  have e : ∀ {x}, Reduce rooted a x → (rooted = true → ['.', '.'] ∉ x) → DotsLead x →
      (nd a).foldl (resolveStep (if rooted then some ['/'] else none)) [] = x.reverse := by
    intro x hx x1 x2
    rw [reduce_same (fun h => by rw [h]; rfl) hx x2.1, normal_same rfl x1 x2]
  have := (e hc c1 c2).symm.trans (e hd d1 d2)
  exact List.reverse_inj.mp this

theorem segments_unique {t : Text} {a b : List Text} (ha : Segments t a) (hb : Segments t b) : a = b := by
  have e : ∀ {x}, Segments t x → splitChar '/' t = x := by
    rintro x ⟨h1, h2, h3⟩
    rw [h2, ← joinChar_eq, splitChar_joinChar h1 h3]
  rw [← e ha, ← e hb]

theorem resolved_unique {p a b : Text} (ha : ResolvedPath p a) (hb : ResolvedPath p b) : a = b := by
  obtain ⟨r1, t1, s1, o1, e1, k1, g1, q1, x1, y1, z1, w1⟩ := ha
  obtain ⟨r2, t2, s2, o2, e2, k2, g2, q2, x2, y2, z2, w2⟩ := hb
  have hr : r1 = r2 := by
    rcases k1 with rfl | rfl | ⟨rfl, h1, h1'⟩ <;> rcases k2 with rfl | rfl | ⟨rfl, h2, h2'⟩
    · rfl
    · rw [e1] at e2; simp at e2
    · rw [e1] at h2; simp at h2
    · rw [e1] at e2; simp at e2
    · rfl
    · exact absurd ⟨t1, e1⟩ h2'
    · rw [e2] at h1; simp at h1
    · exact absurd ⟨t2, e2⟩ h1'
    · rfl
  subst hr
  have ht : t1 = t2 := List.append_cancel_left (e1.symm.trans e2)
  subst ht
  cases segments_unique g1 g2
  rw [w1, w2, reduce_unique q1 q2 (fun h => y1 (by simpa using h)) z1 (fun h => y2 (by simpa using h)) z2]

theorem posix_unique {sep : Char} {t p q : Text} (hp : Posix sep t p) (hq : Posix sep t q) : p = q := by
  by_cases hs : sep = '\\'
  · rw [hp.1 hs, hq.1 hs]
  · rw [hp.2 hs, hq.2 hs]

theorem schemeOf_unique {full a b p q : Text} (h1 : SchemeOf full a p) (h2 : SchemeOf full b q) : a = b ∧ p = q := by
  obtain ⟨e1, k1⟩ := h1
  obtain ⟨e2, k2⟩ := h2
  have hl : a.length = b.length := by
    rcases k1 with ⟨u1, m1⟩ | ⟨rfl, n1⟩ <;> rcases k2 with ⟨u2, m2⟩ | ⟨rfl, n2⟩
    · exact Nat.le_antisymm (m2 _ _ e1 u1) (m1 _ _ e2 u2)
    · exact absurd u1 (n2 _ _ e1)
    · exact absurd u2 (n1 _ _ e2)
    · rfl
  exact List.append_inj (e1.symm.trans e2) hl

private theorem colon_not [LawfulUni] : schemeChar ':' = false := by
  unfold schemeChar
  rw [LawfulUni.alpha _ (by decide), LawfulUni.num _ (by decide)]
  decide

private theorem run_eq [LawfulUni] {cs r : Text} (h : ∀ d ∈ cs, schemeChar d = true) : Span.prefLen schemeChar (cs ++ ':' :: r) = cs.length := by
  induction cs with
  | nil => simp [Span.prefLen, colon_not]
  | cons c cs ih =>
    rw [List.cons_append, Span.prefLen, if_pos (h c (by simp)), ih fun d hd => h d (by simp [hd])]
    simp [Nat.add_comm]

private theorem sniff_of [LawfulUni] {full pre path : Text} (h : UriPrefix pre) (e : full = pre ++ path) :
    ∃ n, uriSniff full = some n ∧ pre.length ≤ n := by
  obtain ⟨c, cs, sl, rfl, hc, hne, hcs, hsl⟩ := h
  subst e
  have hcl : ∀ d ∈ cs, schemeChar d = true := by
    intro d hd
    rcases hcs d hd with h | h | h | h | h <;> simp [schemeChar, h]
  have hrun := run_eq (r := sl ++ path) hcl
  have hdrop : (cs ++ ':' :: (sl ++ path)).drop cs.length = ':' :: (sl ++ path) := by rw [List.drop_left]
  have e0 : c :: cs ++ ':' :: sl ++ path = c :: (cs ++ ':' :: (sl ++ path)) := by simp
  rw [e0]
  unfold uriSniff
  have hz : ¬ cs.length = 0 := fun h => hne (List.length_eq_zero_iff.mp h)
  simp only [hc, if_true, hrun, hz, if_false, hdrop]
  rcases hsl with rfl | rfl | rfl
  · simp only [List.nil_append]
    split
    · exact ⟨_, rfl, by simp; omega⟩
    · exact ⟨_, rfl, by simp <;> omega⟩
    · exact ⟨_, rfl, by simp; omega⟩
    · rename_i h; exact absurd rfl (h _)
  · cases path with
    | nil => exact ⟨_, rfl, by simp; omega⟩
    | cons x xs =>
      by_cases hx : x = '/'
      · subst hx
        exact ⟨_, rfl, by simp <;> omega⟩
      · refine ⟨1 + cs.length + 2, ?_, by simp; omega⟩
        simp [hx]
  · exact ⟨_, rfl, by simp; omega⟩

private theorem sniff_le {full : Text} {n : Nat} (h : uriSniff full = some n) : n ≤ full.length := by
  unfold uriSniff at h
  split at h
  · cases h
  · rename_i c cs
    split at h
    · simp only at h
      split at h
      · cases h
      · have hd := List.length_drop (i := Span.prefLen schemeChar cs) (l := cs)
        have hle := Span.prefLen_le schemeChar cs
        split at h
        · rename_i e
          rw [e] at hd
          cases h
          simp at hd ⊢
          omega
        · rename_i e
          rw [e] at hd
          cases h
          simp at hd ⊢
          omega
        · rename_i e
          rw [e] at hd
          cases h
          simp at hd ⊢
          omega
        · cases h
    · cases h

private theorem schemeOf_extract [LawfulUni] (full : Text) :
    SchemeOf full ((extractUriPrefix full).2.getD []) (extractUriPrefix full).1 := by
  have none_case : uriSniff full = none → SchemeOf full [] full := by
    intro h
    refine ⟨rfl, .inr ⟨rfl, fun pre' path' e hu => ?_⟩⟩
    obtain ⟨n, hn, _⟩ := sniff_of hu e
    rw [h] at hn
    cases hn
  unfold extractUriPrefix
  split
  · cases hn : uriSniff full with
    | none => exact none_case hn
    | some n =>
      refine ⟨(List.take_append_drop n full).symm, .inl ⟨uriSniff_spec _ _ hn, fun pre' path' e hu => ?_⟩⟩
      obtain ⟨k, hk, hle⟩ := sniff_of hu e
      rw [hn] at hk
      cases hk
      have := sniff_le hn
      simp only [Option.getD_some, List.length_take]
      omega
  · rename_i hc
    refine none_case ?_
    cases hn : uriSniff full with
    | none => rfl
    | some n =>
      obtain ⟨c, cs, sl, e, _⟩ := uriSniff_spec _ _ hn
      exfalso
      apply hc
      rw [List.contains_iff_mem, ← List.take_append_drop n full, e]
      simp

/-! ### C15 -/

/-- **The path to every target, exactly**: with and without a start, for every target, start and separator, the path the
program makes is the one and only path of the specification. -/
theorem C15_exact [LawfulUni] (sep : Char) (target : Text) (start : Option Text) (out : Text) :
    webPath sep target start = out ↔ WebPath sep target start out := by
  have sound : WebPath sep target start (webPath sep target start) := by
    by_cases hr : ∃ r, posixify sep target = '/' :: r
    · obtain ⟨r, hr⟩ := hr
      refine .alone (posix_spec sep target) (.inr ⟨r, hr⟩) ?_
      have : webPath sep target start = pathPart sep (posixify sep target) := by
        cases start with
        | none => exact webPath_none sep target
        | some s => exact webPath_root sep target s (by rw [hr]; rfl)
      rw [this]
      have := pathPart_resolved sep (posixify sep target)
      rwa [posixify_idem] at this
    · cases start with
      | none =>
        refine .alone (posix_spec sep target) (.inl rfl) ?_
        rw [webPath_none]
        have := pathPart_resolved sep (posixify sep target)
        rwa [posixify_idem] at this
      | some s =>
        have hnr : ¬ isWebRoot (posixify sep target) = true := fun h => by
          obtain ⟨r, hr'⟩ := startsWith_iff.mp h
          exact hr ⟨r, hr'⟩
        have hif : (if endsWith (posixify sep s) ['/'] = true then ([] : Text) else ['/']) =
            (if (posixify sep s).getLast? = some '/' then [] else ['/']) := by
          have hlast : (endsWith (posixify sep s) ['/'] = true) ↔ (posixify sep s).getLast? = some '/' := by
            rw [endsWith_iff]
            constructor
            · rintro ⟨r, h⟩; rw [h]; simp
            · intro h
              obtain ⟨r, hr⟩ := List.getLast?_eq_some_iff.mp h
              exact ⟨r, hr⟩
          by_cases h : (posixify sep s).getLast? = some '/'
          · rw [if_pos h, if_pos (hlast.mpr h)]
          · rw [if_neg h, if_neg (fun hh => h (hlast.mp hh))]
        have hw : webPath sep target (some s) =
            (extractUriPrefix (posixify sep s ++ (if (posixify sep s).getLast? = some '/' then [] else ['/']) ++
              posixify sep target)).2.getD [] ++
            pathPart sep (extractUriPrefix (posixify sep s ++ (if (posixify sep s).getLast? = some '/' then [] else ['/']) ++
              posixify sep target)).1 := by
          unfold webPath
          simp only [Option.map_some, hnr, Bool.false_eq_true, if_false]
          rw [hif]
          rfl
        rw [hw]
        have hs := schemeOf_extract (posixify sep s ++ (if (posixify sep s).getLast? = some '/' then [] else ['/']) ++
              posixify sep target)
        refine .joined (posix_spec sep target) (fun r h => hr ⟨r, h⟩) (posix_spec sep s) hs ?_
        have hpx : posixify sep (extractUriPrefix (posixify sep s ++ (if (posixify sep s).getLast? = some '/' then [] else ['/']) ++
              posixify sep target)).1 = (extractUriPrefix (posixify sep s ++
              (if (posixify sep s).getLast? = some '/' then [] else ['/']) ++ posixify sep target)).1 := by
          have hb : ∀ t : Text, sep = '\\' → '\\' ∉ posixify sep t := by
            intro t hs hm
            have := (posix_spec sep t).1 hs
            rw [this] at hm
            obtain ⟨c, _, hc⟩ := List.mem_map.mp hm
            split at hc
            · exact absurd hc (by decide)
            · rename_i h; exact h hc
          unfold posixify
          rw [if_neg]
          rintro ⟨h1, h2⟩
          have h2 := List.contains_iff_mem.mp h2
          have h3 : '\\' ∈ posixify sep s ++ (if (posixify sep s).getLast? = some '/' then [] else ['/']) ++ posixify sep target := by
            have e := hs.1
            rw [e]
            exact List.mem_append_right _ h2
          rcases List.mem_append.mp h3 with h3 | h3
          · rcases List.mem_append.mp h3 with h3 | h3
            · exact hb _ h1 h3
            · split at h3 <;> simp at h3
          · exact hb _ h1 h3
        have := pathPart_resolved sep (extractUriPrefix (posixify sep s ++
          (if (posixify sep s).getLast? = some '/' then [] else ['/']) ++ posixify sep target)).1
        rwa [hpx] at this
  constructor
  · rintro rfl
    exact sound
  · intro h
    generalize webPath sep target start = out' at sound
    cases sound with
    | alone p1 c1 r1 =>
      cases h with
      | alone p2 c2 r2 =>
        cases posix_unique p1 p2
        exact resolved_unique r1 r2
      | joined p2 c2 =>
        cases posix_unique p1 p2
        rcases c1 with c1 | ⟨r, hr⟩
        · cases c1
        · exact absurd hr (c2 r)
    | joined p1 c1 q1 s1 r1 =>
      cases h with
      | alone p2 c2 r2 =>
        cases posix_unique p1 p2
        rcases c2 with c2 | ⟨r, hr⟩
        · cases c2
        · exact absurd hr (c1 r)
      | joined p2 c2 q2 s2 r2 =>
        cases posix_unique p1 p2
        cases posix_unique q1 q2
        obtain ⟨rfl, rfl⟩ := schemeOf_unique s1 s2
        rw [resolved_unique r1 r2]

/-- Non-vacuity: up from a directory at an address. -/
example : letI := asciiUni
    WebPath '/' "../images/./a b.png".toList (some "http://example.org/docs/".toList) "http://example.org/images/a%20b.png".toList := by
  letI := asciiUni
  exact (C15_exact _ _ _ _).mp (by decide)

/-! ### C68 -/

theorem uri_iff {t : Text} : Html.isUriIsh t = true ↔ Uri t := by
  have e : Html.uriSniffRe = .seq .bot (cat [.cls Uni.isAlphabetic,
    Re.plus (.cls fun c => Uni.isAlphabetic c || Uni.isNd c || c == '.' || c == '+' || c == '-'),
    Re.chr ':', Re.upTo (Re.chr '/') 2]) := rfl
  have hm : isMatch Html.uriSniffRe t = true ↔ (matchAt Html.uriSniffRe none t).isSome = true := by
    unfold isMatch
    rw [e, search_bot, ← e, Option.isSome_map]
  unfold Html.isUriIsh
  rw [Bool.and_eq_true, hm]
  constructor
  · rintro ⟨_, h⟩
    obtain ⟨⟨mt, s⟩, hs⟩ := Option.isSome_iff_exists.mp h
    obtain ⟨_, hp⟩ := renders_scheme.sound _ _ _ _ hs
    obtain ⟨_, _, sc, sl, hsc, he, _⟩ := hp _ rfl
    obtain ⟨_, ht, _⟩ := matchAt_sound hs
    exact ⟨sc, sl ++ s.rest, hsc, by rw [ht, he]; simp⟩
  · rintro ⟨s, r, hs, rfl⟩
    refine ⟨by simp, ?_⟩
    obtain ⟨sl, u, rfl, hsl⟩ := slashes_of r
    obtain ⟨z, hz⟩ := renders_scheme.complete none (s ++ ':' :: sl) u [] ⟨rfl, rfl, s, sl, hs, rfl, hsl⟩
    cases hn : matchAt Html.uriSniffRe none (s ++ ':' :: (sl ++ u)) with
    | some _ => rfl
    | none =>
      refine absurd ?_ (matchAt_none.mp hn z)
      simpa using hz

private theorem source_of [LawfulUni] (p : PEnv) (target : Text) (dir : Option Text) (src : Text) :
    Html.normalizeWebPath p target dir = src ↔ Source p.sep dir target src := by
  unfold Html.normalizeWebPath
  by_cases h : Uri target
  · rw [if_pos (uri_iff.mpr h)]
    constructor
    · rintro rfl
      exact .uri h
    · intro hs
      cases hs with
      | uri _ => rfl
      | path hn _ => exact absurd h hn
  · rw [if_neg fun hb => h (uri_iff.mp hb)]
    constructor
    · intro e
      exact .path h ((C15_exact _ _ _ _).mp e)
    · intro hs
      cases hs with
      | uri hu => exact absurd hu h
      | path _ hw => exact (C15_exact _ _ _ _).mpr hw

omit [Uni] in
private theorem maybe_eq (s : AttrStore) (n : Text) : Html.maybeStr (s.attributeValue n) = valueOf s n := by
  unfold Html.maybeStr valueOf
  cases s.attributeValue n <;> rfl

/-- **Where the program looks for an image**: at exactly the one place that the specification says. -/
theorem C68_image [LawfulUni] (p : PEnv) (target src : Text) :
    Html.imageUri p target none = src ↔ ImageSource p target src := by
  unfold Html.imageUri ImageSource
  rw [maybe_eq, Option.getD_none]
  exact source_of _ _ _ _

/-- **Where the program looks for an icon.** -/
theorem C68_icon [LawfulUni] (p : PEnv) (name src : Text) : Html.iconUri p name = src ↔ IconSource p name src := by
  unfold Html.iconUri Html.imageUri IconSource
  rw [maybe_eq, maybe_eq, Option.getD_some]
  exact source_of _ _ _ _

/-- Non-vacuity: an address with a space, and a path above the directory of the images. -/
example : letI := asciiUni
    let p : PEnv := ⟨AttrStore.default.put "imagesdir".toList ⟨.anywhere, .value "img/x".toList⟩, '/'⟩
    ImageSource p "http://a b/c".toList "http://a%20b/c".toList ∧ ImageSource p "../c d.png".toList "img/c%20d.png".toList ∧
      ImageSource p "/c.png".toList "/c.png".toList ∧ IconSource p "tip".toList "./images/icons/tip.png".toList := by
  letI := asciiUni
  exact ⟨(C68_image _ _ _).mp (by decide), (C68_image _ _ _).mp (by decide), (C68_image _ _ _).mp (by decide),
    (C68_icon _ _ _).mp (by decide)⟩

/-- **What a browser is told**: the image that is rendered has exactly this source, whatever else is said of it; and with
`link=self` it is also what the image links to. -/
theorem C68_rendered [LawfulUni] (p : PEnv) (i : ImageParams) (src out : Text) (hs : ImageSource p i.target src)
    (h : Html.image p i = .ok out) :
    (∃ before after, out = before ++ "<img src=\"".toList ++ src ++ "\" alt=\"".toList ++ after) ∧
    ((i.attrlist.namedAttribute "link".toList).map ElemAttr.value = some "self".toList →
      ∃ before after, out = before ++ "<a class=\"image\" href=\"".toList ++ src ++ ['"'] ++ after) := by
  have hu := (C68_image p i.target src).mpr hs
  have hout : ∃ more, out = Html.iconOrImage i.attrlist ("<img src=\"".toList ++ src ++ "\" alt=\"".toList ++ more) src "image".toList := by
    unfold Html.image at h
    simp only [hu] at h
    have e : ∀ (a b : Text) (l : List Text), ∃ more, "<img ".toList ++ joinWith [' '] ([Html.attrText "src" a, Html.attrText "alt" b] ++ l) ++ ['>'] =
        "<img src=\"".toList ++ a ++ "\" alt=\"".toList ++ more := by
      intro a b l
      cases l with
      | nil => exact ⟨b ++ ['"', '>'], by simp [joinWith, Html.attrText]⟩
      | cons x xs => exact ⟨b ++ '"' :: ' ' :: (joinWith [' '] (x :: xs) ++ ['>']), by simp [joinWith, Html.attrText]⟩
    have h' : ∃ l, out = Html.iconOrImage i.attrlist ("<img ".toList ++ joinWith [' ']
        ([Html.attrText "src" src, Html.attrText "alt" (Html.encodeAttributeValue i.alt)] ++ l) ++ ['>']) src "image".toList := by
      simp only [List.append_assoc] at h ⊢
      split at h
      · split at h
        · cases h
        · split at h
          · cases h
          · exact ⟨_, (Except.ok.inj h).symm⟩
      · exact ⟨_, (Except.ok.inj h).symm⟩
    obtain ⟨l, hl⟩ := h'
    obtain ⟨more, hm⟩ := e src (Html.encodeAttributeValue i.alt) l
    exact ⟨more, by rw [hl, hm]⟩
  obtain ⟨more, hout⟩ := hout
  rw [hout]
  unfold Html.iconOrImage
  simp only
  generalize joinWith [' '] _ = cls
  cases hl : i.attrlist.namedAttribute "link".toList with
  | none =>
    refine ⟨⟨"<span class=\"".toList ++ cls ++ "\">".toList, more ++ "</span>".toList, by simp⟩, fun h => by simp at h⟩
  | some l =>
    simp only
    refine ⟨?_, ?_⟩
    · generalize (if l.value = "self".toList then src else l.value) = href
      generalize Html.linkConstraintAttrs i.attrlist none = lc
      exact ⟨"<span class=\"".toList ++ cls ++ "\">".toList ++ ("<a class=\"image\" href=\"".toList ++ href ++ ['"'] ++ lc ++ ['>']),
        more ++ "</a></span>".toList, by simp⟩
    · intro h
      simp only [Option.map_some, Option.some.injEq] at h
      rw [if_pos h]
      generalize Html.linkConstraintAttrs i.attrlist none = lc
      exact ⟨"<span class=\"".toList ++ cls ++ "\">".toList,
        lc ++ ['>'] ++ ("<img src=\"".toList ++ src ++ "\" alt=\"".toList ++ more) ++ "</a></span>".toList, by simp⟩

end Adoc.Props
