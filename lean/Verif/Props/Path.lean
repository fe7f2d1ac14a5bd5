import Verif.Lemmas.Path
/-!
# C15, C16, C50: web paths
-/

namespace Adoc.Props
open Adoc Adoc.Path Adoc.Spec

/-! ### Helper lemmas -/

theorem posix_spec (sep : Char) (t : Text) : Posix sep t (posixify sep t) := by
  constructor
  · intro h
    unfold posixify
    have hrep : replaceChar '\\' ['/'] t = t.map fun c => if c = '\\' then '/' else c := by
      unfold replaceChar
      induction t with
      | nil => rfl
      | cons c cs ih => rw [List.flatMap_cons, ih]; split <;> simp_all
    split
    · exact hrep
    · rename_i hc
      rw [← hrep]
      exact (replaceChar_id (fun hh => hc ⟨h, by simpa using hh⟩)).symm
  · intro h
    unfold posixify
    rw [if_neg (fun hh => h hh.1)]

theorem join_glue (segs : List Text) : joinChar '/' segs = glue segs := joinChar_eq _ _

theorem segments_split (t : Text) : Segments t (splitChar '/' t) := by
  refine ⟨splitChar_ne_nil _ _, ?_, splitChar_no _ _⟩
  have : ∀ t, joinChar '/' (splitChar '/' t) = t := by
    intro t
    induction t with
    | nil => rfl
    | cons d ds ih =>
      rw [splitChar]
      split
      · rename_i h
        subst h
        cases hs : splitChar '/' ds with
        | nil => exact absurd hs (splitChar_ne_nil _ _)
        | cons p ps => rw [joinChar, ← hs, ih]; rfl
      · cases hs : splitChar '/' ds with
        | nil => exact absurd hs (splitChar_ne_nil _ _)
        | cons p ps =>
          rw [hs] at ih
          simp only
          cases ps with
          | nil => rw [joinChar] at ih ⊢; rw [ih]
          | cons q qs => rw [joinChar] at ih ⊢; rw [← ih]; rfl
  rw [← joinChar_eq, this]

/-- The pure path part: what `web_path` does after the URI prefix has been split off. -/
def pathPart (sep : Char) (t : Text) : Text :=
  esc (joinPath (resolve (partitionPath sep t).2 [] (partitionPath sep t).1) (partitionPath sep t).2)

theorem pathPart_resolved (sep : Char) (t : Text) :
    ResolvedPath (posixify sep t) (pathPart sep t) := by
  obtain ⟨root, after, segs, hp, hr, hs⟩ := partition_spec sep t
  obtain ⟨h1, h2⟩ := segs_props hs
  have hroot : root = none ∨ root = some ['.', '/'] ∨ root = some ['/'] := by
    rcases hr with ⟨h, _⟩ | ⟨h, _⟩ | ⟨h, _⟩ <;> simp [h]
  have good := resolve_good root segs [] (Good.nil _) hroot h1 h2
  have red := resolve_reduce root hroot segs h1 [] (by simp)
  have red' : Reduce (decide (root = some ['/'])) (splitChar '/' after) (resolve root [] segs) := by
    have := reduce_dots (decide (root = some ['/'])) [] (splitChar '/' after) (resolve root [] segs) (by
      rw [← hs]; simpa using red)
    simpa using this
  unfold pathPart
  rw [hp]
  have hdl : DotsLead (resolve root [] segs) := ⟨good.nodot, good.lead⟩
  have hout : ∀ r : Text, root.getD [] = r → esc (joinPath (resolve root [] segs) root) =
      escapeSpaces (r ++ glue (resolve root [] segs)) := by
    intro r e
    unfold joinPath
    rw [e, join_glue]; rfl
  rcases hr with ⟨rfl, e⟩ | ⟨rfl, e⟩ | ⟨rfl, e, e1, e2⟩
  · exact ⟨['/'], after, _, _, by rw [e]; rfl, Or.inl rfl, segments_split after, by simpa using red', good.nodot,
      fun _ => good.root (by simp), hdl, hout _ rfl⟩
  · exact ⟨['.', '/'], after, _, _, by rw [e]; rfl, Or.inr (Or.inl rfl), segments_split after,
      by simpa using red', good.nodot, fun h => by simp at h, hdl, hout _ rfl⟩
  · exact ⟨[], after, _, _, by rw [e]; rfl, Or.inr (Or.inr ⟨rfl, by rw [e]; exact e1, by rw [e]; exact e2⟩),
      segments_split after, by simpa using red', good.nodot, fun h => by simp at h, hdl, hout _ rfl⟩

private theorem esc_append (a b : Text) : esc (a ++ b) = esc a ++ esc b := replaceChar_append _ _ _ _

private theorem esc_glue (segs : List Text) : esc (glue segs) = glue (segs.map esc) := by
  rw [← join_glue, ← join_glue]; exact replaceChar_join _ _ _ (by decide) _

/-- The output of the path part, described by its cleaned and escaped segments. -/
private theorem pathPart_shape (sep : Char) (t : Text) :
    ∃ root segs, (root = ['/'] ∨ root = ['.', '/'] ∨ root = []) ∧ Good (decide (root = ['/'])) segs ∧
      pathPart sep t = root ++ glue segs ∧ (∀ s ∈ segs, ' ' ∉ s) ∧
      (sep = '\\' → ∀ s ∈ segs, '\\' ∉ s) ∧
      (root = [] → pathPart sep t = [] ∨ segs ≠ []) := by
  obtain ⟨root, after, segs, hp, hr, hs⟩ := partition_spec sep t
  obtain ⟨h1, h2⟩ := segs_props hs
  have hroot : root = none ∨ root = some ['.', '/'] ∨ root = some ['/'] := by
    rcases hr with ⟨h, _⟩ | ⟨h, _⟩ | ⟨h, _⟩ <;> simp [h]
  have good := (resolve_good root segs [] (Good.nil _) hroot h1 h2).map_esc
  have hmem : ∀ s ∈ resolve root [] segs, s ∈ segs := by
    have : ∀ (segs acc : List Text), ∀ s ∈ resolve root acc segs, s ∈ segs ∨ s ∈ acc := by
      intro segs
      induction segs with
      | nil => intro acc s hs; right; simpa [resolve] using hs
      | cons x xs ih =>
        intro acc s hs
        rw [resolve_cons] at hs
        rcases ih _ s hs with h | h
        · left; simp [h]
        · have : s = x ∨ s ∈ acc := by
            rw [resolveStep.eq_def] at h
            split at h
            · split at h
              · split at h
                · split at h
                  · simp at h
                  · simp at h; exact Or.inl h
                · simp at h; exact Or.inl h
              · split at h
                · rcases List.mem_cons.mp h with h | h
                  · exact Or.inl h
                  · exact Or.inr h
                · right; simp [h]
            · rcases List.mem_cons.mp h with h | h
              · exact Or.inl h
              · exact Or.inr h
          rcases this with rfl | h
          · left; simp
          · exact Or.inr h
    intro s hs
    rcases this segs [] s hs with h | h
    · exact h
    · simp at h
  have hbs : sep = '\\' → ∀ s ∈ (resolve root [] segs).map esc, '\\' ∉ s := by
    intro hsep s hs'
    obtain ⟨u, hu, rfl⟩ := List.mem_map.mp hs'
    apply esc_no_bs
    have hu' := hmem u hu
    rw [hs] at hu'
    have hu2 := (List.mem_filter.mp hu').1
    have hno : '\\' ∉ after := by
      have hn : '\\' ∉ posixify sep t := by
        rcases posixify_cases sep t with ⟨h, _⟩ | h
        · exact absurd hsep h
        · exact h
      rcases hr with ⟨_, e⟩ | ⟨_, e⟩ | ⟨_, e, _⟩
      · rw [e] at hn; exact fun h => hn (by simp [h])
      · rw [e] at hn; exact fun h => hn (by simp [h])
      · rwa [e] at hn
    intro hh
    -- a piece of a text without backslash has no backslash
    have : ∀ (t : Text) (c : Char), ∀ s ∈ splitChar '/' t, c ∈ s → c ∈ t := by
      intro t
      induction t with
      | nil => intro c s hs hc; simp [splitChar] at hs; subst hs; exact hc
      | cons d ds ih =>
        intro c s hs hc
        rw [splitChar] at hs
        split at hs
        · rcases List.mem_cons.mp hs with rfl | hs
          · simp at hc
          · simp [ih c s hs hc]
        · cases hsp : splitChar '/' ds with
          | nil => exact absurd hsp (splitChar_ne_nil _ _)
          | cons p ps =>
            rw [hsp] at hs
            rcases List.mem_cons.mp hs with rfl | hs
            · rcases List.mem_cons.mp hc with rfl | hc
              · simp
              · simp [ih c p (by rw [hsp]; simp) hc]
            · simp [ih c s (by rw [hsp]; simp [hs]) hc]
    exact hno (this after '\\' u hu2 hh)
  have hsp : ∀ s ∈ (resolve root [] segs).map esc, ' ' ∉ s := by
    intro s hs'
    obtain ⟨u, _, rfl⟩ := List.mem_map.mp hs'
    exact esc_space u
  have hout : ∀ r : Text, root.getD [] = r → esc r = r → pathPart sep t = r ++ glue ((resolve root [] segs).map esc) := by
    intro r e1 e2
    unfold pathPart
    rw [hp]
    unfold joinPath
    rw [e1, esc_append, e2, join_glue, esc_glue]
  rcases hroot with rfl | rfl | rfl
  · refine ⟨[], _, by simp, by simpa using good, hout _ rfl rfl, hsp, hbs, fun _ => ?_⟩
    by_cases hn : resolve none [] segs = []
    · left; rw [hout [] rfl rfl, hn]; rfl
    · right; simpa using hn
  · exact ⟨['.', '/'], _, by simp, by simpa using good, hout _ rfl (by decide), hsp, hbs, fun h => by simp at h⟩
  · exact ⟨['/'], _, by simp, by simpa using good, hout _ rfl (by decide), hsp, hbs, fun h => by simp at h⟩

private theorem segments_glue {segs : List Text} (h : segs ≠ []) (hs : ∀ s ∈ segs, '/' ∉ s) :
    Segments (glue segs) segs := ⟨h, rfl, hs⟩

private theorem glue_mem_space {segs : List Text} (h : ∀ s ∈ segs, ' ' ∉ s) : ' ' ∉ glue segs := by
  rw [← join_glue]
  induction segs with
  | nil => simp [joinChar]
  | cons p ps ih =>
    cases ps with
    | nil => exact h p (by simp)
    | cons q qs =>
      rw [joinChar]
      intro hh
      rcases List.mem_append.mp hh with hh | hh
      · exact h p (by simp) hh
      · rcases List.mem_cons.mp hh with hh | hh
        · exact absurd hh (by decide)
        · exact ih (fun s hs => h s (by simp [hs])) hh

private theorem pathPart_clean (sep : Char) (t : Text) : CleanPath (pathPart sep t) := by
  obtain ⟨root, segs, hr, hg, hout, hsp, _, _⟩ := pathPart_shape sep t
  have hspace : ' ' ∉ pathPart sep t := by
    rw [hout]
    intro hh
    rcases List.mem_append.mp hh with hh | hh
    · rcases hr with rfl | rfl | rfl <;> simp at hh
    · exact glue_mem_space hsp hh
  refine ⟨hspace, ?_⟩
  have hempty : segs = [] → ∃ segs', Segments (glue segs) segs' ∧ ['.'] ∉ segs' ∧ ['.', '.'] ∉ segs' ∧
      DotsLead segs' := by
    intro h; subst h
    exact ⟨[[]], ⟨by simp, rfl, by simp⟩, by simp, by simp, by simp, 0, [[]], by simp, by simp⟩
  have hdl : DotsLead segs := ⟨hg.nodot, hg.lead⟩
  rcases hr with rfl | rfl | rfl
  · left
    by_cases hn : segs = []
    · obtain ⟨s', h1, h2, h3, _⟩ := hempty hn
      exact ⟨glue segs, s', by rw [hout]; rfl, h1, h2, h3⟩
    · exact ⟨glue segs, segs, by rw [hout]; rfl, segments_glue hn hg.noslash, hg.nodot, hg.root (by simp)⟩
  · right; left
    by_cases hn : segs = []
    · obtain ⟨s', h1, _, _, h4⟩ := hempty hn
      exact ⟨glue segs, s', by rw [hout]; rfl, h1, h4⟩
    · exact ⟨glue segs, segs, by rw [hout]; rfl, segments_glue hn hg.noslash, hdl⟩
  · rw [List.nil_append] at hout
    by_cases hs : (pathPart sep t).head? = some '/'
    · -- an empty first segment: the rest is a rooted path without `..`
      left
      cases segs with
      | nil => rw [hout] at hs; simp [glue] at hs
      | cons p ps =>
        have hp : p = [] := by
          cases p with
          | nil => rfl
          | cons c cs =>
            exfalso
            rw [hout, ← join_glue] at hs
            have hc : c = '/' := by
              cases ps with
              | nil => simpa [joinChar] using hs
              | cons q qs => simpa [joinChar] using hs
            exact hg.noslash (c :: cs) (by simp) (by simp [hc])
        subst hp
        have hps : ps ≠ [] := by
          intro h; subst h; rw [hout] at hs; simp [glue] at hs
        obtain ⟨k, rest, e, hne⟩ := hg.lead
        have hk : k = 0 := by
          cases k with
          | zero => rfl
          | succ k => rw [List.replicate_succ] at e; simp at e
        subst hk
        simp at e
        refine ⟨glue ps, ps, ?_, segments_glue hps (fun s h => hg.noslash s (by simp [h])),
          fun h => hg.nodot (by simp [h]), fun h => hne (by rw [← e]; simp [h])⟩
        rw [hout]
        cases ps with
        | nil => exact absurd rfl hps
        | cons q qs => simp [glue]
    · right; right
      by_cases hn : segs = []
      · obtain ⟨s', h1, _, _, h4⟩ := hempty hn
        rw [← hout] at h1
        exact ⟨s', hs, h1, h4⟩
      · exact ⟨segs, hs, by rw [hout]; exact segments_glue hn hg.noslash, hdl⟩

variable [Uni]

theorem webPath_none (sep : Char) (t : Text) : webPath sep t none = pathPart sep (posixify sep t) := by
  rfl

theorem webPath_root (sep : Char) (t s : Text) (h : isWebRoot (posixify sep t) = true) :
    webPath sep t (some s) = pathPart sep (posixify sep t) := by
  unfold webPath
  simp only [Option.map_some, h, if_true]
  rfl

theorem uriSniff_spec (s : Text) (n : Nat) (h : uriSniff s = some n) : UriPrefix (s.take n) := by
  unfold uriSniff at h
  split at h
  · simp at h
  · rename_i c cs
    split at h
    · rename_i hc
      simp only at h
      split at h
      · simp at h
      · rename_i hn
        have hle := Span.prefLen_le schemeChar cs
        have htake := Span.prefLen_take schemeChar cs
        have hsplit := List.take_append_drop (Span.prefLen schemeChar cs) cs
        generalize hk : Span.prefLen schemeChar cs = k at *
        have hlen : (cs.take k).length = k := by simp; omega
        have cls : ∀ d ∈ cs.take k, Uni.isAlphabetic d = true ∨ Uni.isNumeric d = true ∨ d = '.' ∨ d = '+' ∨ d = '-' := by
          intro d hd
          have := htake d hd
          simp [schemeChar] at this
          rcases this with (((h | h) | h) | h) | h <;> simp [h]
        have hne : cs.take k ≠ [] := by intro e; rw [e] at hlen; simp at hlen; omega
        have fin : ∀ (sl rest : Text), cs.drop k = ':' :: sl ++ rest → n = 1 + k + (1 + sl.length) →
            (sl = [] ∨ sl = ['/'] ∨ sl = ['/', '/']) → UriPrefix ((c :: cs).take n) := by
          intro sl rest e en hsl
          refine ⟨c, cs.take k, sl, ?_, hc, hne, cls, hsl⟩
          rw [en]
          have hcs : cs = cs.take k ++ (':' :: sl) ++ rest := by rw [List.append_assoc, ← e, hsplit]
          have : 1 + k + (1 + sl.length) = (k + (1 + sl.length)) + 1 := by omega
          rw [this, List.take_succ_cons, List.cons_append]
          congr 1
          conv => lhs; rw [hcs]
          have hl : (cs.take k ++ ':' :: sl).length = k + (1 + sl.length) := by
            rw [List.length_append, hlen, List.length_cons]; omega
          rw [← hl, List.take_left]
        split at h
        · rename_i rest e
          exact fin ['/', '/'] rest (by rw [e]; rfl) (by simp at h ⊢; omega) (by simp)
        · rename_i rest _ e
          exact fin ['/'] rest (by rw [e]; rfl) (by simp at h ⊢; omega) (by simp)
        · rename_i rest _ _ e
          exact fin [] rest (by rw [e]; rfl) (by simp at h ⊢; omega) (by simp)
        · simp at h
    · simp at h

private theorem resolve_noempty (root : Option Text) (segs : List Text) :
    ∀ acc : List Text, [] ∉ acc → [] ∉ segs.dropLast → [] ∉ (resolve root acc segs).dropLast := by
  have step : ∀ (acc : List Text) (x : Text), ∀ s ∈ resolveStep root acc x, s = x ∨ s ∈ acc := by
    intro acc x s h
    rw [resolveStep.eq_def] at h
    split at h
    · split at h
      · split at h
        · split at h
          · simp at h
          · simp at h; exact Or.inl h
        · simp at h; exact Or.inl h
      · split at h
        · rcases List.mem_cons.mp h with h | h
          · exact Or.inl h
          · exact Or.inr h
        · right; simp [h]
    · rcases List.mem_cons.mp h with h | h
      · exact Or.inl h
      · exact Or.inr h
  induction segs with
  | nil =>
    intro acc h _ hh
    simp only [resolve, List.foldl_nil] at hh
    exact h (List.mem_reverse.mp (List.dropLast_subset _ hh))
  | cons x xs ih =>
    intro acc h hd
    by_cases hx : x = []
    · subst hx
      cases xs with
      | nil =>
        intro hh
        simp only [resolve, List.foldl_cons, List.foldl_nil, resolveStep] at hh
        simp at hh
        exact h hh
      | cons y ys => exact absurd (by simp) hd
    · rw [resolve_cons]
      apply ih
      · intro hh
        rcases step acc x _ hh with e | e
        · exact hx e.symm
        · exact h e
      · cases xs with
        | nil => simp
        | cons y ys => exact fun hh => hd (by simp only [List.dropLast_cons₂]; exact List.mem_cons_of_mem _ hh)

/-! ### Theorems -/

/-- C15. Every result is an optional URI prefix followed by a clean path; without a start path, or with a rooted
target, there is no URI prefix. -/
theorem C15_web_path_clean (sep : Char) (target : Text) (start : Option Text) :
    ∃ pre path, webPath sep target start = pre ++ path ∧ CleanPath path ∧
      (pre = [] ∨ UriPrefix pre) ∧ (start = none → pre = []) ∧
      (∀ r, Posix sep target ('/' :: r) → pre = []) := by
  cases start with
  | none =>
    exact ⟨[], _, by rw [webPath_none]; rfl, pathPart_clean _ _, Or.inl rfl, fun _ => rfl, fun _ _ => rfl⟩
  | some s =>
    by_cases h : isWebRoot (posixify sep target) = true
    · exact ⟨[], _, by rw [webPath_root _ _ _ h]; rfl, pathPart_clean _ _, Or.inl rfl, fun _ => rfl, fun _ _ => rfl⟩
    · have hpos : ∀ r, Posix sep target ('/' :: r) → False := by
        intro r hr
        apply h
        have := posix_spec sep target
        have e : posixify sep target = '/' :: r := by
          by_cases hs : sep = '\\'
          · rw [this.1 hs, hr.1 hs]
          · rw [this.2 hs, hr.2 hs]
        rw [e]; exact startsWith_iff.mpr ⟨r, rfl⟩
      unfold webPath
      simp only [Option.map_some, h, Bool.false_eq_true, if_false]
      generalize posixify sep s ++ (if endsWith (posixify sep s) ['/'] = true then [] else ['/']) ++ posixify sep target = full
      unfold extractUriPrefix
      split
      · cases hn : uriSniff full with
        | none =>
          exact ⟨[], _, rfl, pathPart_clean sep full, Or.inl rfl, fun h => by simp at h, fun r hr => (hpos r hr).elim⟩
        | some n =>
          exact ⟨full.take n, _, rfl, pathPart_clean sep (full.drop n), Or.inr (uriSniff_spec _ _ hn), fun h => by simp at h,
            fun r hr => (hpos r hr).elim⟩
      · exact ⟨[], _, rfl, pathPart_clean sep full, Or.inl rfl, fun h => by simp at h, fun r hr => (hpos r hr).elim⟩

/-- C15. No result contains a raw space. -/
theorem C15_no_space [LawfulUni] (sep : Char) (target : Text) (start : Option Text) :
    ' ' ∉ webPath sep target start := by
  obtain ⟨pre, path, e, hc, hp, _⟩ := C15_web_path_clean sep target start
  rw [e]
  intro h
  rcases List.mem_append.mp h with h | h
  · rcases hp with rfl | ⟨c, cs, sl, rfl, ha, _, hcs, hsl⟩
    · simp at h
    · have h1 : Uni.isAlphabetic ' ' = false := by rw [LawfulUni.alpha _ (by decide)]; decide
      have h2 : Uni.isNumeric ' ' = false := by rw [LawfulUni.num _ (by decide)]; decide
      simp only [List.cons_append, List.mem_cons, List.mem_append] at h
      rcases h with h | h | h | h
      · rw [← h, h1] at ha; cases ha
      · rcases hcs _ h with h | h | h | h | h
        · rw [h1] at h; cases h
        · rw [h2] at h; cases h
        · exact absurd h (by decide)
        · exact absurd h (by decide)
        · exact absurd h (by decide)
      · exact absurd h (by decide)
      · rcases hsl with rfl | rfl | rfl <;> simp at h
  · exact hc.1 h

/-- C15. The result denotes the right place: without start path it is the target with its root kept and its
segments reduced one reference at a time until nothing can be reduced. -/
theorem C15_web_path_resolves (sep : Char) (target : Text) :
    ∃ p, Posix sep target p ∧ ResolvedPath p (webPath sep target none) := by
  refine ⟨_, posix_spec sep target, ?_⟩
  rw [webPath_none]
  have := pathPart_resolved sep (posixify sep target)
  rwa [posixify_idem] at this

/-- C15. With a start path and a relative target the two are joined with one slash, a URI prefix is set aside, and
the rest is resolved in the same way. -/
theorem C15_web_path_joins (sep : Char) (target start : Text) (p q : Text) (hp : Posix sep target p)
    (hq : Posix sep start q) (hrel : ∀ r, p ≠ '/' :: r) :
    ∃ pre path out, q ++ (if q.getLast? = some '/' then [] else ['/']) ++ p = pre ++ path ∧
      (pre = [] ∨ UriPrefix pre) ∧ webPath sep target (some start) = pre ++ out ∧
      ∃ path', Posix sep path path' ∧ ResolvedPath path' out := by
  have ep : posixify sep target = p := by
    have := posix_spec sep target
    by_cases hs : sep = '\\'
    · rw [this.1 hs, hp.1 hs]
    · rw [this.2 hs, hp.2 hs]
  have eq : posixify sep start = q := by
    have := posix_spec sep start
    by_cases hs : sep = '\\'
    · rw [this.1 hs, hq.1 hs]
    · rw [this.2 hs, hq.2 hs]
  have hnr : ¬ isWebRoot p = true := by
    intro h
    obtain ⟨r, hr⟩ := startsWith_iff.mp h
    exact hrel r hr
  have hlast : (endsWith q ['/'] = true) ↔ q.getLast? = some '/' := by
    rw [endsWith_iff]
    constructor
    · rintro ⟨r, rfl⟩; simp
    · intro h
      obtain ⟨r, hr⟩ := List.getLast?_eq_some_iff.mp h
      exact ⟨r, hr⟩
  have hif : (if endsWith q ['/'] = true then ([] : Text) else ['/']) =
      (if q.getLast? = some '/' then [] else ['/']) := by
    by_cases h : q.getLast? = some '/'
    · rw [if_pos h, if_pos (hlast.mpr h)]
    · rw [if_neg h, if_neg (fun hh => h (hlast.mp hh))]
  unfold webPath
  simp only [Option.map_some, ep, eq, hnr, Bool.false_eq_true, if_false]
  rw [hif]
  generalize q ++ (if q.getLast? = some '/' then [] else ['/']) ++ p = full
  unfold extractUriPrefix
  split
  · cases hn : uriSniff full with
    | none =>
      exact ⟨[], full, _, rfl, Or.inl rfl, rfl, _, posix_spec sep full, pathPart_resolved sep full⟩
    | some n =>
      exact ⟨full.take n, full.drop n, _, by rw [List.take_append_drop], Or.inr (uriSniff_spec _ _ hn), rfl, _,
        posix_spec sep _, pathPart_resolved sep (full.drop n)⟩
  · exact ⟨[], full, _, rfl, Or.inl rfl, rfl, _, posix_spec sep full, pathPart_resolved sep full⟩

/-- C16. Resolving a resolved path changes nothing. -/
theorem C16_idempotent (sep : Char) (target : Text) :
    webPath sep (webPath sep target none) none = webPath sep target none := by
  rw [webPath_none, webPath_none]
  generalize posixify sep target = t0
  obtain ⟨root, segs, hr, hg, hout, hsp, hbs, _⟩ := pathPart_shape sep t0
  have hfilter : ∀ l : List Text, ['.'] ∉ l → l.filter (fun s => s != ['.']) = l := by
    intro l hl
    rw [List.filter_eq_self]
    intro s hs
    simp only [bne_iff_ne, ne_eq]
    exact fun e => hl (e ▸ hs)
  have hnobs : posixify sep (pathPart sep t0) = pathPart sep t0 := by
    rcases posixify_cases sep (pathPart sep t0) with ⟨_, h⟩ | h
    · exact h
    · by_cases hs : sep = '\\'
      · apply posixify_no_bs
        rw [hout]
        intro hh
        rcases List.mem_append.mp hh with hh | hh
        · rcases hr with rfl | rfl | rfl <;> simp at hh
        · have hno : ∀ l : List Text, (∀ s ∈ l, '\\' ∉ s) → '\\' ∉ joinChar '/' l := by
            intro l
            induction l with
            | nil => simp [joinChar]
            | cons p ps ih =>
              intro hl
              cases ps with
              | nil => exact hl p (by simp)
              | cons q qs =>
                rw [joinChar]
                intro hh
                rcases List.mem_append.mp hh with hh | hh
                · exact hl p (by simp) hh
                · rcases List.mem_cons.mp hh with hh | hh
                  · exact absurd hh (by decide)
                  · exact ih (fun s hs => hl s (by simp [hs])) hh
          rw [← join_glue] at hh
          exact hno segs (hbs hs) hh
      · unfold posixify; rw [if_neg (fun hh => hs hh.1)]
  rw [hnobs]
  have hescid : ∀ l : List Text, (∀ s ∈ l, ' ' ∉ s) → esc (joinChar '/' l) = joinChar '/' l := by
    intro l hl
    apply replaceChar_id
    rw [join_glue]; exact glue_mem_space hl
  -- what the second run does, by the shape of the first result
  have rooted : ∀ l : List Text, (∀ s ∈ l, ' ' ∉ s) → (∀ s ∈ l, '/' ∉ s) → ['.'] ∉ l → ['.', '.'] ∉ l →
      posixify sep ('/' :: joinChar '/' l) = '/' :: joinChar '/' l →
      pathPart sep ('/' :: joinChar '/' l) = '/' :: joinChar '/' l := by
    intro l h1 h2 h3 h4 h5
    have hpart : partitionPath sep ('/' :: joinChar '/' l) =
        ((splitChar '/' (joinChar '/' l)).filter (fun s => s != ['.']), some ['/']) := by
      unfold partitionPath
      rw [h5]
      have : isWebRoot ('/' :: joinChar '/' l) = true := startsWith_iff.mpr ⟨_, rfl⟩
      simp only [this, if_true]
      rfl
    unfold pathPart
    rw [hpart]
    simp only [joinPath, Option.getD_some]
    by_cases hl : l = []
    · subst hl; simp only [joinChar, splitChar]; decide
    · rw [splitChar_joinChar hl h2, hfilter l h3, resolve_id _ _ h4]
      simp only [List.reverse_nil, List.nil_append]
      rw [esc_append, hescid l h1]; rfl
  have unrooted : ∀ (r : Text) (ro : Option Text) (l : List Text), (r = [] ∧ ro = none ∨ r = ['.', '/'] ∧ ro = some ['.', '/']) →
      (∀ s ∈ l, ' ' ∉ s) → (∀ s ∈ l, '/' ∉ s) → ['.'] ∉ l → (∃ k rest, l = List.replicate k ['.', '.'] ++ rest ∧ ['.', '.'] ∉ rest) →
      posixify sep (r ++ joinChar '/' l) = r ++ joinChar '/' l →
      (r = [] → (r ++ joinChar '/' l).head? ≠ some '/') →
      pathPart sep (r ++ joinChar '/' l) = r ++ joinChar '/' l := by
    intro r ro l hro h1 h2 h3 h4 h5 h6
    have hpart : partitionPath sep (r ++ joinChar '/' l) =
        ((splitChar '/' (joinChar '/' l)).filter (fun s => s != ['.']), ro) := by
      unfold partitionPath
      rw [h5]
      rcases hro with ⟨rfl, rfl⟩ | ⟨rfl, rfl⟩
      · have a1 : ¬ isWebRoot ([] ++ joinChar '/' l) = true := by
          intro h
          obtain ⟨x, hx⟩ := startsWith_iff.mp h
          apply h6 rfl; rw [hx]; rfl
        have a2 : ¬ startsWith ([] ++ joinChar '/' l) ['.', '/'] = true := by
          intro h
          obtain ⟨x, hx⟩ := startsWith_iff.mp h
          -- then the first segment would be a dot
          rw [List.nil_append] at hx
          by_cases hl : l = []
          · subst hl; simp [joinChar] at hx
          · have := splitChar_joinChar hl h2
            rw [hx] at this
            have e : ['.', '/'] ++ x = ['.'] ++ '/' :: x := rfl
            rw [e, splitChar_append (by simp)] at this
            exact h3 (by rw [← this]; simp)
        simp only [a1, a2, Bool.false_eq_true, if_false]
        rfl
      · have a1 : ¬ isWebRoot (['.', '/'] ++ joinChar '/' l) = true := by
          intro h
          obtain ⟨x, hx⟩ := startsWith_iff.mp h
          simp at hx
        have a2 : startsWith (['.', '/'] ++ joinChar '/' l) ['.', '/'] = true := startsWith_iff.mpr ⟨_, rfl⟩
        simp only [a1, a2, Bool.false_eq_true, if_false, if_true]
        rfl
    unfold pathPart
    rw [hpart]
    have hro' : ro = none ∨ ro = some ['.', '/'] := by
      rcases hro with ⟨_, h⟩ | ⟨_, h⟩ <;> simp [h]
    have hget : ro.getD [] = r := by
      rcases hro with ⟨h, h'⟩ | ⟨h, h'⟩ <;> rw [h, h'] <;> rfl
    have hescr : esc r = r := by
      rcases hro with ⟨h, _⟩ | ⟨h, _⟩ <;> rw [h] <;> decide
    simp only [joinPath, hget]
    by_cases hl : l = []
    · subst hl
      have : ∀ ro : Option Text, resolve ro [] ((splitChar '/' (joinChar '/' [])).filter (fun s => s != ['.'])) = [[]] := by
        intro ro; simp [joinChar, splitChar, resolve, resolveStep]
      rw [this, esc_append, hescr]; rfl
    · rw [splitChar_joinChar hl h2, hfilter l h3]
      obtain ⟨k, rest, e, hne⟩ := h4
      rw [e, resolve_lead _ hro' k rest hne, ← e, esc_append, hescr, hescid l h1]
  rw [← join_glue] at hout
  rw [hout] at hnobs ⊢
  rcases hr with rfl | rfl | rfl
  · exact rooted segs hsp hg.noslash hg.nodot (hg.root (by simp)) hnobs
  · exact unrooted ['.', '/'] (some ['.', '/']) segs (by simp) hsp hg.noslash hg.nodot hg.lead hnobs (by simp)
  · by_cases hh : (([] : Text) ++ joinChar '/' segs).head? = some '/'
    · -- empty first segment
      cases segs with
      | nil => simp [joinChar] at hh
      | cons p ps =>
        have hp : p = [] := by
          cases p with
          | nil => rfl
          | cons c cs =>
            exfalso
            have hc : c = '/' := by
              cases ps with
              | nil => simpa [joinChar] using hh
              | cons q qs => simpa [joinChar] using hh
            exact hg.noslash (c :: cs) (by simp) (by simp [hc])
        subst hp
        cases ps with
        | nil => simp [joinChar] at hh
        | cons q qs =>
          obtain ⟨k, rest, e, hne⟩ := hg.lead
          have hk : k = 0 := by
            cases k with
            | zero => rfl
            | succ k => rw [List.replicate_succ] at e; simp at e
          subst hk
          simp at e
          exact rooted (q :: qs) (fun s h => hsp s (by simp [h])) (fun s h => hg.noslash s (by simp [h]))
            (fun h => hg.nodot (by simp [h])) (fun h => hne (by rw [← e]; simp [h])) hnobs
    · exact unrooted [] none segs (by simp) hsp hg.noslash hg.nodot hg.lead hnobs (fun _ => hh)

/-- C16. For a rooted target the start path has no influence. -/
theorem C16_root_ignores_start (sep : Char) (r : Text) (start : Option Text) :
    webPath sep ('/' :: r) start = webPath sep ('/' :: r) none := by
  cases start with
  | none => rfl
  | some s =>
    rw [webPath_none, webPath_root]
    have := posix_spec sep ('/' :: r)
    by_cases hs : sep = '\\'
    · rw [this.1 hs]; exact startsWith_iff.mpr ⟨_, rfl⟩
    · rw [this.2 hs]; exact startsWith_iff.mpr ⟨_, rfl⟩

/-- C50. A relative target stays relative when none of its segments but the last is empty (that is, when it has no
doubled slash).  Missing from the full property: targets with a doubled slash, for which it fails. -/
theorem C50_relative_stays_relative_partial (sep : Char) (target p : Text) (segs : List Text)
    (hp : Posix sep target p) (hs : Segments p segs) (hrel : ∀ r, p ≠ '/' :: r) (hne : [] ∉ segs.dropLast) :
    ∀ r, webPath sep target none ≠ '/' :: r := by
  have ep : posixify sep target = p := by
    have := posix_spec sep target
    by_cases hs : sep = '\\'
    · rw [this.1 hs, hp.1 hs]
    · rw [this.2 hs, hp.2 hs]
  rw [webPath_none, ep]
  have hpp : posixify sep p = p := by rw [← ep]; exact posixify_idem _ _
  intro r hout
  have hnr : ¬ isWebRoot p = true := by
    intro h
    obtain ⟨r, hr⟩ := startsWith_iff.mp h
    exact hrel r hr
  by_cases hd : startsWith p ['.', '/'] = true
  · obtain ⟨x, hx⟩ := startsWith_iff.mp hd
    have : (partitionPath sep p).2 = some ['.', '/'] := by
      unfold partitionPath
      rw [hpp]
      simp only [hnr, hd, Bool.false_eq_true, if_false, if_true]
    unfold pathPart at hout
    rw [this] at hout
    simp only [joinPath, Option.getD_some, esc_append] at hout
    have h2 : esc ['.', '/'] = ['.', '/'] := by decide
    rw [h2] at hout
    simp at hout
  · have hpart : partitionPath sep p = ((splitChar '/' p).filter (fun s => s != ['.']), none) := by
      unfold partitionPath
      rw [hpp]
      simp only [hnr, hd, Bool.false_eq_true, if_false]
    have hsplit : splitChar '/' p = segs := by
      obtain ⟨h1, h2, h3⟩ := hs
      rw [h2, ← joinChar_eq, splitChar_joinChar h1 h3]
    have hnoslash : ∀ s ∈ segs, '/' ∉ s := hs.2.2
    have hne' : [] ∉ (segs.filter (fun s => s != ['.'])).dropLast := by
      have : ∀ l : List Text, [] ∉ l.dropLast → [] ∉ (l.filter (fun s => s != ['.'])).dropLast := by
        intro l
        induction l with
        | nil => simp
        | cons x xs ih =>
          intro h hh
          cases xs with
          | nil => by_cases hx : x = ['.'] <;> simp [hx] at hh
          | cons y ys =>
            have hih := ih (fun hh => h (by simp only [List.dropLast_cons₂]; exact List.mem_cons_of_mem _ hh))
            by_cases hx : (x != ['.']) = true
            · rw [List.filter_cons_of_pos (p := fun s => s != ['.']) hx] at hh
              cases hf : (y :: ys).filter (fun s => s != ['.']) with
              | nil => rw [hf] at hh; simp at hh
              | cons a b =>
                rw [hf, List.dropLast_cons₂] at hh
                rcases List.mem_cons.mp hh with e | e
                · exact h (by simp only [List.dropLast_cons₂]; rw [← e]; simp)
                · rw [hf] at hih; exact hih e
            · rw [List.filter_cons_of_neg (p := fun s => s != ['.']) hx] at hh
              exact hih hh
      exact this segs hne
    unfold pathPart at hout
    rw [hpart, hsplit] at hout
    have hres := resolve_noempty none (segs.filter (fun s => s != ['.'])) [] (by simp) hne'
    have hmem : ∀ s ∈ resolve none [] (segs.filter (fun s => s != ['.'])), '/' ∉ s :=
      (resolve_good none _ [] (Good.nil _) (by simp) (by simp)
        (fun s h => hnoslash s (List.mem_filter.mp h).1)).noslash
    simp only [joinPath, Option.getD_none, List.nil_append] at hout
    rw [join_glue, esc_glue, ← join_glue] at hout
    generalize resolve none [] (segs.filter (fun s => s != ['.'])) = res at *
    cases res with
    | nil => simp [joinChar] at hout
    | cons a b =>
      cases a with
      | nil =>
        cases b with
        | nil => simp [joinChar, esc, replaceChar] at hout
        | cons c d => exact hres (by simp)
      | cons ch chs =>
        have hch : ch ≠ '/' := fun e => hmem (ch :: chs) (by simp) (by simp [e])
        have h1 : (joinChar '/' (((ch :: chs) :: b).map esc)).head? = (esc (ch :: chs)).head? := by
          have hne : esc (ch :: chs) ≠ [] := by
            unfold esc replaceChar; rw [List.flatMap_cons]; split <;> simp
          cases b with
          | nil => rfl
          | cons c d =>
            simp only [List.map_cons, joinChar]
            cases he : esc (ch :: chs) with
            | nil => exact absurd he hne
            | cons e es => rfl
        rw [hout] at h1
        unfold esc replaceChar at h1
        rw [List.flatMap_cons] at h1
        split at h1
        · simp at h1
        · simp at h1; exact hch h1.symm

def nd (l : List Text) : List Text := l.filter (fun s => s != ['.'])

theorem nd_id {l : List Text} (h : ['.'] ∉ l) : nd l = l := by
  unfold nd
  rw [List.filter_eq_self]
  intro a ha
  simp only [bne_iff_ne, ne_eq]
  rintro rfl
  exact h ha

private theorem step_cancel (acc : List Text) (s : Text) (h : s ≠ ['.', '.']) :
    resolveStep none (resolveStep none acc s) ['.', '.'] = acc := by
  have : resolveStep none acc s = s :: acc := by unfold resolveStep; rw [if_neg h]
  rw [this]
  unfold resolveStep
  rw [if_pos rfl]
  simp [h]

private theorem reduce_fold {a c : List Text} (h : Reduce false a c) (hc : ['.'] ∉ c) :
    ∀ acc, (nd a).foldl (resolveStep none) acc = c.foldl (resolveStep none) acc := by
  induction h with
  | refl => intro acc; rw [nd_id hc]
  | @dot a b c _ ih =>
    intro acc
    rw [← ih hc acc]
    simp [nd]
  | @up a s b c h1 h2 _ ih =>
    intro acc
    rw [← ih hc acc]
    have : nd (a ++ [s, ['.', '.']] ++ b) = nd a ++ (s :: ['.', '.'] :: nd b) := by
      simp [nd, List.filter_append, List.filter_cons, h2]
    rw [this]
    have : nd (a ++ b) = nd a ++ nd b := by simp [nd]
    rw [this, List.foldl_append, List.foldl_append, List.foldl_cons, List.foldl_cons, step_cancel _ _ h1]
  | top h => cases h

private theorem fold_push {c : List Text} (h : ['.', '.'] ∉ c) :
    ∀ acc, c.foldl (resolveStep none) acc = c.reverse ++ acc := by
  induction c with
  | nil => simp
  | cons x xs ih =>
    intro acc
    rw [List.foldl_cons, ih (fun hh => h (by simp [hh]))]
    have : resolveStep none acc x = x :: acc := by
      unfold resolveStep
      rw [if_neg (fun e => h (by simp [e]))]
    rw [this]
    simp

/-- The segment at the bottom of the stack was put there when the stack was empty and nothing reached it since. -/
private theorem fold_bottom (b : Text) (hb : b ≠ ['.', '.']) (n : Nat) : ∀ (segs st : List Text), segs.length = n →
    segs.foldl (resolveStep none) [] = st ++ [b] →
    ∃ front back, segs = front ++ b :: back ∧ front.foldl (resolveStep none) [] = [] ∧
      back.foldl (resolveStep none) [] = st := by
  induction n with
  | zero =>
    intro segs st hn h
    rw [List.length_eq_zero_iff.mp hn] at h
    simp at h
  | succ n ih =>
    intro segs st hn h
    have hne : segs ≠ [] := by rintro rfl; simp at hn
    obtain ⟨s0, s, rfl⟩ : ∃ a b, segs = a ++ [b] := ⟨segs.dropLast, segs.getLast hne, (List.dropLast_concat_getLast hne).symm⟩
    have hlen : s0.length = n := by simpa using hn
    rw [List.foldl_append, List.foldl_cons, List.foldl_nil] at h
    have more : ∀ st', s0.foldl (resolveStep none) [] = st' ++ [b] → resolveStep none st' s = st →
        ∃ front back, s0 ++ [s] = front ++ b :: back ∧ front.foldl (resolveStep none) [] = [] ∧
          back.foldl (resolveStep none) [] = st := by
      intro st' h1 h2
      obtain ⟨front, back, e1, e2, e3⟩ := ih s0 st' hlen h1
      refine ⟨front, back ++ [s], by rw [e1]; simp, e2, ?_⟩
      rw [List.foldl_append, e3, List.foldl_cons, List.foldl_nil, h2]
    by_cases hs : s = ['.', '.']
    · subst hs
      cases ha : s0.foldl (resolveStep none) [] with
      | nil =>
        rw [ha] at h
        cases st with
        | nil => exact absurd (List.cons.inj h).1.symm hb
        | cons x xs =>
          have := (List.cons.inj h).2
          simp at this
      | cons last rest =>
        rw [ha] at h
        unfold resolveStep at h
        rw [if_pos rfl] at h
        simp only at h
        by_cases hl : last = ['.', '.']
        · subst hl
          rw [if_pos rfl] at h
          cases st with
          | nil => simp at h
          | cons x xs =>
            have hx := (List.cons.inj h).1
            have hxs := (List.cons.inj h).2
            refine more xs (by rw [ha, hxs]; rfl) ?_
            cases xs with
            | nil => exact absurd (List.cons.inj hxs).1.symm hb
            | cons y ys =>
              have := (List.cons.inj hxs).1
              subst this
              subst hx
              simp [resolveStep]
        · rw [if_neg hl] at h
          refine more (last :: st) (by rw [ha, h]; rfl) ?_
          simp [resolveStep, hl]
    · have hst : ∀ acc, resolveStep none acc s = s :: acc := by
        intro acc; unfold resolveStep; rw [if_neg hs]
      rw [hst] at h
      cases st with
      | nil =>
        have h1 := (List.cons.inj h).1
        have h2 : s0.foldl (resolveStep none) [] = [] := (List.cons.inj h).2
        subst h1
        exact ⟨s0, [], rfl, h2, rfl⟩
      | cons x xs =>
        have h1 := (List.cons.inj h).1
        have h2 := (List.cons.inj h).2
        subst h1
        exact more xs h2 (hst xs)

private theorem nd_split {segs f bk : List Text} {b : Text} (h : nd segs = f ++ b :: bk) :
    ∃ f' b', segs = f' ++ b :: b' ∧ nd f' = f ∧ nd b' = bk := by
  induction segs generalizing f with
  | nil => simp [nd] at h
  | cons x xs ih =>
    by_cases hx : x = ['.']
    · subst hx
      obtain ⟨f', b', e1, e2, e3⟩ := ih (f := f) (by rw [← h]; simp [nd])
      exact ⟨['.'] :: f', b', by rw [e1]; rfl, by rw [← e2]; simp [nd], e3⟩
    · have hf : nd (x :: xs) = x :: nd xs := by
        unfold nd; rw [List.filter_cons_of_pos]; simpa using hx
      rw [hf] at h
      cases f with
      | nil =>
        have h1 := (List.cons.inj h).1
        have h2 := (List.cons.inj h).2
        exact ⟨[], xs, by rw [h1]; rfl, rfl, h2⟩
      | cons y ys =>
        have h1 := (List.cons.inj h).1
        have h2 : nd xs = ys ++ b :: bk := (List.cons.inj h).2
        obtain ⟨f', b', e1, e2, e3⟩ := ih h2
        exact ⟨x :: f', b', by rw [e1]; rfl, by
          have : nd (x :: f') = x :: nd f' := by
            unfold nd; rw [List.filter_cons_of_pos]; simpa using hx
          rw [this, e2, h1], e3⟩

theorem nd_no_dot (l : List Text) : ['.'] ∉ nd l := by
  intro h
  have := (List.mem_filter.mp h).2
  simp at this

private theorem fold_reduce (l : List Text) :
    Reduce false l ((nd l).foldl (resolveStep none) []).reverse := by
  have := resolve_reduce none (Or.inl rfl) (nd l) (nd_no_dot l) [] (by simp)
  have := reduce_dots false [] l _ (by simpa [nd] using this)
  simpa [resolve, nd] using this

private theorem empties_iff (segs : List Text) (hns : ∀ s ∈ segs, '/' ∉ s) :
    EmptiesOut segs ↔ ∃ rest, rest ≠ [] ∧ resolve none [] (nd segs) = [] :: rest := by
  constructor
  · rintro ⟨front, back, rest, rfl, h1, h2, h3, h4, h5⟩
    refine ⟨rest, h3, ?_⟩
    unfold resolve
    have : nd (front ++ [[]] ++ back) = nd front ++ ([] :: nd back) := by simp [nd]
    rw [this, List.foldl_append, reduce_fold h1 (by simp), List.foldl_cons, reduce_fold h2 h4, fold_push h5]
    have : resolveStep none (List.foldl (resolveStep none) [] []) [] = [[]] := rfl
    rw [this]
    simp
  · rintro ⟨rest, hne, h⟩
    have hfold : (nd segs).foldl (resolveStep none) [] = rest.reverse ++ [[]] := by
      have := congrArg List.reverse h
      simpa [resolve] using this
    obtain ⟨f, b, e1, e2, e3⟩ := fold_bottom [] (by decide) _ (nd segs) _ rfl hfold
    obtain ⟨f', b', rfl, rfl, rfl⟩ := nd_split e1
    have r1 := fold_reduce f'
    have r2 := fold_reduce b'
    rw [e2] at r1
    rw [e3, List.reverse_reverse] at r2
    have hgood := resolve_good none (nd (f' ++ [] :: b')) [] (Good.nil _) (Or.inl rfl) (nd_no_dot _)
      (fun s hs => hns s (List.mem_filter.mp hs).1)
    rw [h] at hgood
    refine ⟨f', b', rest, by simp, r1, r2, hne, fun hh => hgood.nodot (by simp [hh]), ?_⟩
    obtain ⟨k, r, e, hr⟩ := hgood.lead
    cases k with
    | zero =>
      simp at e
      intro hh
      exact hr (by rw [← e]; simp [hh])
    | succ k =>
      rw [List.replicate_succ] at e
      exact absurd (List.cons.inj e).1 (by decide)

/-- C50. Exactly the relative targets that do not begin with `./` and empty out in front of a doubled slash become rooted:
what is in front of some empty segment cancels altogether, and what is behind it comes to something and does not climb. -/
theorem C50_rooted_iff (sep : Char) (target p : Text) (segs : List Text)
    (hp : Posix sep target p) (hs : Segments p segs) (hrel : ∀ r, p ≠ '/' :: r) :
    (∃ r, webPath sep target none = '/' :: r) ↔ (∀ r, p ≠ '.' :: '/' :: r) ∧ EmptiesOut segs := by
  have ep : posixify sep target = p := by
    have := posix_spec sep target
    by_cases hs : sep = '\\'
    · rw [this.1 hs, hp.1 hs]
    · rw [this.2 hs, hp.2 hs]
  rw [webPath_none, ep, empties_iff segs hs.2.2]
  have hpp : posixify sep p = p := by rw [← ep]; exact posixify_idem _ _
  have hnr : ¬ isWebRoot p = true := by
    intro h
    obtain ⟨r, hr⟩ := startsWith_iff.mp h
    exact hrel r hr
  by_cases hd : startsWith p ['.', '/'] = true
  · obtain ⟨x, hx⟩ := startsWith_iff.mp hd
    constructor
    · rintro ⟨r, hout⟩
      have : (partitionPath sep p).2 = some ['.', '/'] := by
        unfold partitionPath
        rw [hpp]
        simp only [hnr, hd, Bool.false_eq_true, if_false, if_true]
      unfold pathPart at hout
      rw [this] at hout
      simp only [joinPath, Option.getD_some, esc_append] at hout
      have h2 : esc ['.', '/'] = ['.', '/'] := by decide
      rw [h2] at hout
      simp at hout
    · rintro ⟨h, _⟩
      exact absurd hx (h x)
  · have hd' : ∀ r, p ≠ '.' :: '/' :: r := fun r e => hd (startsWith_iff.mpr ⟨r, e⟩)
    have hpart : partitionPath sep p = (nd segs, none) := by
      have hsplit : splitChar '/' p = segs := by
        obtain ⟨h1, h2, h3⟩ := hs
        rw [h2, ← joinChar_eq, splitChar_joinChar h1 h3]
      unfold partitionPath
      rw [hpp]
      simp only [hnr, hd, Bool.false_eq_true, if_false, hsplit]
      rfl
    have hmem : ∀ s ∈ resolve none [] (nd segs), '/' ∉ s :=
      (resolve_good none _ [] (Good.nil _) (by simp) (nd_no_dot _)
        (fun s h => hs.2.2 s (List.mem_filter.mp h).1)).noslash
    unfold pathPart
    rw [hpart]
    simp only [joinPath, Option.getD_none, List.nil_append]
    rw [join_glue, esc_glue, ← join_glue]
    generalize resolve none [] (nd segs) = res at *
    constructor
    · rintro ⟨r, hout⟩
      refine ⟨hd', ?_⟩
      cases res with
      | nil => simp [joinChar] at hout
      | cons a b =>
        cases a with
        | nil =>
          cases b with
          | nil => simp [joinChar, esc, replaceChar] at hout
          | cons c d => exact ⟨c :: d, by simp, rfl⟩
        | cons ch chs =>
          exfalso
          have hch : ch ≠ '/' := fun e => hmem (ch :: chs) (by simp) (by simp [e])
          have h1 : (joinChar '/' (((ch :: chs) :: b).map esc)).head? = (esc (ch :: chs)).head? := by
            have hne : esc (ch :: chs) ≠ [] := by
              unfold esc replaceChar; rw [List.flatMap_cons]; split <;> simp
            cases b with
            | nil => rfl
            | cons c d =>
              simp only [List.map_cons, joinChar]
              cases he : esc (ch :: chs) with
              | nil => exact absurd he hne
              | cons e es => rfl
          rw [hout] at h1
          unfold esc replaceChar at h1
          rw [List.flatMap_cons] at h1
          split at h1
          · simp at h1
          · simp at h1; exact hch h1.symm
    · rintro ⟨_, rest, hne, rfl⟩
      cases rest with
      | nil => exact absurd rfl hne
      | cons c d => exact ⟨_, rfl⟩

end Adoc.Props

namespace Adoc.Props
open Adoc Adoc.Path Adoc.Spec

/-- Non-vacuity. -/
example : letI := asciiUni
    webPath '/' "../images/./a b.png".toList (some "http://example.org/docs/".toList) =
      "http://example.org/images/a%20b.png".toList := by decide
example : letI := asciiUni
    webPath '\\' "..\\..\\x".toList (some "a".toList) = "../x".toList := by decide
example : letI := asciiUni; webPath '/' "/../../etc/passwd".toList none = "/etc/passwd".toList := by decide

instance : letI := asciiUni; LawfulUni :=
  letI := asciiUni
  ⟨fun _ _ => rfl, fun _ _ => rfl, fun _ _ => rfl, fun _ _ => rfl, fun _ _ => rfl, fun _ _ => rfl, fun c h => by
    have h : isWhite c = true := h
    show isAsciiAlpha c = false ∧ isAsciiDigit c = false
    unfold isWhite at h
    unfold isAsciiAlpha isAsciiDigit
    simp only [Bool.or_eq_true, Bool.and_eq_true, decide_eq_true_eq, beq_iff_eq] at h
    simp only [Bool.or_eq_false_iff, Bool.and_eq_false_iff, decide_eq_false_iff_not]
    have e1 : 'a'.toNat = 97 := rfl
    have e2 : 'z'.toNat = 122 := rfl
    have e3 : 'A'.toNat = 65 := rfl
    have e4 : 'Z'.toNat = 90 := rfl
    have e5 : '0'.toNat = 48 := rfl
    have e6 : '9'.toNat = 57 := rfl
    omega⟩

/-- Non-vacuity of C50: a relative path that climbs and comes back. -/
example : ∀ r, (letI := asciiUni; webPath '/' "a/b/../../c/".toList none) ≠ '/' :: r :=
  letI := asciiUni
  C50_relative_stays_relative_partial '/' _ "a/b/../../c/".toList
    ["a".toList, "b".toList, "..".toList, "..".toList, "c".toList, []]
    ⟨by decide, fun _ => rfl⟩ ⟨by decide, by decide, by decide⟩ (by simp) (by decide)

/-- Non-vacuity of C50_rooted_iff: `a/./..//b/../c` empties out in front of `b`. -/
example : ∃ r, (letI := asciiUni; webPath '/' "a/./..//b/../c".toList none) = '/' :: r :=
  letI := asciiUni
  (C50_rooted_iff '/' _ "a/./..//b/../c".toList
    ["a".toList, ".".toList, "..".toList, [], "b".toList, "..".toList, "c".toList]
    ⟨by decide, fun _ => rfl⟩ ⟨by decide, by decide, by decide⟩ (by simp)).mpr
    ⟨by simp, ["a".toList, ".".toList, "..".toList], ["b".toList, "..".toList, "c".toList], ["c".toList], rfl,
      .dot (a := ["a".toList]) (b := ["..".toList]) (.up (a := []) (b := []) (by decide) (by decide) .refl),
      .up (a := []) (b := ["c".toList]) (by decide) (by decide) .refl, by decide, by decide, by decide⟩

/-- C50 fails: a relative path can become a rooted one, and a rooted one a network path (`//host`). -/
theorem C50_relative_becomes_rooted :
    letI := asciiUni
    webPath '/' "x/..//b".toList none = "/b".toList ∧
    webPath '/' "/x/..//host/p".toList none = "//host/p".toList := by decide

end Adoc.Props
