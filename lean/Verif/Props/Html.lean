import Verif.Lemmas.Html
import Verif.Model.SubGroup
import Verif.Lemmas.Captures
import Verif.Spec.Path
/-!
# C44, C45: the attributes in the HTML output
-/

namespace Adoc.Props
open Adoc Adoc.Spec

/-! ## C44 -/

/-- The window a link is to open in: the `window` attribute, or else what the macro says (`^` at the end of the text). -/
def windowOf (a : Attrlist) (macroWindow : Option Text) : Option Text :=
  ((a.namedAttribute "window".toList).map ElemAttr.value).or macroWindow

/-- The words the `rel` attribute of a link is to have: `nofollow` when the option is given, and `noopener` when the link
opens in a window which is `_blank` or for which the option is given. -/
def relWords (window : Option Text) (nofollow noopener : Bool) : List Text :=
  (if nofollow then ["nofollow".toList] else []) ++
  (match window with
    | some w => if w = "_blank".toList ∨ noopener = true then ["noopener".toList] else []
    | none => [])

/-- The attributes a link is to have for its window and options: the target, and one `rel` with all the words. -/
def linkAttrs (window : Option Text) (nofollow noopener : Bool) : List (Text × Option Text) :=
  (match window with | some w => [("target".toList, some w)] | none => []) ++
  (match relWords window nofollow noopener with
    | [] => []
    | ws => [("rel".toList, some (joinWith [' '] ws))])

/-- The attributes that are really read. -/
def readAttrs (window : Option Text) (nofollow noopener : Bool) : List (Text × Option Text) :=
  match window with
  | none => if nofollow then [("rel".toList, some "nofollow".toList)] else []
  | some w =>
    if w = "_blank".toList ∨ noopener = true then
      if nofollow then
        [("target".toList, some w), ("rel".toList, some "nofollow".toList), ("noopener".toList, none)]
      else [("target".toList, some w), ("rel".toList, some "noopener".toList)]
    else [("target".toList, some w)]

/-- They are, for every window and all options. -/
theorem C44_read (a : Attrlist) (mw : Option Text) (rest : Text) (hq : ∀ w, windowOf a mw = some w → '"' ∉ w) :
    HtmlAttrs (Html.linkConstraintAttrs a mw ++ '>' :: rest)
      (readAttrs (windowOf a mw) (a.hasOption "nofollow".toList) (a.hasOption "noopener".toList)) rest := by
  unfold readAttrs
  unfold Html.linkConstraintAttrs
  change HtmlAttrs ((match windowOf a mw with | some w => _ | none => _) ++ _) _ _
  cases hw : windowOf a mw with
  | none =>
    by_cases hf : a.hasOption "nofollow".toList = true
    · simp only [hf, if_true]
      have := attrs_pair "rel" (v := "nofollow".toList) rfl (by decide) (.close rest)
      simpa using this
    · simp only [hf, Bool.false_eq_true, if_false]
      exact .close rest
  | some w =>
    have hq := hq w hw
    by_cases hb : w = "_blank".toList ∨ a.hasOption "noopener".toList = true
    · by_cases hf : a.hasOption "nofollow".toList = true
      · simp only [hf, if_true, if_pos hb]
        have := attrs_pair "target" rfl hq (attrs_pair "rel" (v := "nofollow".toList) rfl (by decide)
          (.bare (htmlName_of "noopener".toList rfl) (.close rest)))
        simpa using this
      · simp only [hf, if_pos hb, Bool.false_eq_true, if_false]
        have := attrs_pair "target" rfl hq (attrs_pair "rel" (v := "noopener".toList) rfl (by decide) (.close rest))
        simpa using this
    · simp only [if_neg hb]
      have := attrs_pair "target" rfl hq (.close rest)
      simpa using this

/-- The attributes of a link are as they are to be exactly when no window is given or `nofollow` is not asked for.  (The
window has no quotation mark; see `C44_window_breaks`.) -/
theorem C44_exactly_partial (a : Attrlist) (mw : Option Text) (rest : Text)
    (hq : ∀ w, windowOf a mw = some w → '"' ∉ w) :
    HtmlAttrs (Html.linkConstraintAttrs a mw ++ '>' :: rest)
      (linkAttrs (windowOf a mw) (a.hasOption "nofollow".toList) (a.hasOption "noopener".toList)) rest ↔
    (windowOf a mw = none ∨ a.hasOption "nofollow".toList = false) := by
  have h := C44_read a mw rest hq
  unfold readAttrs at h
  constructor
  · intro k
    have e := (k.det h).1
    cases hw : windowOf a mw with
    | none => simp
    | some w =>
      right
      cases hf : a.hasOption "nofollow".toList with
      | false => rfl
      | true =>
        exfalso
        rw [hw, hf] at e
        by_cases hb : w = "_blank".toList ∨ a.hasOption "noopener".toList = true
        · have e := congrArg List.length e
          simp only [linkAttrs, relWords, if_pos hb, if_true, List.cons_append, List.nil_append, List.length_cons,
            List.length_nil] at e
          omega
        · have e := congrArg List.length e
          simp only [linkAttrs, relWords, if_neg hb, if_true, List.cons_append, List.nil_append, List.length_cons,
            List.length_nil] at e
          omega
  · intro k
    suffices hl : linkAttrs (windowOf a mw) (a.hasOption "nofollow".toList) (a.hasOption "noopener".toList) = _ by
      rw [hl]; exact h
    rcases k with k | k
    · rw [k]
      cases a.hasOption "nofollow".toList <;> rfl
    · rw [k]
      cases hw : windowOf a mw with
      | none => rfl
      | some w =>
        by_cases hb : w = "_blank".toList ∨ a.hasOption "noopener".toList = true
        · simp only [linkAttrs, relWords, if_pos hb, if_false, List.cons_append, List.nil_append, joinWith,
            Bool.false_eq_true]
        · simp only [linkAttrs, relWords, if_neg hb, if_false, List.cons_append, List.nil_append, List.append_nil,
            Bool.false_eq_true]

/-- Every link to a `_blank` window that is not to be followed is open to its opener: no `rel` attribute has the word
`noopener`. -/
theorem C44_noopener_lost (a : Attrlist) (mw : Option Text) (rest : Text) (hw : windowOf a mw = some "_blank".toList)
    (hf : a.hasOption "nofollow".toList = true) (l : List (Text × Option Text)) (r : Text)
    (h : HtmlAttrs (Html.linkConstraintAttrs a mw ++ '>' :: rest) l r) :
    ∀ v, ("rel".toList, some v) ∈ l → ¬ HasWord v "noopener".toList := by
  have k := C44_read a mw rest (by rw [hw]; intro w h; cases h; decide)
  unfold readAttrs at k
  rw [hw, hf] at k
  have := (h.det k).1
  subst this
  intro v hv
  have hv : v = "nofollow".toList := by simpa using hv
  rintro ⟨x, y, e, -⟩
  have : 'p' ∈ v := by rw [e]; simp
  rw [hv] at this
  exact absurd this (by decide)

/-- Every link to another window, without the option `noopener`, is followed although `nofollow` is asked for: there is no
`rel` attribute at all. -/
theorem C44_nofollow_lost (a : Attrlist) (mw : Option Text) (rest w : Text) (hw : windowOf a mw = some w)
    (hq : '"' ∉ w) (hb : w ≠ "_blank".toList) (ho : a.hasOption "noopener".toList = false)
    (l : List (Text × Option Text)) (r : Text) (h : HtmlAttrs (Html.linkConstraintAttrs a mw ++ '>' :: rest) l r) :
    ∀ v, ("rel".toList, v) ∉ l := by
  have k := C44_read a mw rest (by rw [hw]; intro w h; cases h; exact hq)
  unfold readAttrs at k
  rw [hw] at k
  simp only at k
  rw [if_neg (by rw [ho]; exact fun h => h.elim hb (by simp))] at k
  have := (h.det k).1
  subst this
  simp

/-- A quotation mark in the window ends the attribute. -/
theorem C44_window_breaks (a : Attrlist) (mw : Option Text) (rest w : Text) (hw : windowOf a mw = some w) (hq : '"' ∈ w)
    (l : List (Text × Option Text)) (r : Text) (h : HtmlAttrs (Html.linkConstraintAttrs a mw ++ '>' :: rest) l r) :
    ("target".toList, some w) ∉ l :=
  fun hm => h.quoteFree _ _ hm hq

section
attribute [local instance] asciiUni

/-- The default parser with the HTML renderer. -/
def htmlEnv : Env := ⟨⟨AttrStore.default, '/'⟩, Html.renderer⟩

/-- Both finds in the rendered text of ordinary links. -/
theorem C44_seen :
    applyMacros htmlEnv "https://example.org[x^,opts=nofollow]".toList =
      .ok "<a href=\"https://example.org\" target=\"_blank\" rel=\"nofollow\" noopener>x</a>".toList ∧
    applyMacros htmlEnv "https://example.org[x,window=w,opts=nofollow]".toList =
      .ok "<a href=\"https://example.org\" target=\"w\">x</a>".toList ∧
    applyMacros htmlEnv "https://example.org[x^,opts=noopener]".toList =
      .ok "<a href=\"https://example.org\" target=\"_blank\" rel=\"noopener\">x</a>".toList := by
  decide +kernel

/-- Lists that meet the conditions of the theorems above. -/
example :
    let a : Attrlist := ⟨[⟨some "opts".toList, "nofollow".toList, []⟩], none, Span.new []⟩
    windowOf a (some "_blank".toList) = some "_blank".toList ∧ a.hasOption "nofollow".toList = true ∧
    a.hasOption "noopener".toList = false ∧ windowOf a none = none := by decide

end

/-! ## C45 -/

/-- The attributes an element with this id and these roles is to have. -/
def idAndRoles (id : Option Text) (roles : List Text) : List (Text × Option Text) :=
  (match id with | some i => [("id".toList, some i)] | none => []) ++
  (if roles = [] then [] else [("class".toList, some (joinWith [' '] roles))])

/-- The roles of formatted text: its style and its roles. -/
def quotedRoles (a : Option Attrlist) : List Text :=
  ((a.bind (·.nthAttribute 1)).bind ElemAttr.blockStyle).toList ++ (a.map Attrlist.roles).getD []

/-- The id of formatted text. -/
def quotedId (a : Option Attrlist) (id : Option Text) : Option Text :=
  id.or ((a.bind (·.nthAttribute 1)).bind ElemAttr.id)

/-- The element for each kind of formatted text, if it has one. -/
def elementOf (type : QuoteType) (plain : Bool) : Option Text :=
  match type with
  | .strong => some "strong".toList
  | .monospaced => some "code".toList
  | .emphasis => some "em".toList
  | .superscript => some "sup".toList
  | .subscript => some "sub".toList
  | .mark => some (if plain then "mark".toList else "span".toList)
  | .unquoted => if plain then none else some "span".toList
  | .doubleQuote | .singleQuote => none

theorem wrap_iff (tag : Text) (ht : HtmlName tag) (id : Option Text) (roles : List Text) (body : Text) :
    StartTag (Html.wrap tag id roles body) tag (idAndRoles id roles) (body ++ "</".toList ++ tag ++ ['>']) ↔
    (∀ i, id = some i → '"' ∉ i) ∧ ∀ r ∈ roles, '"' ∉ r := by
  have hj : '"' ∈ joinWith [' '] roles ↔ ∃ r ∈ roles, '"' ∈ r := mem_joinWith (by decide) roles
  constructor
  · rintro ⟨-, s, -, hs⟩
    constructor
    · rintro i rfl
      exact hs.quoteFree "id".toList i (by simp [idAndRoles])
    · intro r hr hq
      have hne : roles ≠ [] := by rintro rfl; cases hr
      exact hs.quoteFree "class".toList _ (by simp [idAndRoles, hne]) (hj.2 ⟨r, hr, hq⟩)
  · rintro ⟨hi, hr⟩
    have hc : HtmlAttrs ((if roles = [] then [] else " class=\"".toList ++ joinWith [' '] roles ++ ['"']) ++
        ('>' :: (body ++ "</".toList ++ tag ++ ['>'])))
        (if roles = [] then [] else [("class".toList, some (joinWith [' '] roles))])
        (body ++ "</".toList ++ tag ++ ['>']) := by
      split
      · exact .close _
      · have := attrs_open " class=\"".toList "class".toList (v := joinWith [' '] roles) rfl rfl
          (fun h => by obtain ⟨r, h1, h2⟩ := hj.1 h; exact hr r h1 h2) (.close (body ++ "</".toList ++ tag ++ ['>']))
        simp only [List.append_assoc, List.cons_append, List.nil_append] at this ⊢
        exact this
    cases id with
    | none =>
      refine ⟨ht, _, ?_, hc⟩
      simp only [Html.wrap, List.append_assoc, List.cons_append, List.nil_append]
    | some i =>
      refine ⟨ht, _, ?_, attrs_open " id=\"".toList "id".toList rfl rfl (hi i rfl) hc⟩
      simp only [Html.wrap, List.append_assoc, List.cons_append, List.nil_append]

theorem quotedRoles_eq (a : Option Attrlist) :
    (match (a.bind fun a => a.nthAttribute 1).bind ElemAttr.blockStyle with
      | some s => s :: (match a with | some a => a.roles | none => [])
      | none => match a with | some a => a.roles | none => []) = quotedRoles a := by
  unfold quotedRoles
  cases (a.bind fun a => a.nthAttribute 1).bind ElemAttr.blockStyle <;> cases a <;> rfl

theorem quotedId_eq (a : Option Attrlist) (id : Option Text) :
    (match id with | some i => some i | none => (a.bind fun a => a.nthAttribute 1).bind ElemAttr.id) =
      quotedId a id := by
  unfold quotedId
  cases id <;> rfl

/-- `Html.quoted`, given the roles and the id. -/
def quotedBody (type : QuoteType) (roles : List Text) (id : Option Text) (body : Text) : Text :=
  match type with
  | .strong => Html.wrap "strong".toList id roles body
  | .doubleQuote => "&#8220;".toList ++ body ++ "&#8221;".toList
  | .singleQuote => "&#8216;".toList ++ body ++ "&#8217;".toList
  | .monospaced => Html.wrap "code".toList id roles body
  | .emphasis => Html.wrap "em".toList id roles body
  | .mark =>
    if roles = [] ∧ id = none then Html.wrap "mark".toList id roles body else Html.wrap "span".toList id roles body
  | .superscript => Html.wrap "sup".toList id roles body
  | .subscript => Html.wrap "sub".toList id roles body
  | .unquoted => if roles = [] ∧ id = none then body else Html.wrap "span".toList id roles body

theorem quoted_eq (type : QuoteType) (scope : QuoteScope) (a : Option Attrlist) (id : Option Text) (body : Text) :
    Html.quoted type scope a id body = quotedBody type (quotedRoles a) (quotedId a id) body := by
  rw [← quotedRoles_eq, ← quotedId_eq]
  rfl

/-- Formatted text: the start tag is read with exactly the id and the roles given if and only if none of them has a
quotation mark.  Everything else in them, and the text itself, is harmless. -/
theorem C45_quoted_iff (type : QuoteType) (scope : QuoteScope) (a : Option Attrlist) (id : Option Text) (body tag : Text)
    (ht : elementOf type (quotedRoles a = [] ∧ quotedId a id = none) = some tag) :
    StartTag (Html.quoted type scope a id body) tag (idAndRoles (quotedId a id) (quotedRoles a))
      (body ++ "</".toList ++ tag ++ ['>']) ↔
    (∀ i, quotedId a id = some i → '"' ∉ i) ∧ ∀ r ∈ quotedRoles a, '"' ∉ r := by
  suffices h : Html.quoted type scope a id body = Html.wrap tag (quotedId a id) (quotedRoles a) body ∧ HtmlName tag by
    rw [h.1]; exact wrap_iff tag h.2 _ _ _
  rw [quoted_eq]
  unfold quotedBody
  generalize quotedRoles a = rs at *
  generalize quotedId a id = i at *
  cases type <;> simp only [elementOf, Option.some.injEq, reduceCtorEq] at ht ⊢
  case mark =>
    by_cases hp : rs = [] ∧ i = none
    · simp only [hp, and_self, decide_true, if_true] at ht ⊢
      exact ht ▸ ⟨rfl, htmlName_of _ rfl⟩
    · simp only [hp, decide_false, if_false, Bool.false_eq_true] at ht ⊢
      exact ht ▸ ⟨rfl, htmlName_of _ rfl⟩
  case unquoted =>
    by_cases hp : rs = [] ∧ i = none
    · simp [hp] at ht
    · simp only [hp, decide_false, if_false, Bool.false_eq_true, Option.some.injEq] at ht ⊢
      exact ht ▸ ⟨rfl, htmlName_of _ rfl⟩
  all_goals exact ht ▸ ⟨rfl, htmlName_of _ rfl⟩

/-- The attributes of an image. -/
def imageAttrs (src alt : Text) (width height title : Option Text) : List (String × Text) :=
  [("src", src), ("alt", alt)] ++ (width.map fun w => ("width", w)).toList ++
  (height.map fun h => ("height", h)).toList ++ (title.map fun t => ("title", t)).toList

/-- As they are read. -/
def asRead (l : List (String × Text)) : List (Text × Option Text) := l.map fun p => (p.1.toList, some p.2)

theorem imageAttrs_names (src alt : Text) (width height title : Option Text) :
    ∀ p ∈ imageAttrs src alt width height title,
      (p.1.toList != [] && p.1.toList.all fun c => decide ('a' ≤ c) && decide (c ≤ 'z')) = true := by
  intro p hp
  simp only [imageAttrs, List.mem_append, List.mem_cons, List.not_mem_nil, or_false, Option.mem_toList,
    Option.map_eq_some_iff, Option.mem_def] at hp
  rcases hp with (((rfl | rfl) | ⟨_, _, rfl⟩) | ⟨_, _, rfl⟩) | ⟨_, _, rfl⟩ <;> dsimp only <;> decide

theorem img_iff (src alt : Text) (width height title : Option Text) (rest : Text) :
    StartTag ("<img ".toList ++ joinWith [' '] ((imageAttrs src alt width height title).map
      fun p => Html.attrText p.1 p.2) ++ ['>'] ++ rest) "img".toList
      (asRead (imageAttrs src alt width height title)) rest ↔
    ∀ p ∈ imageAttrs src alt width height title, '"' ∉ p.2 := by
  constructor
  · rintro ⟨-, s, -, hs⟩ p hp
    exact hs.quoteFree p.1.toList p.2 (List.mem_map.2 ⟨p, hp, rfl⟩)
  · intro h
    have hs := attrs_list _ (imageAttrs_names src alt width height title) h (.close rest)
    rw [List.append_nil] at hs
    refine ⟨htmlName_of _ rfl, _, ?_, hs⟩
    have : ∀ l : List (String × Text), l.flatMap (fun p => ' ' :: Html.attrText p.1 p.2) =
        (l.map fun p => Html.attrText p.1 p.2).flatMap (fun x => ' ' :: x) := by
      intro l; rw [List.flatMap_map]
    rw [this]
    simp only [imageAttrs, List.cons_append, List.nil_append, List.map_cons]
    rw [← joinWith_blank]
    generalize joinWith [' '] _ = j
    simp

/-- The escaped text of an attribute has no quotation mark, whatever the text. -/
theorem C45_escaped (t : Text) : '"' ∉ Html.encodeAttributeValue t := not_mem_replaceChar (by decide)

/-- Nothing is lost: a text without `&quot;` is what is read when `&quot;` is understood as a quotation mark. -/
theorem C45_unescape (t : Text) (h : containsSub t "&quot;".toList = false) :
    replaceStr (Html.encodeAttributeValue t) "&quot;".toList ['"'] = t :=
  unescape_encode t h

/-- The image, in a link if one is given. -/
def linkedImage (a : Attrlist) (img src : Text) : Text :=
  match a.namedAttribute "link".toList with
  | some l =>
    "<a class=\"image\" href=\"".toList ++ (if l.value = "self".toList then src else l.value) ++ ['"'] ++
      Html.linkConstraintAttrs a none ++ ['>'] ++ img ++ "</a>".toList
  | none => img

theorem iconOrImage_eq (a : Attrlist) (img src type : Text) :
    Html.iconOrImage a img src type =
      "<span class=\"".toList ++ joinWith [' '] (type :: (((a.namedAttribute "float".toList).map ElemAttr.value).toList ++
        a.roles)) ++ "\">".toList ++ linkedImage a img src ++ "</span>".toList := by
  have h : ((a.namedAttribute "float".toList).map ElemAttr.value).toList ++ a.roles =
      (match a.namedAttribute "float".toList with | some f => f.value :: a.roles | none => a.roles) := by
    cases a.namedAttribute "float".toList <;> rfl
  rw [h]
  rfl

/-- What is put around an image or an icon: a `span` whose start tag is read with exactly the classes given if and only
if none of them has a quotation mark, and, if there is a link, an `a` whose start tag is read with the target given if and
only if neither it nor the window has a quotation mark. -/
theorem C45_around (a : Attrlist) (img src type : Text) :
    ∃ inner, (StartTag (Html.iconOrImage a img src type) "span".toList
      [("class".toList, some (joinWith [' '] (type :: (((a.namedAttribute "float".toList).map ElemAttr.value).toList ++
        a.roles))))] inner ↔
      '"' ∉ type ∧ (∀ f, a.namedAttribute "float".toList = some f → '"' ∉ f.value) ∧ ∀ r ∈ a.roles, '"' ∉ r) ∧
      match a.namedAttribute "link".toList with
      | none => inner = img ++ "</span>".toList
      | some l =>
        (StartTag inner "a".toList ([("class".toList, some "image".toList),
          ("href".toList, some (if l.value = "self".toList then src else l.value))] ++
          readAttrs (windowOf a none) (a.hasOption "nofollow".toList) (a.hasOption "noopener".toList))
          (img ++ "</a></span>".toList) ↔
        '"' ∉ (if l.value = "self".toList then src else l.value) ∧ ∀ w, windowOf a none = some w → '"' ∉ w) := by
  have hj : '"' ∈ joinWith [' '] (type :: (((a.namedAttribute "float".toList).map ElemAttr.value).toList ++ a.roles)) ↔
      ¬ ('"' ∉ type ∧ (∀ f, a.namedAttribute "float".toList = some f → '"' ∉ f.value) ∧ ∀ r ∈ a.roles, '"' ∉ r) := by
    rw [mem_joinWith (by decide)]
    cases a.namedAttribute "float".toList with
    | none =>
      simp only [Option.map_none, Option.toList_none, List.nil_append, List.mem_cons]
      constructor
      · rintro ⟨t, rfl | ht, hq⟩ ⟨h1, -, h2⟩
        · exact h1 hq
        · exact h2 t ht hq
      · intro h
        apply Classical.byContradiction
        intro hn
        exact h ⟨fun hq => hn ⟨_, .inl rfl, hq⟩, fun _ hf => by simp at hf, fun r hr hq => hn ⟨r, .inr hr, hq⟩⟩
    | some f =>
      simp only [Option.map_some, Option.toList_some, List.cons_append, List.nil_append, List.mem_cons]
      constructor
      · rintro ⟨t, rfl | rfl | ht, hq⟩ ⟨h1, h3, h2⟩
        · exact h1 hq
        · exact h3 f rfl hq
        · exact h2 t ht hq
      · intro h
        apply Classical.byContradiction
        intro hn
        exact h ⟨fun hq => hn ⟨_, .inl rfl, hq⟩, fun g hg hq => hn ⟨_, .inr (.inl rfl), by cases hg; exact hq⟩,
          fun r hr hq => hn ⟨r, .inr (.inr hr), hq⟩⟩
  rw [iconOrImage_eq]
  revert hj
  generalize joinWith [' '] (type :: (((a.namedAttribute "float".toList).map ElemAttr.value).toList ++ a.roles)) = cls
  generalize ('"' ∉ type ∧ (∀ f, a.namedAttribute "float".toList = some f → '"' ∉ f.value) ∧
    ∀ r ∈ a.roles, '"' ∉ r) = clean
  intro hj
  refine ⟨linkedImage a img src ++ "</span>".toList, ⟨?_, ?_⟩, ?_⟩
  rotate_left
  · intro hc
    have hs := attrs_open " class=\"".toList "class".toList (v := cls) rfl rfl
      (fun h => hj.1 h hc) (.close (linkedImage a img src ++ "</span>".toList))
    refine ⟨htmlName_of _ rfl, _, ?_, hs⟩
    generalize linkedImage a img src = im
    simp
  · unfold linkedImage
    cases a.namedAttribute "link".toList with
    | none => rfl
    | some l =>
      simp only
      generalize (if l.value = "self".toList then src else l.value) = href
      constructor
      · rintro ⟨-, s, -, hs⟩
        refine ⟨hs.quoteFree "href".toList href (by simp), fun w hw => hs.quoteFree "target".toList w ?_⟩
        refine List.mem_append_right _ ?_
        unfold readAttrs
        rw [hw]
        simp only
        split
        · split <;> exact List.mem_cons_self
        · exact List.mem_cons_self
      · rintro ⟨h1, h2⟩
        have hs := attrs_open " class=\"".toList "class".toList (v := "image".toList) rfl rfl (by decide)
          (attrs_open " href=\"".toList "href".toList (v := href) rfl rfl h1
            (C44_read a none (img ++ "</a></span>".toList) h2))
        refine ⟨htmlName_of _ rfl, _, ?_, hs⟩
        generalize Html.linkConstraintAttrs a none = lc
        simp
  · rintro ⟨-, s, -, hs⟩
    exact Classical.byContradiction fun h => hs.quoteFree "class".toList cls (by simp) (hj.2 h)

/-- An image: whatever the alternative text and the title are, the `img` tag is read with exactly the attributes given,
these two escaped, if and only if there is no quotation mark in the source, the width and the height (which are not
escaped). -/
theorem C45_image_iff [Uni] (p : PEnv) (i : ImageParams) (out : Text) (h : Html.image p i = .ok out) :
    ∃ before img after, out = before ++ img ++ after ∧ (after = "</span>".toList ∨ after = "</a></span>".toList) ∧
      (StartTag (img ++ after) "img".toList
        (asRead (imageAttrs (Html.imageUri p i.target none) (Html.encodeAttributeValue i.alt) i.width i.height
          ((i.attrlist.namedAttribute "title".toList).map fun t => Html.encodeAttributeValue t.value))) after ↔
      '"' ∉ Html.imageUri p i.target none ∧ (∀ w, i.width = some w → '"' ∉ w) ∧
        ∀ w, i.height = some w → '"' ∉ w) := by
  have hout : out = Html.iconOrImage i.attrlist ("<img ".toList ++ joinWith [' ']
      ((imageAttrs (Html.imageUri p i.target none) (Html.encodeAttributeValue i.alt) i.width i.height
          ((i.attrlist.namedAttribute "title".toList).map fun t => Html.encodeAttributeValue t.value)).map
        fun p => Html.attrText p.1 p.2) ++ ['>']) (Html.imageUri p i.target none) "image".toList := by
    have e : ((imageAttrs (Html.imageUri p i.target none) (Html.encodeAttributeValue i.alt) i.width i.height
          ((i.attrlist.namedAttribute "title".toList).map fun t => Html.encodeAttributeValue t.value)).map
        fun p => Html.attrText p.1 p.2) =
      [Html.attrText "src" (Html.imageUri p i.target none), Html.attrText "alt" (Html.encodeAttributeValue i.alt)] ++
      (match i.width with | some w => [Html.attrText "width" w] | none => []) ++
      (match i.height with | some h => [Html.attrText "height" h] | none => []) ++
      (match i.attrlist.namedAttribute "title".toList with
        | some t => [Html.attrText "title" (Html.encodeAttributeValue t.value)] | none => []) := by
      cases i.width <;> cases i.height <;> cases i.attrlist.namedAttribute "title".toList <;> rfl
    rw [e]
    unfold Html.image at h
    simp only at h
    split at h
    · split at h
      · cases h
      · split at h
        · cases h
        · exact (Except.ok.inj h).symm
    · exact (Except.ok.inj h).symm
  have key : ∀ after, (StartTag (("<img ".toList ++ joinWith [' ']
      ((imageAttrs (Html.imageUri p i.target none) (Html.encodeAttributeValue i.alt) i.width i.height
          ((i.attrlist.namedAttribute "title".toList).map fun t => Html.encodeAttributeValue t.value)).map
        fun p => Html.attrText p.1 p.2) ++ ['>']) ++ after) "img".toList
        (asRead (imageAttrs (Html.imageUri p i.target none) (Html.encodeAttributeValue i.alt) i.width i.height
          ((i.attrlist.namedAttribute "title".toList).map fun t => Html.encodeAttributeValue t.value))) after ↔
      '"' ∉ Html.imageUri p i.target none ∧ (∀ w, i.width = some w → '"' ∉ w) ∧
        ∀ w, i.height = some w → '"' ∉ w) := by
    intro after
    rw [img_iff]
    simp only [imageAttrs, List.mem_append, List.mem_cons, List.not_mem_nil, or_false, Option.mem_toList,
      Option.map_eq_some_iff, Option.mem_def]
    constructor
    · intro h
      exact ⟨h ("src", _) (.inl (.inl (.inl (.inl rfl)))), fun w hw => h ("width", w) (.inl (.inl (.inr ⟨w, hw, rfl⟩))),
        fun w hw => h ("height", w) (.inl (.inr ⟨w, hw, rfl⟩))⟩
    · rintro ⟨h1, h2, h3⟩ q hq
      rcases hq with (((rfl | rfl) | ⟨w, hw, rfl⟩) | ⟨w, hw, rfl⟩) | ⟨w, ⟨v, hv, rfl⟩, rfl⟩
      · exact h1
      · exact C45_escaped _
      · exact h2 w hw
      · exact h3 w hw
      · exact C45_escaped _
  rw [hout, iconOrImage_eq]
  unfold linkedImage
  generalize ("<img ".toList ++ joinWith [' '] _ ++ ['>']) = im at key ⊢
  generalize joinWith [' '] _ = cls
  cases i.attrlist.namedAttribute "link".toList with
  | none => exact ⟨"<span class=\"".toList ++ cls ++ "\">".toList, im, "</span>".toList, rfl, .inl rfl, key _⟩
  | some l =>
    refine ⟨"<span class=\"".toList ++ cls ++ "\">".toList ++ ("<a class=\"image\" href=\"".toList ++
      (if l.value = "self".toList then Html.imageUri p i.target none else l.value) ++ ['"'] ++
      Html.linkConstraintAttrs i.attrlist none ++ ['>']), im, "</a></span>".toList, ?_, .inr rfl, key _⟩
    simp only
    generalize (if l.value = "self".toList then Html.imageUri p i.target none else l.value) = href
    generalize Html.linkConstraintAttrs i.attrlist none = lc
    simp

/-- An icon shown as an image: the same, but the title is not escaped. -/
theorem C45_icon_iff [Uni] (p : PEnv) (i : IconParams) (out : Text) (h : Html.icon p i = .ok out)
    (hi : p.store.hasAttribute "icons".toList = true)
    (hf : Html.maybeStr (p.store.attributeValue "icons".toList) ≠ some "font".toList) :
    ∃ img, out = Html.iconOrImage i.attrlist img (Html.iconUri p i.target) "icon".toList ∧ ∀ after,
      (StartTag (img ++ after) "img".toList
        (asRead (imageAttrs (Html.iconUri p i.target) (Html.encodeAttributeValue i.alt)
          ((i.attrlist.namedAttribute "width".toList).map ElemAttr.value)
          ((i.attrlist.namedAttribute "height".toList).map ElemAttr.value)
          ((i.attrlist.namedAttribute "title".toList).map ElemAttr.value))) after ↔
      '"' ∉ Html.iconUri p i.target ∧ ∀ n ∈ ["width", "height", "title"], ∀ x,
        i.attrlist.namedAttribute n.toList = some x → '"' ∉ x.value) := by
  refine ⟨"<img ".toList ++ joinWith [' '] ((imageAttrs (Html.iconUri p i.target) (Html.encodeAttributeValue i.alt)
          ((i.attrlist.namedAttribute "width".toList).map ElemAttr.value)
          ((i.attrlist.namedAttribute "height".toList).map ElemAttr.value)
          ((i.attrlist.namedAttribute "title".toList).map ElemAttr.value)).map
        fun p => Html.attrText p.1 p.2) ++ ['>'], ?_, ?_⟩
  · unfold Html.icon at h
    simp only [hi, if_true, if_neg hf] at h
    rw [← Except.ok.inj h]
    congr 3
    cases i.attrlist.namedAttribute "width".toList <;> cases i.attrlist.namedAttribute "height".toList <;>
      cases i.attrlist.namedAttribute "title".toList <;> rfl
  · intro after
    rw [img_iff]
    simp only [imageAttrs, List.mem_append, List.mem_cons, List.not_mem_nil, or_false, Option.mem_toList,
      Option.map_eq_some_iff, Option.mem_def]
    constructor
    · intro h
      refine ⟨h ("src", _) (.inl (.inl (.inl (.inl rfl)))), ?_⟩
      rintro n (rfl | rfl | rfl) x hx
      · exact h ("width", x.value) (.inl (.inl (.inr ⟨_, ⟨x, hx, rfl⟩, rfl⟩)))
      · exact h ("height", x.value) (.inl (.inr ⟨_, ⟨x, hx, rfl⟩, rfl⟩))
      · exact h ("title", x.value) (.inr ⟨_, ⟨x, hx, rfl⟩, rfl⟩)
    · rintro ⟨h1, h2⟩ q hq
      rcases hq with (((rfl | rfl) | ⟨w, ⟨x, hw, rfl⟩, rfl⟩) | ⟨w, ⟨x, hw, rfl⟩, rfl⟩) | ⟨w, ⟨x, hw, rfl⟩, rfl⟩
      · exact h1
      · exact C45_escaped _
      · exact h2 "width" (.inl rfl) x hw
      · exact h2 "height" (.inr (.inl rfl)) x hw
      · exact h2 "title" (.inr (.inr rfl)) x hw

/-- A link: the start tag is read with exactly the target, id, roles and window given if and only if none of them has a
quotation mark. -/
theorem C45_link_iff (p : PEnv) (l : LinkParams) :
    StartTag (Html.link p l) "a".toList
      (("href".toList, some l.target) :: idAndRoles l.attrlist.id (l.extraRoles ++ l.attrlist.roles) ++
        readAttrs (windowOf l.attrlist l.window) (l.attrlist.hasOption "nofollow".toList)
          (l.attrlist.hasOption "noopener".toList)) (l.linkText ++ "</a>".toList) ↔
    '"' ∉ l.target ∧ (∀ i, l.attrlist.id = some i → '"' ∉ i) ∧ (∀ r ∈ l.extraRoles ++ l.attrlist.roles, '"' ∉ r) ∧
      ∀ w, windowOf l.attrlist l.window = some w → '"' ∉ w := by
  have hj : '"' ∈ joinWith [' '] (l.extraRoles ++ l.attrlist.roles) ↔ ∃ r ∈ l.extraRoles ++ l.attrlist.roles, '"' ∈ r :=
    mem_joinWith (by decide) _
  unfold Html.link
  simp only
  generalize l.extraRoles ++ l.attrlist.roles = roles at *
  constructor
  · rintro ⟨-, s, -, hs⟩
    refine ⟨hs.quoteFree "href".toList _ (by simp), fun i hi => hs.quoteFree "id".toList i ?_, fun r hr hq => ?_,
      fun w hw => hs.quoteFree "target".toList w ?_⟩
    · exact List.mem_append_left _ (List.mem_cons_of_mem _ (by rw [hi]; simp [idAndRoles]))
    · have hne : roles ≠ [] := by rintro rfl; cases hr
      exact hs.quoteFree "class".toList _
        (List.mem_append_left _ (List.mem_cons_of_mem _ (by simp [idAndRoles, hne]))) (hj.2 ⟨r, hr, hq⟩)
    · refine List.mem_append_right _ ?_
      unfold readAttrs
      rw [hw]
      simp only
      split
      · split <;> exact List.mem_cons_self
      · exact List.mem_cons_self
  · rintro ⟨h1, h2, h3, h4⟩
    have hs := C44_read l.attrlist l.window (l.linkText ++ "</a>".toList) h4
    have hc : HtmlAttrs ((if roles = [] then [] else ' ' :: Html.attrText "class" (joinWith [' '] roles)) ++
        (Html.linkConstraintAttrs l.attrlist l.window ++ '>' :: (l.linkText ++ "</a>".toList)))
        ((if roles = [] then [] else [("class".toList, some (joinWith [' '] roles))]) ++
        readAttrs (windowOf l.attrlist l.window) (l.attrlist.hasOption "nofollow".toList)
          (l.attrlist.hasOption "noopener".toList)) (l.linkText ++ "</a>".toList) := by
      split
      · exact hs
      · have := attrs_list [("class", joinWith [' '] roles)] (by simp) (by
          simp only [List.mem_singleton, forall_eq]
          exact fun h => by obtain ⟨r, h1, h2⟩ := hj.1 h; exact h3 r h1 h2) hs
        simpa only [List.flatMap_cons, List.flatMap_nil, List.append_nil, List.map_cons, List.map_nil] using this
    have hi : HtmlAttrs ((match l.attrlist.id with | some i => ' ' :: Html.attrText "id" i | none => []) ++
        ((if roles = [] then [] else ' ' :: Html.attrText "class" (joinWith [' '] roles)) ++
        (Html.linkConstraintAttrs l.attrlist l.window ++ '>' :: (l.linkText ++ "</a>".toList))))
        (idAndRoles l.attrlist.id roles ++
        readAttrs (windowOf l.attrlist l.window) (l.attrlist.hasOption "nofollow".toList)
          (l.attrlist.hasOption "noopener".toList)) (l.linkText ++ "</a>".toList) := by
      unfold idAndRoles
      rw [List.append_assoc]
      cases hid : l.attrlist.id with
      | none => exact hc
      | some i =>
        have := attrs_list [("id", i)] (by simp) (by simpa using h2 i hid) hc
        simpa only [List.flatMap_cons, List.flatMap_nil, List.append_nil, List.map_cons, List.map_nil] using this
    refine ⟨htmlName_of _ rfl, _, ?_, attrs_open " href=\"".toList "href".toList (v := l.target) rfl rfl h1 hi⟩
    generalize Html.linkConstraintAttrs l.attrlist l.window = lc
    generalize (if roles = [] then [] else ' ' :: Html.attrText "class" (joinWith [' '] roles)) = cl
    cases l.attrlist.id with
    | none => simp
    | some i =>
      simp only
      generalize Html.attrText "id" i = ia
      simp

/-- Inline anchors: wherever one is recognised, its tag is read with the id given and nothing else. -/
theorem C45_anchor [Uni] [LawfulUni] (e : PEnv) (pv : Option Char) (t : Text) (mt : Match) (s : RS)
    (h : Re.matchAt inlineAnchorRe pv t = some (mt, s)) (he : mt.get 1 = none) :
    ∃ id out, anchorReplacer ⟨e, Html.renderer⟩ mt = .ok out ∧ (mt.get 2 = some id ∨ mt.get 4 = some id) ∧
      StartTag out "a".toList [("id".toList, some id)] "</a>".toList := by
  have h1 : Uni.isAlphabetic '"' = false := by rw [LawfulUni.alpha _ (by decide)]; decide
  have h2 : Uni.isNd '"' = false := by rw [LawfulUni.nd _ (by decide)]; decide
  have q2 : ∀ v, mt.get 2 = some v → '"' ∉ v := fun v hv => Re.matchAt_capAvoids h (by decide) (by
    simp [inlineAnchorRe, anchorIdRe, Re.capAvoids, Re.cat, Re.opt, Re.lit, Re.chr, Re.plusLazy, Re.dot, Re.avoids, h1,
      h2]) hv
  have q4 : ∀ v, mt.get 4 = some v → '"' ∉ v := fun v hv => Re.matchAt_capAvoids h (by decide) (by
    simp [inlineAnchorRe, anchorIdRe, Re.capAvoids, Re.cat, Re.opt, Re.lit, Re.chr, Re.plusLazy, Re.dot, Re.avoids, h1,
      h2]) hv
  have tag : ∀ id r, '"' ∉ id → StartTag (Html.renderer.anchor id r) "a".toList [("id".toList, some id)] "</a>".toList := by
    intro id r hq
    refine ⟨htmlName_of _ rfl, _, ?_, attrs_open " id=\"".toList "id".toList rfl rfl hq (.close "</a>".toList)⟩
    change "<a id=\"".toList ++ id ++ "\"></a>".toList = _
    rw [List.append_assoc]
    rfl
  unfold anchorReplacer
  rw [he]
  simp only [Option.isSome_none, Bool.false_eq_true, if_false]
  cases hg : mt.get 2 with
  | some id => exact ⟨id, _, rfl, .inl rfl, tag id _ (q2 id hg)⟩
  | none =>
    have : ∃ v, mt.get 4 = some v := by
      obtain ⟨n, hn, v, hv⟩ := Re.matchAt_covers h [2, 4] rfl
      simp only [List.mem_cons, List.not_mem_nil, or_false] at hn
      rcases hn with rfl | rfl
      · rw [hg] at hv; cases hv
      · exact ⟨v, hv⟩
    obtain ⟨id, hid⟩ := this
    refine ⟨id, _, ?_, .inr hid, tag id ((mt.get 5).map fun t => replaceStr t ['\\', ']'] [']']) (q4 id hid)⟩
    simp only [Match.at!, hid]
    rfl

section
attribute [local instance] asciiUni

/-- Formatted text with a quotation mark in a role, or in an id: the element has an attribute the document did not ask
for.  (So have images with one in the target, width, height, float or link, and links with one in the target.) -/
theorem C45_breaks_out :
    (∃ out, applyQuotes htmlEnv "[.a\" onclick=\"b]#t#".toList = .ok out ∧
      StartTag out "span".toList [("class".toList, some "a".toList), ("onclick".toList, some "b".toList)]
        "t</span>".toList) ∧
    (∃ out, applyQuotes htmlEnv "[#a\" onclick=\"b]*t*".toList = .ok out ∧
      StartTag out "strong".toList [("id".toList, some "a".toList), ("onclick".toList, some "b".toList)]
        "t</strong>".toList) := by
  refine ⟨⟨"<span class=\"a\" onclick=\"b\">t</span>".toList, by decide +kernel, htmlName_of _ rfl, _, rfl, ?_⟩,
    ⟨"<strong id=\"a\" onclick=\"b\">t</strong>".toList, by decide +kernel, htmlName_of _ rfl, _, rfl, ?_⟩⟩
  · exact attrs_open " class=\"".toList "class".toList (v := "a".toList) rfl rfl (by decide)
      (attrs_open " onclick=\"".toList "onclick".toList (v := "b".toList) rfl rfl (by decide) (.close "t</span>".toList))
  · exact attrs_open " id=\"".toList "id".toList (v := "a".toList) rfl rfl (by decide)
      (attrs_open " onclick=\"".toList "onclick".toList (v := "b".toList) rfl rfl (by decide) (.close "t</strong>".toList))

/-- Images and links: attributes that are not escaped, and the two that are. -/
theorem C45_seen :
    applyMacros htmlEnv "image:a.png[x,1\" onclick=\"y]".toList =
      .ok "<span class=\"image\"><img src=\"a.png\" alt=\"x\" width=\"1\" onclick=\"y\"></span>".toList ∧
    applyMacros htmlEnv "https://a.org/\"onclick=\"b[x]".toList =
      .ok "<a href=\"https://a.org/\"onclick=\"b\">x</a>".toList ∧
    applyMacros htmlEnv "image:a.png[a\"b,title='c\"d']".toList =
      .ok "<span class=\"image\"><img src=\"a.png\" alt=\"a&quot;b\" title=\"c&quot;d\"></span>".toList := by
  decide +kernel

/-- An inline anchor. -/
example : (Re.matchAt inlineAnchorRe none "[[a-b,x\"y]] z".toList).map (fun r => (r.1.get 1, r.1.get 2)) =
    some (none, some "a-b".toList) := by decide +kernel

/-- A role and an id without a quotation mark, with other characters HTML knows. -/
example :
    let a : Attrlist := ⟨[⟨none, "#i>.r<&".toList, [0, 3]⟩], none, Span.new []⟩
    elementOf .strong (quotedRoles (some a) = [] ∧ quotedId (some a) none = none) = some "strong".toList ∧
    quotedId (some a) none = some "i>".toList ∧ quotedRoles (some a) = ["r<&".toList] := by decide

end

end Adoc.Props
