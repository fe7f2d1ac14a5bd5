import Verif.Spec.Shown
import Verif.Props.Source
import Verif.Props.Html
import Verif.Lemmas.Parse
import Verif.Model.IsBlock
/-!
# C70: what is shown for images, icons and links
-/

set_option linter.unusedSectionVars false
namespace Adoc.Props
open Adoc Adoc.Spec

section
variable [Uni]

/-! ### Helper lemmas -/

omit [Uni] in
private theorem words_eq (l : List Text) : words l = joinWith [' '] l := by
  induction l with
  | nil => rfl
  | cons x xs ih =>
    cases xs with
    | nil => simp [words, joinWith]
    | cons y ys =>
      rw [show joinWith [' '] (x :: y :: ys) = x ++ [' '] ++ joinWith [' '] (y :: ys) from rfl, ← ih]
      simp [words]

omit [Uni] in
private theorem escaped_eq (t : Text) : Html.encodeAttributeValue t = quoted t := by
  unfold Html.encodeAttributeValue quoted
  induction t with
  | nil => rfl
  | cons c t ih =>
    rw [List.flatMap_cons, ← ih]
    rfl

omit [Uni] in
private theorem window_eq (a : Attrlist) (w : Option Text) :
    Html.linkConstraintAttrs a w = attrsText (windowOfList a w) := by
  unfold Html.linkConstraintAttrs windowOfList named windowAttrs
  generalize ((a.namedAttribute "window".toList).map ElemAttr.value).or w = x
  generalize a.hasOption "nofollow".toList = nf
  generalize a.hasOption "noopener".toList = no
  cases x with
  | none => cases nf <;> rfl
  | some w =>
    simp only
    by_cases hb : w = "_blank".toList ∨ no = true
    · rw [if_pos hb, if_pos hb]
      cases nf <;> simp [attrsText]
    · rw [if_neg hb, if_neg hb]
      simp [attrsText]

omit [Uni] in
private theorem around_eq (kind : String) (a : Attrlist) (src inner : Text) :
    Html.iconOrImage a inner src kind.toList = around kind a src inner := by
  rw [iconOrImage_eq]
  unfold around linkedImage element tagText named
  rw [words_eq]
  cases a.namedAttribute "link".toList with
  | none => simp [attrsText]
  | some l => simp [attrsText, window_eq]

omit [Uni] in
private theorem img_of {l : List Text} {l' : List (String × Option Text)} (hl : l ≠ [])
    (h : l.flatMap (' ' :: ·) = attrsText l') : "<img ".toList ++ joinWith [' '] l ++ ['>'] = tagText "img" l' := by
  rw [← words_eq]
  cases l with
  | nil => exact absurd rfl hl
  | cons x xs =>
    unfold tagText words
    rw [← h]
    simp

omit [Uni] in
private theorem attrs_append (a b : List (String × Option Text)) : attrsText (a ++ b) = attrsText a ++ attrsText b := by
  simp [attrsText]

omit [Uni] in
private theorem src_alt (a b : Text) : [Html.attrText "src" a, Html.attrText "alt" b].flatMap (' ' :: ·) =
    attrsText [("src", some a), ("alt", some b)] := by
  simp [attrsText, Html.attrText]

private theorem svg_iff (t : Text) : containsSub t ".svg".toList = true ↔ ∃ u v, t = u ++ ".svg".toList ++ v := by
  rw [containsSub_iff]

/-! ### Theorems -/

/-- C70. What is shown for an image is exactly what the specification says: there is an answer unless the image is an SVG image
which is to be part of the page, and it is the one described. -/
theorem C70_image [LawfulUni] (p : PEnv) (i : ImageParams) (out : Text) :
    Html.image p i = .ok out ↔ ImageShown p i out := by
  have hsrc := (C68_image p i.target _).mp rfl
  have huniq : ∀ src, ImageSource p i.target src → src = Html.imageUri p i.target none :=
    fun src h => ((C68_image p i.target src).mpr h).symm
  have yes : SvgInPage i → Html.image p i = .error .panic := by
    rintro ⟨h1, h2⟩
    unfold Html.image
    simp only
    rw [if_pos (by rw [svg_iff]; exact h1)]
    rcases h2 with h2 | h2
    · rw [if_pos h2]
    · rw [if_pos h2]
      split <;> rfl
  have no : ¬ SvgInPage i → Html.image p i = .ok (around "image" i.attrlist (Html.imageUri p i.target none)
      (tagText "img" ([("src", some (Html.imageUri p i.target none)), ("alt", some (quoted i.alt))] ++
      given "width" i.width ++ given "height" i.height ++ given "title" ((named i.attrlist "title").map quoted)))) := by
    intro hn
    have hi : "<img ".toList ++ joinWith [' '] ([Html.attrText "src" (Html.imageUri p i.target none),
          Html.attrText "alt" (Html.encodeAttributeValue i.alt)] ++
        (match i.width with | some w => [Html.attrText "width" w] | none => []) ++
        (match i.height with | some h => [Html.attrText "height" h] | none => []) ++
        (match i.attrlist.namedAttribute "title".toList with
          | some t => [Html.attrText "title" (Html.encodeAttributeValue t.value)] | none => [])) ++ ['>'] =
        tagText "img" ([("src", some (Html.imageUri p i.target none)), ("alt", some (quoted i.alt))] ++
      given "width" i.width ++ given "height" i.height ++ given "title" ((named i.attrlist "title").map quoted)) := by
      refine img_of (by simp) ?_
      rw [attrs_append, attrs_append, attrs_append, List.flatMap_append, List.flatMap_append, List.flatMap_append, src_alt,
        escaped_eq]
      congr 1
      · congr 1
        · congr 1
          cases i.width <;> simp [given, attrsText, Html.attrText]
        · cases i.height <;> simp [given, attrsText, Html.attrText]
      · unfold named
        cases i.attrlist.namedAttribute "title".toList <;> simp [given, attrsText, Html.attrText, escaped_eq]
    rw [← hi, ← around_eq]
    unfold Html.image
    simp only
    split
    · rename_i h1
      rw [svg_iff] at h1
      split
      · rename_i h2
        exact absurd ⟨h1, .inl h2⟩ hn
      · split
        · rename_i h2
          exact absurd ⟨h1, .inr h2⟩ hn
        · rfl
    · rfl
  constructor
  · intro h
    by_cases hs : SvgInPage i
    · rw [yes hs] at h; cases h
    · rw [no hs] at h
      exact ⟨hs, _, hsrc, (Except.ok.inj h).symm⟩
  · rintro ⟨hs, src, h1, rfl⟩
    rw [no hs, huniq src h1]

/-- C70. The only images that are not shown are SVG images which are to be part of the page: for them the program panics. -/
theorem C70_image_panics [LawfulUni] (p : PEnv) (i : ImageParams) : Html.image p i = .error .panic ↔ SvgInPage i := by
  cases h : Html.image p i with
  | ok out => exact ⟨(fun h => (by cases h)), fun hs => absurd hs ((C70_image p i out).mp h).1⟩
  | error e =>
    have he : e = .panic := by
      unfold Html.image at h
      simp only at h
      split at h
      · split at h
        · cases h; rfl
        · split at h
          · cases h; rfl
          · cases h
      · cases h
    subst he
    refine ⟨fun _ => Classical.byContradiction fun hs => ?_, fun _ => rfl⟩
    have := (C70_image p i _).mpr ⟨hs, _, (C68_image p i.target _).mp rfl, rfl⟩
    rw [h] at this
    cases this

private theorem known_value {s : AttrStore} {n v : Text} (h : valueOf s n = some v) : s.hasAttribute n = true := by
  unfold AttrStore.hasAttribute AMap.contains
  unfold valueOf AttrStore.attributeValue at h
  cases hg : s.values.get n with
  | some x => rfl
  | none => rw [hg] at h; cases h

/-- C70. What is shown for an icon is exactly what the specification says, and there always is an answer. -/
theorem C70_icon [LawfulUni] (p : PEnv) (i : IconParams) (out : Text) : Html.icon p i = .ok out ↔ IconShown p i out := by
  have hsrc := (C68_icon p i.target _).mp rfl
  have huniq : ∀ src, IconSource p i.target src → src = Html.iconUri p i.target :=
    fun src h => ((C68_icon p i.target src).mpr h).symm
  have hv : Html.maybeStr (p.store.attributeValue "icons".toList) = valueOf p.store "icons".toList := by
    unfold valueOf Html.maybeStr
    cases p.store.attributeValue "icons".toList <;> rfl
  have hfont : valueOf p.store "icons".toList = some "font".toList → Html.icon p i =
      .ok (around "icon" i.attrlist (Html.iconUri p i.target) (element "i"
        (("class", some (words (["fa".toList, "fa-".toList ++ i.target] ++
            (((i.attrlist.namedOrPositional "size".toList 1).map ElemAttr.value).map ("fa-".toList ++ ·)).toList ++
            turned (named i.attrlist "flip") (named i.attrlist "rotate")))) ::
          given "title" (named i.attrlist "title")) [])) := by
    intro h
    unfold Html.icon
    simp only
    rw [if_pos (known_value h), hv, if_pos h, around_eq, words_eq]
    unfold named
    cases i.attrlist.namedOrPositional "size".toList 1 <;> cases i.attrlist.namedAttribute "flip".toList <;>
      cases i.attrlist.namedAttribute "rotate".toList <;> cases i.attrlist.namedAttribute "title".toList <;>
      simp [given, attrsText, element, tagText, Html.attrText, turned]
  have himage : p.store.hasAttribute "icons".toList = true → valueOf p.store "icons".toList ≠ some "font".toList →
      Html.icon p i = .ok (around "icon" i.attrlist (Html.iconUri p i.target)
        (tagText "img" ([("src", some (Html.iconUri p i.target)), ("alt", some (quoted i.alt))] ++
        given "width" (named i.attrlist "width") ++ given "height" (named i.attrlist "height") ++
        given "title" (named i.attrlist "title")))) := by
    intro h1 h2
    unfold Html.icon
    simp only
    rw [if_pos h1, hv, if_neg h2, around_eq]
    congr 2
    refine img_of (by simp) ?_
    rw [attrs_append, attrs_append, attrs_append, List.flatMap_append, List.flatMap_append, List.flatMap_append, src_alt,
      escaped_eq]
    unfold named
    congr 1
    · congr 1
      · congr 1
        cases i.attrlist.namedAttribute "width".toList <;> simp [given, attrsText, Html.attrText]
      · cases i.attrlist.namedAttribute "height".toList <;> simp [given, attrsText, Html.attrText]
    · cases i.attrlist.namedAttribute "title".toList <;> simp [given, attrsText, Html.attrText]
  have htext : p.store.hasAttribute "icons".toList = false →
      Html.icon p i = .ok (around "icon" i.attrlist (Html.iconUri p i.target) ('[' :: i.alt ++ "&#93;".toList)) := by
    intro h1
    unfold Html.icon
    simp only
    rw [if_neg (by rw [h1]; exact Bool.false_ne_true), around_eq]
  constructor
  · intro h
    cases hk : p.store.hasAttribute "icons".toList with
    | false =>
      rw [htext hk] at h
      rw [← Except.ok.inj h]
      exact .text hsrc hk
    | true =>
      by_cases hf : valueOf p.store "icons".toList = some "font".toList
      · rw [hfont hf] at h
        rw [← Except.ok.inj h]
        exact .font hsrc hf
      · rw [himage hk hf] at h
        rw [← Except.ok.inj h]
        exact .image hsrc hk hf
  · intro h
    cases h with
    | font h1 h2 => rw [hfont h2, huniq _ h1]
    | image h1 h2 h3 => rw [himage h2 h3, huniq _ h1]
    | text h1 h2 => rw [htext h2, huniq _ h1]

theorem C70_icon_always [LawfulUni] (p : PEnv) (i : IconParams) : ∃ out, IconShown p i out := by
  cases h : Html.icon p i with
  | ok out => exact ⟨out, (C70_icon p i out).mp h⟩
  | error e => unfold Html.icon at h; cases h

omit [Uni] in
/-- C70. What is shown for a link. -/
theorem C70_link (p : PEnv) (l : LinkParams) : Html.link p l = linkShown l := by
  unfold Html.link linkShown element tagText
  rw [attrs_append, attrs_append, attrs_append, window_eq]
  cases hr : l.extraRoles ++ l.attrlist.roles with
  | nil => cases l.attrlist.id <;> simp [given, attrsText, Html.attrText]
  | cons r rs =>
    have : words (r :: rs) = joinWith [' '] (r :: rs) := words_eq _
    cases l.attrlist.id <;> simp [given, attrsText, Html.attrText, this]

/-- C70. Without a word about `icons` the alternative text is shown; once `icons` is set (and the value is not "font"), an
image; and with the value "font" a character of the font.  What is missing: documents that unset `icons`
(`C70_unset_icons_shown`). -/
theorem C70_icons_partial [LawfulUni] (p : PEnv) (i : IconParams) (out : Text) (h : Html.icon p i = .ok out) :
    (p.store.values.get "icons".toList = none →
      ∃ src, out = around "icon" i.attrlist src ('[' :: i.alt ++ "&#93;".toList)) ∧
    (p.store.isAttributeSet "icons".toList = true → valueOf p.store "icons".toList ≠ some "font".toList →
      ∃ src attrs, IconSource p i.target src ∧ out = around "icon" i.attrlist src (tagText "img" (("src", some src) :: attrs))) ∧
    (valueOf p.store "icons".toList = some "font".toList →
      ∃ src classes attrs, out = around "icon" i.attrlist src (element "i"
        (("class", some (words ("fa".toList :: ("fa-".toList ++ i.target) :: classes))) :: attrs) [])) := by
  have hs := (C70_icon p i out).mp h
  have known : p.store.hasAttribute "icons".toList = true ↔ p.store.values.get "icons".toList ≠ none := by
    unfold AttrStore.hasAttribute AMap.contains
    cases p.store.values.get "icons".toList <;> simp
  refine ⟨fun hn => ?_, fun hn hf => ?_, fun hf => ?_⟩
  · cases hs with
    | font h1 h2 => exact absurd hn (known.mp (known_value h2))
    | image h1 h2 h3 => exact absurd hn (known.mp h2)
    | text h1 h2 => exact ⟨_, rfl⟩
  · cases hs with
    | font h1 h2 => exact absurd h2 hf
    | image h1 h2 h3 => exact ⟨_, _, h1, rfl⟩
    | text h1 h2 =>
      refine absurd ?_ (Bool.eq_false_iff.mp h2)
      rw [known]
      intro h0
      unfold AttrStore.isAttributeSet at hn
      rw [h0] at hn
      cases hn
  · cases hs with
    | font h1 h2 => exact ⟨_, _, _, rfl⟩
    | image h1 h2 h3 => exact absurd hf h3
    | text h1 h2 => exact absurd (known_value hf) (Bool.eq_false_iff.mp h2)

end

section
attribute [local instance] asciiUni

/-- The full claim is false: a document that unsets `icons` gets images for its icons, although a document that does not
mention `icons`, which is not set either, gets their alternative text. -/
theorem C70_unset_icons_shown :
    parsed ((Config.default .checked).parse 40 .default ":icons!:\n\nicon:tip[]".toList)
      (fun d => d.blocks.map Block.renderedContent ==
        [some "<span class=\"icon\"><img src=\"./images/icons/tip.png\" alt=\"tip\"></span>".toList]) = true ∧
    parsed ((Config.default .checked).parse 40 .default "icon:tip[]".toList)
      (fun d => d.blocks.map Block.renderedContent == [some "<span class=\"icon\">[tip&#93;</span>".toList]) = true := by
  decide +kernel

/-- Non-vacuity: a font icon of a size, flipped, with a title and a role; an image with a link to itself, a width and a window; a
link with an id and roles. -/
example :
    let env (v : IVal) : Env := ⟨⟨AttrStore.default.put "icons".toList ⟨.anywhere, v⟩, '/'⟩, Html.renderer⟩
    applyMacros (env (.value "font".toList)) "icon:tip[2x,flip=h,rotate=90,title=T,role=r]".toList =
      .ok "<span class=\"icon r\"><i class=\"fa fa-tip fa-2x fa-flip-h\" title=\"T\"></i></span>".toList ∧
    applyMacros (env .set) "icon:tip[width=5,float=left]".toList =
      .ok "<span class=\"icon left\"><img src=\"./images/icons/tip.png\" alt=\"tip\" width=\"5\"></span>".toList ∧
    applyMacros (env .set) "image:a.png[A,5,link=self,window=w]".toList =
      .ok "<span class=\"image\"><a class=\"image\" href=\"a.png\" target=\"w\"><img src=\"a.png\" alt=\"A\" width=\"5\"></a></span>".toList ∧
    applyMacros (env .set) "image:a.svg[opts=inline]".toList = .error .panic ∧
    applyMacros (env .set) "https://a.org[t,id=i,role=r s]".toList =
      .ok "<a href=\"https://a.org\" id=\"i\" class=\"r s\">t</a>".toList := by
  decide +kernel

end

end Adoc.Props
