import Verif.Spec.Kinds
/-!
# Specification: the outline of a document and how it is written down

The outline of a document is the tree of its sections and blocks.  `Layout` says which lines of text stand for the blocks
and headings of an outline, `Flat` in which order these are written, and `Shows` and `SectionsShow` which blocks show an
outline.  None of them refers to the parser.
-/

namespace Adoc.Spec

/-- The anchor of a block: an id, and the text for references to it, if there is one. -/
structure BlockAnchor where
  id : Text
  reftext : Option Text := none

/-- What stands above a block or a heading: a rendered title, attributes and an anchor, none of which is needed. -/
structure Label where
  title : Option Text := none
  attrs : Option (List ElemAttr) := none
  anchor : Option BlockAnchor := none

/-- The id in the anchor. -/
def Label.anchorId (label : Label) : Option Text := label.anchor.map BlockAnchor.id

/-- The text for references in the anchor. -/
def Label.reftext (label : Label) : Option Text := label.anchor.bind BlockAnchor.reftext

/-- A block: a paragraph with its rendered text, a delimited block with the lines in it, a break, an image or a video with its
target and the attributes in its brackets, a delimited block with blocks in it, a discrete heading, which begins no section, or one
of these with something above it. -/
inductive Leaf where
  | para (rendered : Text)
  | verbatim (delimiter : Char) (lines : List Text)
  | brk (type : BreakType)
  | media (type : MediaType) (target : Text) (attrs : List ElemAttr)
  | container (context : Text) (blocks : List Leaf)
  | discrete (level : Nat) (rendered : Text)
  | labelled (label : Label) (b : Leaf)

/-- A section: its rendered title, its blocks, its subsections, what stands above its heading, and how many levels are
skipped between its heading and that of the section around it. -/
inductive Sec where
  | mk (title : Text) (blocks : List Leaf) (subsections : List Sec) (label : Label := {}) (skipped : Nat := 0)

/-- What is written one after the other: blocks and headings. -/
inductive Token where
  | leaf (b : Leaf)
  | heading (level : Nat) (title : Text) (label : Label := {})

/-- The headings and blocks of some sections in the order in which they are written: the heading of a section, its blocks,
and its subsections, which are one level deeper, or more if levels are skipped.  `n` is the least level that the sections can
have, and `most` the number of levels that the first one may skip: a section behind another one in the same section is not
deeper than that, else it would be in it. -/
inductive Flat : Nat → Nat → List Sec → List Token → Prop
  | nil {n most} : Flat n most [] []
  | cons {n most title blocks subs label skipped secs ps qs} : skipped ≤ most → Flat (n + skipped + 1) 5 subs ps →
      Flat n skipped secs qs →
      Flat n most (.mk title blocks subs label skipped :: secs)
        (.heading (n + skipped) title label :: (blocks.map .leaf ++ (ps ++ qs)))

/-- The warning for the first of the sections in a section of level `n`, if its heading skips levels. -/
def firstSkip (n : Nat) : List Sec → List WarningType
  | .mk _ _ _ _ (k + 1) :: _ => [.sectionHeadingLevelSkipped n (n + 1 + (k + 1))]
  | _ => []

mutual

/-- The warnings about levels skipped within a section whose least level is `n`. -/
def Sec.skips (n : Nat) : Sec → List WarningType
  | .mk _ _ subs _ k => firstSkip (n + k) subs ++ Sec.allSkips (n + k + 1) subs

/-- The warnings about levels skipped within some sections. -/
def Sec.allSkips (n : Nat) : List Sec → List WarningType
  | [] => []
  | s :: secs => s.skips n ++ Sec.allSkips n secs

end

/-- A list of attributes with the place where it is written. -/
def attrlistOf (attrs : List ElemAttr) (source : Span) : Attrlist := ⟨attrs, none, source⟩

/-- The id that attributes give, if any. -/
def idsOf (attrs : Option (List ElemAttr)) : List Text := (attrs.bind fun as => (attrlistOf as (Span.new [])).id).toList

/-- The ids given above a block or a heading. -/
def Label.ids (label : Label) : List Text := label.anchorId.toList ++ idsOf label.attrs

mutual

/-- The ids given in a block. -/
def Leaf.ids : Leaf → List Text
  | .labelled label b => b.ids ++ label.ids
  | .container _ bs => Leaf.allIds bs
  | .para _ => []
  | .verbatim _ _ => []
  | .brk _ => []
  | .media _ _ _ => []
  | .discrete _ _ => []

/-- The ids given in some blocks. -/
def Leaf.allIds : List Leaf → List Text
  | [] => []
  | b :: bs => b.ids ++ Leaf.allIds bs

end

mutual

/-- The ids given in a section. -/
def Sec.ids : Sec → List Text
  | .mk _ blocks subs label _ => label.ids ++ (Leaf.allIds blocks ++ Sec.allIds subs)

/-- The ids given in some sections. -/
def Sec.allIds : List Sec → List Text
  | [] => []
  | s :: secs => s.ids ++ Sec.allIds secs

end

/-- `Apart ids ws ks`: apart from warnings that some of the ids are used already, the warnings `ws` are `ks`. -/
inductive Apart (ids : List Text) : List WarningType → List WarningType → Prop
  | nil : Apart ids [] []
  | cons {w ws ks} : Apart ids ws ks → Apart ids (w :: ws) (w :: ks)
  | used {i ws ks} : i ∈ ids → Apart ids ws ks → Apart ids (.duplicateId i :: ws) ks

/-- How the text of a block is rendered: the attributes of the block, with which substitutions, which text, to which text;
which titles of blocks can be looked at by the test for the end of a section, which renders them with attributes of its own;
which text stands for which attributes of a block; which text this test does not take for that of a discrete heading, and which
it does; which text in the brackets of a macro stands for which attributes; and which text can be the name of an anchor. -/
structure Rendering where
  text : Option (List ElemAttr) → Group → Text → Text → Prop
  ahead : Text → Prop
  attrs : Text → List ElemAttr → Prop
  headed : Text → Prop
  discrete : Text → Prop
  inner : Text → List ElemAttr → Prop
  name : Text → Prop

/-- The rendering that a parser does with the given attributes of the document. -/
def renders [Uni] (e : BlockEnv) (store : AttrStore) : Rendering where
  text := fun as g t r => ∀ source, e.subs store g (as.map (attrlistOf · source)) t = .ok r
  ahead := fun t => ∃ r, e.dsubs AttrStore.default .normal none t = .ok r
  attrs := fun a as => ∀ source : Span, source.data = a →
    Attrlist.parse (e.subs store .normal none) store source .block = .ok (attrlistOf as source, []) ∧
    ∃ r, Attrlist.parse (e.dsubs AttrStore.default .normal none) AttrStore.default source .block = .ok r
  headed := fun a => ∀ (source : Span) al ws, source.data = a →
    Attrlist.parse (e.dsubs AttrStore.default .normal none) AttrStore.default source .block = .ok (al, ws) →
    al.blockStyle ≠ some "discrete".toList ∧ al.blockStyle ≠ some "float".toList
  discrete := fun a => ∀ (source : Span) al ws, source.data = a →
    Attrlist.parse (e.dsubs AttrStore.default .normal none) AttrStore.default source .block = .ok (al, ws) →
    al.blockStyle = some "discrete".toList ∨ al.blockStyle = some "float".toList
  inner := fun a as => ∀ source : Span, source.data = a →
    Attrlist.parse (e.subs store .normal none) store source .inline = .ok (attrlistOf as source, [])
  name := XmlName

/-- The style that attributes give. -/
def styleOf (as : Option (List ElemAttr)) : Option Text := as.bind fun a => (attrlistOf a (Span.new [])).blockStyle

/-- The list of substitutions that attributes give. -/
def subsOf (as : Option (List ElemAttr)) : Option Text :=
  as.bind fun a => ((attrlistOf a (Span.new [])).namedAttribute "subs".toList).map ElemAttr.value

/-- The substitutions for a block with the given attributes, where `g` is what is usual for it: those of a list of substitutions, if
there is one that can be read, and none with the style `pass`. -/
def chosen (as : Option (List ElemAttr)) (g : Group) : Group :=
  match (subsOf as).bind (Group.fromCustomString (some g)) with
  | some g' => g'
  | none => if styleOf as = some "pass".toList then .none else g

/-- What attributes make of a paragraph. -/
def paraStyle (as : Option (List ElemAttr)) : SimpleStyle :=
  if styleOf as = some "literal".toList then .literal else if styleOf as = some "listing".toList then .listing
  else if styleOf as = some "source".toList then .source else .paragraph

/-- Attributes of a section. -/
def Sectional (as : List ElemAttr) : Prop :=
  ∀ source, ∀ style ∈ ["discrete", "float", "literal"], (attrlistOf as source).blockStyle ≠ some style.toList

/-- A line with the title of a block. -/
def TitleLine (R : Rendering) (l r : Text) : Prop :=
  ∃ t, l = '.' :: t ∧ t.head? ≠ some '.' ∧ t.head? ≠ some ' ' ∧ t.head? ≠ some '\t' ∧ R.text none .normal t r ∧ R.ahead t

/-- A line with the attributes of a block. -/
def AttrsLine (R : Rendering) (l : Text) (as : List ElemAttr) : Prop :=
  ∃ a, l = '[' :: a ++ [']'] ∧ a.head? ≠ some ' ' ∧ a.head? ≠ some '\t' ∧ (∀ r, a ≠ '[' :: r ++ [']']) ∧ R.attrs a as

/-- What is in the brackets of an anchor: its id, and its text for references behind a comma. -/
def BlockAnchor.inside (a : BlockAnchor) : Text := a.id ++ (match a.reftext with | some t => ',' :: t | none => [])

/-- A line with an anchor. -/
def AnchorLine (R : Rendering) (l : Text) (a : BlockAnchor) : Prop :=
  l = '[' :: '[' :: a.inside ++ [']', ']'] ∧ ',' ∉ a.id ∧ R.name a.id ∧ a.reftext ≠ some []

/-- The lines with what stands above a block, in any order. -/
inductive LabelLines (R : Rendering) : Label → List Text → Prop
  | nil : LabelLines R {} []
  | title {l r attrs anchor ls} : TitleLine R l r → LabelLines R ⟨none, attrs, anchor⟩ ls →
      LabelLines R ⟨some r, attrs, anchor⟩ (l :: ls)
  | attrs {l as title anchor ls} : AttrsLine R l as → LabelLines R ⟨title, none, anchor⟩ ls →
      LabelLines R ⟨title, some as, anchor⟩ (l :: ls)
  | anchor {l i title attrs ls} : AnchorLine R l i → LabelLines R ⟨title, attrs, none⟩ ls →
      LabelLines R ⟨title, attrs, some i⟩ (l :: ls)

/-- The lines above a heading. -/
structure HeadLines (R : Rendering) (label : Label) (ls : List Text) : Prop where
  written : LabelLines R label ls
  sectional : ∀ as ∈ label.attrs, Sectional as
  headed : ∀ a, '[' :: a ++ [']'] ∈ ls → (∀ r, a ≠ '[' :: r ++ [']']) → R.headed a

/-- A line that can begin a paragraph: its first character is not white space, and it is neither metadata of a block, nor
an attribute entry, nor does it begin any other block, nor does it look like the heading of an unsupported level. -/
structure Begins (l : Text) : Prop where
  form : LineForm l .text
  head : ∃ c r, l = c :: r ∧ isWhite c = false ∧ c ≠ ':'
  title : ¬ ∃ t, l = '.' :: t ∧ t.head? ≠ some '.' ∧ t.head? ≠ some ' ' ∧ t.head? ≠ some '\t'
  bracket : ¬ ∃ a, l = '[' :: a ++ [']']
  mark : ¬ ∃ n, (n = 1 ∨ 6 < n) ∧ Marks n l

mutual

/-- The lines that stand for some blocks and headings.  `skips` tells that blank lines are skipped at the beginning; if it is
`false`, only empty lines may stand there, and none if nothing follows. -/
inductive Layout (R : Rendering) : Bool → List Token → List Text → Prop
  | nil {skips} : Layout R skips [] []
  | done {ls} : (∀ l ∈ ls, ∀ c ∈ l, c = ' ' ∨ c = '\t') → Layout R true [] ls
  | blank {skips l x ps ls} : (l = [] ∨ (skips = true ∧ ∀ c ∈ l, c = ' ' ∨ c = '\t')) → Layout R skips (x :: ps) ls →
      Layout R skips (x :: ps) (l :: ls)
  | piece {skips x ps skips' ls rest} : Takes R none x skips' ls rest → Layout R skips' ps rest → Layout R skips (x :: ps) ls

/-- The lines that stand for a block with the given attributes or a heading, and those behind it; blank lines behind a paragraph, a break, an
image, a video or a heading are skipped.  With the style `literal` all lines stand for a paragraph.  A list of substitutions for a
verbatim block must be one that can render it. -/
inductive Takes (R : Rendering) : Option (List ElemAttr) → Token → Bool → List Text → List Text → Prop
  | para {as l ls rest texts r} : Begins l → Paragraph false (l :: ls ++ rest) (l :: ls) rest →
      ParagraphText 0 (l :: ls) texts → R.text as (chosen as .normal) (joinWith ['\n'] texts) r →
      Takes R as (.leaf (.para r)) true (l :: ls ++ rest) rest
  | verbatim {as c d body rest} : RawDelim c d → d ∉ body → styleOf as ≠ some "literal".toList →
      (chosen as (rawBlockKind c).2.2 ≠ (rawBlockKind c).2.2 → ∀ raw t, lines raw = body → WithoutLineEnd raw t →
        ∃ r, R.text as (chosen as (rawBlockKind c).2.2) t r) →
      Takes R as (.leaf (.verbatim c body)) false (d :: body ++ d :: rest) rest
  | brk {as ty l rest} : BreakLine l ty → styleOf as ≠ some "literal".toList → Takes R as (.leaf (.brk ty)) true (l :: rest) rest
  | media {as ty target a attrs l rest} : MediaLine l ty target a → ty ≠ .audio → R.inner a attrs →
      styleOf as ≠ some "literal".toList →
      Takes R as (.leaf (.media ty target attrs)) true (l :: rest) rest
  | container {as context d blocks body rest} : CompoundLine d context → ¬ (∃ n, 6 < n ∧ Marks n d) → d ∉ body →
      Layout R true (blocks.map .leaf) body → styleOf as ≠ some "literal".toList →
      Takes R as (.leaf (.container context blocks)) false (d :: body ++ d :: rest) rest
  | discrete {as n title r l rest} : (styleOf as = some "discrete".toList ∨ styleOf as = some "float".toList) →
      Heading n title l → R.text as .title title r → Takes R as (.leaf (.discrete n r)) true (l :: rest) rest
  | labelled {label b skips mls ls rest} : LabelLines R label mls → mls ≠ [] → (∀ label' b', b ≠ .labelled label' b') →
      ((∃ n r, b = .discrete n r) → ∀ a, '[' :: a ++ [']'] ∈ mls → (∀ r, a ≠ '[' :: r ++ [']']) → R.discrete a) →
      Takes R label.attrs (.leaf b) skips ls rest → Takes R none (.leaf (.labelled label b)) skips (mls ++ ls) rest
  | heading {n title r l rest label ls} : HeadLines R label ls → Heading n title l → R.text label.attrs .title title r →
      Takes R none (.heading n r label) true (ls ++ l :: rest) rest

end

mutual

/-- The blocks that show the given ones. -/
inductive Shows (R : Rendering) : List Leaf → List Block → Prop
  | nil : Shows R [] []
  | cons {l ls b bs} : ShowsOne R none {} l b → Shows R ls bs → Shows R (l :: ls) (b :: bs)

/-- The block with the given attributes and metadata that shows the given one: breaks, images and videos do not keep the text for
references to them. -/
inductive ShowsOne (R : Rendering) : Option (List ElemAttr) → Meta → Leaf → Block → Prop
  | para {as f content src} : ShowsOne R as f (.para content.rendered) (.mk (.simple content (paraStyle as)) src f [])
  | verbatim {as f c raw content src} : WithoutLineEnd raw content.original.data →
      R.text as (chosen as (rawBlockKind c).2.2) content.original.data content.rendered →
      ShowsOne R as f (.verbatim c (lines raw))
        (.mk (.raw content (rawBlockKind c).1 (rawBlockKind c).2.1 (chosen as (rawBlockKind c).2.2)) src f [])
  | brk {as f ty src} : ShowsOne R as f (.brk ty) (.mk (.brk ty) src { f with anchorReftext := none } [])
  | media {as f ty target attrs source src} :
      ShowsOne R as f (.media ty target.data attrs) (.mk (.media ty target (attrlistOf attrs source)) src
        { f with anchorReftext := none } [])
  | container {as f context src inner cs} : Shows R inner cs →
      ShowsOne R as f (.container context inner) (.mk (.compound context) src f cs)
  | discrete {as f n title src id} :
      ShowsOne R as f (.discrete n title.rendered) (.mk (.section n title .discrete id none) src f [])
  | labelled {label ts i t source b block} : ts.isSome = label.title.isSome → i.map Span.data = label.anchorId →
      t.map Span.data = label.reftext →
      (∀ label' b', b ≠ .labelled label' b') →
      ShowsOne R label.attrs ⟨ts, label.title, i, t, label.attrs.map (attrlistOf · source)⟩ b block →
      ShowsOne R none {} (.labelled label b) block

end

/-- The type of a section of the given level and with the given attributes in a section of the given type: sections of level 1 with the
style `appendix` are appendices, and so are the sections in them. -/
def typeOf (level : Nat) (ty : SectionType) (as : Option (List ElemAttr)) : SectionType :=
  if level = 1 then if styleOf as = some "appendix".toList then .appendix else .normal else ty

/-- The sections that show the given ones, which are in a section of the given type: their levels are those of the outline, and their
blocks come first. -/
inductive SectionsShow (R : Rendering) : Nat → SectionType → List Sec → List Block → Prop
  | nil {n ty} : SectionsShow R n ty [] []
  | cons {n ty title src id number blocks bs subs label skipped ts i t source cs secs ss} : ts.isSome = label.title.isSome →
      i.map Span.data = label.anchorId → t.map Span.data = label.reftext → Shows R blocks bs →
      SectionsShow R (n + skipped + 1) (typeOf (n + skipped) ty label.attrs) subs cs → SectionsShow R n ty secs ss →
      SectionsShow R n ty (.mk title.rendered blocks subs label skipped :: secs)
        (.mk (.section (n + skipped) title (typeOf (n + skipped) ty label.attrs) id number) src
          ⟨ts, label.title, i, t, label.attrs.map (attrlistOf · source)⟩ (bs ++ cs) :: ss)

/-- The block is a discrete heading. -/
def Leaf.isDiscrete : Leaf → Bool
  | .discrete _ _ => true
  | .labelled _ b => b.isDiscrete
  | .para _ => false
  | .verbatim _ _ => false
  | .brk _ => false
  | .media _ _ _ => false
  | .container _ _ => false

/-- The blocks of a document that show the given blocks and sections: blocks in front of the first heading, be it that of a section or a
discrete one, are in a preamble. -/
inductive DocumentShows (R : Rendering) : List Leaf → List Sec → List Block → Prop
  | plain {front rest secs bs ss} : (∀ l ∈ front, l.isDiscrete = false) → (∀ l ∈ rest.head?, l.isDiscrete = true) →
      (front = [] ∨ rest = [] ∧ secs = []) → Shows R (front ++ rest) bs → SectionsShow R 1 .normal secs ss →
      DocumentShows R (front ++ rest) secs (bs ++ ss)
  | preamble {front rest secs src bs cs ss} : (∀ l ∈ front, l.isDiscrete = false) → (∀ l ∈ rest.head?, l.isDiscrete = true) →
      front ≠ [] → (rest ≠ [] ∨ secs ≠ []) → Shows R front bs → Shows R rest cs → SectionsShow R 1 .normal secs ss →
      DocumentShows R (front ++ rest) secs (.mk .preamble src {} bs :: (cs ++ ss))

end Adoc.Spec
