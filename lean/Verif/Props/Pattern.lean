import Verif.Lemmas.PatternSniff
import Verif.Model.PatternTexts
import Verif.Model.Document
/-!
# The patterns of the model are those of the source

The regular expressions of the model are written with combinators.  Here they are compared with the strings in the source:
each string is read in the notation of the `regex` crate, and the expression obtained matches exactly like that of the model.
The strings are copied verbatim by `tools/patterns.py`; all 47 patterns of the crate are covered.
-/

namespace Adoc
open Re Pattern Spec
variable [Uni]

/-- The pattern can be read, and the matcher does the same for it as for the expression. -/
def Denotes (f : Flags) (ls : List String) (re : Re) : Prop :=
  ∃ p, read f (ofLines ls) = some p ∧ ∀ k s, m p.toRe k s = m re k s

theorem Denotes.intro {f : Flags} {ls : List String} {re : Re} (p : Pat) (h : read f (ofLines ls) = some p)
    (hs : p.toRe.parts = re.parts) : Denotes f ls re := ⟨p, h, Re.Same.of_parts hs⟩

/-- Patterns and expressions of equal number, in the same order. -/
def DenoteAll : List (Flags × List String) → List Re → Prop
  | [], [] => True
  | p :: ps, r :: rs => Denotes p.1 p.2 r ∧ DenoteAll ps rs
  | _, _ => False

omit [Uni] in
theorem char_le (a b : Char) : a ≤ b ↔ a.toNat ≤ b.toNat := Iff.rfl

/-- Comparing the parts of two expressions: the classes are compared character by character. -/
syntax "same_parts" "[" Lean.Parser.Tactic.simpLemma,* "]" : tactic
macro_rules
  | `(tactic| same_parts [$ls,*]) => `(tactic|
      (simp [$ls,*, Pat.toRe, Assertion.toRe, times, atMost, Re.parts, Re.cat, Re.lit, Re.chr, Re.opt, Re.optLazy,
        Re.plus, Re.plusLazy, Re.upTo, Re.oneOf, Re.anyChar, Re.dot, Item.mem, Named.mem, nonSpace, alphaRe, digitRe, hexRe,
        bracketed, lowerRe, passStart, passEnd, passSpanRe, passBodyRe, anchorIdRe, nameRe, unconstrainedRe, constrainedRe,
        quotedBody, optAttrs, char_le, bne, Bool.or_assoc, Bool.and_assoc]
       all_goals repeat' apply And.intro
       all_goals funext c
       all_goals try simp [isAttrNameStart, isAttrNameChar, isAsciiAlnum, isAsciiAlpha, isAsciiDigit, nameStart, nameRest,
         Path.schemeChar]
       all_goals grind))

namespace PatternOf

theorem specialChars : Denotes {} PatternText.specialChars specialCharsRe :=
  .intro
    (.cls false [.chr '<', .chr '>', .chr '&'])
    (by decide +kernel) (by same_parts [specialCharsRe])

theorem attributeReference : Denotes {} PatternText.attributeReference attributeReferenceRe :=
  .intro
    (.seq (.rep 0 (some 1) true (.lit '\\')) (.seq (.lit '{') (.seq (.group 1 (.seq (.cls false [.range 'A' 'Z',
    .range 'a' 'z', .range '0' '9', .chr '_']) (.rep 0 none true (.cls false [.range 'A' 'Z', .range 'a' 'z',
    .range '0' '9', .chr '_', .chr '-'])))) (.lit '}'))))
    (by decide +kernel) (by same_parts [attributeReferenceRe])

theorem attributeReferencePreprocessor : Denotes {} PatternText.attributeReferencePreprocessor attributeReferenceRe :=
  .intro
    (.seq (.rep 0 (some 1) true (.lit '\\')) (.seq (.lit '{') (.seq (.group 1 (.seq (.cls false [.range 'A' 'Z',
    .range 'a' 'z', .range '0' '9', .chr '_']) (.rep 0 none true (.cls false [.range 'A' 'Z', .range 'a' 'z',
    .range '0' '9', .chr '_', .chr '-'])))) (.lit '}'))))
    (by decide +kernel) (by same_parts [attributeReferenceRe])

theorem replaceableTextSniff : Denotes {} PatternText.replaceableTextSniff replaceableTextSniffRe :=
  .intro
    (.alt (.cls false [.chr '&', .chr '\'']) (.alt (.seq (.lit '-') (.lit '-')) (.alt (.seq (.lit '.') (.seq
    (.lit '.') (.lit '.'))) (.seq (.lit '(') (.seq (.cls false [.chr 'C', .chr 'R', .chr 'T']) (.seq (.rep 0
    (some 1) true (.lit 'M')) (.lit ')')))))))
    (by decide +kernel) (by same_parts [replaceableTextSniffRe])

theorem hardLineBreak : Denotes {} PatternText.hardLineBreak hardLineBreakRe :=
  .intro
    (.seq (.look .bol) (.seq (.group 1 (.rep 0 none true (.dot false))) (.seq (.lit ' ') (.seq (.lit '+') (.look
    .eol)))))
    (by decide +kernel) (by same_parts [hardLineBreakRe])

theorem inlineImage : Denotes {} PatternText.inlineImage inlineImageRe :=
  .intro
    (.seq (.rep 0 (some 1) true (.lit '\\')) (.seq (.lit 'i') (.seq (.alt (.seq (.lit 'm') (.seq (.lit 'a') (.seq
    (.lit 'g') (.lit 'e')))) (.seq (.lit 'c') (.seq (.lit 'o') (.lit 'n')))) (.seq (.lit ':') (.seq (.rep 0
    (some 1) true (.group 1 (.seq (.cls true [.chr ':', .named .space, .chr '[', .chr '\n']) (.seq (.rep 0 none
    false (.cls true [.chr '[', .chr '\n'])) (.cls true [.named .space, .chr '[', .chr '\n']))))) (.seq
    (.lit '[') (.seq (.group 2 (.alt .empty (.seq (.rep 0 none false (.dot true)) (.cls true [.chr '\\']))))
    (.lit ']'))))))))
    (by decide +kernel) (by same_parts [inlineImageRe])

theorem inlineLink : Denotes {} PatternText.inlineLink inlineLinkRe :=
  .intro
    (.seq (.group 1 (.alt (.look .bol) (.alt (.seq (.lit 'l') (.seq (.lit 'i') (.seq (.lit 'n') (.seq (.lit 'k')
    (.lit ':'))))) (.alt (.cls false [.chr ' ', .chr '\t']) (.alt (.seq (.rep 0 (some 1) true (.lit '\\')) (.seq
    (.lit '&') (.seq (.lit 'l') (.seq (.lit 't') (.seq (.lit ';') (.group 2 .empty)))))) (.cls false [.chr '>',
    .chr '(', .chr ')', .chr '[', .chr ']', .chr ';', .chr '\"', .chr '\''])))))) (.seq (.group 3 (.seq (.rep 0
    (some 1) true (.lit '\\')) (.seq (.alt (.seq (.lit 'h') (.seq (.lit 't') (.seq (.lit 't') (.seq (.lit 'p')
    (.rep 0 (some 1) true (.lit 's')))))) (.alt (.seq (.lit 'f') (.seq (.lit 'i') (.seq (.lit 'l') (.lit 'e'))))
    (.alt (.seq (.lit 'f') (.seq (.lit 't') (.lit 'p'))) (.seq (.lit 'i') (.seq (.lit 'r') (.lit 'c')))))) (.seq
    (.lit ':') (.seq (.lit '/') (.lit '/')))))) (.alt (.seq (.group 4 (.rep 1 none true (.cls true [.named
    .space, .chr '[', .chr ']']))) (.seq (.lit '[') (.seq (.group 5 (.alt .empty (.seq (.rep 0 none false (.dot
    true)) (.cls true [.chr '\\'])))) (.lit ']')))) (.alt (.seq (.group 6 (.rep 1 none false (.cls true [.named
    .space]))) (.seq (.lit '&') (.seq (.lit 'g') (.seq (.lit 't') (.lit ';'))))) (.group 7 (.seq (.rep 0 none
    true (.cls true [.named .space, .chr '[', .chr ']', .chr '<'])) (.group 8 (.cls true [.named .space,
    .chr ',', .chr '.', .chr '?', .chr '!', .chr '[', .chr ']', .chr '<', .chr ')']))))))))
    (by decide +kernel) (by same_parts [inlineLinkRe])

theorem inlineLinkMacro : Denotes {} PatternText.inlineLinkMacro inlineLinkMacroRe :=
  .intro
    (.seq (.rep 0 (some 1) true (.lit '\\')) (.seq (.alt (.seq (.lit 'l') (.seq (.lit 'i') (.seq (.lit 'n')
    (.lit 'k')))) (.group 1 (.seq (.lit 'm') (.seq (.lit 'a') (.seq (.lit 'i') (.seq (.lit 'l') (.seq (.lit 't')
    (.lit 'o')))))))) (.seq (.lit ':') (.seq (.alt (.seq (.group 2 .empty) (.dot true)) (.group 3 (.seq (.cls
    true [.chr ':', .named .space, .chr '[']) (.rep 0 none true (.cls true [.named .space, .chr '[']))))) (.seq
    (.lit '[') (.seq (.alt (.group 4 .empty) (.group 5 (.seq (.rep 0 none false (.dot true)) (.cls true
    [.chr '\\'])))) (.lit ']')))))))
    (by decide +kernel) (by same_parts [inlineLinkMacroRe])

theorem inlineEmail : Denotes {} PatternText.inlineEmail inlineEmailRe :=
  .intro
    (.seq (.group 1 (.rep 0 (some 1) true (.cls false [.chr '\\', .chr '>', .chr ':', .chr '/']))) (.seq (.group
    2 (.seq (.cls false [.named .word, .chr '_']) (.seq (.rep 0 none true (.alt (.seq (.lit '&') (.seq
    (.lit 'a') (.seq (.lit 'm') (.seq (.lit 'p') (.lit ';'))))) (.cls false [.named .word, .chr '-', .chr '.',
    .chr '%', .chr '+']))) (.seq (.lit '@') (.seq (.cls false [.named .letter, .named .digit]) (.seq (.rep 0
    none true (.cls false [.named .letter, .named .digit, .chr '_', .chr '-', .chr '.'])) (.seq (.lit '.') (.rep
    2 (some 5) true (.cls false [.range 'a' 'z', .range 'A' 'Z']))))))))) (.look .wb)))
    (by decide +kernel) (by same_parts [inlineEmailRe])

theorem inlineAnchor : Denotes {} PatternText.inlineAnchor inlineAnchorRe :=
  .intro
    (.seq (.rep 0 (some 1) true (.group 1 (.lit '\\'))) (.alt (.seq (.lit '[') (.seq (.lit '[') (.seq (.group 2
    (.seq (.cls false [.named .alphabetic, .chr '_', .chr ':']) (.rep 0 none true (.cls false [.named
    .alphabetic, .named .digit, .chr '_', .chr '-', .chr ':', .chr '.'])))) (.seq (.rep 0 (some 1) true (.seq
    (.lit ',') (.seq (.rep 0 none true (.cls false [.named .space])) (.group 3 (.rep 1 none false (.dot
    false)))))) (.seq (.lit ']') (.lit ']')))))) (.seq (.lit 'a') (.seq (.lit 'n') (.seq (.lit 'c') (.seq
    (.lit 'h') (.seq (.lit 'o') (.seq (.lit 'r') (.seq (.lit ':') (.seq (.group 4 (.seq (.cls false [.named
    .alphabetic, .chr '_', .chr ':']) (.rep 0 none true (.cls false [.named .alphabetic, .named .digit,
    .chr '_', .chr '-', .chr ':', .chr '.'])))) (.seq (.lit '[') (.alt (.lit ']') (.seq (.group 5 (.seq (.rep 0
    none false (.dot false)) (.cls true [.chr '\\']))) (.lit ']'))))))))))))))
    (by decide +kernel) (by same_parts [inlineAnchorRe])

theorem uriSniffMacros : Denotes {} PatternText.uriSniffMacros Html.uriSniffRe :=
  .intro
    (.seq (.look .bot) (.seq (.cls false [.named .alphabetic]) (.seq (.rep 1 none true (.cls false [.named
    .alphabetic, .named .digit, .chr '.', .chr '+', .chr '-'])) (.seq (.lit ':') (.rep 0 (some 2) true
    (.lit '/'))))))
    (by decide +kernel) (by same_parts [Html.uriSniffRe])

theorem inlinePassMacro : Denotes {} PatternText.inlinePassMacro inlinePassMacroRe :=
  .intro
    (.alt (.seq (.rep 0 (some 1) true (.seq (.group 1 (.rep 0 (some 1) true (.lit '\\'))) (.seq (.lit '[') (.seq
    (.group 2 (.rep 1 none true (.cls true [.chr '[', .chr ']']))) (.lit ']'))))) (.seq (.group 3 (.rep 0 (some
    2) true (.lit '\\'))) (.alt (.seq (.group 4 (.seq (.lit '+') (.seq (.lit '+') (.lit '+')))) (.seq (.group 5
    (.rep 0 none false (.dot true))) (.group 6 (.seq (.lit '+') (.seq (.lit '+') (.lit '+')))))) (.alt (.seq
    (.group 7 (.seq (.lit '+') (.lit '+'))) (.seq (.group 8 (.rep 0 none false (.dot true))) (.group 9 (.seq
    (.lit '+') (.lit '+'))))) (.seq (.group 10 (.seq (.lit '$') (.lit '$'))) (.seq (.group 11 (.rep 0 none false
    (.dot true))) (.group 12 (.seq (.lit '$') (.lit '$'))))))))) (.seq (.group 13 (.rep 0 (some 1) true
    (.lit '\\'))) (.seq (.lit 'p') (.seq (.lit 'a') (.seq (.lit 's') (.seq (.lit 's') (.seq (.lit ':') (.seq
    (.rep 0 (some 1) true (.group 14 (.seq (.rep 1 none true (.cls false [.range 'a' 'z'])) (.rep 0 none true
    (.seq (.lit ',') (.rep 1 none true (.cls false [.range 'a' 'z', .chr '-']))))))) (.seq (.lit '[') (.seq
    (.group 15 (.alt .empty (.seq (.rep 0 none false (.dot true)) (.cls true [.chr '\\'])))) (.lit ']')))))))))))
    (by decide +kernel) (by same_parts [inlinePassMacroRe])

theorem passWithIndex : Denotes {} PatternText.passWithIndex passWithIndexRe :=
  .intro
    (.seq (.lit '') (.seq (.group 1 (.rep 1 none true (.cls false [.named .digit]))) (.lit '')))
    (by decide +kernel) (by same_parts [passWithIndexRe])

theorem inlinePass : Denotes {} PatternText.inlinePass inlinePassRe :=
  .intro
    (.seq (.look .startHalf) (.seq (.alt (.seq (.lit '[') (.seq (.group 1 (.alt (.seq (.lit 'x') (.lit '-'))
    (.seq (.rep 1 none true (.cls true [.chr '[', .chr ']'])) (.seq (.lit ' ') (.seq (.lit 'x') (.lit '-'))))))
    (.seq (.lit ']') (.seq (.lit '`') (.seq (.group 2 (.seq (.cls true [.named .space]) (.rep 0 (some 1) false
    (.seq (.rep 0 none false (.dot true)) (.cls true [.named .space]))))) (.lit '`')))))) (.alt (.seq (.lit '[')
    (.seq (.group 3 (.rep 1 none true (.cls true [.chr '[', .chr ']']))) (.seq (.lit ']') (.seq (.group 4 (.rep
    0 (some 2) true (.lit '\\'))) (.seq (.lit '+') (.seq (.group 5 (.seq (.cls true [.named .space]) (.rep 0
    (some 1) false (.seq (.rep 0 none false (.dot true)) (.cls true [.named .space]))))) (.lit '+'))))))) (.seq
    (.rep 0 (some 1) true (.group 6 (.lit '\\'))) (.seq (.lit '+') (.seq (.group 7 (.seq (.cls true [.named
    .space]) (.rep 0 (some 1) false (.seq (.rep 0 none false (.dot true)) (.cls true [.named .space])))))
    (.lit '+')))))) (.look .endHalf)))
    (by decide +kernel) (by same_parts [inlinePassRe])

theorem author : Denotes {} PatternText.author authorRe :=
  .intro
    (.seq (.look .bot) (.seq (.group 1 (.seq (.cls false [.range 'a' 'z', .range 'A' 'Z', .range '0' '9',
    .chr '_', .named .letter, .named .number, .chr '&', .chr '#', .chr ';']) (.rep 0 none true (.cls false
    [.range 'a' 'z', .range 'A' 'Z', .range '0' '9', .chr '_', .named .letter, .named .number, .chr '-',
    .chr '\'', .chr '.', .chr '&', .chr '#', .chr ';'])))) (.seq (.rep 0 (some 1) true (.seq (.rep 1 none true
    (.lit ' ')) (.group 2 (.seq (.cls false [.range 'a' 'z', .range 'A' 'Z', .range '0' '9', .chr '_', .named
    .letter, .named .number, .chr '&', .chr '#', .chr ';']) (.rep 0 none true (.cls false [.range 'a' 'z',
    .range 'A' 'Z', .range '0' '9', .chr '_', .named .letter, .named .number, .chr '-', .chr '\'', .chr '.',
    .chr '&', .chr '#', .chr ';'])))))) (.seq (.rep 0 (some 1) true (.seq (.rep 1 none true (.lit ' ')) (.group
    3 (.seq (.cls false [.range 'a' 'z', .range 'A' 'Z', .range '0' '9', .chr '_', .named .letter, .named
    .number, .chr '&', .chr '#', .chr ';']) (.rep 0 none true (.cls false [.range 'a' 'z', .range 'A' 'Z',
    .range '0' '9', .chr '_', .named .letter, .named .number, .chr '-', .chr '\'', .chr '.', .chr '&', .chr '#',
    .chr ';'])))))) (.seq (.rep 0 (some 1) true (.seq (.rep 1 none true (.lit ' ')) (.seq (.lit '<') (.seq
    (.group 4 (.rep 1 none true (.cls true [.chr '>']))) (.lit '>'))))) (.look .eot))))))
    (by decide +kernel) (by same_parts [authorRe])

theorem standaloneRevision : Denotes {} PatternText.standaloneRevision standaloneRevisionRe :=
  .intro
    (.seq (.look .bot) (.seq (.lit 'v') (.cls false [.named .digit])))
    (by decide +kernel) (by same_parts [standaloneRevisionRe])

theorem nonNumericPrefix : Denotes {} PatternText.nonNumericPrefix nonNumericPrefixRe :=
  .intro
    (.seq (.look .bot) (.seq (.rep 0 none true (.cls true [.range '0' '9'])) (.seq (.group 1 (.rep 0 none true
    (.dot false))) (.look .eot))))
    (by decide +kernel) (by same_parts [nonNumericPrefixRe])

theorem includeDirective : Denotes {} PatternText.includeDirective includeDirectiveRe :=
  .intro
    (.seq (.look .bot) (.seq (.lit 'i') (.seq (.lit 'n') (.seq (.lit 'c') (.seq (.lit 'l') (.seq (.lit 'u') (.seq
    (.lit 'd') (.seq (.lit 'e') (.seq (.lit ':') (.seq (.lit ':') (.seq (.group 1 (.seq (.cls true [.named
    .space, .chr '[']) (.rep 0 (some 1) true (.seq (.rep 0 none true (.cls true [.chr '['])) (.cls true [.named
    .space, .chr '[']))))) (.seq (.lit '[') (.seq (.rep 0 (some 1) true (.group 2 (.seq (.cls true [.chr ']'])
    (.rep 1 none true (.dot false))))) (.seq (.lit ']') (.look .eot)))))))))))))))
    (by decide +kernel) (by same_parts [includeDirectiveRe])

theorem uriSniffRenderer : Denotes {} PatternText.uriSniffRenderer Html.uriSniffRe :=
  .intro
    (.seq (.look .bot) (.seq (.cls false [.named .alphabetic]) (.seq (.rep 1 none true (.cls false [.named
    .alphabetic, .named .digit, .chr '.', .chr '+', .chr '-'])) (.seq (.lit ':') (.rep 0 (some 2) true
    (.lit '/'))))))
    (by decide +kernel) (by same_parts [Html.uriSniffRe])

theorem invalidSectionId : Denotes {} PatternText.invalidSectionId invalidSectionIdRe :=
  .intro
    (.alt (.seq (.lit '<') (.seq (.rep 1 none true (.cls true [.chr '>'])) (.lit '>'))) (.alt (.seq (.lit '&')
    (.seq (.lit 'l') (.seq (.lit 't') (.seq (.lit ';') (.seq (.rep 0 none true (.cls true [.chr '&'])) (.seq
    (.lit '&') (.seq (.lit 'g') (.seq (.lit 't') (.lit ';'))))))))) (.alt (.seq (.lit '&') (.seq (.alt (.seq
    (.cls false [.range 'a' 'z']) (.seq (.rep 1 none true (.cls false [.range 'a' 'z'])) (.rep 0 (some 2) true
    (.cls false [.named .digit])))) (.alt (.seq (.lit '#') (.rep 2 (some 5) true (.cls false [.named .digit])))
    (.seq (.lit '#') (.seq (.lit 'x') (.rep 2 (some 4) true (.cls false [.named .digit, .range 'a' 'f']))))))
    (.lit ';'))) (.rep 1 none true (.cls true [.chr ' ', .named .word, .chr '-', .chr '.'])))))
    (by decide +kernel) (by same_parts [invalidSectionIdRe])

/-- `QUOTE_SUBS`, in order. -/
theorem quoteSubs : DenoteAll
      [({ s := true }, PatternText.strong2), ({ s := true }, PatternText.strong1), ({ s := true },
      PatternText.doubleQuote), ({ s := true }, PatternText.singleQuote), ({ s := true },
      PatternText.monospaced2), ({ s := true }, PatternText.monospaced1), ({ s := true },
      PatternText.emphasis2), ({ s := true }, PatternText.emphasis1), ({ s := true }, PatternText.mark2), ({ s
      := true }, PatternText.mark1), ({}, PatternText.superscript), ({}, PatternText.subscript)]
      (Adoc.quoteSubs.map QuoteSub.pattern) := by
  refine ⟨.intro
    (.seq (.rep 0 (some 1) true (.lit '\\')) (.seq (.rep 0 (some 1) true (.seq (.lit '[') (.seq (.group 1 (.rep 1
    none true (.cls true [.chr '[', .chr ']']))) (.lit ']')))) (.seq (.lit '*') (.seq (.lit '*') (.seq (.group 2
    (.rep 1 none false (.dot true))) (.seq (.lit '*') (.lit '*')))))))
    (by decide +kernel) (by same_parts [ofLines]), ?_⟩
  refine ⟨.intro
    (.seq (.group 1 (.alt (.look .bot) (.cls true [.named .word, .chr '&', .chr ';', .chr ':', .chr '}']))) (.seq
    (.rep 0 (some 1) true (.seq (.lit '[') (.seq (.group 2 (.rep 1 none true (.cls true [.chr '[', .chr ']'])))
    (.lit ']')))) (.seq (.lit '*') (.seq (.group 3 (.alt (.cls true [.named .space]) (.seq (.cls true [.named
    .space]) (.seq (.rep 0 none false (.dot true)) (.cls true [.named .space]))))) (.seq (.lit '*') (.look
    .endHalf))))))
    (by decide +kernel) (by same_parts [ofLines]), ?_⟩
  refine ⟨.intro
    (.seq (.group 1 (.alt (.look .bot) (.cls true [.named .word, .chr '&', .chr ';', .chr ':', .chr '}']))) (.seq
    (.rep 0 (some 1) true (.seq (.lit '[') (.seq (.group 2 (.rep 1 none true (.cls true [.chr '[', .chr ']'])))
    (.lit ']')))) (.seq (.lit '\"') (.seq (.lit '`') (.seq (.group 3 (.alt (.cls true [.named .space]) (.seq
    (.cls true [.named .space]) (.seq (.rep 0 none false (.dot true)) (.cls true [.named .space]))))) (.seq
    (.lit '`') (.seq (.lit '\"') (.look .endHalf))))))))
    (by decide +kernel) (by same_parts [ofLines]), ?_⟩
  refine ⟨.intro
    (.seq (.group 1 (.alt (.look .bot) (.cls true [.named .word, .chr '&', .chr ';', .chr ':', .chr '}']))) (.seq
    (.rep 0 (some 1) true (.seq (.lit '[') (.seq (.group 2 (.rep 1 none true (.cls true [.chr '[', .chr ']'])))
    (.lit ']')))) (.seq (.lit '\'') (.seq (.lit '`') (.seq (.group 3 (.alt (.cls true [.named .space]) (.seq
    (.cls true [.named .space]) (.seq (.rep 0 none false (.dot true)) (.cls true [.named .space]))))) (.seq
    (.lit '`') (.seq (.lit '\'') (.look .endHalf))))))))
    (by decide +kernel) (by same_parts [ofLines]), ?_⟩
  refine ⟨.intro
    (.seq (.rep 0 (some 1) true (.lit '\\')) (.seq (.rep 0 (some 1) true (.seq (.lit '[') (.seq (.group 1 (.rep 1
    none true (.cls true [.chr '[', .chr ']']))) (.lit ']')))) (.seq (.lit '`') (.seq (.lit '`') (.seq (.group 2
    (.rep 1 none false (.dot true))) (.seq (.lit '`') (.lit '`')))))))
    (by decide +kernel) (by same_parts [ofLines]), ?_⟩
  refine ⟨.intro
    (.seq (.group 1 (.alt (.look .bot) (.cls true [.named .word, .chr '&', .chr ';', .chr ':', .chr '\"',
    .chr '\'', .chr '`', .chr '}']))) (.seq (.rep 0 (some 1) true (.seq (.lit '[') (.seq (.group 2 (.rep 1 none
    true (.cls true [.chr '[', .chr ']']))) (.lit ']')))) (.seq (.lit '`') (.seq (.group 3 (.alt (.cls true
    [.named .space]) (.seq (.cls true [.named .space]) (.seq (.rep 0 none false (.dot true)) (.cls true [.named
    .space]))))) (.seq (.lit '`') (.look .endHalf))))))
    (by decide +kernel) (by same_parts [ofLines]), ?_⟩
  refine ⟨.intro
    (.seq (.rep 0 (some 1) true (.lit '\\')) (.seq (.rep 0 (some 1) true (.seq (.lit '[') (.seq (.group 1 (.rep 1
    none true (.cls true [.chr '[', .chr ']']))) (.lit ']')))) (.seq (.lit '_') (.seq (.lit '_') (.seq (.group 2
    (.rep 1 none false (.dot true))) (.seq (.lit '_') (.lit '_')))))))
    (by decide +kernel) (by same_parts [ofLines]), ?_⟩
  refine ⟨.intro
    (.seq (.group 1 (.alt (.look .bot) (.cls true [.named .word, .chr '&', .chr ';', .chr ':', .chr '}']))) (.seq
    (.rep 0 (some 1) true (.seq (.lit '[') (.seq (.group 2 (.rep 1 none true (.cls true [.chr '[', .chr ']'])))
    (.lit ']')))) (.seq (.lit '_') (.seq (.group 3 (.alt (.cls true [.named .space]) (.seq (.cls true [.named
    .space]) (.seq (.rep 0 none false (.dot true)) (.cls true [.named .space]))))) (.seq (.lit '_') (.look
    .endHalf))))))
    (by decide +kernel) (by same_parts [ofLines]), ?_⟩
  refine ⟨.intro
    (.seq (.rep 0 (some 1) true (.lit '\\')) (.seq (.rep 0 (some 1) true (.seq (.lit '[') (.seq (.group 1 (.rep 1
    none true (.cls true [.chr '[', .chr ']']))) (.lit ']')))) (.seq (.lit '#') (.seq (.lit '#') (.seq (.group 2
    (.rep 1 none false (.dot true))) (.seq (.lit '#') (.lit '#')))))))
    (by decide +kernel) (by same_parts [ofLines]), ?_⟩
  refine ⟨.intro
    (.seq (.group 1 (.alt (.look .bot) (.cls true [.named .word, .chr '&', .chr ';', .chr ':', .chr '}']))) (.seq
    (.rep 0 (some 1) true (.seq (.lit '[') (.seq (.group 2 (.rep 1 none true (.cls true [.chr '[', .chr ']'])))
    (.lit ']')))) (.seq (.lit '#') (.seq (.group 3 (.alt (.cls true [.named .space]) (.seq (.cls true [.named
    .space]) (.seq (.rep 0 none false (.dot true)) (.cls true [.named .space]))))) (.seq (.lit '#') (.look
    .endHalf))))))
    (by decide +kernel) (by same_parts [ofLines]), ?_⟩
  refine ⟨.intro
    (.seq (.rep 0 (some 1) true (.lit '\\')) (.seq (.rep 0 (some 1) true (.seq (.lit '[') (.seq (.group 1 (.rep 1
    none true (.cls true [.chr '[', .chr ']']))) (.lit ']')))) (.seq (.lit '^') (.seq (.group 2 (.rep 1 none
    false (.cls true [.named .space]))) (.lit '^')))))
    (by decide +kernel) (by same_parts [ofLines]), ?_⟩
  refine ⟨.intro
    (.seq (.rep 0 (some 1) true (.lit '\\')) (.seq (.rep 0 (some 1) true (.seq (.lit '[') (.seq (.group 1 (.rep 1
    none true (.cls true [.chr '[', .chr ']']))) (.lit ']')))) (.seq (.lit '~') (.seq (.group 2 (.rep 1 none
    false (.cls true [.named .space]))) (.lit '~')))))
    (by decide +kernel) (by same_parts [ofLines]), ?_⟩
  trivial

/-- `REPLACEMENTS`, in order. -/
theorem replacements : DenoteAll
      [({}, PatternText.copyright), ({}, PatternText.registered), ({}, PatternText.trademark), ({},
      PatternText.emDashSpaces), ({}, PatternText.emDash), ({}, PatternText.ellipsis), ({},
      PatternText.rightQuote), ({}, PatternText.apostrophe), ({}, PatternText.rightArrow), ({},
      PatternText.doubleRightArrow), ({}, PatternText.leftArrow), ({}, PatternText.doubleLeftArrow), ({},
      PatternText.characterReference)]
      (Adoc.replacements.map Prod.snd) := by
  refine ⟨.intro
    (.seq (.rep 0 (some 1) true (.lit '\\')) (.seq (.lit '(') (.seq (.lit 'C') (.lit ')'))))
    (by decide +kernel) (by same_parts [ofLines]), ?_⟩
  refine ⟨.intro
    (.seq (.rep 0 (some 1) true (.lit '\\')) (.seq (.lit '(') (.seq (.lit 'R') (.lit ')'))))
    (by decide +kernel) (by same_parts [ofLines]), ?_⟩
  refine ⟨.intro
    (.seq (.rep 0 (some 1) true (.lit '\\')) (.seq (.lit '(') (.seq (.lit 'T') (.seq (.lit 'M') (.lit ')')))))
    (by decide +kernel) (by same_parts [ofLines]), ?_⟩
  refine ⟨.intro
    (.seq (.alt (.lit ' ') (.alt (.lit '\n') (.alt (.look .bot) (.lit '\\')))) (.seq (.lit '-') (.seq (.lit '-')
    (.alt (.lit ' ') (.alt (.lit '\n') (.look .eot))))))
    (by decide +kernel) (by same_parts [ofLines]), ?_⟩
  refine ⟨.intro
    (.seq (.group 1 (.cls false [.named .word])) (.seq (.rep 0 (some 1) true (.lit '\\')) (.seq (.lit '-') (.seq
    (.lit '-') (.look .startHalf)))))
    (by decide +kernel) (by same_parts [ofLines]), ?_⟩
  refine ⟨.intro
    (.seq (.rep 0 (some 1) true (.lit '\\')) (.seq (.lit '.') (.seq (.lit '.') (.lit '.'))))
    (by decide +kernel) (by same_parts [ofLines]), ?_⟩
  refine ⟨.intro
    (.seq (.rep 0 (some 1) true (.lit '\\')) (.seq (.lit '`') (.lit '\'')))
    (by decide +kernel) (by same_parts [ofLines]), ?_⟩
  refine ⟨.intro
    (.seq (.group 1 (.cls false [.named .asciiAlnum])) (.seq (.rep 0 (some 1) true (.lit '\\')) (.seq (.lit '\'')
    (.group 2 (.cls false [.named .asciiAlpha])))))
    (by decide +kernel) (by same_parts [ofLines]), ?_⟩
  refine ⟨.intro
    (.seq (.rep 0 (some 1) true (.lit '\\')) (.seq (.lit '-') (.seq (.lit '&') (.seq (.lit 'g') (.seq (.lit 't')
    (.lit ';'))))))
    (by decide +kernel) (by same_parts [ofLines]), ?_⟩
  refine ⟨.intro
    (.seq (.rep 0 (some 1) true (.lit '\\')) (.seq (.lit '=') (.seq (.lit '&') (.seq (.lit 'g') (.seq (.lit 't')
    (.lit ';'))))))
    (by decide +kernel) (by same_parts [ofLines]), ?_⟩
  refine ⟨.intro
    (.seq (.rep 0 (some 1) true (.lit '\\')) (.seq (.lit '&') (.seq (.lit 'l') (.seq (.lit 't') (.seq (.lit ';')
    (.lit '-'))))))
    (by decide +kernel) (by same_parts [ofLines]), ?_⟩
  refine ⟨.intro
    (.seq (.rep 0 (some 1) true (.lit '\\')) (.seq (.lit '&') (.seq (.lit 'l') (.seq (.lit 't') (.seq (.lit ';')
    (.lit '='))))))
    (by decide +kernel) (by same_parts [ofLines]), ?_⟩
  refine ⟨.intro
    (.seq (.rep 0 (some 1) true (.lit '\\')) (.seq (.lit '&') (.seq (.lit 'a') (.seq (.lit 'm') (.seq (.lit 'p')
    (.seq (.lit ';') (.seq (.group 1 (.alt (.seq (.cls false [.range 'a' 'z', .range 'A' 'Z']) (.seq (.rep 1
    none true (.cls false [.range 'a' 'z', .range 'A' 'Z'])) (.rep 0 (some 2) true (.cls false [.named
    .digit])))) (.alt (.seq (.lit '#') (.seq (.cls false [.named .digit]) (.seq (.cls false [.named .digit])
    (.rep 0 (some 4) true (.cls false [.named .digit]))))) (.seq (.lit '#') (.seq (.lit 'x') (.seq (.cls false
    [.named .digit, .range 'a' 'f', .range 'A' 'F']) (.seq (.cls false [.named .digit, .range 'a' 'f',
    .range 'A' 'F']) (.rep 0 (some 3) true (.cls false [.named .digit, .range 'a' 'f', .range 'A' 'F'])))))))))
    (.lit ';'))))))))
    (by decide +kernel) (by same_parts [ofLines]), ?_⟩
  trivial

/-- `QUOTED_TEXT_SNIFF`: whether it occurs is the test of the model. -/
theorem quotedTextSniff : ∃ p, read {} (ofLines PatternText.quotedTextSniff) = some p ∧
    ∀ t, isMatch p.toRe t = Adoc.quotedTextSniff t := by
  refine ⟨.cls false [.chr '*', .chr '_', .chr '`', .chr '#', .chr '^', .chr '~'], by decide +kernel, ?_⟩
  intro t
  unfold isMatch
  generalize (none : Option Char) = pv
  induction t generalizing pv with
  | nil => rfl
  | cons c cs ih =>
    by_cases h : (c == '*' || c == '_' || c == '`' || c == '#' || c == '^' || c == '~') = true
    · have h' := h
      simp only [Bool.or_eq_true, beq_iff_eq] at h'
      simp [search, matchAt, m, Pat.toRe, Item.mem, Adoc.quotedTextSniff]
      grind
    · have hm : matchAt (Pat.toRe (.cls false [.chr '*', .chr '_', .chr '`', .chr '#', .chr '^', .chr '~'])) pv (c :: cs) =
          none := by
        simp [matchAt, m, Pat.toRe, Item.mem]
        grind
      rw [search, hm]
      simp only [Option.isSome_map, ih]
      simp only [Adoc.quotedTextSniff, List.any_cons, h, Bool.false_or]

/-- `URI_SNIFF` of the path resolver: what it finds is what the model takes for the address of a site. -/
theorem uriSniffPath [LawfulUni] : ∃ p, read {} (ofLines PatternText.uriSniffPath) = some p ∧
    ∀ t, captures p.toRe t = (Path.uriSniff t).map fun n => ⟨t.take n, []⟩ := by
  refine ⟨.seq (.look .bot) (.seq (.cls false [.named .alphabetic]) (.seq (.rep 1 none true (.cls false [.named
    .alphabetic, .named .number, .chr '.', .chr '+', .chr '-'])) (.seq (.lit ':') (.rep 0 (some 2) true
    (.lit '/'))))), by decide +kernel, ?_⟩
  intro t
  rw [← captures_pathSniff]
  unfold captures
  rw [search_same (b := pathSniffRe) (Re.Same.of_parts (by same_parts [pathSniffRe, Path.schemeChar]))]

end PatternOf

end Adoc
