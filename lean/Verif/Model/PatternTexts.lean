/-!
# The patterns of the crate

Copied verbatim from /repo by `tools/patterns.py` (run it with `--check` to compare).  `RegexBuilder` is always used
with `dot_matches_new_line(true)`, which is the flag `s`.  A pattern is given line by line, without the newlines between
the lines.
-/

namespace Adoc.PatternText

/-- `SPECIAL_CHARS` (content/substitution_step.rs 100). -/
def specialChars : List String := [
  "[<>&]"]

/-- `QUOTED_TEXT_SNIFF` (content/substitution_step.rs 132). -/
def quotedTextSniff : List String := [
  "[*_`#^~]"]

/-- `QUOTE_SUBS` (content/substitution_step.rs 168), with the flag `s`. -/
def strong2 : List String := [
  r#"\\?(?:\[([^\[\]]+)\])?\*\*(.+?)\*\*"#]

/-- `QUOTE_SUBS` (content/substitution_step.rs 178-179), with the flag `s`. -/
def strong1 : List String := [
  r#"(^|[^\w&;:}])(?:\[([^\[\]]+)\])?\*(\S|\S.*?\S)\*\b{end-half}"#]

/-- `QUOTE_SUBS` (content/substitution_step.rs 190-191), with the flag `s`. -/
def doubleQuote : List String := [
  r#"(^|[^\w&;:}])(?:\[([^\[\]]+)\])?"`(\S|\S.*?\S)`"\b{end-half}"#]

/-- `QUOTE_SUBS` (content/substitution_step.rs 202-203), with the flag `s`. -/
def singleQuote : List String := [
  r#"(^|[^\w&;:}])(?:\[([^\[\]]+)\])?'`(\S|\S.*?\S)`'\b{end-half}"#]

/-- `QUOTE_SUBS` (content/substitution_step.rs 214), with the flag `s`. -/
def monospaced2 : List String := [
  r#"\\?(?:\[([^\[\]]+)\])?``(.+?)``"#]

/-- `QUOTE_SUBS` (content/substitution_step.rs 224-225), with the flag `s`. -/
def monospaced1 : List String := [
  r#"(^|[^\w&;:"'`}])(?:\[([^\[\]]+)\])?`(\S|\S.*?\S)`\b{end-half}"#]

/-- `QUOTE_SUBS` (content/substitution_step.rs 239), with the flag `s`. -/
def emphasis2 : List String := [
  r#"\\?(?:\[([^\[\]]+)\])?__(.+?)__"#]

/-- `QUOTE_SUBS` (content/substitution_step.rs 249-250), with the flag `s`. -/
def emphasis1 : List String := [
  r#"(^|[^\w&;:}])(?:\[([^\[\]]+)\])?_(\S|\S.*?\S)_\b{end-half}"#]

/-- `QUOTE_SUBS` (content/substitution_step.rs 261), with the flag `s`. -/
def mark2 : List String := [
  r#"\\?(?:\[([^\[\]]+)\])?##(.+?)##"#]

/-- `QUOTE_SUBS` (content/substitution_step.rs 271-272), with the flag `s`. -/
def mark1 : List String := [
  r#"(^|[^\w&;:}])(?:\[([^\[\]]+)\])?#(\S|\S.*?\S)#\b{end-half}"#]

/-- `QUOTE_SUBS` (content/substitution_step.rs 283). -/
def superscript : List String := [
  r#"\\?(?:\[([^\[\]]+)\])?\^(\S+?)\^"#]

/-- `QUOTE_SUBS` (content/substitution_step.rs 290). -/
def subscript : List String := [
  r#"\\?(?:\[([^\[\]]+)\])?~(\S+?)~"#]

/-- `ATTRIBUTE_REFERENCE` (content/substitution_step.rs 450). -/
def attributeReference : List String := [
  r#"\\?\{([A-Za-z0-9_][A-Za-z0-9_-]*)\}"#]

/-- `REPLACEABLE_TEXT_SNIFF` (content/substitution_step.rs 530). -/
def replaceableTextSniff : List String := [
  r#"[&']|--|\.\.\.|\([CRT]M?\)"#]

/-- `REPLACEMENTS` (content/substitution_step.rs 544). -/
def copyright : List String := [
  r#"\\?\(C\)"#]

/-- `REPLACEMENTS` (content/substitution_step.rs 550). -/
def registered : List String := [
  r#"\\?\(R\)"#]

/-- `REPLACEMENTS` (content/substitution_step.rs 556). -/
def trademark : List String := [
  r#"\\?\(TM\)"#]

/-- `REPLACEMENTS` (content/substitution_step.rs 562). -/
def emDashSpaces : List String := [
  r#"(?: |\n|^|\\)--(?: |\n|$)"#]

/-- `REPLACEMENTS` (content/substitution_step.rs 568). -/
def emDash : List String := [
  r#"(\w)\\?--\b{start-half}"#]

/-- `REPLACEMENTS` (content/substitution_step.rs 574). -/
def ellipsis : List String := [
  r#"\\?\.\.\."#]

/-- `REPLACEMENTS` (content/substitution_step.rs 580). -/
def rightQuote : List String := [
  r#"\\?`'"#]

/-- `REPLACEMENTS` (content/substitution_step.rs 586). -/
def apostrophe : List String := [
  r#"([[:alnum:]])\\?'([[:alpha:]])"#]

/-- `REPLACEMENTS` (content/substitution_step.rs 592). -/
def rightArrow : List String := [
  r#"\\?-&gt;"#]

/-- `REPLACEMENTS` (content/substitution_step.rs 598). -/
def doubleRightArrow : List String := [
  r#"\\?=&gt;"#]

/-- `REPLACEMENTS` (content/substitution_step.rs 604). -/
def leftArrow : List String := [
  r#"\\?&lt;-"#]

/-- `REPLACEMENTS` (content/substitution_step.rs 610). -/
def doubleLeftArrow : List String := [
  r#"\\?&lt;="#]

/-- `REPLACEMENTS` (content/substitution_step.rs 616). -/
def characterReference : List String := [
  r#"\\?&amp;((?:[a-zA-Z][a-zA-Z]+\d{0,2}|#\d\d\d{0,4}|#x[\da-fA-F][\da-fA-F][\da-fA-F]{0,3}));"#]

/-- `HARD_LINE_BREAK` (content/substitution_step.rs 744). -/
def hardLineBreak : List String := [
  r#"(?m)^(.*) \+$"#]

/-- `INLINE_IMAGE_MACRO` (content/macros.rs 107-126). -/
def inlineImage : List String := [
  r#"(?xs)                    "#,
  r#"            \\?                         # Optional escape: literal backslash"#,
  r#"            i(?:mage|con):              # 'image:' or 'icon:' prefix"#,
  r#""#,
  r#"            (                           # Group 1: the target"#,
  r#"                [^:\s\[\n]                  # First char: not colon, whitespace, [, or newline"#,
  r#"                [^\[\n]*?                   # Middle chars: any except [ or newline, lazily"#,
  r#"                [^\s\[\n]                   # Last char: not whitespace, [, or newline"#,
  r#"            )?                          # Entire target group is optional"#,
  r#""#,
  r#"            \[                          # Opening square bracket"#,
  r#""#,
  r#"            (                           # Group 2: bracketed text"#,
  r#"                |                       #   EITHER: empty alt text"#,
  r#"                .*?[^\\]                #   OR: content ending in a non-backslash"#,
  r#"            )"#,
  r#""#,
  r#"            \]                          # Closing square bracket"#,
  r#"        "#]

/-- `INLINE_LINK` (content/macros.rs 211-223). -/
def inlineLink : List String := [
  r#"(?msx)"#,
  r#"        ( ^ | link: | [\ \t] | \\?&lt;() | [>\(\)\[\];"'] )   # capture group 1: prefix"#,
  r#"                                                              # capture group 2: flag for prefix == "&lt;""#,
  r#"        ( \\? (?: https? | file | ftp | irc ):// )            # capture group 3: scheme"#,
  r#"        (?:"#,
  r#"            ( [^\s\[\]]+ )                                    # capture group 4: target"#,
  r#"            \[ ( | .*?[^\\] ) \]                              # capture group 5: attrlist"#,
  r#"          | ( [^\s]+? ) &gt;                                  # capture group 6: URL inside <>"#,
  r#"          | ( [^\s\[\]<]* ( [^\s,.?!\[\]<\)] ) )              # capture group 7: bare link,"#,
  r#"                                                              # capture group 8: trailing char"#,
  r#"        )"#,
  r#"    "#]

/-- `INLINE_LINK_MACRO` (content/macros.rs 408-433). -/
def inlineLinkMacro : List String := [
  r#"(?xs)                # (?x) extended mode, (?s) dot matches newline"#,
  r#""#,
  r#"        \\?                     # Optional backslash escape before macro"#,
  r#""#,
  r#"        (?:                     # Non-capturing group for macro name"#,
  r#"            link                #   'link'"#,
  r#"          | (mailto)            #   capture group 1: 'mailto'"#,
  r#"        )"#,
  r#""#,
  r#"        :                       # Colon after macro name"#,
  r#""#,
  r#"        (?:                     # Non-capturing outer group"#,
  r#"            ().                 #   capture group 2: empty target"#,
  r#"          | ([^:\s\[] [^\s\[]*) #   capture group 3: valid target (no colon/space/'[')"#,
  r#"        )"#,
  r#""#,
  r#"        \[                      # Opening square bracket"#,
  r#""#,
  r#"        (?:                     # Non-capturing outer group"#,
  r#"            ()                  #   capture group 4: empty label"#,
  r#"          | (.*?[^\\])          #   capture group 5: minimally match anything, not ending in '\'"#,
  r#"        )"#,
  r#""#,
  r#"        \]                      # Closing square bracket"#,
  r#"    "#]

/-- `INLINE_EMAIL` (content/macros.rs 638-653). -/
def inlineEmail : List String := [
  r#"(?x)                         # verbose mode (ignore whitespace & comments)"#,
  r#""#,
  r#"        ([\\>:/]?)                      # capture group 1: prefix that causes mismatch: \, >, :, or /"#,
  r#""#,
  r#"        (                               # capture group 2: actual e-mail address"#,
  r#"            [\w_]                           # leading word character"#,
  r#"            (?: &amp; | [\w\-.%+] )*        # subsequent word chars or symbols (&amp;, ., -, %, +)"#,
  r#"            @                               # at sign"#,
  r#"            [\p{L}\p{Nd}]                   # leading letter or digit in domain"#,
  r#"            [\p{L}\p{Nd}_\-.]*              # rest of domain"#,
  r#"            \.[a-zA-Z]{2,5}                 # dot + TLD (2–5 ASCII letters)"#,
  r#"        )"#,
  r#""#,
  r#"        \b                              # word boundary"#,
  r#"        "#]

/-- `INLINE_ANCHOR` (content/macros.rs 704-730). -/
def inlineAnchor : List String := [
  r#"(?x)"#,
  r#"    (\\)?                           # (1) optional escape backslash before the anchor"#,
  r#""#,
  r#"    (?:                             # either [[id[, reftext]]] OR anchor:id[reftext]"#,
  r#"      \[\[                          # [["#,
  r#"        (                           # (2) anchor id for [[...]]"#,
  r#"          [\p{Alphabetic}_:]        #     first char: letter, '_' or ':'"#,
  r#"          [\p{Alphabetic}\p{Nd}_\-:.]*  # rest: letters/digits/_ or '-', ':', '.'"#,
  r#"        )"#,
  r#"        (?: , \s* (.+?) )?          # (3) optional reftext after comma (lazy)"#,
  r#"        \]\]                        # ]]"#,
  r#"      |"#,
  r#"        anchor:                     # 'anchor:' prefix"#,
  r#"        (                           # (4) anchor id for anchor:...[]"#,
  r#"          [\p{Alphabetic}_:]        #     first char: letter, '_' or ':'"#,
  r#"          [\p{Alphabetic}\p{Nd}_\-:.]*  # rest: letters/digits/_ or '-', ':', '.'"#,
  r#"        )                           # end (4)"#,
  r#"        \[                          # opening '[' for reftext"#,
  r#"          (?:                       # either empty [] or a non-empty reftext"#,
  r#"            \]                      #   empty -> immediate ']'"#,
  r#"          |                         #   OR"#,
  r#"            (.*?[^\\])              # (5) non-empty reftext (ends with a non-escaped char)"#,
  r#"            \]                      #   closing ']'"#,
  r#"          )"#,
  r#"    )                               # end alternation"#,
  r#"        "#]

/-- `URI_SNIFF` (content/macros.rs 764). -/
def uriSniffMacros : List String := [
  r#"^\p{alpha}[\p{alpha}\p{digit}.+-]+:/{0,2}"#]

/-- `INLINE_PASS_MACRO` (content/passthroughs.rs 102-132). -/
def inlinePassMacro : List String := [
  r#"(?xs)"#,
  r#"        (?:"#,
  r#"            # Optional: attrlist"#,
  r#"            (?:"#,
  r#"                (\\?)              # Group 1: optional backslash before ["#,
  r#"                \["#,
  r#"                    ([^\[\]]+)     # Group 2: attrlist contents"#,
  r#"                \]"#,
  r#"            )?"#,
  r#"            "#,
  r#"            (\\{0,2})              # Group 3: optional escape prefix (e.g., \ or \\)"#,
  r#""#,
  r#"            # Passthrough span delimiters: +++, ++, or $$"#,
  r#"            (?:"#,
  r#"                (\+\+\+) (.*?) (\+\+\+) |   # Groups 4,5,6: triple plus"#,
  r#"                (\+\+)   (.*?) (\+\+)   |   # Groups 7,8,9: double plus"#,
  r#"                (\$\$)   (.*?) (\$\$)       # Groups 10,11,12: double dollar"#,
  r#"            )"#,
  r#""#,
  r#"        |"#,
  r#""#,
  r#"            # Alternative: pass-through directive"#,
  r#"            (\\?)                       # Group 13: optional escape before pass"#,
  r#"            pass:"#,
  r#"                ([a-z]+(?:,[a-z-]+)*)?  # Group 14: optional substitution step list"#,
  r#"                \["#,
  r#"                     (|.*?[^\\])        # Group 15: optional content"#,
  r#"                                        # (avoiding escape of trailing bracket)"#,
  r#"                \]"#,
  r#"        )"#]

/-- `PASS_WITH_INDEX` (content/passthroughs.rs 296). -/
def passWithIndex : List String := [
  "\u0096(\\d+)\u0097"]

/-- `INLINE_PASS` (content/passthroughs.rs 310-333). -/
def inlinePass : List String := [
  r#"(?xs)"#,
  r#"            \b{start-half}              # Must not follow a word"#,
  r#""#,
  r#"            (?:"#,
  r#"                                        # Option 1: [... x-] followed by `xxx`"#,
  r#"                \[(x-|[^\[\]]+\ x-)\]       # Group 1: [attrlist] with x- suffix"#,
  r#"                \`(\S(?:.*?\S)??)\`         # Group 2: `...` content"#,
  r#"            "#,
  r#"            |                           # --OR--"#,
  r#"                                        # Option 2: [...] followed by +xxx+"#,
  r#"                \[([^\[\]]+)\]              # Group 3: [attrlist]"#,
  r#"                (\\{0,2})                   # Group 4: optional escapes"#,
  r#"                \+(\S(?:.*?\S)??)\+         # Group 5: +...+ content (surrounded by non-space)"#,
  r#""#,
  r#"            |                           # --OR--"#,
  r#"                                        # Option 3: +xxx+ without attrlist"#,
  r#"                (\\)?                       # Group 6: optional escape"#,
  r#"                \+(\S(?:.*?\S)??)\+         # Group 7: +...+ content (surrounded by non-space)"#,
  r#""#,
  r#"            )"#,
  r#""#,
  r#"            \b{end-half}            # Must not be followed by a word character"#,
  r#"        "#]

/-- `AUTHOR` (document/author.rs 244-261). -/
def author : List String := [
  r#"(?x)"#,
  r#"            ^"#,
  r#""#,
  r#"            # Group 1: First name (required)"#,
  r#"            ([a-zA-Z0-9_\p{L}\p{N}&\#;][a-zA-Z0-9_\p{L}\p{N}\-'.&\#;]*)"#,
  r#""#,
  r#"            # Group 2: Middle name (optional)"#,
  r#"            (?:\ +([a-zA-Z0-9_\p{L}\p{N}&\#;][a-zA-Z0-9_\p{L}\p{N}\-'.&\#;]*))?"#,
  r#""#,
  r#"            # Group 3: Last name (optional)"#,
  r#"            (?:\ +([a-zA-Z0-9_\p{L}\p{N}&\#;][a-zA-Z0-9_\p{L}\p{N}\-'.&\#;]*))?"#,
  r#""#,
  r#"            # Group 4: Email address (optional)"#,
  r#"            (?:\ +<([^>]+)>)?"#,
  r#""#,
  r#"            $"#,
  r#"        "#]

/-- `STANDALONE_REVISION` (document/revision_line.rs 129). -/
def standaloneRevision : List String := [
  r"^v\d"]

/-- `NON_NUMERIC_PREFIX` (document/revision_line.rs 134). -/
def nonNumericPrefix : List String := [
  r"^[^0-9]*(.*)$"]

/-- `INCLUDE_DIRECTIVE` (parser/preprocessor.rs 226-245). -/
def includeDirective : List String := [
  r#"(?x)                      # Extended (verbose) mode"#,
  r#""#,
  r#"        ^                           # Start of string"#,
  r#""#,
  r#"        include::                   # Literal 'include::' macro prefix"#,
  r#""#,
  r#"        (                           # (1) Target path"#,
  r#"            [^\s\[]                   #   First char: not space or '['"#,
  r#"            (?: [^\[]* [^\s\[] )?     #   Optional middle part ending with non-space/non-'['"#,
  r#"        )                           # end capture group 1"#,
  r#""#,
  r#"        \[                          # Literal '[' starting the attributes block"#,
  r#""#,
  r#"        ([^\]].+)?                  # (2) Optional contents inside brackets (lazy by default)"#,
  r#""#,
  r#"        \]                          # Literal closing bracket"#,
  r#""#,
  r#"        $                           # End of line"#,
  r#"        "#]

/-- `ATTRIBUTE_REFERENCE` (parser/preprocessor.rs 252). -/
def attributeReferencePreprocessor : List String := [
  r#"\\?\{([A-Za-z0-9_][A-Za-z0-9_-]*)\}"#]

/-- `URI_SNIFF` (parser/inline_substitution_renderer.rs 802-809). -/
def uriSniffRenderer : List String := [
  r#"(?x)"#,
  r#"        \A                             # Anchor to start of string"#,
  r#"        \p{Alphabetic}                 # First character must be a letter"#,
  r#"        [\p{Alphabetic}\p{Nd}.+-]+     # Followed by one or more alphanum or . + -"#,
  r#"        :                              # Literal colon"#,
  r#"        /{0,2}                         # Zero to two slashes"#,
  r#"    "#]

/-- `URI_SNIFF` (parser/path_resolver.rs 223-239). -/
def uriSniffPath : List String := [
  r#"(?x)"#,
  r#"        ^                   # Anchor: start of string"#,
  r#""#,
  r#"        \p{Alphabetic}      # First character: a Unicode letter"#,
  r#""#,
  r#"        [\p{Alphabetic}     # Followed by one or more of:"#,
  r#"        \p{Number}         #   - Unicode letters or numbers"#,
  r#"        .                  #   - Period"#,
  r#"        \+                 #   - Plus sign"#,
  r#"        \-                 #   - Hyphen"#,
  r#"        ]+                  # One or more of the above"#,
  r#""#,
  r#"        :                   # Followed by a literal colon"#,
  r#""#,
  r#"        /{0,2}              # Followed by zero, one, or two literal slashes"#,
  r#"    "#]

/-- `INVALID_SECTION_ID_CHARS` (blocks/section.rs 385-386). -/
def invalidSectionId : List String := [
  r"<[^>]+>|&lt;[^&]*&gt;|&(?:[a-z][a-z]+\d{0,2}|#\d{2,5}|#x[\da-f]{2,4});|[^ \w\-.]+"]

end Adoc.PatternText
