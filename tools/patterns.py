#!/usr/bin/env python3
"""Writes lean/Verif/Model/PatternTexts.lean: the patterns of the crate, copied verbatim from /repo.

With --check, says whether the committed module is what would be written.
"""
import re, sys, pathlib

SRC = pathlib.Path("/repo/parser/src")
OUT = pathlib.Path(__file__).resolve().parent.parent / "lean/Verif/Model/PatternTexts.lean"

# file, static, name in the model; QUOTE_SUBS and REPLACEMENTS hold several patterns
WANTED = [
    ("content/substitution_step.rs", "SPECIAL_CHARS", "specialChars"),
    ("content/substitution_step.rs", "QUOTED_TEXT_SNIFF", "quotedTextSniff"),
    ("content/substitution_step.rs", "QUOTE_SUBS", ["strong2", "strong1", "doubleQuote", "singleQuote", "monospaced2",
        "monospaced1", "emphasis2", "emphasis1", "mark2", "mark1", "superscript", "subscript"]),
    ("content/substitution_step.rs", "ATTRIBUTE_REFERENCE", "attributeReference"),
    ("content/substitution_step.rs", "REPLACEABLE_TEXT_SNIFF", "replaceableTextSniff"),
    ("content/substitution_step.rs", "REPLACEMENTS", ["copyright", "registered", "trademark", "emDashSpaces", "emDash",
        "ellipsis", "rightQuote", "apostrophe", "rightArrow", "doubleRightArrow", "leftArrow", "doubleLeftArrow",
        "characterReference"]),
    ("content/substitution_step.rs", "HARD_LINE_BREAK", "hardLineBreak"),
    ("content/macros.rs", "INLINE_IMAGE_MACRO", "inlineImage"),
    ("content/macros.rs", "INLINE_LINK", "inlineLink"),
    ("content/macros.rs", "INLINE_LINK_MACRO", "inlineLinkMacro"),
    ("content/macros.rs", "INLINE_EMAIL", "inlineEmail"),
    ("content/macros.rs", "INLINE_ANCHOR", "inlineAnchor"),
    ("content/macros.rs", "URI_SNIFF", "uriSniffMacros"),
    ("content/passthroughs.rs", "INLINE_PASS_MACRO", "inlinePassMacro"),
    ("content/passthroughs.rs", "PASS_WITH_INDEX", "passWithIndex"),
    ("content/passthroughs.rs", "INLINE_PASS", "inlinePass"),
    ("document/author.rs", "AUTHOR", "author"),
    ("document/revision_line.rs", "STANDALONE_REVISION", "standaloneRevision"),
    ("document/revision_line.rs", "NON_NUMERIC_PREFIX", "nonNumericPrefix"),
    ("parser/preprocessor.rs", "INCLUDE_DIRECTIVE", "includeDirective"),
    ("parser/preprocessor.rs", "ATTRIBUTE_REFERENCE", "attributeReferencePreprocessor"),
    ("parser/inline_substitution_renderer.rs", "URI_SNIFF", "uriSniffRenderer"),
    ("parser/path_resolver.rs", "URI_SNIFF", "uriSniffPath"),
    ("blocks/section.rs", "INVALID_SECTION_ID_CHARS", "invalidSectionId"),
]

CALL = re.compile(r'(Regex|RegexBuilder)::new\(\s*(r#"(?P<raw1>.*?)"#|r"(?P<raw0>[^"]*)"|"(?P<plain>(?:[^"\\]|\\.)*)")', re.S)


def lean(m):
    if m["raw1"] is not None:
        return ['r#"' + l + '"#' for l in m["raw1"].split("\n")]
    if m["raw0"] is not None:
        return ['r"' + l + '"' for l in m["raw0"].split("\n")]
    return ['"' + re.sub(r"\\u\{([0-9a-f]+)\}", lambda u: "\\u" + u[1].zfill(4), m["plain"]) + '"']


def render():
    out = ["/-!", "# The patterns of the crate", "",
           "Copied verbatim from /repo by `tools/patterns.py` (run it with `--check` to compare).  `RegexBuilder` is always used",
           "with `dot_matches_new_line(true)`, which is the flag `s`.  A pattern is given line by line, without the newlines between",
           "the lines.", "-/", "",
           "namespace Adoc.PatternText", ""]
    for file, static, names in WANTED:
        text = (SRC / file).read_text()
        start = re.search(r"static " + static + r"\b", text).start()
        end = re.compile(r"^ *\}\);", re.M).search(text, start).start()
        calls = list(CALL.finditer(text, start, end))
        names = names if isinstance(names, list) else [names]
        assert len(calls) == len(names), (file, static, len(calls))
        for m, name in zip(calls, names):
            a = text.count("\n", 0, m.start()) + 1
            b = text.count("\n", 0, m.end()) + 1
            lines = f"{a}-{b}" if a != b else f"{a}"
            flag = ", with the flag `s`" if m[1] == "RegexBuilder" else ""
            if m[1] == "RegexBuilder":
                assert re.match(r",?[^;]*?\.dot_matches_new_line\(true\)", text[m.end():m.end() + 500]), name
            out += [f"/-- `{static}` ({file} {lines}){flag}. -/", f"def {name} : List String := [", ",\n".join("  " + l for l in lean(m)) + "]", ""]
    out += ["end Adoc.PatternText", ""]
    return "\n".join(out)


if __name__ == "__main__":
    # every pattern of the crate is in the list
    total = sum(len(CALL.findall(p.read_text().split("mod tests {")[0])) for p in SRC.rglob("*.rs") if "tests" not in p.parts)
    wanted = sum(len(n) if isinstance(n, list) else 1 for _, _, n in WANTED)
    assert total == wanted, (total, wanted)
    if "--check" in sys.argv:
        same = OUT.read_text() == render()
        print(wanted, "patterns,", "all as in /repo" if same else "DIFFERENT from /repo")
        sys.exit(0 if same else 1)
    OUT.write_text(render())
