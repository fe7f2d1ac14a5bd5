# Formal model of asciidoc-parser in Lean 4

## What is here

* `properties.jsonl` – the properties, in words.
* `lean/Verif/Model/*.lean` – the model: one Lean definition per Rust function, each with a comment citing
  the file and lines it models and naming every simplification.
* `lean/Verif/Spec/*.lean` – small specifications that the property theorems are stated with.
* `lean/Verif/Lemmas/*.lean` – helper lemmas.
* `lean/Verif/Props/*.lean` – the property theorems (one file per area, names `Cxx_…`), with concrete cases
  (`example`) that meet their hypotheses.
* `MANIFEST.json` – property → theorem names and status, generated by `tools/manifest.py` from the theorem names and
  `tools/notes.json`.
* `seeded/LOG.jsonl` – wrong programs: edits of the model (`tools/mutate.py`), the claim each breaks, and the theorems
  that then fail.
* `tools/conformance/` – evaluates the assertions of the crate's own unit tests on the model (see "Trusted base").

## Conventions of the model

* Rust `&str`/`String` is `List Char` (`Text`); a byte offset is a `Nat`, byte lengths are sums of UTF-8 sizes.
  Slicing at a byte index that is not on a character boundary, or out of range, is a panic in Rust; the model makes it
  an explicit error (`none` / `.error .panic`), never a default value.
* `usize` is `Nat` (no overflow) except where the property is about wrap-around: the subtraction in
  `parse_title_line` (section.rs) is taken in both of Rust's ways, with overflow checks (`Arith.checked`, a panic) and
  without (`Arith.wrapping`, 64 bits). Theorems that do not name one hold for both.
* `&mut` functions return the new value. `HashMap` is an association list with the same observable
  `get/insert/contains_key` behaviour; nothing in the code depends on its iteration order.
* Loops that need not end and the mutually recursive block parser take a bound (`fuel`) and return an explicit `.fuel`
  when it is reached. "Returns" means: some bound suffices (and then every larger one gives the same result).
  "Does not return" means: no bound suffices.
* Calls out of the crate (include file handler, inline renderer, Unicode tables) are parameters, so the theorems hold for
  every such component, unless a theorem names `Html.renderer` or `LawfulUni`.
* A parse is `Config.parse c fuel p text = .ok (document, source map, parser afterwards)`; nothing about a failing
  parse is assumed by theorems about documents, they speak about every document that a parse returns.

## Plan per property

| id | modelled | proof |
|----|----------|-------|
| C01 | `Span` and all operations on it | invariant `Faithful doc span` preserved by `slice`, lifted to chains of operations by induction |
| C02 | line functions of `Span` | decomposition at the first newline |
| C03 | `trim_remainder` | arithmetic on byte lengths |
| C04, C06 | `Catalog` | refinement of every history of requests to the log of the successful ones |
| C05 | `generate_and_register_unique_id` | pigeonhole on the candidates |
| C07–C09, C49 | attribute store, attribute entries, header | invariants over histories of writes; C09, C49 refuted by witnesses, partial theorems |
| C10, C11 | source map, std binary search, preprocessor | ordered keys; specification with origins; C11 partial (witnesses; `C11_exact` gives the origin that is computed for every line) |
| C12–C14 | preprocessor with an arbitrary include handler | relation `Expansion`: sound, complete, unique; C12 partial, with the exact condition (`C12_kept_iff`); C14 partial (a file including itself), with the exact condition for returning, failing and never ending (`C14_returns_iff`, `C14_fails_iff`, `C14_never_ends_iff`) |
| C15, C16, C50 | path resolver | segment stack invariant, reduction relation, fixed points; C50 partial (witness) |
| C17–C19, C60 | section numbers and types, parser fields | lexicographic order; walk over the tree in document order (`Counted`, `Typed`); simulation between a used and a new parser; C18, C19, C60 partial (witnesses) |
| C20 | `generate_section_id` | regex deletion and rewriting of text |
| C21 | whole block parser | divergence of witnesses for every bound; bound by the length of the text for all others; condition on the lines for the end; exactly the places in terms of lines at which reading stands still, and parsing never ends exactly if it comes to one; partial |
| C22 | `parse_title_line`, `peer_or_ancestor_section`, `SectionBlock::parse` | exact grammar `Heading`; witnesses for indented lines |
| C23, C25, C26, C28, C52, C54 | `Document::parse` with all block parsers | one induction over runs of the block parser (`Lemmas/Run`) with an invariant each |
| C24, C27, C43 | raw blocks, metadata, paragraphs | declarative relations on lines, sound and unique |
| C29, C30, C32, C42 | substitution steps | list induction, relation `Expands`, relation `Looked`; C32, C42 partial (witnesses) |
| C31 | passthroughs | extraction and restoration of placeholders, for all forms; partial because of the findings |
| C33–C36 | attribute lists | relation `Elements`, progress, lookups, round trips |
| C37 | `SubstitutionGroup::from_custom_string` | denotation of specs; partial (witness) |
| C38–C41 | URI encoding, strings, authors, revision line | direct; regexes by the regex engine of the model |
| C44, C45 | HTML renderer | an independent reader of HTML start tags; partial (witnesses) |
| C46 | macros | which matches panic, and (`Breaks`, `MacrosFail`) which texts make the step fail, exactly; partial |
| C47, C48, C51 | header, names, attribute entries | line grammar, sound and unique |
| C53 | whole block parser, header, substitutions | every failure traced to a substitution, an indented line behind a heading or a place to stall (`Spec/Stall`); substitutions of texts without certain characters are total (`Lemmas/Harmless`); partial |
| C55–C57 | trait `IsBlock` and its implementations | invariant `Made` (how each block came about) of all blocks; partial (witnesses) |
| C59 | `apply_character_replacements` | relation `Typeset` of left-to-right rewritings; regex inversions; partial (witness) |
| C61 | whole block parser | the attributes behind blocks in document order (`attrsBehind`); induction over the runs of the block parser; partial (witness) |
| C62 | whole parser | written forms (`Spec.Layout`) and a printer (`Spec.documentText`); run of the block parser over the lines by induction over the layout; roundtrip through the printer |
| C63 | substitutions | prose (`Spec.Prose`); every step leaves it alone |
| C64 | the quotes step | declarative formats (`Spec.Constrained`, `Spec.Unconstrained`); shortest matches of the backtracking matcher, determinism, one format after the other |
| C65 | the macros step | one declarative relation per kind of macro (`Spec/InlineMacros`); greedy, lazy and first-alternative choices of the backtracking matcher characterised (`Lemmas/Search`), determinism, one kind after the other |
| C66 | `extract_from`, `restore_to`, `SubstitutionGroup::apply` | one declarative relation for each of the two passes over the text, with determinism; the recursion of the restoring as a mutual inductive relation, equivalent to the program with enough fuel |
| C67 | `SubstitutionGroup::apply`, `SubstitutionStep::apply` | the relations of the single steps (C29, C30, C42, C46, C59, C64, C65) put together along the list of steps and inside the relation of C66; panics as a second mutual relation; no end is the complement of both |
| C68 | `image_uri`, `icon_uri`, `normalize_web_path`, `web_path` | the reduction relation of C15 with uniqueness of its clean normal forms, the longest scheme, and the two cases of a source |
| C69 | header lines, attribute entries, `set_attribute_from_header`, `set_attribute_from_body` | the trace of the header loop and the run of the block parser give one history of requests; induction over it |
| C70 | `render_image`, `render_icon`, `render_link` and their helpers | unfolding against a specification of elements with attributes (`Spec/Shown`), the sources from C68; partial (witness: `icons` unset) |
| C71 | attribute entries and attribute references | the histories of C08 and the expansion of C30; partial (witness: names with capital letters) |
| C72 | `Parser::parse`, several times | induction over the documents parsed, with the requests of C69; partial (witness: attributes and title of the first document in the second) |
| C73 | `built_in_attrs`, `built_in_default_values`, `Parser::default` | table over all names; frozen cells through the histories of C72 and C69 |
| C74 | lines, header, entries and blocks of documents as in C62, with two kinds of line ends | relation between texts, carried through every reading rule of the specification of C47 and C62; partial (witnesses: verbatim blocks, author entries over several lines) |
| C75 | all substitutions, passthroughs, header lines and blocks; renderers as parameters | invariant "no angle bracket" through every pattern, replacer and step, induction over the nesting of passthroughs and over header lines and blocks; partial (witnesses: attributes of passthroughs, revision line, addresses of authors) |
| C76 | section titles, `generate_section_id`, the catalog, all blocks of a document | the pattern of the characters not for ids as a relation from left to right, proved deterministic; induction over the block tree with the catalog and the attributes; markup not showing in ids is partial (witness: `A (*b*)`) |
| C77 | all delimited blocks, all warnings of a document | the lines of a block computed from the document and its source alone; induction over executions of the block parser with the place of each region in the document |
| C78 | all warnings of a document | a predicate on a warning and the text to which it points; induction over executions of the block parser; warnings about headings being about headings, at headings and once is partial (witnesses) |
| C79 | `Parser::parse` with an include handler | a relation between the lines of a document and the lines with files pasted in; induction over the expansion of C13 |
| C80 | `BlockMetadata::parse`, the metadata of every kind of block | `Spec.Relates` and `Spec.Keeps` say what lines give to a block; cases over how each block of a document came about (`Made`); roles, options, style and id from shorthand by the round trip of C35; false for the reference text of images, videos and breaks, of lone metadata and in the catalog: `C80_*_fails` |
| C81 | lines, header, entries and blocks of documents as in C62, with spaces at the ends of lines | relation between texts as for C74, carried through the same reading rules; partial (witnesses: verbatim blocks, tabs, author entries over several lines) |
| C82 | header and blocks of documents as in C62, with empty lines in front of them and behind them | every reading rule of the specification of C47 and C62 is shown to bear more text behind (`WholeLines`) and empty lines in front; partial (witnesses: delimited block at the end, tab in front of the title) |
| C83 | header and blocks of documents as in C62, with comment lines in the header, in front of the document, and within paragraphs | comment lines are put behind lines that stand in paragraphs only (`Remarked`); every layout rule of the specification of C62 is shown to bear that, by mutual induction; the header by its lines other than comments (`HLine.telling`); partial (witnesses: comments between blocks, in front of headings and delimiters, comment blocks) |
| C84 | documents as in C62, continued behind an empty line by blocks or sections written by the same rules | the readings of the header and of the lines bear more text behind (as for C82), and the layouts and outlines are put together (`layout_append`, `flat_append`); then C62 for the longer text |
| C85 | documents as in C62, with any number of empty lines at a place between blocks | as C84, for the two parts of the document with any lines of `EmptyLines` between them; for all places at once by induction on the layout (`Spread`) |
| C86 | documents as in C62 with blocks only, and the same blocks between the delimiter lines of a container | C62 for both texts: the layout of the longer one is that of a container around the layout of the other; the delimiter is shown to be no line of a header |
| C87 | documents as in C62, and the same with other delimiters (`Redelimits`) | induction on the layout: every rule of the specification of C62 bears the replacement; partial (witness: a delimiter behind a comment line is text) |
| C58 | `Block::parse` | forms of lines, disjoint and complete; invariant `Made`; partial (witnesses) |

## Where the code does not have the property

Each is a theorem with a concrete witness; the property then stays in view as `…_partial`.

* C09 An API-only `doctitle` (also `author`, `email`, …) is overwritten by the header lines.
* C11 Lines of unresolved includes are not mapped; after an attribute entry with trailing blank lines the map is off.
* C12 With a primary file name, blank lines at the end of an entry and trailing white space are lost, and these are the only ways to lose anything (`C12_kept_iff`).
* C14 A file that includes itself: preprocessing never ends.
* C18 The 27th appendix is `[`; numbers that are no characters all show as `?`.
* C19 The appendix counter is not reset: the second parse of the same text starts with appendix B.
* C26 A discrete heading, which begins no section, ends the preamble like the heading of a section (`C26_discrete_ends_preamble`). The property holds with “section” for both, which is what the theorem says.
* C21 `parse` loops for ever on short texts: blank lines after a delimiter at the end, a white line that is not blank,
  `[[a]]` with nothing behind it, and others (the loop sees "no block, not at the end" and makes no progress).
* C22 An indented line with marks inside a section panics (overflow checks) or is reported as a skipped level.
* C23 Trailing white space of a verbatim block's child span is outside the parent's span.
* C25 Level nesting is broken through delimited blocks and for styles written with attribute references.
* C31 Placeholder characters in the source make restoration recurse for ever or corrupt the text.
* C31 Passthroughs within a passthrough that is itself substituted are numbered from zero again: in ``[x-]+a +++b+++ [x-]`c` d+`` the `b` is lost and `c` shown twice (`C31_numbers_clash`).
* C32 After a skip the position of the last match is stale: text is lost, or the slice panics.  `Spec.Backquoted` describes exactly
  what is lost and when it panics, for every text; it also panics when a passage in front of a quote stands behind a character of
  several bytes (`C32_panics_wide`).
* C37 A step can occur twice in a group.
* C42 The hardbreaks option loses a final newline and carriage returns.
* C44 `rel` lacks `noopener` or is missing when a link is not to be followed and opens in a window.
* C45 Roles, ids, widths, targets and so on are not escaped.
* C46 `link:` with short targets, images with empty targets and SVG options panic in several combinations.
* C49 A header entry relaxes a header-only attribute so that the body may change it.
* C50 `x/..//b` resolves to the rooted path `/b`.
* C55 Paragraphs report the group Normal whatever `subs` says; an unterminated raw block gets no substitutions.
* C57 Breaks do not register ids; a section registers the attribute list's id but reports the anchor's; `Block::id` of a
  section forgets its generated id.
* C58 `audio::` is never recognised (`video::` is tested twice); an entry behind a blank line is sometimes no entry.
* C59 Two dashes behind a word character become a dash whatever follows them (`\b{start-half}` looks back at the dashes).
* C60 A section of level 1 in a delimited block ends the appendix around it: its further sections are normal ones.
* C61 A section title is substituted after the body of the section was read: attribute entries in the body change it.
* C70 Icons are shown as images when the attribute `icons` is unset by an entry: only its presence is asked for.
* C71 An attribute defined under a name with capital letters cannot be referred to by this name.
* C72 Attributes, title and authors of a document are still there when the same parser parses the next document; restrictions lifted by a header stay lifted.
* C74 The rendered text of a verbatim block depends on the line ends of the file. An `author` entry over several lines gives a `firstname` with the backslash and the line end in it.
* C75 Attributes in front of a passthrough are not escaped: `[."><b>]+x+` writes a `<b>`. Revision number, date and remark, the address of an author, and an author name with `<` but no `>` become values of attributes unescaped, and references bring them into the text.
* C76 The id generated for a title shows the name of a tag when a character such as a bracket stands right in front of the markup: `== A (*b*)` has the id `_a_strongb`. Of a section and a section in it with one title the inner one has the id, the outer one the number; the number is always behind a `-`, whatever `idseparator` is.
* C78 In a section, the delimiter of an example block with seven or more `=` gets the warning that the level of a heading exceeds the maximum, although the block is parsed; headings of level 0 and of levels above 5 are reported twice there. The warning that a level was skipped points to the metadata in front of the heading, and a first heading of level 2 or more is not reported. The warning that a block is missing points to all the text behind the metadata. The warnings about the macros of media blocks never reach the document: `image::x` is silently a paragraph.
* C81 Spaces at the ends of the lines of a verbatim block are in its rendered text. A tab behind `----` makes the line a paragraph, and the line that should close the block opens one. An `author` entry over several lines keeps the spaces behind the backslash in `firstname`.
* C82 One empty line behind a delimited block at the end of a document makes `parse` loop for ever. Behind a line with a tab the title of the document is not found, behind other empty lines it is.
* C83 A comment line that stands alone between two blocks leaves an empty paragraph behind. A heading right behind a comment line becomes the text of a paragraph, and so does the delimiter of a block. A comment block is a block of the document, with the comment as its text.
* C85 A line with a tab between two blocks is not skipped: it becomes an empty line at the end of the paragraph in front of it, or at the beginning of the paragraph behind a delimited block.
* C87 A delimiter right behind a comment line at the beginning of a paragraph is text (the same defect as in C83), so that its length shows in the document.

## What is modelled and what is not

Modelled, function by function: `span/*` , `strings.rs`, `document/*` (attribute, author, author_line, revision_line, header,
catalog, document), `attributes/*`, `blocks/*`, `content/*` (content, passthroughs, substitution_group,
substitution_step, macros), `parser/*` (attribute_value, built_in_attrs, parser, path_resolver, preprocessor, source_map,
the HTML inline renderer), `warnings.rs` (the kinds of warnings).

Not modelled: `Debug`/`Display`/`Hash` implementations beyond C39, lifetimes, `self_cell` and memory sharing, the derived
`Clone`/`Eq` on block types, the test modules, the tool in `/repo/sdd`.

Simplifications, each repeated at its definition:

* counters in `i32`/`u32`/`usize` do not overflow (unless a property is about that);
* a renderer appends to its destination and looks at nothing else there;
* an include handler is a function (same question, same answer);
* the name of the platform's path separator is a parameter; `Path::file_stem` is that of Unix.

## Trusted base

* Lean's kernel and the axioms `propext`, `Classical.choice`, `Quot.sound` (of which the theorems use a subset; audited
  by `vcheck`). No axioms are added; no `sorry`, `native_decide` or `bv_decide`.
* The reading of the Rust source into the model (comments cite file and lines). As a test of that reading (not a proof),
  `tools/conformance/run.py` reads the unit tests of the crate as text, replaces the calls of the crate by evaluations of
  the model and compares with the values the authors wrote down: of the 4556 assertions it finds 4368 hold of the model,
  none fails, and 188 are skipped (`Debug` output, `Default` of types, closures, a custom renderer, the warnings of media
  macros that are not used). Nothing in the proofs depends on it.
* The `regex` crate: leftmost-first matching is modelled by a backtracking matcher on a syntax tree (`Model/Regex`);
  Unicode classes are parameters. The syntax trees are not a matter of trust: `tools/patterns.py` copies the 47 patterns of
  the crate verbatim into `Model/PatternTexts` (and `--check` compares them with `/repo`), `Model/Pattern` reads the notation
  of the crate (classes, groups, repetitions, assertions, flags `x`, `s`, `m`, hexadecimal escapes), and `Props/Pattern`
  proves for each of them that the expression read matches exactly like the expression of the model. What is trusted there is
  the reader of the notation and the copying.
* The Unicode tables: a type class `Uni`; where a theorem needs more it assumes `LawfulUni` (agreement with ASCII on ASCII,
  white space is neither letter nor number, no decimal digits from 128 to 159), which `asciiUni` meets (`asciiUni_lawful`). White space itself is listed in full.
* The standard library and the crate `percent_encoding`, from their documentation: `str` methods, `binary_search_by`,
  `utf8_percent_encode`, UTF-8 encoding (Lean's).
