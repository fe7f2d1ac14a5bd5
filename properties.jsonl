{"id": "C01", "title": "Span positions are faithful", "statement": "Every Span the parser hands out is a contiguous piece of the preprocessed document: byte_offset() is where data() starts, line() is one more than the number of newlines before it and col() is one more than the number of characters since the last newline, no matter through how many splitting, trimming and slicing steps the span was obtained.", "quantifier": "every document (any Unicode text) and every finite chain of span operations starting from the whole document", "why_tests_cant": "Offsets/lines/columns are computed incrementally relative to a parent span; the claim is about every chain of operations over every text, including multi-byte characters and CRLF.", "anchors": ["parser/src/span/slice.rs: slice_internal", "parser/src/span/mod.rs: Span::new", "parser/src/span/split.rs: into_parse_result"]}
{"id": "C02", "title": "Line splitting is lossless and makes progress", "statement": "Taking a line from a span returns a line without newline, a remainder that is a suffix of the span, and line ++ terminator ++ remainder is the span, where the terminator is LF, CRLF, or - only at the end of the text - nothing or a lone CR; the remainder is strictly shorter whenever the span is non-empty, so reading lines until the end visits every character exactly once.", "quantifier": "every span", "why_tests_cant": "The statement ranges over all texts; lost or duplicated characters only show for particular mixes of CR, LF and trailing spaces.", "anchors": ["parser/src/span/line.rs: take_line, take_normalized_line, take_non_empty_line, discard_empty_lines", "parser/src/span/matched_item.rs"]}
{"id": "C03", "title": "Cutting a span at a remainder returns exactly the consumed text", "statement": "When a sub-parser consumes a prefix of a span and reports the rest, the reported source span is exactly the consumed prefix (same start position, data ++ rest = original); for any other pair of spans the result is still a prefix of the original and nothing panics when the cut is on a character boundary.", "quantifier": "every span and every suffix (and, for the prefix part, every pair of spans of one document)", "why_tests_cant": "It is used for the source of every block; a one-byte error appears only for particular layouts.", "anchors": ["parser/src/span/primitives.rs: trim_remainder"]}
{"id": "C04", "title": "Catalog ids are unique and stable", "statement": "A registration with an unused id adds exactly that entry; a registration with an id already in use is rejected and changes nothing. Hence over any history an id is bound to the first element registered with it and never changes or disappears, and len() counts distinct ids.", "quantifier": "every sequence of catalog operations", "why_tests_cant": "Universally quantified over histories of operations.", "anchors": ["parser/src/document/catalog.rs: register_ref, get_ref, contains_id, len"]}
{"id": "C05", "title": "Generated ids are fresh and minimal, and generation terminates", "statement": "generate_and_register_unique_id(base) returns base when unused; otherwise base-N with the least N >= 2 that is unused; it terminates for every catalog, and afterwards the returned id is registered and every earlier entry is untouched.", "quantifier": "every catalog and every base id", "why_tests_cant": "The search loop has no syntactic bound; freshness/minimality must hold against every catalog.", "anchors": ["parser/src/document/catalog.rs: generate_and_register_unique_id"]}
{"id": "C06", "title": "Reference text resolves to the first element that claimed it", "statement": "resolve_id(text) is Some(id) exactly when some successful registration carried that reference text, and id is then the id of the earliest such registration; it is always an id present in the catalog whose entry carries that text.", "quantifier": "every sequence of catalog operations", "why_tests_cant": "Universally quantified over histories; ties between elements with equal reftext occur only in long documents.", "anchors": ["parser/src/document/catalog.rs: register_ref, resolve_id"]}
{"id": "C07", "title": "Locked attributes cannot be changed by attribute entries", "statement": "An attribute whose context is ApiOnly keeps its value under every sequence of header and body attribute entries, ApiOrHeader is immune to body entries, ApiOrDocumentBody is immune to header entries; every rejected entry yields an AttributeValueIsLocked warning and accepted ones yield none.", "quantifier": "every parser state and every sequence of header/body attribute entries", "why_tests_cant": "A security-relevant policy over every document history.", "anchors": ["parser/src/parser/parser.rs: set_attribute_from_header, set_attribute_from_body"]}
{"id": "C08", "title": "Attribute lookups return the last accepted write", "statement": "attribute_value(name) reflects the most recent accepted write (API, header or body) to that name, names being case-insensitive on write and the alias hardbreaks meaning hardbreaks-option, with a bare set taking the built-in default when there is one; names never written keep the built-in value.", "quantifier": "every sequence of writes and every name", "why_tests_cant": "Refinement of the whole store to a map over all histories.", "anchors": ["parser/src/parser/parser.rs: attribute_value, with_intrinsic_attribute, remap_attr_name"]}
{"id": "C09", "title": "API-only attributes are protected from the implicit header lines too", "statement": "An attribute set through the API with ApiOnly keeps its value through parsing any document, including the doctitle/author/revision values derived from the header.", "quantifier": "every parser configuration and document", "why_tests_cant": "Universal over documents; the implicit-header writes bypass the permission check (finding).", "anchors": ["parser/src/parser/parser.rs: set_attribute_by_value_from_header", "parser/src/document/header.rs: Header::parse", "parser/src/document/author_line.rs"]}
{"id": "C10", "title": "Source-map lookup is the floor lookup", "statement": "The source map produced by preprocessing has strictly increasing keys, and original_file_and_line(n) returns the entry with the greatest key <= n shifted by the distance, or (no file, n) when no entry is at or before n.", "quantifier": "every document, include handler and line number", "why_tests_cant": "Needs the key-order invariant over every preprocessing run plus correctness of binary search for every vector length.", "anchors": ["parser/src/parser/source_map.rs", "parser/src/parser/preprocessor.rs: process_adoc_include"]}
{"id": "C11", "title": "Every preprocessed line maps back to its origin", "statement": "For every line of the preprocessed text, original_file_and_line gives the file and line it was copied from.", "quantifier": "every document tree (files including files)", "why_tests_cant": "Depends on every interleaving of includes, attribute entries and text over arbitrary nesting; false for unresolved includes (finding).", "anchors": ["parser/src/parser/preprocessor.rs: process_adoc_include", "parser/src/parser/source_map.rs"]}
{"id": "C12", "title": "Preprocessing text without directives preserves it", "statement": "With no directive in the text, preprocessing outputs the same sequence of lines (exactly the same text when no primary file name is set).", "quantifier": "every text without include lines", "why_tests_cant": "Universal over texts; line-ending and trailing-newline corner cases.", "anchors": ["parser/src/parser/preprocessor.rs: preprocess, process_adoc_include"]}
{"id": "C13", "title": "Include expansion is textual substitution", "statement": "The preprocessed text is the root file with each resolvable include line replaced by the (recursively processed) text of its target and each unresolvable one by exactly one 'Unresolved directive' line, all other lines kept in order.", "quantifier": "every finite include tree and handler", "why_tests_cant": "Recursive structure of unbounded depth.", "anchors": ["parser/src/parser/preprocessor.rs: process_adoc_include"]}
{"id": "C14", "title": "Preprocessing terminates", "statement": "parse() returns for every include handler, in particular with cyclic includes.", "quantifier": "every handler and document", "why_tests_cant": "Cyclic includes are histories of unbounded length; false because include depth is tracked but never checked (finding).", "anchors": ["parser/src/parser/preprocessor.rs: include_depth"]}
{"id": "C15", "title": "Web paths are clean and cannot climb above the root", "statement": "The path returned by web_path has no '.' segment, '..' only as a leading run, none at all when the path is rooted, and contains no raw space.", "quantifier": "every target and start path", "why_tests_cant": "Security property over all strings.", "anchors": ["parser/src/parser/path_resolver.rs: web_path, partition_path, join_path"]}
{"id": "C16", "title": "Web path resolution is idempotent and absolute targets ignore the start path", "statement": "web_path(web_path(t)) = web_path(t); with a target starting with '/', the start path has no influence.", "quantifier": "every target/start string", "why_tests_cant": "Universal over strings.", "anchors": ["parser/src/parser/path_resolver.rs: web_path"]}
{"id": "C17", "title": "Section numbers are unique and in document order", "statement": "Along any sequence of numbered sections the assigned numbers are strictly increasing in lexicographic order (so no number is given twice), each has as many components as the section level, and a section one level below the previous one extends its number with .1. In a parsed document, exactly those sections are numbered that are no discrete headings and no deeper than sectnumlevels (3 by default) while sectnums is set.", "quantifier": "every sequence of section levels; every document", "why_tests_cant": "Histories of unbounded length.", "anchors": ["parser/src/blocks/section.rs: SectionNumber::assign_next_number", "parser/src/parser/parser.rs: assign_section_number"]}
{"id": "C18", "title": "Appendix numbers are displayed as letters", "statement": "The displayed number of an appendix begins with a letter and distinct appendices display distinctly.", "quantifier": "every section number reachable by numbering", "why_tests_cant": "The 27th appendix is outside tests; false beyond 26 (finding).", "anchors": ["parser/src/blocks/section.rs: Display for SectionNumber"]}
{"id": "C19", "title": "Each parse starts with fresh numbering", "statement": "Parsing a document with a parser that was used before numbers its sections and appendices as a fresh parser does.", "quantifier": "every previous history of the parser", "why_tests_cant": "Depends on the whole history of the object; false for appendices (finding).", "anchors": ["parser/src/parser/parser.rs: parse"]}
{"id": "C20", "title": "Generated section ids are well formed", "statement": "The id proposed for a title consists of the prefix followed by characters of the title's lowercase form that are word characters or the separator; it has no doubled separator, does not end with the separator, and does not begin with it when the prefix is empty.", "quantifier": "every title, prefix and separator", "why_tests_cant": "Universal over strings; the collapse loop has no static bound.", "anchors": ["parser/src/blocks/section.rs: generate_section_id"]}
{"id": "C21", "title": "Parsing terminates on every document", "statement": "parse() returns for every UTF-8 string ('Any UTF-8 string is a valid AsciiDoc document').", "quantifier": "every document", "why_tests_cant": "Non-termination cannot be established or excluded by tests; false (findings: a lone [[id]], [literal] followed by a blank line, a line of exotic white space, a delimited block or attribute entry at the end of the text followed by a blank line).", "anchors": ["parser/src/blocks/parse_utils.rs: parse_blocks_until", "parser/src/blocks/block.rs: Block::parse", "parser/src/blocks/simple.rs: parse_lines"]}
{"id": "C22", "title": "Recognising section headings never fails", "statement": "Deciding whether a line inside a section begins a peer or ancestor section never panics and a line that is not a heading has no effect on warnings or nesting.", "quantifier": "every text inside a section", "why_tests_cant": "Universal over texts; false for an indented line inside a section (arithmetic underflow, finding).", "anchors": ["parser/src/blocks/section.rs: parse_title_line, peer_or_ancestor_section"]}
{"id": "C23", "title": "Blocks appear in document order and do not overlap", "statement": "The spans of the blocks of a parsed document (recursively) are in increasing order, pairwise disjoint, and each nested block lies inside its parent.", "quantifier": "every document for which parsing returns", "why_tests_cant": "Recursive structure over all documents.", "anchors": ["parser/src/blocks/parse_utils.rs", "parser/src/blocks/block.rs", "parser/src/blocks/section.rs", "parser/src/blocks/compound_delimited.rs"]}
{"id": "C24", "title": "Raw delimited blocks are closed by the first identical line and are verbatim", "statement": "The content of a ----, ...., ++++ or //// block is exactly the text between the opening line and the first later line equal to it (after trimming trailing spaces), or to the end of the enclosing text with an Unterminated warning; nothing inside is interpreted as block syntax.", "quantifier": "every text beginning with a delimiter", "why_tests_cant": "Universal over contents, including nested and longer delimiters.", "anchors": ["parser/src/blocks/raw_delimited.rs: parse, is_valid_delimiter"]}
{"id": "C25", "title": "Sections nest by level", "statement": "Every section has a level between 1 and 5 and every section directly or indirectly inside a section has a strictly greater level (discrete headings excepted, which own no blocks).", "quantifier": "every document for which parsing returns", "why_tests_cant": "Recursive structure over all documents.", "anchors": ["parser/src/blocks/section.rs: SectionBlock::parse, peer_or_ancestor_section"]}
{"id": "C26", "title": "The preamble collects exactly the blocks before the first section", "statement": "When a section exists and a content block precedes it, the blocks before the first section become one Preamble block in order followed by the rest; otherwise the block list is unchanged. Flattening the preamble restores the original sequence.", "quantifier": "every block sequence", "why_tests_cant": "Universal over block sequences.", "anchors": ["parser/src/document/document.rs: Document::parse", "parser/src/blocks/preamble.rs"]}
{"id": "C27", "title": "Block metadata is order independent and bounded", "statement": "Title, anchor and attribute list lines before a block are recognised in any order, each at most once, and reading them consumes at most three lines and always terminates.", "quantifier": "every text", "why_tests_cant": "Universal over texts and permutations.", "anchors": ["parser/src/blocks/metadata.rs: BlockMetadata::parse"]}
{"id": "C28", "title": "Duplicate ids are reported and do not disturb the catalog", "statement": "For any sequence of blocks with ids, the catalog ends up with the first occurrence of each id and exactly one DuplicateId warning is issued per later occurrence.", "quantifier": "every sequence of block ids", "why_tests_cant": "Histories of unbounded length.", "anchors": ["parser/src/blocks/block.rs: register_block_id", "parser/src/blocks/section.rs: SectionBlock::parse"]}
{"id": "C29", "title": "Special characters are neutralised reversibly", "statement": "After the special-characters step the text contains no '<' or '>' and every '&' starts &lt; &gt; or &amp;; decoding these entities gives back the original text; text without <, >, & is unchanged.", "quantifier": "every text", "why_tests_cant": "Injection safety for all inputs.", "anchors": ["parser/src/content/substitution_step.rs: apply_special_characters", "parser/src/parser/inline_substitution_renderer.rs: render_special_character"]}
{"id": "C30", "title": "Attribute references expand once", "statement": "{name} is replaced by the attribute's value exactly once (values are not rescanned), references to unknown attributes and escaped references are left as text (the escaped one without its backslash), and all other text is unchanged.", "quantifier": "every text and attribute store", "why_tests_cant": "Universal over texts and stores (values may contain braces).", "anchors": ["parser/src/content/substitution_step.rs: apply_attributes, AttributeReplacer"]}
{"id": "C31", "title": "Passthrough text survives substitution", "statement": "Text protected by a passthrough is restored exactly where it was, unaffected by the substitutions in between.", "quantifier": "every text with passthroughs and every substitution that keeps the placeholders", "why_tests_cant": "Universal over texts; false if the text itself contains placeholder characters (finding: infinite recursion).", "anchors": ["parser/src/content/passthroughs.rs: extract_from, restore_to"]}
{"id": "C32", "title": "Look-ahead replacement keeps unmatched text", "statement": "Replacing matches with look-ahead keeps all text outside matches in order and never panics.", "quantifier": "every text, matcher and replacer", "why_tests_cant": "Universal over match sequences; false (finding: stale last_match after a skip).", "anchors": ["parser/src/internal/regex.rs: replace_with_lookahead"]}
{"id": "C33", "title": "Attribute lists are parsed to the end without getting stuck", "statement": "Parsing an attribute list terminates for every text, each step consumes text, and each recorded element comes from its own comma-separated region in order.", "quantifier": "every attribute list text", "why_tests_cant": "Loop progress over all texts.", "anchors": ["parser/src/attributes/attrlist.rs: Attrlist::parse", "parser/src/attributes/element_attribute.rs: ElementAttribute::parse"]}
{"id": "C34", "title": "Attribute-list lookups are consistent", "statement": "named_attribute returns the first attribute with that name, nth_attribute counts unnamed attributes from 1, named_or_positional prefers the name, and has_option/roles/options/id agree with the underlying attributes.", "quantifier": "every attribute list", "why_tests_cant": "Universal over lists.", "anchors": ["parser/src/attributes/attrlist.rs"]}
{"id": "C35", "title": "Shorthand decomposition is exact", "statement": "The first positional value splits at '#', '.', '%' into style, ids, roles and options such that composing a shorthand string from its parts and parsing it gives back the parts.", "quantifier": "every shorthand string / every list of parts without delimiters", "why_tests_cant": "Round-trip over all strings.", "anchors": ["parser/src/attributes/element_attribute.rs: parse_shorthand_items, shorthand_items"]}
{"id": "C36", "title": "Quoted strings are delimited correctly", "statement": "take_quoted_string returns the text up to the first unescaped matching quote and the text after it, and fails exactly when there is none.", "quantifier": "every text", "why_tests_cant": "Universal over texts with escapes.", "anchors": ["parser/src/span/primitives.rs: take_quoted_string"]}
{"id": "C37", "title": "Custom substitution specs denote an ordered set of steps", "statement": "A subs value yields a list in which each step occurs at most once and in request order, +/- modifiers add or remove exactly the named steps, and a spec with an unknown name is handled uniformly.", "quantifier": "every subs string and base group", "why_tests_cant": "Universal over strings and sequences of modifiers.", "anchors": ["parser/src/content/substitution_group.rs: from_custom_string"]}
{"id": "C38", "title": "URI component encoding is safe and reversible", "statement": "encode_uri_component produces only unreserved characters and %XX escapes (and '+' for space where applicable) and distinct inputs give distinct outputs.", "quantifier": "every text", "why_tests_cant": "Universal over byte strings.", "anchors": ["parser/src/content/macros.rs: encode_uri_component"]}
{"id": "C39", "title": "String representations are interchangeable", "statement": "A CowStr means the same text whether boxed, borrowed or inlined; clone, eq and hash depend only on that text; an InlineStr stores exactly the text it was built from and construction fails exactly when it exceeds 22 bytes.", "quantifier": "every text", "why_tests_cant": "Universal over texts and representations; boundary at the inline capacity.", "anchors": ["parser/src/strings.rs: CowStr, InlineStr"]}
{"id": "C40", "title": "Author data is consistent", "statement": "initials() has at most three characters, being the first characters of first, middle and last name; a middle name is only present together with a last name; the n-th author defines exactly the attributes with suffix _n.", "quantifier": "every author line", "why_tests_cant": "Universal over texts.", "anchors": ["parser/src/document/author.rs", "parser/src/document/author_line.rs"]}
{"id": "C41", "title": "Revision lines split at the first comma and colon", "statement": "Number, date and remark of a revision line are the trimmed pieces of the line around the first ':' and the first ',' before it; the number has its non-numeric prefix removed.", "quantifier": "every line", "why_tests_cant": "Universal over texts.", "anchors": ["parser/src/document/revision_line.rs: RevisionLine::parse"]}
{"id": "C42", "title": "Hard line breaks are added exactly where requested", "statement": "With the hardbreaks option every line but the last ends with a break; otherwise exactly the lines ending in ' +' do; text is otherwise unchanged.", "quantifier": "every text", "why_tests_cant": "Universal over texts.", "anchors": ["parser/src/content/substitution_step.rs: apply_post_replacements"]}
{"id": "C43", "title": "Paragraph content is the source minus comments and indentation", "statement": "The unsubstituted content of a paragraph is its source lines in order without comment lines, with trailing white space and at most the first line's indentation removed; it ends at a blank line, '+', an attribute line or a block delimiter.", "quantifier": "every paragraph text", "why_tests_cant": "Universal over texts.", "anchors": ["parser/src/blocks/simple.rs: parse_lines"]}
{"id": "C44", "title": "Link relationship attributes are well formed", "statement": "The rel attribute of a link is one well-formed attribute containing noopener for _blank targets and nofollow when requested.", "quantifier": "every combination of window and options", "why_tests_cant": "Combination space over open strings; false (finding: rel=\"nofollow\" noopener).", "anchors": ["parser/src/parser/inline_substitution_renderer.rs: link_constraint_attrs"]}
{"id": "C45", "title": "Attribute values are escaped in HTML output", "statement": "Text supplied for a role, id, or alt cannot break out of the HTML attribute it is rendered into.", "quantifier": "every value", "why_tests_cant": "Injection safety over all strings; false for roles/ids (finding), true for alt/title values passing through encode_attribute_value.", "anchors": ["parser/src/parser/inline_substitution_renderer.rs: wrap_body_in_html_tag, encode_attribute_value, render_icon_or_image"]}
{"id": "C46", "title": "Inline macros never panic", "statement": "Substituting macros in any text returns normally.", "quantifier": "every text", "why_tests_cant": "Universal over texts; false (finding: image:[x], link:x[y], https://example.org>).", "anchors": ["parser/src/content/macros.rs"]}
{"id": "C47", "title": "Header parsing makes progress and classifies lines in order", "statement": "Header parsing terminates for every text, consumes a prefix consisting of blank, comment, attribute, title, author and revision lines in that discipline, and there is at most one title, author line and revision line.", "quantifier": "every document", "why_tests_cant": "Universal over texts.", "anchors": ["parser/src/document/header.rs: Header::parse"]}
{"id": "C48", "title": "Attribute names and XML names are recognised exactly", "statement": "The name scanners return the maximal prefix of allowed characters and fail exactly when the first character is not allowed.", "quantifier": "every text", "why_tests_cant": "Universal over texts.", "anchors": ["parser/src/span/primitives.rs: take_ident, take_attr_name, take_user_attr_name, is_xml_name"]}
{"id": "C49", "title": "Header-restricted attributes stay fixed in the body", "statement": "An attribute that may be modified only through the API or in the document header keeps, throughout the body, the value it had at the end of the header; entries in the body about it are refused with a warning.", "quantifier": "every parser configuration, every sequence of header entries followed by any sequence of body entries", "why_tests_cant": "Universal over histories; the lock is a state that a previous entry may relax (finding).", "anchors": ["parser/src/parser/parser.rs: set_attribute_from_header, set_attribute_from_body", "parser/src/parser/attribute_value.rs: ModificationContext"]}
{"id": "C50", "title": "A relative web path stays relative", "statement": "Resolving a relative target without a start path never produces a rooted path, so a relative reference cannot turn into one against the site root (finding: it does when an empty segment follows a cancelled one, e.g. x/..//b gives /b).", "quantifier": "every target and separator", "why_tests_cant": "Universal over segment sequences; the failing shape needs a doubled slash after a cancelled segment.", "anchors": ["parser/src/parser/path_resolver.rs: PathResolver::web_path"]}
{"id": "C51", "title": "Attribute entries are recognised exactly", "statement": "An attribute entry is found at the start of a text exactly when the text has one of the forms :name:, :!name:, :name!: or :name: value (lines continued with a trailing backslash); the name, value, source extent and the remaining text are those the written form says, and continued lines are joined with a space or, behind ' +', with a line end.", "quantifier": "every text and header substitution", "why_tests_cant": "Universal over texts, continuation patterns and line endings.", "anchors": ["parser/src/document/attribute.rs: Attribute::parse, InterpretedValue::from_raw_value", "parser/src/span/line.rs: take_line_with_continuation"]}
{"id": "C52", "title": "Warnings point to the text they are about", "statement": "Every warning a parse returns carries a span that is a piece of the preprocessed text with the right byte offset, line and column.", "quantifier": "every document, parser state and renderer for which parsing returns", "why_tests_cant": "Universal over documents; warnings are produced at many places and moved out of nested parses.", "anchors": ["parser/src/warnings.rs: Warning", "parser/src/blocks/block.rs: Block::parse", "parser/src/document/document.rs: Document::parse"]}
{"id": "C53", "title": "Parsing does not panic", "statement": "parse() returns a document for every text; it neither panics nor loops ('Any UTF-8 string is a valid AsciiDoc document').", "quantifier": "every document, every attribute, catalog and section state of the parser, every renderer (the general theorems) or the HTML renderer (the concrete one), with and without overflow checks", "why_tests_cant": "Universal over documents and parser states; false (findings of C21, C22, C32 and C46), so the exact reasons for which it can fail have to be shown to be the only ones.", "anchors": ["parser/src/parser/parser.rs: Parser::parse", "parser/src/document/document.rs: Document::parse", "parser/src/blocks/parse_utils.rs: parse_blocks_until", "parser/src/content/substitution_group.rs: SubstitutionGroup::apply"]}
{"id": "C54", "title": "Blocks begin at the start of a line", "statement": "Every block of a parsed document, at any depth and with its title, anchor and attribute list, begins in column 1: the preprocessed text in front of it is empty or ends with a newline.", "quantifier": "every document, parser state, renderer and include handler for which parsing returns, and every block at any depth", "why_tests_cant": "Universal over documents and nesting; each parser function computes the rest of the text itself.", "anchors": ["parser/src/blocks/block.rs: Block::parse", "parser/src/blocks/parse_utils.rs: parse_blocks_until", "parser/src/blocks/metadata.rs: BlockMetadata::parse", "parser/src/span/mod.rs: Span::col"]}
{"id": "C55", "title": "The substitution group a block reports is the one its content went through", "statement": "For a block with rendered content, applying the substitution group the block reports to the block's source content gives the rendered content, under the document attributes in force there (findings: paragraphs always report Normal, even with the attribute subs or the style pass; a delimited block that is never closed reports its default group although nothing is applied).", "quantifier": "every document, parser state and renderer for which parsing returns, and every paragraph and delimited block at any depth", "why_tests_cant": "Universal over documents, attribute lists and histories of document attributes.", "anchors": ["parser/src/blocks/is_block.rs: IsBlock::substitution_group", "parser/src/blocks/raw_delimited.rs: RawDelimitedBlock::parse", "parser/src/blocks/simple.rs: SimpleBlock::parse"]}
{"id": "C56", "title": "The content model of a block determines what it has", "statement": "The context of every block is one that belongs to its content model; a block has rendered content exactly if its content model is simple, verbatim or raw; only blocks with the compound model have nested blocks; the resolved context is the declared style if that names a built-in context and the raw context otherwise; attribute entries and preambles have no title, anchor and attribute list.", "quantifier": "every document, parser state and renderer for which parsing returns, and every block at any depth", "why_tests_cant": "Universal over documents and all block kinds.", "anchors": ["parser/src/blocks/is_block.rs: IsBlock", "parser/src/blocks/block.rs: impl IsBlock for Block", "parser/src/blocks/context.rs: is_built_in_context", "parser/src/blocks/content_model.rs: ContentModel"]}
{"id": "C57", "title": "The id a block reports is in the catalog", "statement": "If a block of a document has an id, the catalog of the document has an entry for this id (findings: breaks never register their ids; a section with an anchor and a different id in its attribute list reports the first and registers the second; asked through the enum Block, a section does not report the id generated for it).", "quantifier": "every document, every parser state without a catalog of its own, every renderer, every block at any depth", "why_tests_cant": "Universal over documents; ids are computed at one place and registered at several others.", "anchors": ["parser/src/blocks/is_block.rs: IsBlock::id", "parser/src/blocks/block.rs: Block::register_block_id", "parser/src/blocks/section.rs: SectionBlock::id, SectionBlock::parse"]}
{"id": "C58", "title": "Every block is of the kind its first line calls for", "statement": "Behind its title, anchor and attribute list lines, every block is what its first line begins: four or more of / - . + a comment, listing, literal or passthrough block; -- or four or more of = * _ an open, example, sidebar or quote block; a block macro an image, video or audio block; two to six = or # and a space a section of that level with that title; one of the five rules or <<< a break; anything else, and everything with the style literal, a paragraph. A line of the form of an attribute entry is an attribute entry (findings: audio macros become paragraphs; an entry behind a blank line that follows another entry or a delimited block becomes a paragraph).", "quantifier": "every document, parser state and renderer for which parsing returns, and every block at any depth", "why_tests_cant": "Universal over lines, metadata and positions in the document.", "anchors": ["parser/src/blocks/block.rs: Block::parse", "parser/src/blocks/raw_delimited.rs: RawDelimitedBlock::parse", "parser/src/blocks/compound_delimited.rs: CompoundDelimitedBlock::parse", "parser/src/blocks/media.rs: MediaBlock::parse", "parser/src/blocks/break.rs: Break::parse", "parser/src/blocks/section.rs: SectionBlock::parse"]}
{"id": "C59", "title": "Typographic replacements", "statement": "(C), (R), (TM), two dashes between spaces or between word characters, ..., `', apostrophes inside words, the arrows -> => <- <= and character references are replaced, one kind after the other and each from left to right; a backslash in front of one of them protects it and is removed; all other text is kept; the step never fails (finding: two dashes behind a word character are replaced whatever follows them).", "quantifier": "every text and every renderer", "why_tests_cant": "Universal over texts: overlapping and escaped forms, forms that appear only after an earlier replacement, and the quick test that skips the step must all agree.", "anchors": ["parser/src/content/substitution_step.rs: apply_character_replacements, REPLACEMENTS, REPLACEABLE_TEXT_SNIFF, CharacterReplacer"]}
{"id": "C60", "title": "Types of sections", "statement": "A heading is a discrete one exactly if its style is discrete or float; a section of level 1 is an appendix exactly if its style is appendix; deeper sections have the type of the section of level 1 around them, or are normal sections if there is none (finding: false behind a delimited block that contains a section of level 1).", "quantifier": "every document and every parser history", "why_tests_cant": "The type of a section depends on state left behind by all sections and nested blocks before it.", "anchors": ["parser/src/blocks/section.rs: SectionBlock::parse", "parser/src/parser/parser.rs: topmost_section_type"]}
{"id": "C61", "title": "Blocks are rendered with the attributes at their place", "statement": "The content of a paragraph or delimited block, the value of an attribute entry, the attributes of a media block, block titles and attribute lists are computed with the attributes that the header and the attribute entries in front of the block (in document order, at any depth) have left; so are the titles of sections (finding: a section title is computed with the attributes at the end of the section, so entries in its body change it).", "quantifier": "every document, every block at every depth and every parser state", "why_tests_cant": "Universal over documents: entries may stand anywhere in front of a block, in nested and in closed blocks, and each block must see exactly those.", "anchors": ["parser/src/blocks/section.rs: SectionBlock::parse", "parser/src/blocks/block.rs: Block::parse", "parser/src/blocks/metadata.rs: BlockMetadata::parse", "parser/src/parser/parser.rs: set_attribute_from_body"]}
{"id": "C62", "title": "What is written is read", "statement": "A document written by the rules is parsed without warnings (but one for each first subsection that skips levels and for ids that are used already) and comes back as its author meant it: a title, paragraphs, delimited blocks with any lines in them, breaks, images and videos, quotes and sidebars with blocks in them, and sections with subsections, each in its place, at its level and with its text, and blocks and sections with the titles, attributes and anchors written above them. Headings and blocks in any order make exactly one outline.", "quantifier": "every outline (any number of blocks and sections, any nesting of quotes and sidebars, sections up to level 5), every text in them, and every configuration and state of the parser with the default kind of sections", "why_tests_cant": "Outlines are unbounded trees with arbitrary text in them, and a block may only be misread next to certain neighbours or at certain depths.", "anchors": ["parser/src/document/document.rs: Document::parse", "parser/src/blocks/block.rs: Block::parse", "parser/src/blocks/section.rs: SectionBlock::parse", "parser/src/blocks/compound_delimited.rs: CompoundDelimitedBlock::parse", "parser/src/blocks/raw_delimited.rs: RawDelimitedBlock::parse", "parser/src/blocks/simple.rs: SimpleBlock::parse"]}
{"id": "C63", "title": "Prose is left alone", "statement": "Text without any of the special characters, formatting marks and character sequences that the substitutions look for is rendered unchanged, whatever the substitutions, attributes and renderer; so paragraphs and titles of prose show just their text.", "quantifier": "every text that qualifies, every substitution group (but callouts), every set of attributes, every renderer, every document", "why_tests_cant": "No list of examples shows that no other text is ever touched by the many patterns of the substitutions.", "anchors": ["parser/src/content/substitution_group.rs: SubstitutionGroup::apply", "parser/src/content/substitution_step.rs: SubstitutionStep::apply", "parser/src/content/passthroughs.rs: Passthroughs"]}
{"id": "C64", "title": "Formatted text is what its marks say", "statement": "Text between formatting marks is rendered in the format of the marks: whole words between single marks, any passage between double marks or between ^ or ~. A passage goes up to the first mark that can close it, brackets in front of it are its attributes, a backslash in front of it keeps it as it is, and all text outside passages is kept.", "quantifier": "every text, every set of attributes, every renderer, all twelve formats", "why_tests_cant": "Texts, nesting of marks and positions of escapes, brackets and word boundaries are unbounded, and twelve formats are looked for in the output of each other.", "anchors": ["parser/src/content/substitution_step.rs: apply_quotes", "parser/src/content/substitution_step.rs: QuoteReplacer", "parser/src/content/substitution_step.rs: QUOTE_SUBS", "parser/src/internal/regex.rs: replace_with_lookahead"]}
{"id": "C65", "title": "Inline macros become what they say", "statement": "Images and icons, links with words, between angle brackets or bare, link and mail macros, e-mail addresses and anchors are rendered from exactly the parts written in the text: the target, the words (or the address, if there are none), the attributes, and a new window for a caret. Brackets close at the first bracket without a backslash, bare addresses do not take the punctuation that ends a sentence, a backslash in front keeps a macro as it is, and all text outside of macros is kept.", "quantifier": "every text, every set of attributes, every renderer, all seven kinds of macros, in any order and number", "why_tests_cant": "Texts are unbounded, the patterns overlap, and each kind of macro is looked for in what the kinds before it left; tests cannot show that nothing else in a text is ever touched, nor which of the readings of an ambiguous text is taken.", "anchors": ["parser/src/content/macros.rs: apply_macros", "parser/src/content/macros.rs: InlineImageMacroReplacer", "parser/src/content/macros.rs: InlineLinkReplacer", "parser/src/content/macros.rs: InlineLinkMacroReplacer", "parser/src/content/macros.rs: InlineEmailReplacer", "parser/src/content/macros.rs: InlineAnchorReplacer", "parser/src/content/macros.rs: basename"]}
{"id": "C66", "title": "Which pieces of a text are passthroughs", "statement": "The passthroughs of a text are exactly the pieces written +++x+++, ++x++, $$x$$, pass:subs[x], +x+, with attributes in front or not, and the old style with x-; each closes at the first place it can, a backslash keeps it as text, and single marks count only between words and not behind a backslash, colon or semicolon. They are numbered from the left to the right, first those of the longer forms. What the substituted text becomes is what the steps make of the text with the placeholders, each placeholder replaced by its own passthrough, substituted and rendered as its form says.", "quantifier": "every text, every group of substitutions, every set of attributes, every renderer, any nesting of passthroughs", "why_tests_cant": "Texts are unbounded, the forms overlap and one is looked for in what the other left, and the restoring is recursive; tests cannot show that nothing else is ever taken out, that no text makes the program fail, nor that there is one reading only.", "anchors": ["parser/src/content/passthroughs.rs: extract_from, restore_to", "parser/src/content/passthroughs.rs: InlinePassMacroReplacer, InlinePassReplacer, PassthroughRestoreReplacer", "parser/src/content/substitution_group.rs: apply"]}
{"id": "C67", "title": "What a substitution makes of a text, from end to end", "statement": "A substitution of a text comes to an end with exactly one text, which a closed description of the language determines: the passthroughs are taken out, each step of the group (special characters, formatting, attribute references, typography, macros, line breaks, in the group's order) changes exactly what its own description says, and the passthroughs are put back. The same description says exactly which texts make it panic; and it fails to return on exactly those texts of which the description says neither.", "quantifier": "every text, every group of substitutions, every attribute list, every set of attributes, every renderer", "why_tests_cant": "The steps work on each other's output and passthroughs are substituted recursively, so the outcomes of the steps on hand-picked texts say nothing about their composition on all texts, and no test can show that a substitution does not end.", "anchors": ["parser/src/content/substitution_group.rs: apply", "parser/src/content/substitution_step.rs: apply", "parser/src/content/passthroughs.rs: extract_from, restore_to", "parser/src/content/macros.rs: apply_macros"]}
{"id": "C68", "title": "Where the images and icons of a document are", "statement": "The source of a rendered image is its target itself, with spaces escaped, when that is an address with a scheme; otherwise it is the target under the directory in imagesdir, resolved as a web path. Icons are images of the type in icontype (png if it has no value) under iconsdir. An image linked to itself links to exactly its source.", "quantifier": "every target, every set of attributes, both path separators, every attribute list of the image", "why_tests_cant": "Targets and directories are unbounded texts in which dots, slashes, colons and spaces can occur in any combination, and the schemes, the joining and the resolving interact.", "anchors": ["parser/src/parser/inline_substitution_renderer.rs: image_uri, icon_uri, normalize_web_path, is_uri_ish, encode_spaces_in_uri, render_image, render_icon_or_image", "parser/src/parser/path_resolver.rs: web_path, extract_uri_prefix, partition_path"]}
{"id": "C69", "title": "Refused attribute entries are reported, and only those", "statement": "Parsing a document reports an attribute as locked exactly once for every attribute entry, in the header or among the blocks, that may not change its attribute at that point, in document order, pointing at the entry; nothing else is reported as locked. In particular, for an attribute that lines of the header do not define by themselves: an attribute that only the program may change keeps its value and every entry about it is reported; one that may be changed from the program and the body has exactly its header entries reported; one that may be changed from the program and the header has exactly its body entries reported if the header has no entry about it and nothing otherwise; and nothing is reported about an attribute that is unknown or may be changed anywhere.", "quantifier": "every document, every configuration, every set of attributes and protections before the parse, every attribute name", "why_tests_cant": "Whether an entry is refused depends on the whole history of requests before it, in the header, in sections and in nested blocks, for every combination of attribute names and protections.", "anchors": ["parser/src/parser/parser.rs: set_attribute_from_header, set_attribute_from_body, set_attribute_by_value_from_header", "parser/src/document/header.rs: parse", "parser/src/blocks/block.rs: parse_internal", "parser/src/document/document.rs: parse"]}
{"id": "C70", "title": "What is shown for images, icons and links", "statement": "An icon is shown the way the attribute icons asks for: as a character of the icon font with its size, flip or rotation if the value is font; as an image if icons is set otherwise; as its alternative text in brackets if icons is not set. Images, icons and links are written as exactly the elements, classes, sources, sizes, titles, ids and windows their attribute lists give, in a fixed order.", "quantifier": "every target, every attribute list, every set of attributes", "why_tests_cant": "The attributes of a list combine freely (size, flip, rotate, width, height, title, link, float, roles, options, window), and the style depends on whether an attribute is unknown, unset, set or has a value.", "anchors": ["parser/src/parser/inline_substitution_renderer.rs: render_image, render_icon, render_link, render_icon_or_image, link_constraint_attrs", "parser/src/parser/parser.rs: has_attribute"]}
{"id": "C71", "title": "An attribute can be used under the name it was defined with", "statement": "Once an attribute entry with a value is accepted, a reference with the name as it stands in the entry is replaced by the value, in every text that follows.", "quantifier": "every name, every value, every history of requests before the entry, every text around the reference", "why_tests_cant": "Names, values, histories and texts are unbounded. The claim is false for names with capital letters (finding), and that such names are lost in every history is a statement about all histories.", "anchors": ["parser/src/parser/parser.rs: attribute_value, has_attribute, with_intrinsic_attribute, set_attribute_from_header, set_attribute_from_body", "parser/src/content/substitution_step.rs: AttributeReplacer"]}
{"id": "C72", "title": "One document does not influence the next", "statement": "A document comes out the same whether it is parsed by a new parser or by one that has already parsed other documents.", "quantifier": "every configuration, every initial set of attributes, every sequence of documents parsed before, every text", "why_tests_cant": "Histories of parses are unbounded, and so are the documents in them. The claim is false for documents that define attributes, have a title, authors or a revision (finding); that nothing else is carried over is a statement about all histories.", "anchors": ["parser/src/parser/parser.rs: Parser::parse, Parser", "parser/src/document/document.rs: Document::parse"]}
{"id": "C73", "title": "The attributes every parser knows from the start", "statement": "A new parser knows exactly twelve attributes, with fixed values (empty, sp, deg and plus for characters; toc and sectnumlevels for the header; sectids, sectnums, idprefix, idseparator, example-caption and iconsdir). A reference to one of the four character attributes is replaced by its character in every text after any documents, whatever they try to define, unless the program redefines it. toc and sectnumlevels keep their values in documents whose headers do not mention them. Every other attribute can be changed by entries anywhere. An accepted entry without a value makes toc stand for auto, sectnums for all, example-caption for Example, iconsdir for ./images/icons, and any other attribute for a set one without value.", "quantifier": "every attribute name, every sequence of documents, every set of attributes the program defines besides, every text around a reference", "why_tests_cant": "Attribute names, documents and histories of documents are unbounded; a test reads a few names after a few documents.", "anchors": ["parser/src/parser/built_in_attrs.rs: built_in_attrs, built_in_default_values", "parser/src/parser/parser.rs: Parser::default, attribute_value, has_attribute, is_attribute_set, set_attribute_from_header, set_attribute_from_body"]}
{"id": "C74", "title": "Line ends do not matter", "statement": "Whether the lines of a document end in a line feed or in a carriage return and a line feed, in any mixture, makes no difference to what is parsed: the same title, authors, revision and attributes in the header, and the same sections and blocks with the same text.", "quantifier": "every document and every choice of line ends for each of its lines", "why_tests_cant": "Documents have any number of lines of any kind, and each line end can be chosen independently; tests use a few fixed texts, nearly all with line feeds.", "anchors": ["parser/src/span/line.rs: take_line, take_normalized_line, take_line_with_continuation", "parser/src/document/document.rs: Document::parse", "parser/src/document/header.rs: Header::parse", "parser/src/document/attribute.rs: InterpretedValue::from_raw_value", "parser/src/blocks/raw_delimited.rs: RawDelimitedBlock::parse"]}
{"id": "C75", "title": "The text of a document cannot write tags", "statement": "The special characters < and > in the text of a document are replaced before anything else happens to the text, so what is rendered contains a < or > only where the renderer writes it, the author asks for it (a passthrough without substitutions, a group that leaves them out), or the value of an attribute set by the program contains it. No other substitution brings one out, whatever the text, its passthroughs, attribute references and macros are.", "quantifier": "every document, every text and every group of substitutions, every set of attributes, every renderer that does not use < and > itself", "why_tests_cant": "Whether some combination of quotes, references, macros, nested passthroughs and header lines lets a < through is a question about all texts; tests try a few.", "anchors": ["parser/src/content/substitution_group.rs: SubstitutionGroup::apply", "parser/src/content/substitution_step.rs: SubstitutionStep::apply", "parser/src/content/passthroughs.rs: Passthroughs::extract_from, restore_to", "parser/src/document/author.rs: Author::parse", "parser/src/document/revision_line.rs: RevisionLine::parse"]}
{"id": "C76", "title": "Which id a section gets from its title", "statement": "A section without an id of its own gets one from its rendered title if `sectids` is set at its heading, and none otherwise. The id is the value of `idprefix` and then the title in lower case, without tags, escaped tags, character references and characters other than letters, digits and underscores, with spaces, full stops and hyphens as single separators (the first character of `idseparator`), none at the end and, without a prefix, none at the beginning. If a block in front of the section or in it has this id, the first free one of the id with -2, -3, ... is taken. The markup of a title does not show in its id.", "quantifier": "every title, prefix and separator; every document, configuration and state of the parser, every section wherever it is nested", "why_tests_cant": "Titles are arbitrary texts through all substitutions, and which id is free depends on every block in front of the section and in it; links from other documents rely on the exact id.", "anchors": ["parser/src/blocks/section.rs: SectionBlock::parse, generate_section_id", "parser/src/document/catalog.rs: Catalog::generate_and_register_unique_id, Catalog::register_ref"]}
{"id": "C77", "title": "Unterminated blocks are reported, once, and nothing else is called unterminated", "statement": "The warnings of a document about unterminated delimited blocks correspond, one to one and in document order, to its delimited blocks which are not closed: blocks which begin, behind their metadata, with a delimiter line that occurs on no later line of the block. The warning shows the opening delimiter and has its line. There is none exactly when every delimited block of the document is closed.", "quantifier": "every document, configuration and state of the parser; every delimited block wherever it is nested, with any metadata, line ends and white space behind it", "why_tests_cant": "Blocks are nested without bound, a block ends with the block around it, the text of a block is trimmed in several ways, and the warnings of nested blocks are collected through all levels; a test sees one arrangement of delimiters.", "anchors": ["parser/src/blocks/raw_delimited.rs: RawDelimitedBlock::parse", "parser/src/blocks/compound_delimited.rs: CompoundDelimitedBlock::parse", "parser/src/warnings.rs: WarningType::UnterminatedDelimitedBlock", "parser/src/document/document.rs: Document::warnings"]}
{"id": "C78", "title": "A warning about blocks is right about the text to which it points", "statement": "A warning that a heading of level 0 is not supported, or that a level exceeds the maximum, points to a line with that many marks; a warning that a level was skipped names two levels with one between them and points to the heading or to its metadata; a warning that a block is missing points to metadata with a title or an attribute list and no text behind them; a warning about an unterminated block points to a delimiter. The warnings about the macros of media blocks do not occur. Warnings about headings are about headings, point to them and occur once.", "quantifier": "every document, configuration and state of the parser; every warning", "why_tests_cant": "Warnings come from tests which are made at every block of a section, with the default attributes and apart from parsing; whether what they say is true depends on the whole text in front of them.", "anchors": ["parser/src/blocks/section.rs: peer_or_ancestor_section, parse_title_line", "parser/src/blocks/block.rs: Block::parse_internal", "parser/src/blocks/media.rs: MediaBlock::parse", "parser/src/warnings.rs: WarningType"]}
{"id": "C79", "title": "Dividing a document into files makes no difference", "statement": "A document whose lines include other files, which may include files themselves, has the same header, blocks, catalog and warnings as the document in which the lines of the files are written in place of the lines that include them, and leaves the parser in the same state; only the source map differs.", "quantifier": "every document, set of files and nesting of includes, every configuration and state of the parser, when the handler gives files by name, file names refer to no attributes, and no line ends in white space or in a backslash", "why_tests_cant": "Reading switches between files at every directive and keeps the attributes and the place in the header across them; that nothing is lost, added or read differently at the seams has to hold for every way of dividing every document.", "anchors": ["parser/src/parser/preprocessor.rs: preprocess, PreprocessorState::process_adoc_include", "parser/src/parser/include_file_handler.rs: IncludeFileHandler", "parser/src/parser/parser.rs: Parser::parse"]}
{"id": "C80", "title": "A block reports what is written above it", "statement": "The title, the anchor, the reference text and the attributes that a block returns (title_source, title, anchor, anchor_reftext, attrlist) are those of the title, anchor and attribute-list lines in front of it: the title is that text after the normal substitutions, the attributes are what the text in the brackets says, and so are the style, the id, the roles and the options (declared_style, id, roles, options, has_option); nothing is reported that is not written there. References by the reference text of an anchor lead to its block.", "quantifier": "every block at every depth of every document that is parsed, every configuration and state of the parser", "why_tests_cant": "Every kind of block copies the metadata on its own, and the lines can come in any order and number, in front of any block; a field that one kind of block does not copy, or that is left over when the lines turn out not to be metadata, shows only for that combination.", "anchors": ["parser/src/blocks/metadata.rs: BlockMetadata::parse", "parser/src/blocks/block.rs: Block::parse, Block::register_block_id", "parser/src/blocks/is_block.rs: IsBlock::title, IsBlock::anchor, IsBlock::anchor_reftext, IsBlock::attrlist", "parser/src/blocks/media.rs: MediaBlock", "parser/src/blocks/break.rs: Break"]}
{"id": "C81", "title": "White space at the ends of lines does not matter", "statement": "Spaces and tabs at the ends of the lines of a document make no difference to what is parsed: the same title, authors, revision and attributes in the header, and the same sections and blocks with the same text.", "quantifier": "every document and every choice of trailing white space for each of its lines", "why_tests_cant": "Documents have any number of lines of any kind, and invisible white space may follow each of them independently; tests use a few fixed texts, nearly all without it.", "anchors": ["parser/src/span/line.rs: take_normalized_line, take_line_with_continuation", "parser/src/document/header.rs: Header::parse", "parser/src/document/attribute.rs: InterpretedValue::from_raw_value", "parser/src/blocks/raw_delimited.rs: RawDelimitedBlock::parse", "parser/src/blocks/simple.rs: SimpleBlock::parse"]}
{"id": "C82", "title": "Empty lines around a document do not matter", "statement": "Empty lines (or lines of white space) in front of a document and behind it make no difference to what is parsed: the same title, authors, revision and attributes in the header, and the same sections and blocks with the same text.", "quantifier": "every document, and any number of empty lines in front of it and behind it", "why_tests_cant": "What follows the last block, or precedes the first line, depends on the kind of block or line there and on every position the parser can be in; tests try a few of the combinations.", "anchors": ["parser/src/document/header.rs: Header::parse", "parser/src/document/document.rs: Document::parse", "parser/src/blocks/parse_utils.rs: parse_blocks_until", "parser/src/blocks/block.rs: Block::parse", "parser/src/span/line.rs: discard_empty_lines, take_empty_line"]}
{"id": "C83", "title": "Comment lines do not matter", "statement": "Comment lines (two slashes but not three, outside blocks with verbatim content) and comment blocks make no difference to what is parsed: with and without them the header has the same title, authors, revision and attributes, and the document the same sections and blocks with the same text.", "quantifier": "every document, and every comment line or comment block at every place in it outside verbatim blocks", "why_tests_cant": "A comment can stand before, behind and within every kind of line and block, and the parser treats it in a different place each time; tests try a few of the places.", "anchors": ["parser/src/document/header.rs: Header::parse", "parser/src/blocks/simple.rs: SimpleBlock::parse, parse_lines", "parser/src/blocks/block.rs: Block::parse", "parser/src/blocks/raw_delimited.rs: RawDelimitedBlock::parse"]}
{"id": "C84", "title": "What is put behind a document leaves it as it is", "statement": "If a document is continued behind an empty line, everything in front of that line is parsed as before: the header has the same title, authors, revision and attributes, the blocks and sections are the same with the same text, and the blocks or sections put behind them follow in their order. (A block that is not closed takes what is put behind it as its own: C84_unclosed.)", "quantifier": "every document written by the rules of C62 that has a body and ends in a line feed and whose author and revision lines do not begin with a colon, and all blocks and sections of the first level written by these rules", "why_tests_cant": "The parser reads on from every block and at every level of nesting to find out where it ends, so any continuation could change what was read before it; tests try a few pairs.", "anchors": ["parser/src/document/document.rs: Document::parse", "parser/src/blocks/parse_utils.rs: parse_blocks_until", "parser/src/blocks/section.rs: SectionBlock::parse", "parser/src/blocks/simple.rs: SimpleBlock::parse", "parser/src/document/header.rs: Header::parse"]}
{"id": "C85", "title": "The number of empty lines between blocks does not matter", "statement": "Between two blocks (or a block and a heading) one empty line is as good as many: whatever their number, and whether or not they have spaces in them, the document has the same header, blocks and sections with the same text. (Lines with tabs are not empty: C85_tab.)", "quantifier": "every document written by the rules of C62, every place between two of its blocks or headings outside containers, and all numbers of empty lines there", "why_tests_cant": "Empty lines are skipped by different code behind each kind of block and in front of each heading; tests try a few pairs with one or two lines.", "anchors": ["parser/src/span/line.rs: discard_empty_lines, take_empty_line", "parser/src/blocks/parse_utils.rs: parse_blocks_until", "parser/src/blocks/block.rs: Block::parse", "parser/src/blocks/simple.rs: SimpleBlock::parse"]}
{"id": "C86", "title": "Blocks between delimiters stay what they are", "statement": "If the blocks of a document are put between two delimiter lines that open an example, a sidebar, a quote or an open block and do not occur among them, the document has one block with exactly these blocks in it, of the same kinds and with the same text. (If the delimiter does occur among them, it closes the block: C86_same_delimiter.)", "quantifier": "every document written by the rules of C62 with blocks only, and every delimiter line of such a block that is not among its lines (and has at most six equals signs)", "why_tests_cant": "The blocks within a delimited block are found by cutting it out first and parsing what was cut out; that this gives the same blocks must hold for all kinds of blocks, nested to any depth.", "anchors": ["parser/src/blocks/compound_delimited.rs: CompoundDelimitedBlock::parse", "parser/src/blocks/parse_utils.rs: parse_blocks_until", "parser/src/blocks/block.rs: Block::parse"]}
{"id": "C87", "title": "The length of delimiters does not matter", "statement": "If the delimiter lines of blocks are replaced by delimiter lines of the same kind but another length (the same ones by the same, different ones by different ones), the document is the same: the same header, blocks and sections with the same text.", "quantifier": "every document, and every such replacement of its delimiters", "why_tests_cant": "Delimiters of any length may stand for each kind of block, within others of other lengths; tests try a few lengths.", "anchors": ["parser/src/blocks/raw_delimited.rs: RawDelimitedBlock::parse, is_valid_delimiter", "parser/src/blocks/compound_delimited.rs: CompoundDelimitedBlock::parse, is_valid_delimiter", "parser/src/blocks/simple.rs: parse_lines"]}
