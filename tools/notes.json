{
 "C01": {
  "note": "Any chain of the span operations, over any text."
 },
 "C02": {
  "note": "The statement allows a lone CR at the end of the text to be dropped with its line; C02_lone_cr_at_end shows that this happens."
 },
 "C03": {
  "note": ""
 },
 "C36": {
  "note": ""
 },
 "C48": {
  "note": "The Unicode tables are a parameter of the model, so the XML-name theorem holds for all of them."
 },
 "C04": {
  "note": "Refinement of every history of requests to the log of successful registrations."
 },
 "C05": {
  "note": "Termination by pigeonhole; the i32 counter is modelled as a natural number."
 },
 "C06": {
  "note": ""
 },
 "C07": {
  "note": "For any history of entries, and for documents: C07_document says that a parse changes the attributes by the header and then by the entries among the blocks in document order, and by nothing else. Values derived from the implicit header lines are C09."
 },
 "C08": {
  "note": "On reading, the alias hardbreaks is not resolved (C08_alias_not_resolved_on_read)."
 },
 "C49": {
  "status": "partial",
  "note": "Finding: the property is false. C49_header_restriction_lost is a counterexample (an accepted header entry relaxes the attribute to 'anywhere'); C49_header_restriction_partial covers headers without an entry about the attribute. C49_document_partial: in a document, the last entry among the blocks is reported if and only if the header has no entry about the attribute."
 },
 "C15": {
  "note": "Reduction relation, clean normal form, joining with a start path, URI prefix, no raw space (needs the ASCII part of the Unicode tables). C15_exact: the whole of web_path as an equivalence with a declarative relation, the scheme set aside included; resolved paths are unique."
 },
 "C16": {
  "note": ""
 },
 "C50": {
  "status": "partial",
  "note": "Fails in general: C50_relative_becomes_rooted gives x/..//b -> /b and /x/..//host/p -> //host/p. Proved for targets without a doubled slash, and C50_rooted_iff says exactly which relative targets become rooted: those whose dots empty out in front of a doubled slash."
 },
 "C29": {
  "note": "For every renderer and for the HTML renderer; entity decoding inverts the step."
 },
 "C30": {
  "note": "Expands is an independent relation on text; uniqueness makes it determine the result."
 },
 "C37": {
  "status": "partial",
  "note": "A step can occur twice: C37_duplicates ('q,q'). C37_nodup_iff says exactly when one does: C37_times counts every step in the result, item by item. Denotation, order and membership hold for every spec."
 },
 "C42": {
  "status": "partial",
  "note": "With the hardbreaks option a final newline and carriage returns are lost (C42_final_newline_lost, C42_carriage_return_lost). C42_hardbreaks_exact describes the result for every text, C42_hardbreaks_iff says exactly for which texts the claim holds. C42_exact: the step as one declarative relation, for every text."
 },
 "C33": {
  "note": "Elements is an independent relation, unique and complete. Findings: C33_spurious_missing_comma, C33_empty_positions."
 },
 "C34": {
  "note": ""
 },
 "C35": {
  "note": "Finding: C35_blank_id."
 },
 "C10": {
  "status": "proved",
  "note": "Floor lookup over the std binary search (modelled), keys strictly increasing for every run."
 },
 "C11": {
  "status": "partial",
  "note": "Proved for strict expansions (no unresolved directive before the file's first copied line, no entry ending in blank lines). Findings: C11_unresolved_unmapped, C11_entry_drift. C11_exact describes the reported origin of every line of every expansion (the last noted line, moved on by the distance; Spec/Marking says which lines are noted); C11_right_iff says exactly which lines are reported to be where they come from; C11_marking ties the notes to the expansion of C13."
 },
 "C12": {
  "status": "partial",
  "note": "Exact when nothing has to be done; lines kept under the stated conditions. C12_kept_iff: texts without directives and carriage returns keep their lines exactly if they are not looked at or no attribute entry that is read ends in white space. Findings: C12_blank_line_lost, C12_trailing_space_lost."
 },
 "C13": {
  "status": "proved",
  "note": "Soundness, completeness and uniqueness against the relation Spec.Expansion; the handler is an arbitrary function."
 },
 "C14": {
  "status": "partial",
  "note": "Preprocessing returns exactly when no value it comes to fails and no files include one another without end (C14_returns_iff); it never ends exactly when a value never ends or files include one another without end (C14_never_ends_iff); any other failure is that of a value it comes to (C14_fails_iff). The full claim is false: finding C14_cycle_diverges for a file that includes itself."
 },
 "C51": {
  "status": "proved",
  "note": "Header substitutions are a parameter."
 },
 "C17": {
  "note": "For any sequence of levels (C17_increasing etc.) and for parsed documents: C17_document gives the numbers of all sections in document order (relation Counted), C17_document_increasing and _shape their order and form, C17_document_numbered exactly which sections have one."
 },
 "C18": {
  "status": "partial",
  "note": "Finding: false beyond the 26th appendix. C18_letter_iff: the number of an appendix is a capital letter exactly for the first 26. C18_not_letter and C18_collision are counterexamples; the _partial theorems cover up to 26 appendices."
 },
 "C20": {
  "note": "For every title, prefix and separator, including the squeeze of repeated separators; C20_plain gives the id of a plain title."
 },
 "C38": {
  "note": "The two replacements of %20 and + cancel out, so a space is always %20; percent_encoding::utf8_percent_encode is modelled from its documentation."
 },
 "C39": {
  "note": "Bytes of the inline buffer are modelled; UTF-8 encoding and decoding are those of Lean's core library."
 },
 "C09": {
  "status": "partial",
  "note": "Finding: false for the implicit header attributes (C09_doctitle_overwritten, C09_email_overwritten). The _partial theorems show that no other API-only attribute changes while the header is read. C09_document_partial lifts this to whole parses."
 },
 "C40": {
  "note": "Author patterns, names, initials, several authors and the attributes they define; the attribute references inside an author are covered for at most one reference."
 },
 "C41": {
  "note": "Exact splitting of the revision line and the attributes it sets. Observation C41_number_may_be_empty."
 },
 "C47": {
  "note": "Termination, exact line grammar (Spec.HeaderReads), uniqueness, completeness (C47_complete), spans, warnings, contents (C47_contents) and effect on the attributes; substitutions of the header are a parameter."
 },
 "C24": {
  "note": "Recognition, the text up to the first identical line, and what is reported when there is none. An unterminated block gets no substitutions (C24_unterminated)."
 },
 "C27": {
  "note": "MetaItems is an independent relation on lines; any order, any combination, at most three lines; substitutions are a parameter."
 },
 "C43": {
  "note": "Paragraph and ParagraphText are independent relations on lines; indentation, comments, ending lines and style."
 },
 "C23": {
  "status": "partial",
  "note": "Order, disjointness, faithfulness and visibility of all block spans are proved for every document, parser state and renderer. Containment is proved for everything visible, and exactly for all children that are not verbatim delimited blocks; it is false for trailing white space of verbatim blocks (C23_containment_fails)."
 },
 "C26": {
  "status": "proved",
  "note": "For every parsed document: the preamble collects the blocks in front of the first section exactly when they are not all attribute entries, and leaving it out restores the sequence. Discrete headings count as sections here (Spec.IsSection): one in front of the first section ends the preamble (C26_discrete_ends_preamble)."
 },
 "C28": {
  "note": "Over whole parses: catalog, reference texts and warnings. Order of registration is post-order (blocks in a section or delimited block before the block itself); breaks register nothing."
 },
 "C52": {
  "note": "Every warning of a parse lies in the preprocessed text."
 },
 "C19": {
  "status": "partial",
  "note": "Finding: false for appendices (C19_appendices_drift: the same text gives A, then B). Proved: after any history a document without numbered appendices comes out as from new numbering; and a history without numbered appendices has no effect on any later parse."
 },
 "C25": {
  "status": "partial",
  "note": "Levels 1 to 5 and empty discrete headings: proved for every document. Finding: strict nesting is false through delimited blocks (C25_delimited_fails) and for a section whose style is substituted (C25_substituted_fails: the test for the end of a section reads the attribute list with a new parser); proved for all chains of sections with attribute lists without references and single quotes."
 },
 "C22": {
  "status": "partial",
  "note": "The full claim is false: an indented line in a section panics with overflow checks (C22_panics_iff_indented, C22_indented_panics) and is reported as a skipped level without (C22_indented_skips); lines with one mark or more than six are reported though they may be no headings (C22_marks_reported). For all other lines: headings are recognised exactly (C22_recognised, C22_only_headings_partial), other lines have no effect (C22_no_heading_partial), the test of a heading is exact (C22_heading), and every warning about a heading in a document is about such a line (C22_warnings)."
 },
 "C21": {
  "status": "partial",
  "note": "The claim is false. C21_diverges and C21_diverges_ordinary: short texts, some of them ordinary, on which parse never returns, for every bound on the iterations. C21_bound: a parse that returns at all does so within as many iterations (and as deep a nesting) as the text has characters, so the only way not to return is an iteration that finds no block. C21_terminates_partial: if the substitutions return and the lines of the document have no place of a certain form (MayStall: blank lines at the end of the document or of a block of blocks behind a delimiter or an entry; a line of exotic white space; a lone anchor; an attribute list that may name the literal style), parse returns. Missing: documents with such a place on which parse returns nevertheless. C21_never_iff: exactly when parsing never ends, if the substitutions return: reading the blocks comes (behind blocks it has found, or into blocks it is reading) to a place where text is left, it is not to stop, and no block is found; C21_stuck_iff says in terms of the lines exactly which places these are."
 },
 "C32": {
  "status": "partial",
  "note": "The claim is false. C32_panics and C32_text_lost: when a match is skipped after an earlier one was replaced, the text kept so far is cut at a stale place; quotes applied to short texts lose text or panic. Proved: the loop is exactly the declarative relation Looked (C32_exists, C32_unique), it always ends (C32_terminates), and without skips, or with skips only before the first replacement, it keeps every character outside the matches in order (C32_keeps_partial, C32_without_skips, C32_quotes_partial). For single backquotes, the only kind that skips, the behaviour is described exactly for every text: C32_backquotes_exact (what is written, including which bytes are lost), C32_backquotes_panic (which texts panic) and C32_backquotes_iff (the step does what is meant exactly when no passage in front of a quote comes behind a formatted one or behind a character of several bytes; C32_panics_wide is a witness of the latter)."
 },
 "C44": {
  "status": "partial",
  "note": "The claim is false for links that open in a window and are not to be followed: C44_noopener_lost (every such _blank link lacks noopener in rel), C44_nofollow_lost (every such link to another window has no rel at all). C44_read gives the attributes an HTML reader finds, for all windows and options; C44_exactly_partial: they are the intended ones exactly when no window is given or nofollow is not asked for. C44_window_breaks: a quotation mark in the window ends the attribute."
 },
 "C45": {
  "status": "partial",
  "note": "The claim is false for roles, ids, widths, heights, floats, links and targets (C45_breaks_out, C45_seen). C45_quoted_iff, C45_link_iff, C45_image_iff, C45_icon_iff, C45_around: for formatted text, links, images and icons, the start tag is read by an HTML reader with exactly the intended attributes if and only if the values that are not escaped have no quotation mark; alternative texts and image titles may be anything (C45_escaped, C45_unescape). C45_anchor: inline anchors are always safe."
 },
 "C46": {
  "status": "partial",
  "note": "False in general: C46_panics and C46_panics_normal give texts for which macro substitution panics. C46_exact says for every text, renderer and set of attributes whether the macros step fails and how: exactly if the declarative relation MacrosFail holds (Spec/InlineMacros). Match by match: C46_link_iff, C46_link_macro_iff, C46_image, C46_image_panics, C46_svg_iff; e-mail addresses and anchors never fail; C46_failures: nothing else can go wrong. C46_returns_partial gives a simple condition on the text under which substitution returns."
 },
 "C31": {
  "status": "partial",
  "note": "C31_all_forms: for passthroughs of all forms (as specified in C66), whatever the steps make of the text between them, if the placeholders are kept then in the result each has become what its own passthrough is rendered as. End to end: header values (C31_header), ordinary text without anything else to substitute with +++x+++, ++x++, $$x$$, pass:[x] (C31_extract, C31_protected_partial, C31_normal) and +x+ (C31_plus). The full claim is false: when the text or a body contains the placeholder characters (C31_recursion_diverges, C31_corrupted), and when a passthrough that is itself substituted has passthroughs within, because these are numbered from zero again (C31_numbers_clash)."
 },
 "C54": {
  "status": "proved",
  "note": "C54_line_start: for every block at any depth the column is 1, and the text in front of it is empty or ends with a newline."
 },
 "C55": {
  "status": "partial",
  "note": "C55_delimited covers all closed delimited blocks. C55_paragraph_partial covers paragraphs without the attribute subs and the style pass. C55_paragraph_fails and C55_unclosed_fails show that the code breaks the claim for the others. C61_document names the attributes the substitutions are applied with."
 },
 "C56": {
  "status": "proved",
  "note": "C56_context, C56_content, C56_resolved, C56_bare cover all blocks of all documents."
 },
 "C57": {
  "status": "partial",
  "note": "C57_registered_partial covers all blocks but breaks and sections with two different ids; C57_two_ids says which of two ids is registered; C57_forwarded_partial compares the id told through the enum Block. C57_fails shows that the code breaks the claim in the three other cases."
 },
 "C58": {
  "status": "partial",
  "note": "C58_kind_partial covers every block but attribute entries and the preamble; only audio macros are missing from the forms (C58_audio_fails). C58_one_form: every line has exactly one form. C58_entry: what is reported as an entry is written as one. C58_entry_found_partial: a block that is not an entry does not have the form of one, unless there is a blank line right in front of it; C58_entry_missed shows that the code misses those."
 },
 "C53": {
  "status": "partial",
  "note": "The claim is false (C21_diverges, C22_indented_panics, C32_panics, C46_panics_normal). C53_reasons: for every renderer and every parser state there are only three reasons for a document not to be parsed: the substitutions fail for a text drawn from it, an indented line follows a section heading (overflow checks on), or there is a place (MayStall, in terms of lines) where the loop over blocks may stall. C53_panics: the same for panics, for every bound. C53_returns_partial: with the HTML renderer, every document without certain characters, directives and such places is parsed, whatever the state of the parser. Missing: documents with those characters that are parsed nevertheless."
 },
 "C59": {
  "status": "partial",
  "note": "C59_typography: for every renderer and text the step returns exactly the result of the declarative relation Typeset (Spec/Typography), which it also shows to be functional; C59_total: it never fails. False in one respect: C59_dash_before_anything, two dashes behind a word character are replaced whatever follows, and the relation says so."
 },
 "C60": {
  "status": "partial",
  "note": "C60_discrete, C60_topmost hold in full. Sections in an appendix: false behind a delimited block with a section of level 1 (C60_appendix_ends); C60_inherited_partial for documents with sections of level 1 at the top only."
 },
 "C61": {
  "status": "partial",
  "note": "C61_document gives the attributes every block is rendered with; for section titles they are those at the end of the section (C61_title_late: an entry in the section changes its title). C61_heading_partial: titles of sections without attribute entries in them."
 },
 "C62": {
  "status": "proved",
  "note": "C62_outline: any document in the written form Spec.Layout (all block kinds, discrete headings among them; delimiters of any length, comments in paragraphs, indentation of blank lines) with any header is read as its outline. C62_roundtrip: a printer (Spec.documentText) followed by the parser gives the outline back; the text is prose there, and attributes are in quotes or shorthand (style, ids, roles, options). Blocks and sections may have titles, attribute lists and anchors, in any order, which are kept with them (paragraphs may be styled as listings, source and literal; headings may be discrete, which ends the preamble but begins no section; sections may be appendices, and the sections in them are then too; the style `pass` and a list of substitutions may be given, and then choose how paragraphs and verbatim blocks are rendered (Spec.chosen); ids may be given, and may be used twice: C28_warnings counts the warnings about that); anchors may have reference texts, which blocks other than images, videos and breaks keep. Sections may skip levels: the warnings are then exactly one for every first subsection that is more than one level deeper than its section. C62_forest: every order of headings and blocks is that of exactly one outline; C62_any_order: so every document that consists of headings and blocks is parsed, and to this outline."
 },
 "C63": {
  "status": "proved",
  "note": "C63_text for every group without callouts; C63_paragraph and C63_title for every parsed document. Text of several lines needs the option for hard line breaks to be off."
 },
 "C64": {
  "status": "partial",
  "note": "C64_formatting_partial: for every renderer and every set of attributes, the result is exactly the one of the declarative relation Typeset over the twelve formats (Spec/Formatting), which it also shows to be functional; missing are texts in which a backquote is followed by a quote when it comes to single backquotes, of which the claim is false (C32_panics, C32_text_lost). C64_words, C64_anywhere and their HTML versions hold in full for texts with one passage. C64_exact and C64_panics_iff have no such condition: for every text they say exactly what the quotes step makes of it, or that it panics, with the loss of text after a skip described by the relation Backquoted."
 },
 "C65": {
  "status": "proved",
  "note": "C65_iff: the macros step returns a text exactly if this is the result of the declarative relation MacrosBecome (Spec/InlineMacros) and nothing in the text fails (MacrosFail, claim C46), for every renderer and every set of attributes. C65_unique: that relation is functional, so it leaves nothing open (C65_exact). The Unicode tables are assumed to agree with ASCII on ASCII."
 },
 "C66": {
  "status": "proved",
  "note": "C66_extracted / C66_exact: extraction never fails and gives exactly the one reading of the declarative relation Extracted (Spec/Passthrough), for every text. C66_substituted: SubstitutionGroup::apply comes to an end with a text if and only if the relation Substituted has this text as its outcome; C66_nothing_else: with any amount of recursion. The Unicode tables are assumed to agree with ASCII on ASCII. What the steps do is the subject of C26, C64, C65 and others."
 },
 "C67": {
  "status": "proved",
  "note": "C67_becomes, C67_panics, C67_endless: the three outcomes of SubstitutionGroup::apply (a text, a panic, no end) are each equivalent to a declarative relation (Spec/Substitution) in which no part of the program occurs but the tables of the store and the renderer; C67_step and C67_step_panics say the same of each step, C67_steps and C67_steps_panic of any sequence of steps. C67_unique: the outcome is unique. The relation describes the program as it is, with the text that is lost behind backquotes (C32) and the panics of C46. The Unicode tables are assumed to agree with ASCII on ASCII."
 },
 "C68": {
  "status": "proved",
  "note": "C68_image, C68_icon: the source is the one and only one of the specification (Spec/Source), which is stated with the resolved paths of C15; C68_rendered: this source stands in the rendered image and, with link=self, in the link. The Unicode tables are assumed to agree with ASCII on ASCII."
 },
 "C69": {
  "status": "proved",
  "note": "C69_refused: the requests of a document are those of its header lines (Spec/Requests, on top of the line-by-line reading of C20) and those of the entries among its blocks in document order; the reports about locked attributes are exactly those of the refused requests, and the attributes behind the document are the effect of the others. C69_program_only, C69_body_only, C69_header_only, C69_anywhere: what this means for each kind of protection. The four are about names that lines of the header do not define by themselves; for the others (author, revision, doctitle) C69_refused is the exact statement. The Unicode tables are assumed to agree with ASCII on ASCII in these four."
 },
 "C70": {
  "status": "partial",
  "note": "Finding: the claim about the attribute icons is false. C70_unset_icons_shown: a document that unsets icons gets images for its icons, because only the presence of the attribute is asked for. C70_icons_partial covers documents that do not mention icons or set it; C70_icon, C70_image (with C70_image_panics) and C70_link are equivalences with the specification in Spec/Shown for every list and every set of attributes. The Unicode tables are assumed to agree with ASCII on ASCII."
 },
 "C71": {
  "status": "partial",
  "note": "Finding: the property is false. Entries and the program store names in lower case, but references are looked up as they are written: C71_seen has documents where {Foo} stays as it is behind the entry :Foo: bar. C71_capitals_lost and C71_document: so it is for every name with a capital letter, in every history and every document (assuming that lower-casing leaves no capital ASCII letter). C71_usable_partial: names in lower case, other than the alias hardbreaks, can be used."
 },
 "C72": {
  "status": "partial",
  "note": "Finding: the property is false. C72_attributes_kept: title, author and attributes of one document are replaced in the next one; C72_restriction_lost: a header entry of one document lifts a restriction for the body of the next. C72_only_attributes_partial: apart from numbered appendices (C19), the attributes are the only thing that is carried over. C72_attributes says exactly which these are: the effect of all requests of the earlier documents. C72_unmentioned_partial: attributes that are not mentioned are as they were. C72_silent_partial: documents that say nothing about attributes leave nothing behind."
 },
 "C73": {
  "status": "proved",
  "note": "C73_new: the twelve attributes and their values, and no others. C73_characters: after any documents, with any other attributes of the program, the character attributes have their values and references are replaced by them. C73_header_only: toc and sectnumlevels are not changed by entries among the blocks of documents whose headers do not mention them (C69_header_only says what happens otherwise). C73_free: no entry about another attribute is refused in any history of requests by documents. C73_bare: what an entry without a value stands for. The Unicode tables are assumed to agree with ASCII on ASCII in C73_characters and C73_header_only."
 },
 "C74": {
  "status": "partial",
  "note": "Finding: the property is false. C74_raw_keeps_returns: the rendered text of a verbatim block keeps carriage returns. C74_author_keeps_returns: the names derived from an author entry over several lines are taken from the lines as written. C74_line_ends_partial: for every document made of a header, paragraphs, verbatim blocks, breaks, images and videos, nested containers and sections (the documents of C62), changing any line ends changes neither the contents of the header nor the blocks and sections with their text (verbatim blocks by their lines). C74_header: for every document without directives the contents of the header do not depend on the line ends (author entries on one line). C74_roundtrip: what is written from an outline is read back with any line ends. Blocks and sections may have titles, attribute lists and anchors. Missing: documents with attribute entries in the body and preprocessor directives."
 },
 "C75": {
  "status": "partial",
  "note": "Finding: the property is false. C75_passthrough_attributes: the attributes in front of a passthrough are written unescaped, so that text can write any tag. C75_header_unescaped: revision number, date and remark, the address of an author and an author name with < but no > become values of attributes unescaped. C75_text_partial: with a renderer that does not write < or > itself, a text whose group replaces special characters first, and so for every passthrough in it, is rendered without < and > if attributes of passthroughs and values of attributes have none. C75_none_appears: no substitution brings one out of a text without them, with any group. C75_verbatim and C75_value: verbatim text, and values without passthroughs, with every renderer that replaces special characters (that of the library included). C75_header_partial, C75_document_partial and C75_no_passthroughs_partial: the same for the attributes behind a header and for all blocks of a document. Missing: renderers that write tags, for the groups with quotes and macros; delimited blocks that are not closed (C55)."
 },
 "C76": {
  "status": "partial",
  "note": "C76_exact: the id for a title, for every prefix, separator and title, by a relation over the characters of the title. C76_attributes: prefix and separator from the attributes. C76_document: every section of a document has the id the rules say, with the attributes at its heading and at its end and the entries of the blocks in front of it and in it. Finding: C76_leak, the id for `A (*b*)` is `_a_strongb`; C76_leaks: so it is for every tag behind characters that are not for ids; the title has the id of the one with the tag as text. C76_markup_partial: words (with any punctuation in them) and the same words with tags and character references between them have the same id. Missing there: titles with a character that is not for ids right in front of a tag, for which C76_leaks says what happens."
 },
 "C77": {
  "note": "C77_unterminated: the warnings and the blocks in document order, related by Spec.Reports. C77_none: no such warning exactly when all blocks are closed.",
  "status": "proved"
 },
 "C78": {
  "note": "C78_warranted_partial: every warning says something true of the text to which it points. Findings: C78_delimiter (in a section a long example delimiter is reported as a heading), C78_pointer (the warning about a skipped level points to the metadata), C78_twice (reported twice in sections), C78_first (a first heading of level 3 is not reported as skipping).",
  "status": "partial"
 },
 "C79": {
  "note": "C79_text: the preprocessed text is the pasted text. C79_same: same document and state of the parser when both can be parsed. C79_pasted: without a primary file name the pasted document can be parsed whenever the divided one can.",
  "status": "proved"
 },
 "C80": {
  "status": "partial",
  "note": "C80_reported_partial: every block other than attribute entries and the preamble (which have no metadata: C56_bare) has the metadata that the lines at its beginning say, with the title rendered and the attributes read from their lines. C80_roles, C80_options: the roles and options are those of the attribute list; C80_shorthand: style, id, roles and options written in shorthand above a block are the ones it reports. False are: images, videos and breaks lose the reference text (C80_media_fails); a paragraph made of lone metadata lines keeps the reference text but not the anchor (C80_lone_fails; which lines these are is part of C80_reported_partial); the reference text of an anchor is not registered, so that it does not resolve to the block (C80_unresolved_fails; what does is said by C28_reftext)."
 },
 "C81": {
  "status": "partial",
  "note": "Finding: the property is false. C81_raw_keeps_spaces: the rendered text of a verbatim block keeps the spaces at the ends of its lines. C81_tab_matters: a tab behind the line that opens a block makes it a paragraph. C81_author_keeps_spaces: the names derived from an author entry over several lines contain the spaces behind the backslash. C81_trailing_spaces_partial: for the documents of C62 (header, paragraphs, verbatim blocks, breaks, images and videos, nested containers and sections, with titles, attribute lists and anchors), adding or removing spaces at the ends of any lines changes neither the contents of the header nor the blocks and sections with their text (verbatim blocks by their lines). C81_header: for every document without directives the contents of the header do not depend on spaces at the ends of lines (author entries on one line). C81_roundtrip: what is written from an outline is read back with any spaces at the ends of its lines. Spaces behind the backslash of a continued entry are covered, but for author entries over several lines. Missing: documents with attribute entries in the body and preprocessor directives."
 },
 "C82": {
  "status": "partial",
  "note": "Finding: the property is false. C82_delimiter_stalls: behind a delimited block at the end of a document one empty line makes parsing go on for ever. C82_tab_hides_title: behind a line with a tab the title of the document is not found. C82_around_partial: for every document of C62 (header, paragraphs, verbatim blocks, breaks, images and videos, nested containers and sections, with titles, attribute lists and anchors) that has a body, ends in a line feed and whose last block does not end in a delimiter line, any empty lines or lines of spaces in front of it and behind it change neither the contents of the header nor the blocks and sections with their text. C82_header: for every document without directives empty lines in front of it do not change the contents of the header. Missing: lines behind documents with a header only; author and revision lines that begin with a colon; attribute entries in the body and preprocessor directives."
 },
 "C83": {
  "status": "partial",
  "note": "Finding: the property is false. C83_leaves_paragraph: a comment line that stands alone between two paragraphs leaves an empty paragraph. C83_hides_heading: a heading right behind a comment line becomes the text of a paragraph. C83_hides_block: so does the delimiter of a block. C83_block_shown: a comment block is a block of the document with the comment as its text. C83_comments_partial: for every document of C62, comments anywhere in the header, and comment lines behind any lines of paragraphs that do not also stand in a verbatim block and do not look like the title, attributes or first line of another block, change neither the contents of the header nor the blocks and sections with their text. C83_front: the same for comments in front of any document of C62. C83_header, C83_header_front: for every document without directives comments in the header and in front of it do not change the contents of the header. Missing: comments behind lines of paragraphs that look like the title, attributes or first line of another block; attribute entries in the body and preprocessor directives."
 },
 "C84": {
  "status": "proved",
  "note": "C84_sections: sections of the first level put behind any document of C62. C84_blocks: blocks, and sections behind them, put behind a document of C62 without sections. C84_unclosed shows why the document has to be written by the rules: a block that is not closed takes what follows."
 },
 "C85": {
  "status": "proved",
  "note": "C85_gaps: for every document of C62 and every place between two of its blocks or headings outside containers. C85_everywhere: at all such places at once, also in containers, if the verbatim blocks have no empty lines in them. C85_tab shows why the lines must not have tabs (finding)."
 },
 "C86": {
  "status": "proved",
  "note": "C86_wrap: for every document of C62 with blocks only. C86_same_delimiter shows why the delimiter must not occur among the lines."
 },
 "C87": {
  "status": "partial",
  "note": "Finding: the property is false. C87_behind_comment: a delimiter right behind a comment line at the beginning of a paragraph is text. C87_delimiters_partial: for every document of C62 without comment lines in its body and without delimiters among the lines of verbatim blocks, and every replacement of the delimiters. Missing: comment lines elsewhere; other delimiters as lines of verbatim blocks; attribute entries in the body and preprocessor directives."
 }
}