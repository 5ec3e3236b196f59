{
 "claims": [
  {
   "property": "C01",
   "status": "proved",
   "theorems": [
    "Cssc.vlq_round_trip"
   ],
   "note": "For every integer of magnitude below 2^30 and any following text."
  },
  {
   "property": "C02",
   "status": "proved",
   "theorems": [
    "Cssc.vlq_concat_round_trip",
    "Cssc.vlqEncode_alphabet",
    "Cssc.vlq_round_trip"
   ],
   "note": "Any sequence of numbers of any length; the alphabet statement holds for every integer."
  },
  {
   "property": "C03",
   "status": "proved",
   "theorems": [
    "Cssc.vlq_round_trip_iff",
    "Cssc.vlq_overflow_witness"
   ],
   "note": "Exact characterisation over all int32."
  },
  {
   "property": "C06",
   "status": "proved",
   "theorems": [
    "Cssc.lexer_line_table",
    "Cssc.lexer_line_table_prefix"
   ],
   "note": "All byte strings, all runs of a client with any retention flags."
  },
  {
   "property": "C10",
   "status": "proved",
   "theorems": [
    "Cssc.newLexer_safe",
    "Cssc.next_safe"
   ],
   "note": "Loops inside a token are modelled with fuel len+2; the theorems show it never runs out, so it is no restriction."
  },
  {
   "property": "C11",
   "status": "proved",
   "theorems": [
    "Cssc.token_spans_ordered"
   ],
   "note": ""
  },
  {
   "property": "C12",
   "status": "proved",
   "theorems": [
    "Cssc.token_text"
   ],
   "note": ""
  },
  {
   "property": "C13",
   "status": "partial",
   "theorems": [
    "Cssc.next_progress_refuted",
    "Cssc.next_progress_partial",
    "Cssc.next_reaches_eof_partial"
   ],
   "note": "The claim is false: CDO, CDC and the empty number token of \".+5\" consume nothing. Proved for every other token."
  },
  {
   "property": "C14",
   "status": "partial",
   "theorems": [
    "Cssc.next_skips_gaps",
    "Cssc.gap_transparent_partial",
    "Cssc.gap_transparent_all_partial",
    "Cssc.gap_transparent_refuted"
   ],
   "note": "False for comments containing * CR / (the lexer ends the comment there); proved for every other comment and all white space, for single calls in any state of a run and for whole token streams."
  },
  {
   "property": "C15",
   "status": "proved",
   "theorems": [
    "Cssc.next_reads_token",
    "Cssc.layout_tokens"
   ],
   "note": "All token kinds except CDO and CDC, strings with escapes included; any gaps between tokens."
  },
  {
   "property": "C16",
   "status": "partial",
   "theorems": [
    "Cssc.escaped_quote_refuted",
    "Cssc.escaped_char_refuted",
    "Cssc.escaped_string_partial",
    "Cssc.escaped_ident_partial",
    "Cssc.escaped_url_partial"
   ],
   "note": "The claim is false: nextEscaped does not consume an escaped character that is not a hexadecimal digit. Proved for strings with any escapes other than of a quote of the same kind (escaped backslashes and line breaks included), for identifiers with hexadecimal escapes, and for unquoted urls with any escapes but of quotes, parentheses and line breaks."
  },
  {
   "property": "C07",
   "status": "proved",
   "theorems": [
    "Cssc.lineAndCol_exact",
    "Cssc.lineAndCol_inverts",
    "Cssc.lineAndCol_injective"
   ],
   "note": ""
  },
  {
   "property": "C08",
   "status": "partial",
   "theorems": [
    "Cssc.line_table_refuted",
    "Cssc.line_table_partial",
    "Cssc.line_table_members_partial",
    "Cssc.line_table_error_partial"
   ],
   "note": "False: the fallback to a raw declaration rewinds the lexer but not the line table. Proved exact whenever the result has no raw declaration; in general the table has every line start and nothing else, but some more than once."
  },
  {
   "property": "C09",
   "status": "proved",
   "theorems": [
    "Cssc.annotate_exact",
    "Cssc.locationError_safe",
    "Cssc.locationError_any"
   ],
   "note": ""
  },
  {
   "property": "C54",
   "status": "partial",
   "theorems": [
    "Cssc.underline_aligned_refuted",
    "Cssc.underline_aligned_partial"
   ],
   "note": "False when a tab follows the start of the span on its line; proved otherwise."
  },
  {
   "property": "C17",
   "status": "partial",
   "theorems": [
    "Cssc.parse_no_panic_refuted",
    "Cssc.parse_no_panic_refuted'",
    "Cssc.parse_math_panics",
    "Cssc.parse_no_panic_partial",
    "Cssc.parse_returns_partial"
   ],
   "note": "False: the first token is read outside the recover, and run-time panics are raised again. Proved for texts whose first token can be read and that contain no @custom-media and no call of a math function together with one of @media, @import and [; with all of these if the file ends in ; and closing braces and the parentheses of math functions hold well-formed arithmetic (parse_returns_partial)."
  },
  {
   "property": "C18",
   "status": "partial",
   "theorems": [
    "Cssc.parse_terminates_refuted",
    "Cssc.parse_terminates_partial",
    "Cssc.parse_returns_partial",
    "Cssc.parse_raw_forever",
    "Cssc.parse_math_forever"
   ],
   "note": "False: <!-- is never consumed, a{b} and a{b:calc(;} loop. Proved for every text that ends in ; followed by closing braces and white space, has none of the five sequences that the lexer does not consume, and in the parentheses of math functions nothing but operands, operators, commas and parentheses."
  },
  {
   "property": "C19",
   "status": "proved",
   "theorems": [
    "Cssc.parse_spans",
    "Cssc.parse_error_span"
   ],
   "note": ""
  },
  {
   "property": "C20",
   "status": "partial",
   "theorems": [
    "Cssc.literals_verbatim_refuted",
    "Cssc.literals_verbatim_partial"
   ],
   "note": "False for a property name with a gap after the * hack; everything else proved."
  },
  {
   "property": "C21",
   "status": "proved",
   "theorems": [
    "Cssc.imports_exact"
   ],
   "note": ""
  },
  {
   "property": "C22",
   "status": "partial",
   "theorems": [
    "Cssc.structure_refuted",
    "Cssc.structure_partial",
    "Cssc.anb_operand_partial"
   ],
   "note": "False only for nth-* without any argument; everything else proved. A number follows the operator of An+B, except possibly in texts with one of the five sequences that the lexer does not consume."
  },
  {
   "property": "C23",
   "status": "proved",
   "theorems": [
    "Cssc.math_shape"
   ],
   "note": ""
  },
  {
   "property": "C24",
   "status": "partial",
   "theorems": [
    "Cssc.malformed_declaration_kept",
    "Cssc.raw_declaration_malformed",
    "Cssc.malformed_declaration_contained_refuted"
   ],
   "note": "The text kept is exact in both directions; that Parse does not fail because of a malformed declaration is false."
  },
  {
   "property": "C25",
   "status": "proved",
   "theorems": [
    "Cssc.parse_deterministic"
   ],
   "note": ""
  },
  {
   "property": "C40",
   "status": "partial",
   "theorems": [
    "Cssc.resolved_exists_refuted",
    "Cssc.resolved_exists_partial"
   ],
   "note": "False: when index.css (or the style entry) is a directory, Resolve returns the empty path and a nil error. Proved for every non-empty result."
  },
  {
   "property": "C41",
   "status": "proved",
   "theorems": [
    "Cssc.relative_local"
   ],
   "note": ""
  },
  {
   "property": "C42",
   "status": "partial",
   "theorems": [
    "Cssc.package_order_partial",
    "Cssc.package_candidates_partial",
    "Cssc.package_order_refuted"
   ],
   "note": "Proved for every absolute directory, except that the node_modules of the root directory is never looked at (refuted as stated)."
  },
  {
   "property": "C43",
   "status": "partial",
   "theorems": [
    "Cssc.resolve_terminates_partial",
    "Cssc.resolve_terminates_refuted"
   ],
   "note": "Proved for every rooted starting directory; false for relative ones."
  },
  {
   "property": "C44",
   "status": "proved",
   "theorems": [
    "Cssc.lookup_order"
   ],
   "note": ""
  },
  {
   "property": "C51",
   "status": "partial",
   "theorems": [
    "Cssc.walk_visits_partial",
    "Cssc.walk_panics_partial",
    "Cssc.walk_parsed_partial",
    "Cssc.walk_refuted"
   ],
   "note": "False: Walk panics on square brackets and on an empty media query list, and skips the arguments of pseudo classes and the property of a range. Everything else is visited exactly once, in document order."
  },
  {
   "property": "C52",
   "status": "partial",
   "theorems": [
    "Cssc.toEsbuild_partial",
    "Cssc.toEsbuild_refuted"
   ],
   "note": "False: errors with a location give two messages. Proved for the messages without location."
  },
  {
   "property": "C53",
   "status": "proved",
   "theorems": [
    "Cssc.onLoad_contents"
   ],
   "note": ""
  },
  {
   "property": "C55",
   "status": "partial",
   "theorems": [
    "Cssc.msgLoc_partial",
    "Cssc.msgLoc_refuted",
    "Cssc.parseErr_no_location"
   ],
   "note": "False for the line number (a byte offset is given) and for errors of the parser, which have no location at all; the rest is proved."
  },
  {
   "property": "C30",
   "status": "partial",
   "theorems": [
    "Cssc.default_unchanged_partial",
    "Cssc.default_unchanged_refuted"
   ],
   "note": "False: empty rules and @custom-media are dropped, @import is doubled without replacements, a rule without selector panics. Proved for every other stylesheet."
  },
  {
   "property": "C31",
   "status": "partial",
   "theorems": [
    "Cssc.anyLink_equiv_partial",
    "Cssc.anyLink_transform_partial",
    "Cssc.anyLink_refuted"
   ],
   "note": "False for a selector with two :any-link (mixed combinations are lost) and inside at-rules (not transformed). Otherwise proved, over every document."
  },
  {
   "property": "C32",
   "status": "proved",
   "theorems": [
    "Cssc.range_equiv",
    "Cssc.range_strict",
    "Cssc.ranges_gone",
    "Cssc.ranges_gone_parsed"
   ],
   "note": "Over any order and any reading of the bounds. The float arithmetic of the strict bounds is a parameter of the model."
  },
  {
   "property": "C33",
   "status": "proved",
   "theorems": [
    "Cssc.custom_media"
   ],
   "note": ""
  },
  {
   "property": "C34",
   "status": "partial",
   "theorems": [
    "Cssc.custom_property_rules_partial",
    "Cssc.custom_property_rules_refuted"
   ],
   "note": "False: :root{..} is not collected from and :root .a{..} is. Which rules are collected from, and what stays, is proved exactly."
  },
  {
   "property": "C35",
   "status": "partial",
   "theorems": [
    "Cssc.var_replaced_partial",
    "Cssc.var_replaced_refuted"
   ],
   "note": "False inside at-rules, where values are not transformed. Proved for every list of values of a top-level rule, with the exact reports."
  },
  {
   "property": "C36",
   "status": "proved",
   "theorems": [
    "Cssc.calc_sound",
    "Cssc.calc_complete"
   ],
   "note": "Number arithmetic is a parameter of the model; the theorem assumes that a number written and read again is the same."
  },
  {
   "property": "C37",
   "status": "proved",
   "theorems": [
    "Cssc.imports_inlined"
   ],
   "note": ""
  },
  {
   "property": "C38",
   "status": "proved",
   "theorems": [
    "Cssc.plain_node_unchanged",
    "Cssc.rest_unchanged"
   ],
   "note": ""
  },
  {
   "property": "C39",
   "status": "partial",
   "theorems": [
    "Cssc.transform_no_panic_partial",
    "Cssc.transform_no_panic_refuted"
   ],
   "note": "False for a rule without prelude and an @media without queries. No panic otherwise, for all options and replacements."
  },
  {
   "property": "C04",
   "status": "proved",
   "theorems": [
    "Cssc.map_exact",
    "Cssc.map_exact_parsed",
    "Cssc.map_exact_parser_table",
    "Cssc.map_parser_table_refuted"
   ],
   "note": "For a source whose line table is right, which the table left by Parse is if there is no raw declaration (map_exact_parser_table). map_parser_table_refuted: with the table that Parse leaves after a raw declaration (C08) the lines are off."
  },
  {
   "property": "C05",
   "status": "proved",
   "theorems": [
    "Cssc.map_only_appends"
   ],
   "note": ""
  },
  {
   "property": "C28",
   "status": "proved",
   "theorems": [
    "Cssc.print_parsed",
    "Cssc.print_parsed_map",
    "Cssc.print_parsed_lines"
   ],
   "note": "With a source map: for any sizes and any line table that begins with 0 (print_parsed_lines), which every table made by the parser does."
  },
  {
   "property": "C29",
   "status": "partial",
   "theorems": [
    "Cssc.anb_source_partial",
    "Cssc.anb_parsed",
    "Cssc.anb_meaning_partial",
    "Cssc.anb_meaning_refuted"
   ],
   "note": "False for a coefficient 0 (or none) with a negative or zero offset (nth-child(-3) is printed as 3). Otherwise proved from the source to the output: if the text of the argument (white space removed) is An+B with value (A,B), then so are the fields of its node and the printed text. Texts that are not An+B but accepted (2n-1 +3) have no meaning to preserve and are not constrained."
  },
  {
   "property": "C45",
   "status": "partial",
   "theorems": [
    "Cssc.files_asked_partial",
    "Cssc.files_follow_partial",
    "Cssc.files_one_partial",
    "Cssc.files_seq_partial",
    "Cssc.files_refuted"
   ],
   "note": "False: two goroutines can take the same source index, and an import that is not followed is then printed instead of an entry. Proved under every schedule in follow mode, and for one entry; proved in general that every output belongs to an entry or an imported file; and for sequential compilations in full."
  },
  {
   "property": "C46",
   "status": "partial",
   "theorems": [
    "Cssc.entry_output_partial",
    "Cssc.entries_output_partial",
    "Cssc.entries_output_refuted",
    "Cssc.seqCompile_is_schedule",
    "Cssc.entries_output_chain_partial"
   ],
   "note": "False: the goroutines share the loop variable. Proved under every schedule for one entry, and (also in follow mode) for one entry and at most one import in each file; and for sequential compilations of any acyclic import graph."
  },
  {
   "property": "C47",
   "status": "partial",
   "theorems": [
    "Cssc.imports_processed_partial",
    "Cssc.imports_processed_refuted",
    "Cssc.imports_processed_chain_partial"
   ],
   "note": "False: the goroutines share the loop variable. Proved for sequential compilations of any acyclic import graph, and under every schedule for one entry and at most one import in each file."
  },
  {
   "property": "C48",
   "status": "partial",
   "theorems": [
    "Cssc.compile_returns_partial",
    "Cssc.compile_returns_refuted",
    "Cssc.endless_never_returns",
    "Cssc.compile_returns_chain_partial"
   ],
   "note": "False: with files that import each other Compile returns under no schedule. Proved: without cycles the sequential compilation returns, if the files are parsed, as a stylesheet or with an error, and have none of the two constructs of C39 (Legible), whatever the options; so does every schedule with one entry and at most one import in each file. C82 bounds the steps of all schedules that give no number to two files."
  },
  {
   "property": "C49",
   "status": "proved",
   "theorems": [
    "Cssc.failed_reported",
    "Cssc.failed_reported_one",
    "Cssc.entries_output_partial"
   ],
   "note": "For sequential compilations of acyclic import graphs, as stated; for one entry under every schedule. entries_output_partial says that the others are compiled."
  },
  {
   "property": "C50",
   "status": "proved",
   "theorems": [
    "Cssc.parsed_once",
    "Cssc.imports_processed_partial"
   ],
   "note": ""
  },
  {
   "property": "C56",
   "status": "partial",
   "theorems": [
    "Cssc.compile_crash_refuted",
    "Cssc.compile_crash_refuted'",
    "Cssc.compile_returns_partial",
    "Cssc.compile_returns_chain_partial"
   ],
   "note": "False: a nil source or concurrent map writes, with two entries. The sequential schedule has no crash if the files are Legible (C82); nor has any schedule with one entry and at most one import in each file. C83 says exactly when a schedule crashes."
  },
  {
   "property": "C26",
   "status": "proved",
   "theorems": [
    "Cssc.print_parse",
    "Cssc.print_parse_any",
    "Cssc.print_map_parse"
   ],
   "note": "The class is Stylesheet.Printable in Spec/Printable.lean: the shape of the nodes, and that the tokens of the text are not changed by what follows them. Decl values after Raw fallback, attribute comparisons, keyframes with several selectors, MediaInParens are not in it."
  },
  {
   "property": "C27",
   "status": "partial",
   "theorems": [
    "Cssc.print_keeps_refuted",
    "Cssc.print_reparse_refuted",
    "Cssc.print_loses",
    "Cssc.print_keeps_partial",
    "Cssc.print_keeps_nodes_partial"
   ],
   "note": "False: selectors of keyframes run together, strings are not escaped, comparisons in attribute selectors and spaces between arguments are lost. Proved (print_keeps_nodes_partial): a parsed stylesheet none of whose nodes has one of the constructs listed in Spec/Keeps.lean (one condition for each kind of node, on the node and its immediate parts) is printed as a text that is parsed as the same stylesheet up to positions. Missing: names with escapes, units with non-ASCII characters, and the constructs that the refutations are about."
  },
  {
   "property": "C57",
   "status": "proved",
   "theorems": [
    "Cssc.print_positions"
   ],
   "note": ""
  },
  {
   "property": "C58",
   "status": "proved",
   "theorems": [
    "Cssc.print_stable",
    "Cssc.print_injective"
   ],
   "note": ""
  },
  {
   "property": "C59",
   "status": "partial",
   "theorems": [
    "Cssc.literals_refuted",
    "Cssc.literals_partial"
   ],
   "note": "Units and names of at-rules may be words that are not identifiers (1-2, @5a); the word of url(...) may contain white space and escapes."
  },
  {
   "property": "C60",
   "status": "partial",
   "theorems": [
    "Cssc.map_document_refuted",
    "Cssc.map_document_any_partial",
    "Cssc.map_document_partial"
   ],
   "note": "False: the path is not escaped, and bytes that are not UTF-8 are replaced. Proved for paths without quotes, backslashes and control characters: for sources of any size with any bytes and any line table, the document can be read, and holds the source with bytes that are not UTF-8 replaced by U+FFFD, so it holds the source exactly if that is UTF-8 (map_document_any_partial); the mappings with sizes below 2^30 (map_document_partial; beyond, int32 overflows)."
  },
  {
   "property": "C61",
   "status": "partial",
   "theorems": [
    "Cssc.calc_reports_refuted",
    "Cssc.calc_reports_partial",
    "Cssc.calc_silent_partial",
    "Cssc.value_reported_stays"
   ],
   "note": "False: calc(1px + 1em + 1px) is reported, calc((1px) * 1px) is not. Proved for all arithmetic without parentheses and nested functions (calc_silent_partial): nothing is reported exactly if the expression has a value or is a sum or difference of two values with different units, and an expression without a type is always reported; calc_reports_partial: the number and place of the reports, for one operator on two operands that have values. value_reported_stays: for all values, parentheses, functions and variables included, a value for which anything is reported stays as it was."
  },
  {
   "property": "C62",
   "status": "proved",
   "theorems": [
    "Cssc.transform_ends",
    "Cssc.transform_returned",
    "Cssc.transform_returns_iff",
    "Cssc.transform_self_import"
   ],
   "note": "transform_returns_iff for stylesheets without rules that panic (see C39); transform_ends (no endless run) without that condition."
  },
  {
   "property": "C63",
   "status": "partial",
   "theorems": [
    "Cssc.comments_refuted",
    "Cssc.comments_attr_refuted",
    "Cssc.layout_raw_refuted",
    "Cssc.layout_ignored_partial",
    "Cssc.comments_partial"
   ],
   "note": "False: after ! and after the name in an attribute selector the text of a comment counts (c!/*important*/), and declarations that are kept as text are kept with their white space and comments. Proved (layout_ignored_partial) for all token sequences in which ! and the name in an attribute selector are followed by a token that has a text, when no declaration of the result is kept as text."
  },
  {
   "property": "C64",
   "status": "proved",
   "theorems": [
    "Cssc.bundle_output",
    "Cssc.bundle_output_chain"
   ],
   "note": "bundle_output_chain: under every schedule, with one entry and at most one import in each file. The constructs that printing loses are listed in Spec/Keeps.lean; the bundle is defined in Spec/Bundle.lean."
  },
  {
   "property": "C65",
   "status": "partial",
   "theorems": [
    "Cssc.left_output_refuted",
    "Cssc.left_output_partial"
   ],
   "note": "False: every import is written twice. Proved with every import twice, for files without the constructs that printing loses (Spec/Keeps.lean)."
  },
  {
   "property": "C66",
   "status": "proved",
   "theorems": [
    "Cssc.output_parses",
    "Cssc.output_map_parses",
    "Cssc.compiled_output",
    "Cssc.output_parses_refuted"
   ],
   "note": "The conditions are Item.Keeps (Spec/Keeps.lean) and Item.Whole (Spec/Lit.lean) for each node of the output. output_parses_refuted: without Item.Whole it is false, @media (< width) loses its only part."
  },
  {
   "property": "C67",
   "status": "proved",
   "theorems": [
    "Cssc.sources_output_parses",
    "Cssc.sources_output",
    "Cssc.sources_output_refuted"
   ],
   "note": "Conditions on sources: Item.Ready; on the arithmetic of outputs: Item.Reckoned (both in Spec/Lit.lean). sources_output_refuted: the extra condition on :any-link cannot be left out."
  },
  {
   "property": "C68",
   "status": "partial",
   "theorems": [
    "Cssc.spelling_refuted",
    "Cssc.spelling_call_refuted",
    "Cssc.spelling_nth_refuted",
    "Cssc.important_name_refuted",
    "Cssc.spelling_partial",
    "Cssc.spellings_agree",
    "Cssc.spellings_output"
   ],
   "note": "False: the letter case of at-keywords and of function names counts (@MEDIA is not accepted, CALC( 1px + 2em) is cut at +), white space before An+B is not accepted, and a string behind ! is taken for !important. Proved for the choices in class Spelling and for white space anywhere but in selectors, where it may stand before and behind each selector of a rule (Spec/Printable.lean: Spelling, Spaced, Laid)."
  },
  {
   "property": "C69",
   "status": "partial",
   "theorems": [
    "Cssc.schedule_refuted",
    "Cssc.schedules_agree_partial",
    "Cssc.schedule_partial"
   ],
   "note": "False with two imports in one file (the goroutines share the loop variable), as with two entries. Proved with one entry and at most one import in each file: if one schedule ends, all do, after as many steps, with the same memory but for the order of files and errors. C81 has the schedules that agree for any number of entries and imports."
  },
  {
   "property": "C70",
   "status": "proved",
   "theorems": [
    "Cssc.same_file",
    "Cssc.clean_same",
    "Cssc.join_place",
    "Cssc.join_any",
    "Cssc.dir_place"
   ],
   "note": "filepath.Abs, Clean, Join and Dir are modelled after the standard library for Unix. Symbolic links are outside the model."
  },
  {
   "property": "C71",
   "status": "partial",
   "theorems": [
    "Cssc.vlqDecode_format_refuted",
    "Cssc.vlqDecode_format_partial",
    "Cssc.vlqDecode_foreign",
    "Cssc.vlqDecode_safe"
   ],
   "note": "False: a text that begins with no VLQ number is not refused (a byte below 127 that is no digit is read like A, see vlqDecode_foreign). Proved: numbers of less than 32 bits are read by the format; no panic on ASCII."
  },
  {
   "property": "C72",
   "status": "partial",
   "theorems": [
    "Cssc.places_refuted",
    "Cssc.places_partial",
    "Cssc.parse_places_partial",
    "Cssc.some_place_partial"
   ],
   "note": "False with inlined imports: problems in the imported file are reported again, as places in the importing file. Proved for all other import rules, for the errors of the parser in every mode, and in every mode: the place exists in some file of the compilation."
  },
  {
   "property": "C73",
   "status": "partial",
   "theorems": [
    "Cssc.onLoad_refuted",
    "Cssc.onLoad_safe_partial",
    "Cssc.rendered_exists",
    "Cssc.onLoad_output",
    "Cssc.onLoad_failed",
    "Cssc.onLoad_not_clean"
   ],
   "note": "False with inlined imports, see C72: the plugin panics. Proved for the other import rules; what is returned when nothing is reported is proved in every mode."
  },
  {
   "property": "C74",
   "status": "partial",
   "theorems": [
    "Cssc.transform_again_refuted",
    "Cssc.transform_again_partial"
   ],
   "note": "False: without a map of replacements imports are doubled each time, ranges in custom media queries are only lowered the second time, and var() is resolved one step at a time. Proved for all stylesheets, replacements and arithmetic if there is a map of replacements, custom properties are left alone, and no custom media query has a range (or one of the two features is off)."
  },
  {
   "property": "C75",
   "status": "partial",
   "theorems": [
    "Cssc.sharing_refuted",
    "Cssc.sharing_partial",
    "Cssc.shared_reached",
    "Cssc.cached_kept"
   ],
   "note": "False with inlined imports and custom properties: one entry writes its values into the nodes of a file that another entry shares. Proved, under every schedule, for all options but inlining together with custom properties or custom media queries. CompileHeap.lean has the machine with nodes in memory; one call of Transform is one step, so races between two transformations of the same nodes are outside the model."
  },
  {
   "property": "C76",
   "status": "proved",
   "theorems": [
    "Cssc.frame",
    "Cssc.frame_file"
   ],
   "note": "What is asked for is defined in Spec/Compile.lean (Asked). The resolver is a function here; which files NodeResolver itself looks at is not part of this claim."
  },
  {
   "property": "C77",
   "status": "partial",
   "theorems": [
    "Cssc.alone_refuted",
    "Cssc.alone_partial",
    "Cssc.alone_entry_partial",
    "Cssc.alone_returns_partial",
    "Cssc.entries_order_partial"
   ],
   "note": "False for some schedules: goroutines read the loop variable after the loop, so that an entry is not compiled at all. Proved for sequential compilations of acyclic imports: the same files, byte for byte including the source map (that they return is proved for legible files: alone_returns_partial). tidy_alone (C81) has it for all schedules in which loop variables are read in time and no number is given twice."
  },
  {
   "property": "C78",
   "status": "partial",
   "theorems": [
    "Cssc.errors_true_refuted",
    "Cssc.errors_true_partial",
    "Cssc.errors_true_distinct_partial",
    "Cssc.errors_true_seq_partial",
    "Cssc.no_false_alarm_partial"
   ],
   "note": "False: two goroutines can take the same number for two files; then a blank file is said not to be printable. Proved under every schedule in which no number is given twice (so for all sequential ones), and under every schedule for everything but what is found by transforming and printing. Parsing, transforming and printing are single steps of the machine."
  },
  {
   "property": "C79",
   "status": "partial",
   "theorems": [
    "Cssc.written_true_refuted",
    "Cssc.written_true_partial",
    "Cssc.written_true_distinct_partial",
    "Cssc.written_true_seq_partial"
   ],
   "note": "False: two goroutines can take the same number for two files; then the content of one is written under the name of the other, and nothing is reported. Proved under every schedule in which no number is given twice (so for all sequential ones); under every schedule, what is written is made of some file that is looked at."
  },
  {
   "property": "C80",
   "status": "partial",
   "theorems": [
    "Cssc.map_true_twice_refuted",
    "Cssc.map_true_inline_refuted",
    "Cssc.map_true_raw_refuted",
    "Cssc.map_true_partial",
    "Cssc.map_true_seq_partial"
   ],
   "note": "False: two goroutines can parse the same source, which makes its line table twice; places in inlined files are given as places in the importing file; declarations that are kept as text spoil the line table (C08). Proved in all other cases: under every schedule in which no number is given twice, for every file that was parsed once, has no declaration kept as text and nothing inlined; for sequential compilations of acyclic imports without the first two conditions."
  },
  {
   "property": "C81",
   "status": "proved",
   "theorems": [
    "Cssc.tidy_errors",
    "Cssc.tidy_files",
    "Cssc.tidy_agree",
    "Cssc.tidy_sequential",
    "Cssc.tidy_alone",
    "Cssc.seqCompile_tidy",
    "Cssc.tidy_needed"
   ],
   "note": "The conditions on the schedule are part of the statement: without them the outcome does depend on it (C46, C47, C49, C69, C77, tidy_needed). If imports are inlined, the loop variable is read a second time, when the stylesheet is handed over. Parsing, transforming and printing are single steps of the machine."
  },
  {
   "property": "C82",
   "status": "partial",
   "theorems": [
    "Cssc.never_stuck",
    "Cssc.compile_ends_partial",
    "Cssc.compile_returns_all_partial",
    "Cssc.no_endless_schedule_partial",
    "Cssc.Legible.tame",
    "Cssc.compile_ends_refuted"
   ],
   "note": "Never being stuck is proved for all schedules, with cycles too. The bound is false: if two files get the same number, an acyclic project can recurse for ever (compile_ends_refuted). Proved: the bound for all schedules that give no number to two files. Legible.tame: files that are parsed (or not, but with an error) and have no rule without prelude and no @media without queries make nothing panic or loop, whatever the options."
  },
  {
   "property": "C83",
   "status": "proved",
   "theorems": [
    "Cssc.crash_two_ways",
    "Cssc.no_map_clash",
    "Cssc.no_missing_source",
    "Cssc.unshared_no_crash",
    "Cssc.unshared_returns",
    "Cssc.late_start_refuted",
    "Cssc.same_number_refuted"
   ],
   "note": "Who asks for a file (Request, Unshared) and the two ways to crash are defined in Spec/Crash.lean. late_start_refuted and same_number_refuted: the conditions on the schedule are needed. unshared_returns: with C82, such schedules return."
  },
  {
   "property": "C84",
   "status": "proved",
   "theorems": [
    "Cssc.compiled_total",
    "Cssc.Compiled.fits"
   ],
   "note": "Compiled (Props/Output.lean) is what comes from parsing and transforming. The two constructs of C39 are excluded from the parsed stylesheets. The example transforms a stylesheet whose import is replaced by a transformed one, with all features."
  },
  {
   "property": "C85",
   "status": "partial",
   "theorems": [
    "Cssc.bundle_whole_refuted",
    "Cssc.bundle_whole_partial",
    "Cssc.bundle_whole_seq"
   ],
   "note": "False for some schedules: an import stays in the output and nothing is reported (bundle_whole_refuted). Proved for every schedule in which the loop variables are read in time and no number is given twice (bundle_whole_partial), and for the sequential one, which returns if the files are legible (bundle_whole_seq). Unlike C64 it does not assume that nothing is reported."
  },
  {
   "property": "C86",
   "status": "proved",
   "theorems": [
    "Cssc.written_parses",
    "Cssc.written_sources_parse",
    "Cssc.written_plain_parses"
   ],
   "note": "race_written: in one schedule two files have the same number and the content of one is written under the name of the other; the text is still parsed as what was made. Parsing, transforming and printing are single steps of the machine; what concurrent transformations of shared trees could do is C75."
  },
  {
   "property": "C87",
   "status": "partial",
   "theorems": [
    "Cssc.recompile_refuted",
    "Cssc.recompile_partial",
    "Cssc.recompile_one_partial"
   ],
   "note": "False for some schedules: of two entries one is compiled twice and the other never. Proved if both schedules read the loop variables in time and give no number twice (all sequential ones do); if the second project has one entry, for all schedules of the second compilation, none of which crashes, gets stuck or goes on for ever. The source map is not the same: it is one of the other file."
  },
  {
   "property": "C88",
   "status": "partial",
   "theorems": [
    "Cssc.meaning_refuted",
    "Cssc.meaning_partial"
   ],
   "note": "False: a range with two bounds, or a custom media query with several conditions, under not or beside or, becomes something else; a custom media query that is used before its definition is left undefined. Proved for Lowerable stylesheets (Spec/Cascade.lean), where these do not occur, no selector has two :any-link, and < and > are only used on features whose values are not closer than 0.001 to a bound. What a browser takes from a stylesheet is specified in Spec/Cascade.lean (applied), with documents, devices and meanings as parameters."
  },
  {
   "property": "C89",
   "status": "partial",
   "theorems": [
    "Cssc.project_says_refuted",
    "Cssc.project_says_partial",
    "Cssc.project_says_seq",
    "Cssc.project_shared_partial",
    "Cssc.project_shared_seq"
   ],
   "note": "False: imported files are transformed by themselves, so a custom media query that an imported file defines is unknown in the file that imports it, and nothing is reported. Proved for lucid projects (Spec/Project.lean): the files are there, imports have no conditions, media queries have no or and no not (...), and a file that uses a custom media query that is defined anywhere defines it itself, before and in the same way; for all schedules in which loop variables are read in time and no number is given twice, and for the sequential one. Sources must have no construct that printing loses (Ready), and the computed numbers and remaining arithmetic must be writable (Reckoned). project_says is about stylesheets as values; without custom media queries it is also proved for the machine in which stylesheets share nodes in memory (project_shared), with them it is not shown there."
  },
  {
   "property": "C90",
   "status": "partial",
   "theorems": [
    "Cssc.custom_meaning_refuted",
    "Cssc.custom_meaning_partial",
    "Cssc.custom_written_partial"
   ],
   "note": "False: :root{--x:d} without a space before the brace is not taken, but fallbacks are used all the same; var() within functions, other custom properties and at-rules stays while the definition is removed; a declaration for some elements only is overlooked; uses before the declaration get the fallback. Proved for Rooted stylesheets (Spec/Var.lean): custom properties are declared in rules :root {...} (with a space), before they are used, without !important, and var() only stands directly in declarations of rules; and, for the other features, Lowerable (C88). How a browser finds the value of a custom property is a parameter (Custom), constrained only where all declarations come from :root. custom_written_partial: the same of what Compile writes for a file without imports, under every schedule in which no number is given twice."
  },
  {
   "property": "C91",
   "status": "partial",
   "theorems": [
    "Cssc.project_custom_refuted",
    "Cssc.project_custom_partial",
    "Cssc.project_custom_seq"
   ],
   "note": "False: imported files are transformed by themselves, so the custom properties of an imported file are removed there and unknown in the file that imports it; fallbacks are used, and nothing is reported (without a fallback there is a warning). Proved for projects that are lucid (as for C89) and in which every file is Rooted (as for C90) and has itself the custom properties that it asks for, in the same way as any other file that has them (OwnVars, Spec/VarProject.lean); for all schedules in which loop variables are read in time and no number is given twice, and for the sequential one. Sources must be Ready and outputs Reckoned, as for C89. About stylesheets as values; with custom properties and inlining it is not shown that sharing nodes in memory makes no difference (C75)."
  },
  {
   "property": "C92",
   "status": "partial",
   "theorems": [
    "Cssc.apart_wins_refuted",
    "Cssc.apart_wins_partial",
    "Cssc.apart_wins_seq",
    "Cssc.followed_wins_partial",
    "Cssc.followed_wins_seq",
    "Cssc.followed_all",
    "Cssc.followed_project_partial",
    "Cssc.followed_project_seq"
   ],
   "note": "False where lowering is wrong, see C88 (a range with two bounds under not). Proved, for the machine with nodes shared in memory and all schedules in which no number is given twice, for files that are Ready and Lowerable (as for C88) and whose computed numbers and remaining arithmetic can be written (Reckoned). The cascade is specified in Spec/Win.lean; what imported stylesheets say is a parameter of apart_wins; followed_wins puts the written files together, every file with its own custom media queries and none in the conditions of imports, and takes for granted that every file that can be parsed is written; followed_project shows this in follow mode for schedules in which loop variables are read in time."
  },
  {
   "property": "C93",
   "status": "partial",
   "theorems": [
    "Cssc.inlined_loaded_refuted",
    "Cssc.included_loaded",
    "Cssc.inlined_loaded_partial",
    "Cssc.inlined_loaded_seq",
    "Cssc.inlined_loaded_shared_partial",
    "Cssc.modes_agree_partial",
    "Cssc.modes_agree_seq"
   ],
   "note": "False: the condition of an import is lost when the imported file is inlined (the program warns of it), and what is said for one medium is written for all. Proved for lucid and ready projects as C89, whose imports have no conditions, for loading to all depths that are deep enough, in all schedules in which loop variables are read in time and no number is given twice, and for the sequential one; with nodes shared in memory without custom media queries. That inlining and following agree (modes_agree_partial) is proved for any two such schedules, and for the sequential compilation of acyclic and legible projects (modes_agree_seq). Browsers are as in Spec/Win.lean: every import is loaded, wherever it stands in its file."
  }
 ]
}