{"id": "C01", "title": "VLQ encode/decode round trip", "statement": "For every int32 n with |n| < 2^30 and every byte sequence rest, VLQDecode(VLQEncode(n) ++ rest) returns (n, len(VLQEncode(n))): the decoder recovers the number and stops exactly at the end of the encoding.", "quantifier": "all 2^31-1 integers in (-2^30, 2^30) and all trailing byte sequences", "why_tests_cant": "The tests encode four positive literals; no negative number, no sextet boundary and no trailing data is exercised exhaustively.", "anchors": ["internal/printer/sourcemaps.go:VLQEncode", "internal/printer/sourcemaps.go:VLQDecode"]}
{"id": "C02", "title": "VLQ output is self-delimiting base64", "statement": "For every int32 n with |n| < 2^30, VLQEncode(n) is 1 to 7 bytes of the base64 alphabet (so it never contains ',' or ';'); decoding the concatenation of the encodings of any list of such integers, one after another, returns exactly that list.", "quantifier": "all integers in range and all finite lists of them", "why_tests_cant": "Unique decodability of concatenations quantifies over unbounded lists.", "anchors": ["internal/printer/sourcemaps.go:VLQEncode", "internal/printer/sourcemaps.go:VLQDecode"]}
{"id": "C03", "title": "Exact int32 domain of the VLQ codec", "statement": "VLQDecode(VLQEncode(n)) = n holds for an int32 n if and only if |n| < 2^30; outside that range the encoder silently emits a wrong encoding.", "quantifier": "all 2^32 int32 values", "why_tests_cant": "The boundary is in overflow behaviour of 32-bit shifts; no sample of values establishes an iff over all int32.", "anchors": ["internal/printer/sourcemaps.go:VLQEncode"]}
{"id": "C04", "title": "Source map decodes to the position of every printed rule", "statement": "For every stylesheet printed with an original source (sizes below 2^30, line table = the line starts of the original, see C08), splitting the mappings string at ';' and ',' and VLQ-decoding each segment cumulatively as the source-map format prescribes yields, for every rule and at-rule in print order, exactly one segment: the line and rune column at which that rule's text begins in the output, source 0, and the zero-based line and column of the rule's start offset in the original.", "quantifier": "all stylesheets, all original sources and all output texts, including outputs with embedded newlines", "why_tests_cant": "Tests only cover VLQEncode; no test decodes a mappings string, and the property quantifies over all stylesheets.", "anchors": ["internal/printer/printer.go:addMapping", "internal/printer/printer.go:print", "internal/printer/sourcemaps.go:VLQEncode"]}
{"id": "C05", "title": "Requesting a source map never changes the CSS", "statement": "For every AST node, if printing with an original source succeeds then printing without one succeeds too, and the output with a source is the output without one followed by a single trailing comment '/*# sourceMappingURL=... */'.", "quantifier": "all AST nodes and all sources", "why_tests_cant": "Ranges over all ASTs.", "anchors": ["internal/printer/printer.go:Print", "internal/printer/printer.go:printMapping", "internal/printer/printer.go:addMapping"]}
{"id": "C06", "title": "Lexing builds the exact line table", "statement": "For every source text, after running the lexer with Next to the end of input, Source.Lines is 0 followed by the offset just after every newline byte of the text, in increasing order - also with CRLF, lone CR and invalid UTF-8.", "quantifier": "all byte strings", "why_tests_cant": "All texts, including every mix of CR, LF and malformed UTF-8.", "anchors": ["internal/lexer/lexer.go:step", "internal/lexer/lexer.go:Next", "internal/sources/source.go:Source"]}
{"id": "C07", "title": "LineAndCol is exact and inverts to the offset", "statement": "With the exact line table, for every offset o in the text LineAndCol(o) returns line = 1 + number of newline bytes before o, and col = 1 + distance from the start of that line; so start-of-line(line) + col - 1 = o.", "quantifier": "all sources and all offsets 0 <= o <= len", "why_tests_cant": "Binary search correctness over all tables and all offsets.", "anchors": ["internal/sources/source.go:LineAndCol"]}
{"id": "C08", "title": "Line table stays exact through Parse", "statement": "After any successful Parse the source's line table is still the exact sorted table of line starts, so every later source-map and error position is right.", "quantifier": "all source texts for which Parse succeeds", "why_tests_cant": "The table is mutated during backtracking; only some inputs reach the fallback path across a newline.", "anchors": ["internal/parser/parser.go:parseDeclarationOrFallback", "internal/lexer/lexer.go:step"]}
{"id": "C09", "title": "Error rendering never panics on a valid span", "statement": "For every source with an exact line table and every span with Start <= End <= len(content), AnnotateSourceSpan (hence Error()) returns normally: it prints exactly the full line containing Start, indented by the start column plus the number of tabs of the line, with an underline that is cut at the end of that line and marked '>' exactly when the span continues past it.", "quantifier": "all sources and all in-range spans", "why_tests_cant": "strings.Repeat and slicing panic on negative counts; safety is over all spans.", "anchors": ["internal/logging/logging.go:AnnotateSourceSpan", "internal/sources/source.go:FullLine"]}
{"id": "C10", "title": "The lexer always terminates and never indexes out of range", "statement": "For every source text and any sequence of Next calls with any whitespace/comment retention settings, each Next call returns a token or a located lexer error after finitely many steps; it never loops forever inside a call and never indexes or slices out of range.", "quantifier": "all byte strings, all reachable lexer states, all settings of the retention flags", "why_tests_cant": "Termination and bounds-safety over every byte string and every lexer state.", "anchors": ["internal/lexer/lexer.go:Next", "internal/lexer/lexer.go:step", "internal/lexer/lexer.go:peek"]}
{"id": "C11", "title": "Token spans are ordered and inside the source", "statement": "In every run of the lexer each token span satisfies Start <= End <= len(content), and the next token starts at or after the end of the previous one.", "quantifier": "all byte strings and all sequences of Next calls", "why_tests_cant": "Holds over whole token histories.", "anchors": ["internal/lexer/lexer.go:TokenSpan", "internal/lexer/lexer.go:Next"]}
{"id": "C12", "title": "Token text is the source text", "statement": "For every Ident, Delim, Number and Dimension token produced, the literal text reported (number followed by unit for dimensions) is exactly the source slice of the token's span.", "quantifier": "all byte strings and all tokens produced from them", "why_tests_cant": "All inputs.", "anchors": ["internal/lexer/lexer.go:nextNumericToken", "internal/lexer/lexer.go:nextIdentLikeToken", "internal/lexer/lexer.go:nextDelimToken"]}
{"id": "C13", "title": "Every Next call makes progress", "statement": "Whenever the lexer is not at end of input, Next consumes at least one byte, so repeatedly calling Next reaches EOF (or an error).", "quantifier": "all byte strings, all lexer states", "why_tests_cant": "Stuck tokens occur only on specific byte sequences.", "anchors": ["internal/lexer/lexer.go:Next"]}
{"id": "C14", "title": "Whitespace and comments before a token are transparent", "statement": "With retention off, Next never reports a Whitespace or Comment token; and lexing any whitespace or any terminated comment in front of a text gives the same token and literals as lexing the text itself, with offsets shifted by the prefix length.", "quantifier": "all texts, all whitespace runs and all comment bodies", "why_tests_cant": "Unbounded comment bodies and suffixes.", "anchors": ["internal/lexer/lexer.go:Next"]}
{"id": "C15", "title": "Plain identifiers, numbers and strings lex as single tokens", "statement": "For every escape-free CSS identifier (not beginning with a non-ASCII decimal digit), every number [+-]?digits[.digits][e[+-]digits], every quoted body with no matching quote, backslash, LF or CR, and every punctuation, delimiter, function, at-keyword, hash, percentage and dimension token built from them, followed by a text that cannot extend it, Next yields exactly that one token with exactly that literal; a text laid out as a sequence of such tokens separated by whitespace and comments is lexed as exactly that sequence, then EOF.", "quantifier": "all names, numerals and string bodies of any length and all following texts", "why_tests_cant": "Maximal-munch over unbounded inputs.", "anchors": ["internal/lexer/lexer.go:nextName", "internal/lexer/lexer.go:nextNumber", "internal/lexer/lexer.go:Next"]}
{"id": "C16", "title": "A backslash-escaped character belongs to its token", "statement": "A quote escaped by a backslash inside a string does not end the string, and an escaped non-hex character inside an identifier is part of that identifier (as the CSS syntax the lexer cites requires).", "quantifier": "all strings and identifiers containing escapes", "why_tests_cant": "All escape sequences in all positions.", "anchors": ["internal/lexer/lexer.go:nextEscaped", "internal/lexer/lexer.go:Next"]}
{"id": "C17", "title": "Parse returns an error instead of panicking", "statement": "For every source text Parse returns a stylesheet or a non-nil error; it never panics.", "quantifier": "all byte strings", "why_tests_cant": "All inputs; panics hide behind nil dereferences and behind the lexer being primed outside the recover.", "anchors": ["internal/parser/parser.go:Parse", "internal/parser/parser.go:newParser", "internal/parser/parser.go:parseCustomMediaAtRule", "internal/parser/parser.go:parseMathSum"]}
{"id": "C18", "title": "Parse terminates", "statement": "For every source text Parse returns after finitely many steps.", "quantifier": "all byte strings", "why_tests_cant": "Non-termination cannot be observed by a test that finishes.", "anchors": ["internal/parser/parser.go:parseRaw", "internal/parser/parser.go:parse", "internal/parser/parser.go:parseValue"]}
{"id": "C19", "title": "Spans of a parsed stylesheet are valid and in document order", "statement": "If Parse succeeds, every span in the tree satisfies Start <= End <= len(content), top-level nodes are in document order without overlap, and each rule's selectors and block lie inside the rule's span.", "quantifier": "all source texts for which Parse succeeds; all nodes of the tree", "why_tests_cant": "All inputs and unbounded nesting.", "anchors": ["internal/parser/parser.go:Parse", "internal/parser/selectors.go:parseSelector", "internal/ast/ast.go:Span"]}
{"id": "C20", "title": "Parsed literals are verbatim source text", "statement": "If Parse succeeds, every string literal stored in the tree (names, numbers, units, strings, property names, raw text) is a contiguous slice of the source text or one of the fixed strings the parser itself supplies.", "quantifier": "all source texts for which Parse succeeds; all nodes of the tree", "why_tests_cant": "All inputs and unbounded nesting.", "anchors": ["internal/parser/parser.go", "internal/parser/selectors.go"]}
{"id": "C21", "title": "Imports lists exactly the @import rules", "statement": "If Parse succeeds, the stylesheet's Imports are, in order, exactly the @import at-rules among its Nodes, each with the specifier string that the rule carries as its first prelude.", "quantifier": "all source texts for which Parse succeeds", "why_tests_cant": "All inputs.", "anchors": ["internal/parser/parser.go:parseImportAtRule", "internal/ast/ast.go:ImportSpecifier"]}
{"id": "C22", "title": "Structural validity of parse results", "statement": "If Parse succeeds: every declaration has at least one value; every selector list and every selector is non-empty; every keyframe selector is a percentage or 'from'/'to'; every media range operator is one of < <= > >=; every @custom-media has a name and exactly one query; pseudo-class arguments of nth-* are even, odd or An+B.", "quantifier": "all source texts for which Parse succeeds; all nodes of the tree", "why_tests_cant": "All inputs and unbounded nesting.", "anchors": ["internal/parser/parser.go", "internal/parser/selectors.go"]}
{"id": "C23", "title": "Math expressions respect precedence and associativity", "statement": "In every parsed calc/min/max/clamp argument, operators are only + - * /; an operand of * or / is never an unparenthesised sum, and the right operand of any operator is never an unparenthesised expression of the same precedence level: products bind tighter than sums and both associate to the left.", "quantifier": "all source texts for which Parse succeeds; all math expressions in the tree", "why_tests_cant": "Unbounded expression nesting.", "anchors": ["internal/parser/parser.go:parseMathSum", "internal/parser/parser.go:parseMathProduct", "internal/parser/parser.go:parseMathParenthesizedExpression"]}
{"id": "C24", "title": "A malformed declaration is preserved verbatim and contained", "statement": "If a declaration cannot be parsed, the block keeps the exact source text from where it started up to and including the next semicolon token as a raw declaration, and parsing continues after that semicolon; Parse does not fail because of it.", "quantifier": "all block contents in which a declaration fails to parse and a later semicolon token exists", "why_tests_cant": "All malformed prefixes.", "anchors": ["internal/parser/parser.go:parseDeclarationOrFallback", "internal/parser/parser.go:parseRaw"]}
{"id": "C25", "title": "Parsing is a function of the text", "statement": "Two parses of the same text return the same stylesheet, error or panic, and giving a parse more steps never changes a result it has already reached.", "quantifier": "all source texts and all step budgets", "why_tests_cant": "Quantifies over all inputs and all budgets.", "anchors": ["internal/parser/parser.go:Parse"]}
{"id": "C26", "title": "Printing a well-formed stylesheet and re-parsing it gives it back", "statement": "For every stylesheet in the printable class (rules with type/class/id/universal/combinator/pseudo/attribute selectors, declarations with identifiers, numbers, dimensions, hex colours, strings, commas, delimiters, functions and brackets, !important, @media with plain and range features, @keyframes, @import, @custom-media, @font-face-like rules), whose tokens do not run into each other when written as the printer writes them, Print succeeds, and Parse of its output succeeds and returns a stylesheet equal to s up to spans (and white space at the end of selectors).", "quantifier": "all stylesheets of the class, unbounded in rules, selectors, declarations, values and nesting", "why_tests_cant": "Round trip over an infinite class of trees.", "anchors": ["internal/printer/printer.go:print", "internal/parser/parser.go:Parse", "internal/lexer/lexer.go:Next"]}
{"id": "C27", "title": "Print never loses meaning of accepted input", "statement": "For every source text accepted by Parse, re-parsing the printed output gives the same stylesheet up to spans.", "quantifier": "all source texts accepted by Parse", "why_tests_cant": "All inputs; each lossy construct is a separate corner.", "anchors": ["internal/printer/printer.go:print"]}
{"id": "C28", "title": "Print reports problems as errors", "statement": "Print of a stylesheet returned by Parse never panics: it returns the output or an error, and it returns an error only if the tree contains an empty media query list, a rule without a selector or an empty parenthesised math expression.", "quantifier": "all stylesheets produced by Parse", "why_tests_cant": "All inputs.", "anchors": ["internal/printer/printer.go:Print"]}
{"id": "C29", "title": "Printed An+B means what was written", "statement": "For every An+B argument produced by the parser for nth-child and friends, the printed text denotes the same set of indices as the source.", "quantifier": "all integer coefficients A and B and all spellings the parser accepts", "why_tests_cant": "All integers and spellings.", "anchors": ["internal/printer/printer.go:print", "internal/parser/selectors.go:parseANPlusB"]}
{"id": "C30", "title": "Default options leave the stylesheet unchanged", "statement": "With the default (all passthrough) options Transform reports nothing and returns the stylesheet unchanged: every rule, at-rule, selector, media query and value is passed down as is.", "quantifier": "all stylesheets", "why_tests_cant": "All stylesheets.", "anchors": ["internal/transformer/transformer.go:Transform", "transforms/transforms.go:Options"]}
{"id": "C31", "title": ":any-link is replaced by an equivalent selector list", "statement": "With AnyLinkTransform, for every rule the transformed selector list contains no :any-link at the top level of a selector and matches exactly the same elements as the original list, where :any-link means ':link or :visited'.", "quantifier": "all selector lists and all elements/matching environments", "why_tests_cant": "Semantic equivalence over all selectors and all matching environments.", "anchors": ["internal/transformer/transformer.go:transformSelectors"]}
{"id": "C32", "title": "Range media features become equivalent min-/max- features", "statement": "With MediaFeatureRangesTransform, for every range feature with at least one bound written with <= or >= the emitted min-/max- conjunction accepts exactly the same feature values as the range; with < or > the emitted bounds are the written bounds moved 0.001 inward; and no range feature written in an @media rule remains.", "quantifier": "all range features, all bounds and all feature values", "why_tests_cant": "Equivalence over all values.", "anchors": ["internal/transformer/transformer.go:transformMediaFeatureRange", "internal/transformer/transformer.go:transformMediaQueryParts"]}
{"id": "C33", "title": "Custom media are substituted", "statement": "With CustomMediaQueriesTransform, every (--name) in a top-level @media rule that was defined by an earlier @custom-media is replaced by the defining query's parts and nothing else in the query changes; an undefined (--name) is left alone; no @custom-media rule is left.", "quantifier": "all stylesheets and all definition/use orders", "why_tests_cant": "All interleavings of definitions and uses.", "anchors": ["internal/transformer/transformer.go:transformMediaQueryParts", "internal/transformer/transformer.go:transformNodes"]}
{"id": "C34", "title": "Only :root custom properties are substituted", "statement": "With CustomPropertiesTransformRoot, a custom property definition is collected if and only if its rule's selector is exactly :root; definitions under any other selector are passed through untouched.", "quantifier": "all rules and selectors", "why_tests_cant": "All selector shapes.", "anchors": ["internal/transformer/transformer.go:transformNodes"]}
{"id": "C35", "title": "var() resolves to the collected definition, else the fallback", "statement": "With CustomPropertiesTransformRoot, a var(--x) among a declaration's values is replaced by the most recently collected definition of --x, else by its fallback values if it has any, else it is left in place and a warning is reported; all other values keep their order and content.", "quantifier": "all value lists and all definition environments", "why_tests_cant": "All values and environments.", "anchors": ["internal/transformer/transformer.go:transformValues"]}
{"id": "C36", "title": "calc() reduction is unit-safe and value-correct", "statement": "With CalcReductionReduce, if a calc() is replaced, the replacement is a single dimension whose number is the value of the expression and whose unit follows CSS typing (sums of equal units; products and quotients with a plain number); expressions with mixed units, unit*unit, division by a unit or by zero are left as they were written.", "quantifier": "all expression trees, all units and all numerals", "why_tests_cant": "Unbounded expression trees and all number formats.", "anchors": ["internal/transformer/transformer.go:transformValues", "internal/transformer/transformer.go:evaluateMathExpression", "internal/transformer/transformer.go:doMath"]}
{"id": "C37", "title": "Inlined imports appear exactly where they were imported", "statement": "With import replacements, each @import that has a replacement is replaced at its position by the transformed nodes of the imported sheet, each @import without one is kept exactly once, and the relative order of all other rules is unchanged.", "quantifier": "all stylesheets and all replacement maps", "why_tests_cant": "All stylesheets and maps.", "anchors": ["internal/transformer/transformer.go:transformNodes"]}
{"id": "C38", "title": "Each transform touches only its own feature", "statement": "Selectors other than those with :any-link, declarations without var()/calc() other than collected custom properties, media features that are neither ranges nor custom, and all at-rules other than @import, @custom-media and @media come out of Transform unchanged under every combination of options.", "quantifier": "all stylesheets and all option combinations", "why_tests_cant": "All stylesheets times all option combinations.", "anchors": ["internal/transformer/transformer.go"]}
{"id": "C39", "title": "Transform does not crash on parsed input", "statement": "For every source text accepted by Parse and every options value, Transform returns without panicking.", "quantifier": "all source texts and options", "why_tests_cant": "All inputs.", "anchors": ["internal/transformer/transformer.go:transformNodes"]}
{"id": "C40", "title": "A resolved import is an existing regular file", "statement": "Whenever NodeResolver.Resolve returns a path without error, that path names an existing non-directory in the file system.", "quantifier": "all file systems, specs, base URLs and starting directories", "why_tests_cant": "All file-system states.", "anchors": ["resolver/node_resolver.go:Resolve", "resolver/node_resolver.go:resolve", "resolver/node_resolver.go:resolveAsDir"]}
{"id": "C41", "title": "Relative specs resolve only relative to the importing file", "statement": "A spec starting with './', '../' or '/' resolves only through Join(fromDir, spec): base URL and node_modules are never consulted, whatever the file system contains.", "quantifier": "all file systems and specs", "why_tests_cant": "All file-system states.", "anchors": ["resolver/node_resolver.go:Resolve"]}
{"id": "C42", "title": "Package specs prefer the base URL, then the nearest node_modules", "statement": "A non-relative spec resolves to the base URL candidate if that resolves, otherwise to the first candidate that resolves among node_modules directories from fromDir upwards, otherwise to ErrNotFound.", "quantifier": "all file systems, specs, base URLs and absolute directories of any depth", "why_tests_cant": "Unbounded directory depth and all file systems.", "anchors": ["resolver/node_resolver.go:Resolve", "resolver/node_resolver.go:resolveFromNodeModules"]}
{"id": "C43", "title": "Resolve terminates", "statement": "Resolve returns after finitely many steps for every starting directory.", "quantifier": "all specs and all starting directories, absolute or relative", "why_tests_cant": "Non-termination is not observable by a finishing test.", "anchors": ["resolver/node_resolver.go:resolveFromNodeModules"]}
{"id": "C44", "title": "File lookup order", "statement": "For a candidate path: an existing file wins; a missing path falls back to path+'.css' if that is a file; a directory resolves to its package.json style entry when package.json is readable, and to index.css only when it is not.", "quantifier": "all file systems and candidate paths", "why_tests_cant": "All file-system states.", "anchors": ["resolver/node_resolver.go:resolve", "resolver/node_resolver.go:resolveAsDir"]}
{"id": "C45", "title": "Output files are exactly requested files", "statement": "Under every interleaving of the compilation's goroutines, every key of Result.Files is the absolute path of an entry or (in follow mode) of an imported file, that was read successfully.", "quantifier": "all entry lists, file systems, import graphs and goroutine schedules", "why_tests_cant": "All schedules.", "anchors": ["api.go:Compile", "api.go:parseFile", "api.go:addSource"]}
{"id": "C46", "title": "Every readable, parseable entry gets its own output", "statement": "Under every schedule, Result.Files contains, for each entry that can be read, parsed and printed, its path mapped to the compilation of that very file.", "quantifier": "all entry lists and goroutine schedules", "why_tests_cant": "Data races appear only in some schedules.", "anchors": ["api.go:Compile", "api.go:addSource"]}
{"id": "C47", "title": "Every import statement is processed", "statement": "Under every schedule, each @import of a file is resolved with its own specifier and its own rule is the one replaced.", "quantifier": "all import lists and goroutine schedules", "why_tests_cant": "Loop-variable capture is a schedule-dependent bug.", "anchors": ["api.go:parseFile"]}
{"id": "C48", "title": "Compilation terminates on every import graph", "statement": "Compile returns for every finite set of files, including files that import each other.", "quantifier": "all file systems and import graphs", "why_tests_cant": "Non-termination.", "anchors": ["api.go:parseFile"]}
{"id": "C49", "title": "A failed file is reported and produces no output", "statement": "For a sequential compilation, an entry that cannot be read or parsed contributes at least one reported error and no output, and does not prevent the other entries from being compiled.", "quantifier": "all entry lists and file systems", "why_tests_cant": "All combinations of failing and succeeding files.", "anchors": ["api.go:parseFile", "api.go:Compile"]}
{"id": "C50", "title": "A file is parsed at most once per successful compilation", "statement": "In a sequential compilation without failures each file is read and parsed once however many entries and imports refer to it, and all of them see the same stylesheet.", "quantifier": "all acyclic import graphs", "why_tests_cant": "All graphs.", "anchors": ["api.go:addSource", "api.go:parseFile"]}
{"id": "C51", "title": "Walk visits every node of a parsed stylesheet", "statement": "For every stylesheet produced by Parse, Walk returns normally, visits every node of the tree, parents before children and siblings in document order.", "quantifier": "all stylesheets produced by Parse", "why_tests_cant": "All trees.", "anchors": ["internal/ast/walk.go:Walk"]}
{"id": "C52", "title": "The esbuild plugin reports each problem exactly once", "statement": "For every list of compilation errors the plugin's result contains exactly one message per error, in order.", "quantifier": "all error lists", "why_tests_cant": "All lists.", "anchors": ["esbuildplugin/plugin.go:toEsbuild"]}
{"id": "C53", "title": "The esbuild plugin never returns contents together with errors", "statement": "OnLoad returns contents if and only if the compilation reported no error and produced output for the requested path; the contents are that output.", "quantifier": "all compilations", "why_tests_cant": "All compilations.", "anchors": ["esbuildplugin/plugin.go:Plugin"]}
{"id": "C54", "title": "The underline is under the span", "statement": "The number of characters printed before the underline equals the display width of the text printed before the span's start on the line above, counting each tab as the annotation does, for every source and span.", "quantifier": "all sources and all in-range spans", "why_tests_cant": "All lines with tabs anywhere.", "anchors": ["internal/logging/logging.go:AnnotateSourceSpan"]}
{"id": "C55", "title": "The esbuild message points at the error", "statement": "For every error with a location inside its file, the esbuild message names the file, the line number, the column, the text of the line and its length.", "quantifier": "all sources with an exact line table and all in-range spans", "why_tests_cant": "All files and all positions; the repository has no test of the plugin.", "anchors": ["esbuildplugin/plugin.go:toEsbuild"]}
{"id": "C56", "title": "No schedule makes Compile crash", "statement": "If every file can be parsed, transformed and printed without a panic, then no schedule of the goroutines makes Compile panic or be killed by the runtime.", "quantifier": "all entry lists, file systems, import graphs and goroutine schedules", "why_tests_cant": "A crash needs a particular interleaving.", "anchors": ["api.go:Compile", "api.go:parseFile", "api.go:addSource"]}
{"id": "C57", "title": "Output without a source map does not depend on positions", "statement": "If two stylesheets differ only in source positions (and white space at the end of selectors), Print without a source to map to returns the same for both: the same text, or an error or panic for both.", "quantifier": "all pairs of stylesheets that are equal up to positions", "why_tests_cant": "Relates two runs over an infinite class of trees.", "anchors": ["internal/printer/printer.go:Print"]}
{"id": "C58", "title": "Printed text is a normal form", "statement": "For printable stylesheets (C26): printing, parsing and printing again gives the same text; and two stylesheets that are printed alike are equal up to positions.", "quantifier": "all stylesheets of the class of C26", "why_tests_cant": "Round trips and injectivity over an infinite class of trees.", "anchors": ["internal/printer/printer.go:Print", "internal/parser/parser.go:Parse"]}
{"id": "C59", "title": "Literals have the syntax of their kind", "statement": "If Parse succeeds, every literal of the tree that has no escapes, carriage returns or (numbers, units and delimiters) non-ASCII characters has the CSS syntax of its kind (identifiers, hashes, numbers, units, strings, url words, delimiters, names of at-rules, properties, classes and pseudo classes), and every value is of a kind that may stand in its place: arithmetic only inside calc, min, max and clamp, delimiters and commas only in lists, no missing operands.", "quantifier": "all texts, all parsed trees, all literals and values at any depth", "why_tests_cant": "Unboundedly many texts; the claim is about what the parser never builds.", "anchors": ["internal/lexer/lexer.go:Next", "internal/parser/parser.go:parseValue", "internal/parser/selectors.go:parseSelector"]}
{"id": "C60", "title": "The source map is a JSON document that contains the source", "statement": "For every source and every stylesheet that can be printed, the comment that Print appends holds, in base64, a JSON document whose file member is the path of the source, whose sourcesContent is the source text, and whose mappings are those of C04.", "quantifier": "all paths, source texts and stylesheets", "why_tests_cant": "All characters in all positions, including quotes, control characters, multi-byte characters and the line separators that JSON encoders escape.", "anchors": ["internal/printer/printer.go:printMapping"]}
{"id": "C61", "title": "Type errors in calc() are reported", "statement": "With CalcReductionReduce, Transform reports an error for a calc() if and only if its argument has no type (number plus dimension, product of dimensions, quotient by a dimension) or divides by zero; it then leaves the calc() as it was.", "quantifier": "all calc() expressions and all definition environments", "why_tests_cant": "Unboundedly many expressions.", "anchors": ["internal/transformer/transformer.go:evaluateMathExpression", "internal/transformer/transformer.go:transformValues"]}
{"id": "C62", "title": "Transform returns exactly when imports are not replaced without end", "statement": "For a stylesheet and replacements of imports that Parse returned: Transform ends under all options if and only if there is no endless chain of imports, each in the stylesheet that replaces the one before; with enough fuel the model then gives a result, and the result does not depend on it.", "quantifier": "all parsed stylesheets, all options, all finite or infinite families of replacements", "why_tests_cant": "Termination, for unboundedly long chains of imports.", "anchors": ["internal/transformer/transformer.go:Transform", "internal/transformer/transformer.go:transformAtRule"]}
{"id": "C63", "title": "Comments and the amount of white space between tokens are ignored", "statement": "Two texts that consist of the same tokens, with comments between them at different places or with different contents, and with different white space where there is white space, are parsed as the same stylesheet up to positions.", "quantifier": "all token sequences, all placements and contents of comments, and all white space", "why_tests_cant": "Comments and white space can be put in every one of unboundedly many places.", "anchors": ["internal/lexer/lexer.go:Next", "internal/parser/parser.go:Parse"]}
{"id": "C64", "title": "Inlining puts the files together", "statement": "When no feature is transformed, imports are inlined and nothing is reported, every entry has an output, and it is the text of the nodes of the entry with the nodes of each imported file at the place of its import (recursively). If these nodes have no construct that printing loses, then the output, with its source map, is parsed as exactly these nodes, and compiling the output again gives the same text.", "quantifier": "all file systems, all import graphs without cycles and all entries, compiled sequentially", "why_tests_cant": "File systems and import graphs are unbounded, and the statement goes through resolver, lexer, parser, transformer and printer.", "anchors": ["api.go:Compile", "internal/transformer/transformer.go:transformNodes", "internal/printer/printer.go:Print", "internal/parser/parser.go:Parse"]}
{"id": "C65", "title": "Without inlining, the output is the file", "statement": "When no feature is transformed, imports are not inlined and nothing is reported, every file to be printed has an output that is parsed as the stylesheet of the file, without rules that have no declarations.", "quantifier": "all file systems, all import graphs without cycles and all entries, compiled sequentially", "why_tests_cant": "File systems and import graphs are unbounded, and the statement goes through resolver, lexer, parser, transformer and printer.", "anchors": ["api.go:Compile", "internal/transformer/transformer.go:transformNodes", "internal/printer/printer.go:Print", "internal/parser/parser.go:Parse"]}
{"id": "C66", "title": "With any features, the output is parsed as the transformed stylesheet", "statement": "Whatever the features, options and replacements of imports, a stylesheet that comes from Parse and any number of transforms, that has no construct that printing loses, no media query that has lost all its parts and no computed number that is not a CSS number, is printed as a text that is parsed as exactly this stylesheet up to positions; printing what was parsed gives the same text. Every file that a sequential compilation writes is such a text, and is parsed so with its source map.", "quantifier": "all file systems, all import graphs without cycles, all options, all stylesheets", "why_tests_cant": "The statement goes through lexer, parser, all transforms and the printer, for unbounded inputs and all combinations of features.", "anchors": ["internal/transformer/transformer.go:Transform", "internal/printer/printer.go:Print", "internal/parser/parser.go:Parse", "api.go:Compile"]}
{"id": "C67", "title": "Sources without lossy constructs give outputs that are read as intended, under all features", "statement": "When no file that is compiled has a construct that printing loses, nor :any-link with arguments, then whatever the features every file that is written is parsed as the transformed stylesheet, provided the computed numbers are CSS numbers and the arithmetic that is left can be written without spaces.", "quantifier": "all file systems, all import graphs without cycles, all options", "why_tests_cant": "Conditions on the sources only (apart from arithmetic), for unbounded sources and all combinations of features.", "anchors": ["internal/transformer/transformer.go:Transform", "internal/transformer/transformer.go:transformSelectors", "internal/printer/printer.go:Print", "internal/parser/parser.go:Parse", "api.go:Compile"]}
{"id": "C68", "title": "Spelling and layout that have no meaning in CSS do not change what is parsed", "statement": "Two texts that write the same stylesheet are parsed as the same stylesheet up to positions, and printed alike, whatever quotes are used for strings, whatever the letter case of keywords, whichever form an imported address has (string, url(x), url(\"x\")), whether the last declaration of a block ends with a semicolon, and whatever white space and comments stand between tokens where CSS gives them no meaning.", "quantifier": "all stylesheets, all spellings chosen separately for each place, all placements of white space and comments", "why_tests_cant": "The spellings of one stylesheet are unbounded in number, and stylesheets are unbounded.", "anchors": ["internal/lexer/lexer.go:Next", "internal/parser/parser.go:Parse", "internal/parser/parser.go:isImportantString"]}
{"id": "C69", "title": "The schedule does not matter", "statement": "For the same files and options, all schedules of the goroutines of Compile end, after the same number of steps, without a crash, and with the same output files and the same errors (in any order).", "quantifier": "all file systems, options and goroutine schedules", "why_tests_cant": "The number of schedules grows exponentially with the number of goroutines and steps; a test run sees one of them.", "anchors": ["api.go:Compile", "api.go:parseFile", "api.go:addSource"]}
{"id": "C70", "title": "A file is identified by the place its name denotes", "statement": "Two file names lead to the same absolute path, under which a file is looked up, read, cached and written, exactly if following them component by component from the root or the working directory leads to the same place; joining a directory and a relative path denotes the place that the path leads to from the directory.", "quantifier": "all file names and working directories", "why_tests_cant": "Names of one file are unbounded in number: any combination of empty components, '.', '..' and detours.", "anchors": ["api.go:addSource", "resolver/node_resolver.go:Resolve"]}
{"id": "C71", "title": "VLQDecode reads what the source map format says", "statement": "VLQDecode returns a number and a length exactly if the text begins with a base64 VLQ number as the source map format defines it, and then that number and the length of its digits.", "quantifier": "all byte strings", "why_tests_cant": "Texts are unbounded, and a number has many spellings (any number of zero digits at its end).", "anchors": ["internal/printer/sourcemaps.go:VLQDecode"]}
{"id": "C72", "title": "Every reported place exists in the file it names", "statement": "Whenever Compile has reported an error with a location, the location lies inside the content of the file that the error names (start not after end, end not after the end of the file).", "quantifier": "all file systems, entries, options, resolvers; all schedules of the goroutines; every moment of the compilation", "why_tests_cant": "Schedules and import graphs are unbounded; the place is only wrong for particular combinations of import rule and lengths of two files.", "anchors": ["api.go:Compile", "api.go:parseFile", "internal/transformer/transformer.go:addError", "internal/lexer/lexer.go:Catch", "internal/sources/source.go:AnnotateSourceSpan"]}
{"id": "C73", "title": "The plugin answers every request with the compiled file or with messages", "statement": "OnLoad never panics on what a compilation reports; if something was reported it returns one message with the text of each report; otherwise, for a clean absolute path, it returns the printed form of the transformed stylesheet of that file.", "quantifier": "all file systems, options, resolvers and paths; all schedules; all sources whose sizes fit int32", "why_tests_cant": "Combines all schedules of the compilation with all error positions; a panic needs a report whose place is outside the file it names.", "anchors": ["plugin/plugin.go:Plugin", "plugin/plugin.go:toEsbuildErrors", "api.go:Compile", "internal/sources/source.go:LineAndCol"]}
{"id": "C74", "title": "Transforming what has been transformed changes nothing", "statement": "Transform, given its own output with the same options and replacements, returns it unchanged. (An inlined file is transformed once by itself and once more by every file that imports it.)", "quantifier": "all stylesheets, options, replacements and import depths; all float arithmetic", "why_tests_cant": "Stylesheets, nesting of calc() and chains of imports are unbounded; the second pass only differs for particular combinations of options and values.", "anchors": ["internal/transformer/transformer.go:Transform", "internal/transformer/transformer.go:transformNodes", "internal/transformer/transformer.go:transformValues", "internal/transformer/transformer.go:transformMediaQueryParts"]}
{"id": "C75", "title": "Sharing trees between stylesheets cannot be observed", "statement": "Inlining puts pointers to the nodes of the imported stylesheet into the importing one, which transforms them in place again. Under every schedule the files written, the errors reported and the cached stylesheets are the same as if every stylesheet had nodes of its own; a stylesheet in the cache does not change any more.", "quantifier": "all file systems, entries, options, resolvers; all schedules of the goroutines; every moment of the compilation", "why_tests_cant": "Whether a write into a shared node is seen by another stylesheet depends on the import graph, the options and the order of goroutines, all unbounded.", "anchors": ["api.go:Compile", "api.go:parseFile", "internal/transformer/transformer.go:Transform", "internal/transformer/transformer.go:transformNodes"]}
{"id": "C76", "title": "Nothing but the entries and what they import matters", "statement": "Two compilations with the same entries, options and working directory, whose file systems and resolvers agree on the entries and on what is imported from them, do the same under every schedule: files that are neither entries nor imported may be added, changed or removed.", "quantifier": "all file systems, entries, options, resolvers; all schedules of the goroutines", "why_tests_cant": "The other files and the schedules are unbounded; no test can show that a file is never looked at.", "anchors": ["api.go:Compile", "api.go:parseFile", "api.go:addSource"]}
{"id": "C77", "title": "An entry is compiled alike with any other entries", "statement": "What Compile writes for an entry, and for the files it imports, is the same whatever the other entries are, in whatever order and however often entries are given, and whatever is in the files that are not looked at for the sake of this entry.", "quantifier": "all pairs of compilations with the same options whose files and resolvers agree on what is imported from the entry; all numbers and orders of entries; inlined, followed and kept imports, to any depth", "why_tests_cant": "Entries share the table of sources, the cache of stylesheets and the numbering of sources and parses; the import graphs and lists of entries are unbounded.", "anchors": ["api.go:Compile", "api.go:parseFile", "api.go:addSource", "internal/transformer/transformer.go:Transform"]}
{"id": "C78", "title": "Every reported error is true", "statement": "Whenever Compile has reported an error, it is about a file that was to be looked at, and that file has the problem: it cannot be found, read or parsed as said, or has an import that cannot be resolved, or transforming it gives that report, or what is made of it cannot be printed. If nothing is wrong, nothing is reported.", "quantifier": "all file systems, entries, options, resolvers; all schedules of the goroutines; every moment of the compilation", "why_tests_cant": "An error about a file without the problem only appears for particular interleavings of goroutines; schedules and import graphs are unbounded.", "anchors": ["api.go:Compile", "api.go:parseFile", "api.go:addSource", "internal/printer/printer.go:Print"]}
{"id": "C79", "title": "An output file is made of the file of its name", "statement": "Whatever Compile has written under a path is the printed form of a stylesheet made of the file with that path: parsed from its content, and transformed with stylesheets that are in turn made of files that it imports.", "quantifier": "all file systems, entries, options, resolvers; all schedules of the goroutines; every moment of the compilation", "why_tests_cant": "Content under the wrong name only appears for particular interleavings of goroutines; schedules and import graphs are unbounded.", "anchors": ["api.go:Compile", "api.go:parseFile", "api.go:addSource"]}
{"id": "C80", "title": "The source map of a compiled file is true", "statement": "The source map at the end of every file that Compile writes names the file and contains its text, and its mappings are one entry for each rule of the output, in order, with the position of the rule in the output and the position of the rule of the source file that it is made of.", "quantifier": "all file systems, entries, options, resolvers; all schedules of the goroutines; sizes below 2^30", "why_tests_cant": "Relates every rule of unbounded sources to every mapping after transformation, under unboundedly many schedules and import graphs.", "anchors": ["api.go:Compile", "api.go:parseFile", "internal/printer/printer.go:Print", "internal/printer/sourcemaps.go:VLQEncode", "internal/sources/source.go:LineAndCol", "internal/transformer/transformer.go:Transform"]}
{"id": "C81", "title": "Compile's outcome depends on the schedule only through its three races", "statement": "Take any schedule in which no goroutine reads the variable of the loop that started it too late, and no two files get the same number. Then the errors reported are exactly those there are to report (files that fail, imports that cannot be resolved, reports of every transformation, output that cannot be printed), the files written are exactly the entries (and followed imports) that can be printed, and the CSS of each is the compilation of the file with the compilations of all files it imports. Two such schedules agree with each other and with the sequential compilation; the source map agrees too if the file was parsed once. What is written for an entry does not depend on the other entries.", "quantifier": "all file systems, entries, options, resolvers with acyclic imports; all schedules of the goroutines, of any length, in which the loop variables are read in time and no number is given twice", "why_tests_cant": "Schedules, import graphs and files are unbounded; tests run a handful of schedules.", "anchors": ["api.go:Compile", "api.go:parseFile", "api.go:addSource", "internal/transformer/transformer.go:Transform", "internal/printer/printer.go:Print"]}
{"id": "C82", "title": "Without import cycles every schedule ends", "statement": "If no file imports itself, directly or through others, and no file makes the parser, the transformer or the printer panic or loop, then Compile is never stuck, however its goroutines are scheduled: as long as it has not returned, some goroutine can take a step that is no crash. And it does not go on for ever: there is a bound for the number of steps that depends on the files and entries only.", "quantifier": "all file systems, entries, options, resolvers with acyclic imports; all schedules of the goroutines, of any length", "why_tests_cant": "Deadlock and non-termination are about all interleavings of unboundedly many goroutines over unbounded import graphs; a test sees one schedule and cannot see one that never ends.", "anchors": ["api.go:Compile", "api.go:parseFile", "api.go:addSource", "internal/transformer/transformer.go:Transform"]}
{"id": "C83", "title": "There are two ways to crash a compilation, and both take a race", "statement": "If no file makes the parser, the transformer or the printer panic, Compile crashes exactly if a goroutine begins to write to the map of the outputs while another one is writing to it, or if it uses the source of a number that another goroutine has taken but not yet stored. The first cannot happen with one entry whose imports are not followed. The second cannot happen if no file is asked for twice, no goroutine starts after the loop that started it has gone on, and no number is given to two files; each of the last two conditions is needed.", "quantifier": "all file systems, entries, options, resolvers; all schedules of the goroutines, of any length", "why_tests_cant": "Crashes of this kind appear in particular interleavings of unboundedly many goroutines only; a test that does not crash says nothing about the next run.", "anchors": ["api.go:Compile", "api.go:parseFile", "api.go:addSource"]}
{"id": "C84", "title": "What has been transformed can be transformed and printed again", "statement": "Take stylesheets that come from Parse and Transform, any number of times, with any options, imports replaced by such stylesheets; what was parsed has no rule without prelude and no @media without queries. Print does not panic on them. Transform, with any options and replacements of this kind, does not panic on them, and returns if and only if there is no endless chain of imports, each in the stylesheet that replaces the one before.", "quantifier": "all texts, all numbers of transformations, all options and arithmetic, all replacements", "why_tests_cant": "Compile inlines transformed stylesheets into others that are transformed then; tests parse their replacements, and go at most one level deep.", "anchors": ["internal/transformer/transformer.go:Transform", "internal/transformer/transformer.go:transformValues", "internal/printer/printer.go:Print"]}
{"id": "C85", "title": "A project in which nothing goes wrong is compiled into bundles, without reports", "statement": "Take a project without import cycles in which every file that is asked for exists and can be parsed, every import can be resolved and has no conditions, and no node has a construct that printing loses. With imports inlined and no features, Compile reports nothing and writes a file for every entry. This file is parsed as the bundle: the nodes of the entry, with those of the imported files in the places of the imports, at all depths. Compiling it again gives the same text.", "quantifier": "all file systems, entries, resolvers without import cycles, files of any size; all schedules of the goroutines", "why_tests_cant": "Projects, import graphs, files and schedules are unbounded; the repository's tests inline one level and look at no schedule.", "anchors": ["api.go:Compile", "api.go:parseFile", "internal/transformer/transformer.go:Transform", "internal/printer/printer.go:Print", "internal/parser/parser.go:Parse"]}
{"id": "C86", "title": "No race garbles the output", "statement": "Under every schedule, even when goroutines read loop variables too late or two files get the same number, every file that Compile writes is the text of a stylesheet that comes from parsing and transforming files it looked at. If no file it looks at has a construct that printing loses, nor :any-link with arguments, and numbers and arithmetic of the result can be written, the file with its source map is parsed as exactly this stylesheet. Without features no condition on the result is needed, and every node is a node of one of the files.", "quantifier": "all file systems, entries, options, resolvers, also with import cycles; all schedules of the goroutines, at every moment", "why_tests_cant": "Races, schedules and files are unbounded; the race detector finds races and says nothing about what they lead to.", "anchors": ["api.go:Compile", "api.go:parseFile", "api.go:addSource", "internal/transformer/transformer.go:Transform", "internal/printer/printer.go:Print", "internal/parser/parser.go:Parse"]}
{"id": "C87", "title": "Compiling what was written gives it again", "statement": "Take a project as in C85, compiled with imports inlined and without features, and a second project whose entries are files that were written, with the same options and any resolver. The second compilation reports nothing, writes the same CSS for each entry, and returns.", "quantifier": "all file systems, entries and resolvers without import cycles, files of any size; all schedules of both compilations", "why_tests_cant": "Projects, files and schedules are unbounded; no test of the repository compiles an output.", "anchors": ["api.go:Compile", "api.go:parseFile", "internal/transformer/transformer.go:Transform", "internal/printer/printer.go:Print", "internal/parser/parser.go:Parse"]}
{"id": "C88", "title": "Lowering keeps what a stylesheet says about every element", "statement": "In every browser that knows what :any-link and calc() mean, the transformed stylesheet says about every element what the stylesheet with its imports inlined says: the same declarations in the same order, with the same values, and each of them applies on the same devices, to the same elements and with the same specificity; whatever features are transformed, but for custom properties.", "quantifier": "all stylesheets, options (without custom properties) and replacements; all documents, elements, devices and meanings of selectors, features and values", "why_tests_cant": "What a stylesheet means depends on all documents and devices; tests compare a few outputs with texts.", "anchors": ["internal/transformer/transformer.go:Transform", "internal/transformer/transformer.go:transformSelectors", "internal/transformer/transformer.go:transformMediaQueries", "internal/transformer/transformer.go:transformDeclarations", "internal/transformer/transformer.go:transformValues", "internal/transformer/transformer.go:evaluateMathExpression"]}
{"id": "C89", "title": "What is written says about every element what the project says", "statement": "Take a project compiled with imports inlined and any features but custom properties. Every file that is written is parsed as a stylesheet that says about every element, in every browser that knows :any-link and calc(), what the one file says in which the imported files are at the places of the imports, at all depths, before anything is transformed.", "quantifier": "all file systems, entries and resolvers, files of any size, options; all schedules of the goroutines; all documents, devices and meanings", "why_tests_cant": "It is the purpose of the program, and quantifies over projects, schedules, documents and devices; the repository's tests compare a few outputs with texts, and none has features in imported files.", "anchors": ["api.go:Compile", "api.go:parseFile", "internal/transformer/transformer.go:Transform", "internal/printer/printer.go:Print", "internal/parser/parser.go:Parse"]}
{"id": "C90", "title": "Custom properties are put in as browsers would put them in", "statement": "With custom properties lowered (and any other features), what comes out says about every element what the stylesheet says, in every browser that knows custom properties, :any-link and calc(): every declaration applies under the same conditions and, after the custom properties of the element have been put in the place of var(), has the same values; a declaration is invalid in both or in neither.", "quantifier": "all stylesheets, options, documents, devices and meanings of selectors, values and media features, and all ways to find the value of a custom property that agree on :root", "why_tests_cant": "Quantifies over documents and browsers; the repository's tests compare the printed text of a few stylesheets, and never say what var() stands for.", "anchors": ["internal/transformer/transformer.go:Transform", "internal/transformer/transformer.go:transformSelectors", "internal/transformer/transformer.go:transformDeclarations", "internal/transformer/transformer.go:transformValues", "internal/transformer/transformer.go:evaluateMathExpression"]}
{"id": "C91", "title": "What is written says what the project says, custom properties put in", "statement": "Take a project compiled with imports inlined, custom properties and any other features. Every file that is written is parsed as a stylesheet that says about every element, in every browser that knows custom properties, :any-link and calc(), what the one file says in which the imported files are at the places of the imports, at all depths, before anything is transformed: every declaration applies under the same conditions and has the same values after custom properties have been put in.", "quantifier": "all file systems, entries and resolvers, files of any size, options; all schedules of the goroutines; all documents, devices and meanings, and all ways to find the value of a custom property that agree on :root", "why_tests_cant": "It is the purpose of the program with all its features on; it quantifies over projects, schedules, documents and browsers, and no test of the repository has custom properties in imported files.", "anchors": ["api.go:Compile", "api.go:parseFile", "internal/transformer/transformer.go:Transform", "internal/transformer/transformer.go:transformDeclarations", "internal/transformer/transformer.go:transformValues", "internal/printer/printer.go:Print", "internal/parser/parser.go:Parse"]}
{"id": "C92", "title": "Without inlining, the same declarations win in what is written", "statement": "Take a file that is compiled without inlining its imports (passed through or followed) and without custom properties, with any other features. What is written is parsed as a stylesheet in which, for every element, exactly those declarations win the cascade (importance, then specificity, then order) that win in the file, whatever the imported stylesheets say, although every @import is written twice. When all files of a project are written (follow mode), the same declarations win in the written files as in the sources, each with the imported files at the places of their imports, to any depth, under the conditions of the imports.", "quantifier": "all file systems, entries and resolvers, files of any size, options; all schedules of the goroutines; all documents, devices and meanings; all orders of specificity; all imported stylesheets", "why_tests_cant": "Tests compare the printed text; that an import can be repeated without harm, and that lowering changes no winner, is about all imported stylesheets and all documents.", "anchors": ["api.go:Compile", "internal/transformer/transformer.go:Transform", "internal/printer/printer.go:Print", "internal/parser/parser.go:Parse"]}
{"id": "C93", "title": "An inlined project says what browsers would load", "statement": "Take a project compiled with imports inlined and any features but custom properties. Every file that is written says about every element, in one stylesheet, what a browser is told that loads the source of that file and, by their @import rules, the other sources, each with its own custom media queries and under the conditions of its imports. In particular, compiled with imports followed instead, the same declarations win in the files that are written, loaded by their imports, as in the one file that is written when inlining.", "quantifier": "all file systems, entries and resolvers, files of any size, depths of imports, options; all schedules of the goroutines; all documents, devices and meanings; all orders of specificity", "why_tests_cant": "Tests compare the text of small bundles; that bundling is not observable in a browser is about all projects and documents, and no test compares the two ways to treat imports.", "anchors": ["api.go:Compile", "api.go:parseFile", "internal/transformer/transformer.go:Transform", "internal/printer/printer.go:Print", "internal/parser/parser.go:Parse"]}
