# A Lean 4 model of stephen/cssc

The code under study is the Go CSS compiler in `/repo` (read as text only). The model lives in
`lean/Verif/`, the theorems in `lean/Verif/Props/`. This file says what is modelled, how each
property of `properties.jsonl` is proved, and what is trusted.

## Shape of the model

| Go | Lean | notes |
|---|---|---|
| `string`, `[]byte` | `Bytes = List UInt8` | Go strings are byte strings; slicing is explicit and checked |
| `rune` | `Int` | `-1` is the lexer's end-of-input rune |
| `int` offsets | `Nat` | offsets are never negative in the modelled code; 64-bit overflow is ignored |
| `int32` (VLQ, mapping state) | `Int32`/`BitVec 32` | overflow is modelled |
| lexer + parser methods | `P α = St → Res α` | `Res` = `ok` / `err` (a `*lexer.Error` panic) / `crash` (a Go run-time panic) / `timeout` |
| `panic`/`recover` | the `err` and `crash` results | state survives a panic, exactly as Go's heap does |
| unbounded loops | structural recursion on fuel | `timeout` = fuel exhausted; divergence is "`timeout` for every fuel" |
| nil interface | an explicit constructor (`Value.nil`, `Prelude.nil`, ...) | typed nil `*MediaQueryList` is `none` |
| in-place mutation in the transformer | functions returning the new tree | slice aliasing in `transformSelectors` is modelled by its net effect, see the comment there |
| `float64`, `strconv` | a structure of operations `FloatOps` | theorems quantify over every instance |
| file system | `FS` = stat and read functions | theorems quantify over every file system |
| goroutines | an explicit small-step machine over interleavings | |

Files: `Bytes`, `Utf8`, `Lexer`, `Ast`, `Parser`, `Printer`, `SourceMap`, `Sources`, `Logging`,
`Transformer`, `Resolver`, `Compile`, `Walk`, `Plugin` (model); `Props/*` (property theorems);
other files hold helper lemmas.

## Properties that the code violates

Reading the code shows that a number of properties a user relies on are false of it. For these we
prove the negation with a concrete witness (`..._refuted`) and the strongest positive statement we
can (`..._partial`); the manifest says `partial`. See the per-property table.

## Per-property plan

* C01-C03 VLQ: `VLQEncode`/`VLQDecode` over 32-bit integers with Go's shifts. Round trip by
  strong induction on the magnitude; iff for the exact domain.
* C04 source maps: the printer with its mapping state; a small independent decoder of the
  source-map format as specification; invariant relating the decoder's cumulative state to the
  printer's `lastMappingState`.
* C05: simulation between the printer with and without a source.
* C06 line table: invariant `lines = 0 :: ends of newlines before pos` preserved by `step`.
* C07: correctness of `sort.Search` (binary search as in Go's library) on sorted tables.
* C08: refuted by a witness (fallback re-lexes newlines); partial: a trace of the line table through every parser
  function (`Proofs/Trace.lean`) shows it exact when the result has no raw declaration, and always right as a set.
* C09: arithmetic safety of `AnnotateSourceSpan`.
* C10: measure argument on the remaining bytes: model fuel is never exhausted, `crash` unreachable.
* C11, C12: invariants of the lexer state carried through Hoare-style rules.
* C13: refuted (`<!--`, `-->`, `.+5`); partial: progress for every other token.
* C14: translation invariance of the lexer under a prefix.
* C15: maximal-munch lemmas. C16: refuted by witnesses, partial for hex escapes in names, and for
  escapes in strings and unquoted urls.
* C17: refuted by witnesses; partial: the invariant of C19 says which text each run-time panic needs.
* C18: refuted by witnesses; partial: on texts that end in `;` and closing braces every loop consumes a token, and the
  loop that skips a bad declaration meets that `;` (`Proofs/Ends.lean`); explicit linear bound on the fuel. Calls of
  math functions are allowed if their parentheses hold arithmetic (`Spec/Arith.lean`); if in addition each operator
  stands between operands, `Parse` does not panic either.
* C19, C20, C22, C23, C59: one invariant over all parser functions, by induction on fuel. For C59 it carries the syntax
  of the current token's texts (`TokClass` in `Spec/Tok.lean`), which `Proofs/LexClass.lean` proves of every token.
* C21: invariant of the top-level loop.
* C24: analysis of `parseDeclarationOrFallback`.
* C25: fuel monotonicity of every parser function.
* C60: a reader of JSON texts and the definition of UTF-8 (`Spec/Json.lean`) are written from the RFCs; the document
  that the comment holds is read with them. Go's decoder is shown to read the UTF-8 sequence of every scalar value, and to
  refuse everything else (`Mended`: what the document holds for texts that are not UTF-8).
* C61: the type of an expression (`calcKind`) is a separate definition; the reports of one operator are counted, and for
  sums of products, by induction, silence is shown to mean a value (`Denotes`) or a sum of two units. That a value for
  which something is reported stays is an invariant of all values (`Wary`).
* C26, C58: the specification (`Spec/Printable.lean`) gives the tokens of a tree, the shapes that some text
  denotes, and equality up to positions. `print_texts`: the printer writes these tokens. `parse_reread`: the
  parser reads them back, by induction over the tree with one lemma per parser function on top of the lexing
  lemmas of C15. A boolean test that implies membership in the class gives the concrete cases.
* C57: congruence of every printer function.
* C62: every function of the transformer other than the replacement of an import ends with fuel bounded by the size of
  the node; replacements by well-founded induction on the chains of imports.
* C63: `Laid` relates tokens to texts with comments between them. Two runs of the parser on texts of the same tokens are
  compared step by step (`Proofs/Twins*.lean`): a relation of the states that every lexer operation keeps (`Twins`), and
  one lemma per parser function. The relation has a flag that says whether the last text seen is that of a token, since
  the parser compares that text after `!` and in attribute selectors.
* C66: `Spec/Lit.lean` says when the literals and the shapes of a tree are well-formed, without the source text. Parsed
  trees are (`NodeOk.lit`), and an invariant of the transformer (`Proofs/TransformLit.lean`) says that its output is, up to
  computed numbers and ranges that vanish; then C26 and C27.
* C67: another invariant of the transformer (`Proofs/TransformKeeps.lean`): the conditions `Item.Ready` on the nodes of the
  sources carry over to the nodes of the output; then C66.
* C68: `Spelling` has the choices that a tree leaves open, one for each node, and `nodesToks` gives the tokens of a tree in a
  spelling. `Spaced` says where white space may be added and left out; the places are determined by the tokens that follow
  (`InSelector`: is the next `{`, `}`, `;` or at-keyword a `{` that starts declarations?). The proof that the parser reads
  these tokens back carries `Spaced` in the relation between the state and the tokens to come (`At`). Not covered: white
  space in the arguments of a pseudo class or around a combinator (it is a part of the tree), in a prelude before an empty
  block of rules, and in the brackets of an attribute selector.
* C69: with one entry and at most one import in each file the goroutines form a line (`Line`, an invariant of the machine):
  each waits for the next one. Two different steps are then possible only if one merely notices that there is nothing more
  to start, or both print, and such steps can be taken in either order (`either_order`). So all schedules have the same
  number of steps and the same end (`Steps.all`), and what is proved of the sequential schedule holds for all of them
  (`Props/Schedules.lean`, also for C46, C47, C48, C56, C64).
* C70: `Spec/Path.lean` says what place a path denotes. `Clean` keeps the invariant that its output so far is the shortest
  path to the place reached so far (`cleanStep_move`); that path denotes the place (`path_place`), so equal places have equal
  clean paths.
* C64, C65: `Spec/Bundle.lean` says what files put together are. The table of a sequential compilation (C46) has, by
  induction on the rank of the files, bundles only; that they are parsed back is C26 for nodes of several files.
* C27: refuted by witnesses; partial through C26: conditions on single nodes (`Spec/Keeps.lean`) and the form of parsed
  trees give, by induction over the tree, that the written tokens do not run into each other (`Proofs/Keeps*.lean`).
* C29: refuted by witnesses; partial: the fields of a parsed An+B mean
  the text between its ends, read as CSS reads An+B, when the text is an An+B at all (`Spec/AnB.lean`).
* C28: case analysis of the printer.
* C30-C39: transformer semantics; C30, C31, C34, C39 refuted + partial.
* C40-C44: resolver over an arbitrary `FS`; C40 and C43 have a failing corner.
* C45-C50: small-step machine; C46, C47, C48 refuted by schedules + partial.
* C51: refuted (`Brackets`, pseudo-class arguments) + partial. C52 refuted + exact count. C53 proved.
* C71: `Spec/Mappings.lean` says what a VLQ number is; induction over the digits with the shift and the value so far. The
  table of the decoder is compared with the digits byte for byte.
* C72: `Proofs/TransformSpans.lean` (the transformer makes up no spans but 0..0), `Proofs/CompileSpans.lean` (an invariant
  of the machine of `Compile.lean`); C73 on top of it, with C09 for any line table that begins with 0. An error of the
  model holds the path of its source; the Go error holds a pointer, so `Rendered` allows every parsed source of that path.
* C74: a relation between two runs of the transformer (`Steady`: the same result and reports, from any log, with any
  larger fuel), from which every node of an output is a fixed point; induction over the nodes and the depth of imports.
* C75: forward simulation between the machine with trees in memory (`CompileHeap.lean`) and the one of `Compile.lean`.
  The invariant: cells that belong to a delivered stylesheet are settled (transforming them again in any state gives
  the same node, from C74), belong to no goroutine that has yet to transform, and are not imports of its file. The
  refutation runs both machines with the same schedule.
* C76: the two machines make the same step in every state that the first can reach, by the invariant `Inv1` (what a
  goroutine has in its hands was asked for).
* C77: the numbers of parses are the only thing that differs between the two compilations of a file. Transforming is
  invariant under renumbering if imported nodes never have the number of the importing file (by the ranks), printing
  does not look at numbers (`Proofs/Renumber.lean`); induction over the rank.
* C78, C79: `Spec/Made.lean` says what can be made of a file whatever the order of steps, and which errors are true. An
  invariant of the machine (`Proofs/CompileMade.lean`): what a goroutine holds and what the tables hold is made so. The
  tables are indexed by numbers; which file a number belongs to is only known if no number is given twice
  (`Distinct`). A print error needs a missing line table or a node that cannot be printed; `Proofs/PrintLines.lean`
  excludes the first for tables that begin with 0, by comparing the runs with and without source map.
* C80: C04 for what C79 says is printed. The line table of a source is that of its text, once for each parse
  (`Proofs/CompileTables.lean`); transforming keeps the places of rules. The refutations read the written bytes, of
  which there is only one reading (`MapTrue.entries`).
* C81: `Spec/Tidy.lean` says which schedules read the loop variables in time (`TidyStep`), what the whole compilation of a
  file is (`Full`, an inductive relation) and what there is to report (`FullErr`). An invariant of such schedules
  (`Proofs/CompileTidy.lean`): each goroutine works on the file of its own iteration, has started as many goroutines as it
  counts, and the cache holds whole compilations whose problems are reported. `Proofs/FullSame.lean`: a file has one
  whole compilation, up to the numbers of the parses. `Proofs/SeqTidy.lean`: the sequential schedule is one of these.
* C82: never stuck: the last goroutine that has not ended waits for nobody, because goroutines only wait for later ones
  (`Proofs/CompileLive.lean`). The bound: every step lowers a potential, the cost of the files that goroutines still have
  to compile (`Proofs/CompileBound.lean`; a file costs as much as all its imports and then some, by induction over the
  rank). What is assumed of the transformer (`Tame`) is only asked for replacements that occur, which have no at-rules of
  the importing file (`Proofs/CompileOwn.lean`): without that it would be false as soon as an import is inlined. It holds
  for all `Legible` files, with all options (`Proofs/CompileTame.lean`): values do not get deeper by transforming
  (`Proofs/TransformTotal.lean`) and are no deeper than the fuel they were parsed with (`Proofs/ParseNest.lean`). The
  refutation: an invariant of states in which every number leads to a file with imports (`Proofs/CompileTrap.lean`).
* C83: case by case over the steps (`Proofs/CompileCrash.lean`). A flag that is set has a goroutine that has set it, and a
  number without source has a goroutine that is about to store it (`Proofs/CompileLive.lean`). If no file is asked for
  twice, two goroutines that have not ended are there for different files: by induction over the goroutines, with the
  request that leads to each as the key.
* C84: an invariant of transformed stylesheets that implies what C39 and C62 need of parsed ones, with a bound for the depth
  of values that transforming keeps (`Node.Fit`, `Props/Total.lean`).
* C85: by induction over the whole compilation of a file (`Full`, C81): it has no reports and is the bundle, and its nodes
  are kept by printing. C81 says what is reported and written, C26 and C64 what is read back.
* C86: what is made under any schedule (`Made`, C79) comes from parsing and transforming, so C66 and C67 apply; without
  features its nodes are nodes of the files (`Props/Races.lean`).
* C87: by C85 and C64 a text that was written is parsed as a stylesheet without imports that transforming leaves as it is;
  then C81 for the second compilation, or C69 if it has one entry (`Props/Recompile.lean`).
* C88: what a browser takes from a stylesheet is specified by itself (Spec/Cascade.lean: media queries of Level 4, offers of
  declarations with conditions and weights; documents, devices and meanings are parameters).  Each relation between a node
  and its pieces (C31, C32, C33, C36, C38) keeps it; `transform_pieces` puts them together.
* C89: by induction over the whole compilation of a file (`Full`, C81): what is left after lowering can be lowered again
  (`Rest`), C88 for each file, and offers depend only on the definitions of the names that are used (`offers_congr`); then
  C66 and C67 for the text (`Props/Project.lean`).
* C90: transforming with custom properties is transforming without them after the values have been put in
  (`nodes_subst`), so C88 applies to the stylesheet with the values put in, in a browser that puts in the rest
  (`Browser.under`); putting in values keeps what is said (`sayings_subst`), and the custom properties that are left are
  none (`Props/Var.lean`).
* C91: C89's induction again, with what is said after custom properties have been put in (`told`) in the place of what is
  offered: what is left of a file asks only for custom properties that no file has (`RestVars`), so a file with such
  pieces in it can be treated as in C90 (`Props/VarProject.lean`).
* C92: without inlining the transformed nodes are those of the file with every import twice (`Flat`), to which C88 applies
  (`Lowerable.double`); repeating a part of what is said directly after it changes no winner (`wins_again`, Spec/Win.lean,
  `Props/Win.lean`); C66 for the text, C75 for the trees in memory.
  Whole projects by induction over the depth of imports: imported stylesheets in which the same declarations win in any
  surroundings (`SameWins`) can replace one another. In follow mode all files are written (`Props/Follow.lean`).
* C93: by induction over `Included` (C89), the one file that a project stands for says what its files say when they are loaded by
  their imports (`saidBy`, Spec/Win.lean), as each file has itself the custom media queries that it asks for (`Lucid`); then
  C89, and C92 for the agreement of the two modes (`Props/Loaded.lean`).

## Evidence that the model is the program

* `Conformance.lean`: 94 of the repository's own test expectations (lexer, printer, transformers, VLQ, one error
  report) hold of the model, checked by the kernel. They are tests of the model and support no claim by themselves.
* Every concrete witness of a refutation was first found by running the model.
* `seeded/LOG.jsonl`: wrong programs (edits of the model) and the theorems that reject them.

## Trusted base

* Lean's kernel. No axioms beyond `propext`, `Classical.choice`, `Quot.sound`; no `sorry`,
  `native_decide` or `bv_decide`. A few theorems use fewer; none uses any other.
* The fidelity of the model to the Go source: every definition cites the lines it models.
* Behaviour assumed of Go's standard library where it is not itself modelled (`json.Marshal` as in Go 1.21 and
  before, `base64`, `strconv` floats, `os.Stat`, `ioutil.ReadFile`, `filepath.Abs`) and of
  third-party code (`oops.Wrapf` of nil is nil, `errgroup`, esbuild).

What is modelled: `internal/lexer`, `internal/parser`, `internal/ast` (types and `Walk`), `internal/printer`
(with source maps), `internal/transformer`, `internal/sources`, `internal/logging` (`AnnotateSourceSpan` and
locations), `internal/resolver`, `api.go` and the esbuild plugin.

What is not, or only in part:

* Memory and stack: a recursion that is too deep for a goroutine's stack is an ordinary result here.
* The text of error messages is the format string only; the span they carry is modelled.
* `float64`: the operations are a parameter, the theorems hold for all of them or name the laws they use.
* The file system does not change while a compilation runs; the JSON decoder of `package.json` is a parameter.
* Trees are values in `Compile.lean`, though Transform changes nodes in place and stylesheets share nodes.
  `CompileHeap.lean` has nodes in memory, and C75 says for which options the two agree. C89
  is carried over to it for the options where they agree (`Props/ProjectShared.lean`); C91, and C89 with custom media queries,
  are about `Compile.lean` only. In both a call of Transform is
  one step, so two goroutines that transform the same nodes do not interleave inside it.
* `Print` is modelled on stylesheets, not on every single node type that its interface admits.
* `Compile`: parsing, transforming and printing one file are single steps; data races appear as interleavings of
  the reads and writes of the shared fields; the resolver is a function.
* Visits that `Walk` made before a panic are not kept.
* The command line in `cli/` and the terminal reporter's colours are not modelled.
