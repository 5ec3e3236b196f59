import Verif.Compile

/-!
# Compile, sequentially

The schedule of `api.go` in which every goroutine runs to its end as soon as it is started.  That it is one of the
schedules of the machine is proved in `Verif.Proofs.CompileSeq`.
-/

namespace Cssc

/-- `addSource` after the path has been made absolute, `api.go:94-121`: the index, or no index if the file cannot
be read. -/
def seqAdd (env : CEnv) (sh : Shared) (path abs : Bytes) : Shared × Option Nat :=
  match lookupMap sh.sources abs with
  | some i => (sh, some i)
  | none =>
    match env.read abs with
    | none => (sh.addError (.read path), none)
    | some content =>
      ({ sh with
          sources := (abs, sh.nextIndex) :: sh.sources
          heap := sh.heap ++ [⟨abs, content, []⟩]
          byIndex := (sh.nextIndex, sh.heap.length) :: sh.byIndex
          nextIndex := sh.nextIndex + 1 }, some sh.nextIndex)

/-- The loop over the imports, `api.go:183-202`; `rec` is `parseFile`. -/
def seqImports (env : CEnv) (rec : Shared → Bytes → Option (Shared × Option Stylesheet)) (dir : Bytes) :
    List ImportSpec → Shared → List (AtId × Stylesheet) → Option (Shared × List (AtId × Stylesheet))
  | [], sh, repl => some (sh, repl)
  | imp :: imps, sh, repl =>
    match env.resolve imp.value dir with
    | none => seqImports env rec dir imps (sh.addError (.resolve imp.value dir)) repl
    | some rel =>
      match rec sh rel with
      | none => none
      | some (sh, none) => seqImports env rec dir imps sh repl
      | some (sh, some ss) => seqImports env rec dir imps sh ((imp.rule, ss) :: repl)

/-- `parseFile` once the source is known, `api.go:161-218`; `rec` is `parseFile` for the imports. -/
def seqParsed (env : CEnv) (rec : Shared → Bytes → Option (Shared × Option Stylesheet)) (sh : Shared) (i : Nat) :
    Option (Shared × Option Stylesheet) :=
  match lookupMap sh.asts i with
  | some ss => some (sh, some ss)
  | none =>
    (lookupMap sh.byIndex i).bind fun addr =>
    (sh.heap[addr]?).bind fun source =>
    let sh' (lines : List Nat) : Shared :=
      { sh with
        heap := sh.heap.set addr { source with lines := source.lines ++ lines }
        parses := source.path :: sh.parses }
    match parse env.fuel source.content sh.parses.length with
    | .ok ss lines =>
      (seqImports env rec (dirOf source.path) ss.imports (sh' lines) []).bind fun (sh, repl) =>
      match transform env.fo env.opts (if env.opts.importRules = .inline then some repl else none) env.fuel ss with
      | .ok ss' s =>
        some ({ sh with errors := sh.errors ++ s.log.map (CompErr.transform source.path), asts := (i, ss') :: sh.asts },
          some ss')
      | _ => none
    | .error e lines => some ((sh' lines).addError (.parse source.path e), none)
    | _ => none

/-- `parseFile`, `api.go:149-219`.  `none`: it panics, or does not end within the fuel. -/
def seqFile (env : CEnv) : Nat → Bool → Shared → Bytes → Option (Shared × Option Stylesheet)
  | 0, _, _, _ => none
  | n + 1, out, sh, path =>
    match env.abs path with
    | none => some (sh.addError (.abs path), none)
    | some abs =>
      match seqAdd env sh path abs with
      | (sh, none) => some (sh, none)
      | (sh, some i) =>
        let sh := if out then { sh with outputs := i :: sh.outputs } else sh
        seqParsed env (seqFile env n (decide (env.opts.importRules = .follow))) sh i

/-- The loop over the entries, `api.go:227-233`. -/
def seqEntries (env : CEnv) (n : Nat) : List Bytes → Shared → Option Shared
  | [], sh => some sh
  | e :: es, sh => (seqFile env n true sh e).bind fun r => seqEntries env n es r.1

/-- The loop over the outputs, `api.go:236-262`. -/
def seqPrint : List Nat → Shared → Option Shared
  | [], sh => some sh
  | i :: is, sh =>
    match (lookupMap sh.byIndex i).bind (sh.heap[·]?), lookupMap sh.asts i with
    | some source, some ss =>
      match print (some source) ss with
      | .ok out => seqPrint is { sh with files := (source.path, out) :: sh.files }
      | .error => seqPrint is (sh.addError (.print source.path))
      | .panic => none
    | _, _ => seqPrint is sh

/-- `Compile`, `api.go:222-265`: the memory at the end. -/
def seqCompile (env : CEnv) (n : Nat) : Option Shared :=
  (seqEntries env n env.entries Shared.init).bind fun sh => seqPrint sh.outputs.eraseDups sh

end Cssc
