import Verif.Compile

/-!
# Compile, with trees in memory

In `Compile.lean` a stylesheet is a value.  In the program it is a list of pointers to nodes, `Transform` changes the
nodes in place, and inlining an import puts pointers to the nodes of the imported stylesheet into the importing one
(`transformer.go:192`), which then transforms them again.  Here the nodes are cells of a memory that all goroutines
share, and a stylesheet is a list of addresses.

What lies below a node (selectors, declarations, media queries) is only reached through the node, and values are
never changed in place, so a node is one cell.  As in `Compile.lean`, a call of `Transform` is one step.
-/

namespace Cssc

/-- `ast.Stylesheet` with pointers to its nodes, `internal/ast/ast.go:21-25`. -/
structure HSheet where
  nodes : List Nat
  imports : List ImportSpec

/-- The node at an address.  There are no other addresses than those of nodes; the default is never read. -/
def cell (mem : List Node) (p : Nat) : Node := mem.getD p (.rule ⟨⟨0, 0⟩, .nil, none⟩)

/-- The stylesheet as a value. -/
def HSheet.value (mem : List Node) (h : HSheet) : Stylesheet := ⟨h.nodes.map (cell mem), h.imports⟩

/-- Lookup in `ImportReplacements`. -/
def hLookupImport (repl : List (AtId × HSheet)) (k : AtId) : Option HSheet :=
  match repl with
  | [] => none
  | (k', v) :: rest => if k' = k then some v else hLookupImport rest k

/-- What is left in memory of a rule without declarations: `transformBlock` returns nil, `transformer.go:169-170`,
`373-375`. -/
def hEmptied (o : TOpts) (r : QRule) : QRule :=
  { r with
    prelude := match r.prelude with
      | .sels l => .sels ⟨l.sp, transformSelectors o l.sels⟩
      | p => p
    block := none }

/-- The loop of `transformNodes` over pointers: the pointers that stay, and the memory. -/
def hList (f : Nat → List Node → T (List Nat × List Node)) : List Nat → List Node → T (List Nat × List Node)
  | [], mem => pure ([], mem)
  | p :: ps, mem => do
    let (xs, mem) ← f p mem
    let (ys, mem) ← hList f ps mem
    pure (xs ++ ys, mem)

/-- One node of `transformNodes`, `transformer.go:114-232`, in place. -/
def hNode (fo : FloatOps) (o : TOpts) (repl : Option (List (AtId × HSheet))) : Nat → Nat → List Node → T (List Nat × List Node)
  | 0, _, _ => T.timeout
  | n + 1, p, mem =>
    match cell mem p with
    | .rule r => do
      match ← transformRule fo o (n + 1) r with
      | nd :: _ => pure ([p], mem.set p nd)
      | [] => pure ([], mem.set p (.rule (hEmptied o r)))
    | .at a =>
      if a.name = b!"import" then
        match repl with
        | none => pure ([p, p], mem)
        | some m =>
          match hLookupImport m a.id with
          | none => pure ([p], mem)
          | some imported => do
            whenT (1 < a.preludes.length)
              (report true (some a.sp) "@import transform does not yet support @supports or media queries")
            hList (hNode fo o repl n) imported.nodes mem
      else if a.name = b!"custom-media" then do
        collectMedia a.preludes
        pure ([], mem)
      else if a.name = b!"media" then
        match a.preludes with
        | .mql (some l) :: rest => do
          let qs ← transformMediaQueries fo o l.queries
          pure ([p], mem.set p (.at { a with preludes := .mql (some ⟨l.sp, qs⟩) :: rest }))
        | _ => T.crash
      else pure ([p], mem)

/-- `Transform`, `transformer.go:34-58`, in place. -/
def hTransform (fo : FloatOps) (o : TOpts) (repl : Option (List (AtId × HSheet))) (fuel : Nat) (h : HSheet) (mem : List Node) :
    TRes (HSheet × List Node) :=
  match hList (hNode fo o repl fuel) h.nodes mem (TSt.init o (repl.map fun _ => [])) with
  | .ok (nodes, mem) s => .ok (⟨nodes, h.imports⟩, mem) s
  | .crash => .crash
  | .timeout => .timeout

/-- Where a goroutine is: as `PC`, with pointers. -/
inductive HPC where
  /-- A place of `PC` that holds no stylesheet. -/
  | run (pc : PC)
  | cache (i : Nat) (ss : HSheet)
  | deliver (res : Option HSheet)

/-- A goroutine, as `Thread`. -/
structure HThread where
  parent : Option Nat
  pc : HPC
  imp : Nat
  addr : Nat
  ss : HSheet
  repl : List (AtId × HSheet)

def HThread.new (parent : Option Nat) : HThread := ⟨parent, .run .start, 0, 0, ⟨[], []⟩, []⟩

/-- A state: as `CSt`.  `sh.asts` is not used; `asts` has the stylesheets, `mem` their nodes. -/
structure HSt where
  sh : Shared
  asts : List (Nat × HSheet)
  mem : List Node
  threads : List HThread
  main : MainPC
  e : Nat

def HSt.init : HSt := ⟨Shared.init, [], [], [], .spawn 0, 0⟩

inductive HRes where
  | ok (st : HSt)
  | crash

/-- `wg.Wait()`. -/
def HSt.joined (st : HSt) (p : Option Nat) : Bool :=
  st.threads.all fun th => if th.parent = p then (match th.pc with | .run .done => true | _ => false) else true

/-- As `hasOutput`, `api.go:192`, `229`. -/
def hHasOutput (env : CEnv) (th : HThread) : Bool :=
  match th.parent with
  | none => true
  | some _ => decide (env.opts.importRules = .follow)

def HSt.goto (st : HSt) (t : Nat) (th : HThread) (sh : Shared) (pc : HPC) : Option HRes :=
  some (.ok { st with sh := sh, threads := st.threads.set t { th with pc := pc } })

/-- `api.go:229`, or `api.go:185-192`. -/
def hStepStart (env : CEnv) (st : HSt) (t : Nat) (th : HThread) : Option HRes :=
  match th.parent with
  | none => (env.entries[st.e]?).bind fun path => st.goto t th st.sh (.run (.lookup path))
  | some p =>
    (st.threads[p]?).bind fun par =>
    (par.ss.imports[par.imp]?).bind fun imp =>
    (st.sh.heap[par.addr]?).bind fun source =>
    match env.resolve imp.value (dirOf source.path) with
    | none => st.goto t th (st.sh.addError (.resolve imp.value (dirOf source.path))) (.run .done)
    | some rel => st.goto t th st.sh (.run (.lookup rel))

/-- `parser.Parse(source)`, `api.go:171-175`: the nodes are new cells. -/
def hStepParse (env : CEnv) (st : HSt) (t : Nat) (th : HThread) (i addr : Nat) : Option HRes :=
  (st.sh.heap[addr]?).bind fun source =>
  let sh (lines : List Nat) : Shared :=
    { st.sh with
      heap := st.sh.heap.set addr { source with lines := source.lines ++ lines }
      parses := source.path :: st.sh.parses }
  match parse env.fuel source.content st.sh.parses.length with
  | .ok ss lines =>
    some (.ok { st with
      sh := sh lines
      mem := st.mem ++ ss.nodes
      threads := st.threads.set t
        { th with pc := .run (.spawn i 0), addr := addr, ss := ⟨List.range' st.mem.length ss.nodes.length, ss.imports⟩ } })
  | .error e lines => st.goto t th ((sh lines).addError (.parse source.path e)) (.deliver none)
  | .panic => some .crash
  | .timeout => none

/-- `wg.Wait()` and `transformer.Transform`, `api.go:202-214`. -/
def hStepWait (env : CEnv) (st : HSt) (t : Nat) (th : HThread) (i : Nat) : Option HRes :=
  if st.joined (some t) then
    (st.sh.heap[th.addr]?).bind fun source =>
    match hTransform env.fo env.opts (if env.opts.importRules = .inline then some th.repl else none) env.fuel th.ss st.mem with
    | .ok (ss, mem) s =>
      some (.ok { st with
        sh := { st.sh with errors := st.sh.errors ++ s.log.map (CompErr.transform source.path) }
        mem := mem
        threads := st.threads.set t { th with pc := .cache i ss } })
    | .crash => some .crash
    | .timeout => none
  else none

/-- `api.go:194-199`. -/
def hStepDeliver (st : HSt) (t : Nat) (th : HThread) (res : Option HSheet) : Option HRes :=
  match th.parent, res with
  | some p, some ss =>
    (st.threads[p]?).bind fun par =>
    (par.ss.imports[par.imp]?).bind fun imp =>
    some (.ok { st with
      threads := (st.threads.set p { par with repl := (imp.rule, ss) :: par.repl }).set t { th with pc := .run .done } })
  | _, _ => st.goto t th st.sh (.run .done)

/-- One step of goroutine `t`, as `stepThread`. -/
def hStepThread (env : CEnv) (st : HSt) (t : Nat) : Option HRes :=
  (st.threads[t]?).bind fun th =>
  let sh := st.sh
  match th.pc with
  | .run .start => hStepStart env st t th
  | .run (.lookup path) =>
    match env.abs path with
    | none => st.goto t th (sh.addError (.abs path)) (.deliver none)
    | some abs =>
      match lookupMap sh.sources abs with
      | some i => st.goto t th sh (if hHasOutput env th then .run (.outBegin i) else .run (.cached i))
      | none => st.goto t th sh (.run (.read path abs))
  | .run (.read path abs) =>
    match env.read abs with
    | none => st.goto t th (sh.addError (.read path)) (.deliver none)
    | some content => st.goto t th sh (.run (.alloc abs content))
  | .run (.alloc abs content) =>
    st.goto t th { sh with sources := (abs, sh.nextIndex) :: sh.sources } (.run (.store abs content sh.nextIndex))
  | .run (.store abs content i) =>
    st.goto t th { sh with heap := sh.heap ++ [⟨abs, content, []⟩], byIndex := (i, sh.heap.length) :: sh.byIndex }
      (.run (.incRead i))
  | .run (.incRead i) => st.goto t th sh (.run (.incWrite i sh.nextIndex))
  | .run (.incWrite i v) =>
    st.goto t th { sh with nextIndex := v + 1 } (if hHasOutput env th then .run (.outBegin i) else .run (.cached i))
  | .run (.outBegin i) =>
    if sh.writing then some .crash
    else st.goto t th { sh with writing := true } (.run (.outEnd i))
  | .run (.outEnd i) => st.goto t th { sh with outputs := i :: sh.outputs, writing := false } (.run (.cached i))
  | .run (.cached i) =>
    match lookupMap st.asts i with
    | some ss => st.goto t th sh (.deliver (some ss))
    | none => st.goto t th sh (.run (.source i))
  | .run (.source i) =>
    match lookupMap sh.byIndex i with
    | some addr => st.goto t th sh (.run (.parse i addr))
    | none => some .crash
  | .run (.parse i addr) => hStepParse env st t th i addr
  | .run (.spawn i k) =>
    if k < th.ss.imports.length then
      some (.ok { st with
        threads := st.threads.set t { th with pc := .run (.spawn i (k + 1)), imp := k } ++ [HThread.new (some t)] })
    else st.goto t th sh (.run (.wait i))
  | .run (.wait i) => hStepWait env st t th i
  | .cache i ss =>
    some (.ok { st with asts := (i, ss) :: st.asts, threads := st.threads.set t { th with pc := .deliver (some ss) } })
  | .deliver res => hStepDeliver st t th res
  | .run .done => none
  | .run (.cache _ _) => none
  | .run (.deliver _) => none

/-- One step of `Compile`, `api.go:222-265`. -/
def hStepMain (env : CEnv) (st : HSt) : Option HRes :=
  match st.main with
  | .spawn k =>
    if k < env.entries.length then
      some (.ok { st with main := .spawn (k + 1), e := k, threads := st.threads ++ [HThread.new none] })
    else some (.ok { st with main := .wait })
  | .wait => if st.joined none then some (.ok { st with main := .print st.sh.outputs.eraseDups }) else none
  | .print rest => if rest = [] then some (.ok { st with main := .done }) else none
  | .done => none

/-- The goroutine that prints output `i`, `api.go:238-260`: prints what the nodes are by then. -/
def hStepPrint (st : HSt) (i : Nat) : Option HRes :=
  match st.main with
  | .print rest =>
    if i ∈ rest then
      let main := MainPC.print (rest.erase i)
      match (lookupMap st.sh.byIndex i).bind (st.sh.heap[·]?), lookupMap st.asts i with
      | some source, some ss =>
        match print (some source) (ss.value st.mem) with
        | .ok out => some (.ok { st with main := main, sh := { st.sh with files := (source.path, out) :: st.sh.files } })
        | .error => some (.ok { st with main := main, sh := st.sh.addError (.print source.path) })
        | .panic => some .crash
      | _, _ => some (.ok { st with main := main })
    else none
  | _ => none

def hStep (env : CEnv) (st : HSt) : Choice → Option HRes
  | .main => hStepMain env st
  | .thread t => hStepThread env st t
  | .print i => hStepPrint st i

/-- A whole schedule; choices that cannot step are skipped. -/
def hRunSched (env : CEnv) (st : HSt) : List Choice → HRes
  | [] => .ok st
  | c :: cs =>
    match hStep env st c with
    | none => hRunSched env st cs
    | some .crash => .crash
    | some (.ok st') => hRunSched env st' cs

end Cssc
