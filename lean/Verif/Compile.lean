import Verif.Parser
import Verif.Printer
import Verif.Transformer
import Verif.Resolver

/-!
# Compile

`api.go`: `Compile`, `parseFile` and `addSource` with their goroutines.

The goroutines are threads of a small-step machine: a step is one access to shared memory together with the
computation that follows it, and a schedule says which thread steps next.  Every critical section of `api.go` is
a single access, so it is one step and the mutexes do not appear.  Accesses without a mutex are interleaved in the
same way (`nextIndex++` is a read and a write, two steps).  `outputsByIndex` is written without a mutex: like the
Go runtime the machine stops with `concurrent map writes` when a write begins during another one.

Simplifications: parsing, transforming and printing one file is one step; trees are values, so a tree that two
stylesheets share is not changed under the feet of the other one (see `CompileHeap.lean` for the machine with trees in
memory); a file does not change during the compilation;
the resolver is a function.
-/

namespace Cssc

/-- Everything that is fixed during a compilation: the options (`api.go:21-34`), the working directory (`none` if
`os.Getwd` fails), the files and the resolver.  `fuel` bounds the parser and the transformer: a thread whose file
needs more is stuck, like a Go thread that loops. -/
structure CEnv where
  entries : List Bytes
  opts : TOpts
  cwd : Option Bytes
  read : Bytes → Option Bytes
  resolve : Bytes → Bytes → Option Bytes
  fo : FloatOps
  fuel : Nat

/-- `filepath.Abs` (standard library, Unix). -/
def CEnv.abs (env : CEnv) (p : Bytes) : Option Bytes :=
  if p.head? = some 47 then some (clean p)
  else env.cwd.map fun d => joinPath [d, p]

/-- The errors given to the reporter: `api.go:91`, `103`, `187`, `173`, `transformer.go:69-75` and `api.go:252`. -/
inductive CompErr where
  | abs (path : Bytes)
  | read (path : Bytes)
  | resolve (value dir : Bytes)
  | parse (path : Bytes) (e : LexErr)
  | transform (path : Bytes) (r : Report)
  | print (path : Bytes)
deriving DecidableEq, Repr

/-- `m[k]` for a map given as the list of its writes, newest first. -/
def lookupMap {α β : Type} [DecidableEq α] (m : List (α × β)) (k : α) : Option β :=
  match m with
  | [] => none
  | (k', v) :: m => if k' = k then some v else lookupMap m k

/-- The shared memory: `compilation` and `Result`, `api.go:59-84`, `131-134`.  Sources are heap objects, since
parsing extends their line table; `byIndex` has their addresses.  `writing` is the flag of the Go runtime in the
map `outputsByIndex`.  `parses` has the paths of the files parsed so far, newest first (in Go there is no such
list; its length gives every parsed tree an identity). -/
structure Shared where
  sources : List (Bytes × Nat)
  nextIndex : Nat
  heap : List Source
  byIndex : List (Nat × Nat)
  asts : List (Nat × Stylesheet)
  outputs : List Nat
  writing : Bool
  errors : List CompErr
  files : List (Bytes × Bytes)
  parses : List Bytes

/-- `newCompilation`, `api.go:36-57`. -/
def Shared.init : Shared := ⟨[], 0, [], [], [], [], false, [], [], []⟩

/-- Where a goroutine is.  The goroutines are those of `api.go:184-200` and `228-231`, each of which runs
`parseFile` once. -/
inductive PC where
  /-- Before the loop variable (`imp` or `e`) is read. -/
  | start
  /-- `api.go:89-99`. -/
  | lookup (path : Bytes)
  /-- `api.go:101-109`. -/
  | read (path abs : Bytes)
  /-- `api.go:111-114`. -/
  | alloc (abs content : Bytes)
  /-- `api.go:116-118`. -/
  | store (abs content : Bytes) (i : Nat)
  /-- `api.go:120`, the read. -/
  | incRead (i : Nat)
  /-- `api.go:120`, the write. -/
  | incWrite (i v : Nat)
  /-- `api.go:157-159`, the write to the map begins. -/
  | outBegin (i : Nat)
  /-- … and ends. -/
  | outEnd (i : Nat)
  /-- `api.go:161-166`. -/
  | cached (i : Nat)
  /-- `api.go:168-170`. -/
  | source (i : Nat)
  /-- `api.go:171-175`. -/
  | parse (i : Nat) (addr : Nat)
  /-- `api.go:183-201`, before the iteration `k`. -/
  | spawn (i k : Nat)
  /-- `api.go:202-214`: wait, then transform. -/
  | wait (i : Nat)
  /-- `api.go:215-218`. -/
  | cache (i : Nat) (ss : Stylesheet)
  /-- `parseFile` has returned: `api.go:194-199`. -/
  | deliver (res : Option Stylesheet)
  | done

/-- A goroutine: who started it (`none` is `Compile`), the loop variable, source and parsed stylesheet of its
`parseFile`, and the map `replacements`. -/
structure Thread where
  parent : Option Nat
  pc : PC
  imp : Nat
  addr : Nat
  ss : Stylesheet
  repl : List (AtId × Stylesheet)

/-- A goroutine that has just been started. -/
def Thread.new (parent : Option Nat) : Thread := ⟨parent, .start, 0, 0, ⟨[], []⟩, []⟩

/-- Where `Compile` is: `api.go:227-232` before the iteration `k`, `233` and `236-262` with the outputs still to
be printed, `264`. -/
inductive MainPC where
  | spawn (k : Nat)
  | wait
  | print (rest : List Nat)
  | done
deriving DecidableEq, Repr

/-- A state of the machine.  `e` is the loop variable of `api.go:227`. -/
structure CSt where
  sh : Shared
  threads : List Thread
  main : MainPC
  e : Nat

def CSt.init : CSt := ⟨Shared.init, [], .spawn 0, 0⟩

/-- What one step leads to: another state, or the process is killed by a panic or a fatal error. -/
inductive SRes where
  | ok (st : CSt)
  | crash

/-- Who steps: `Compile`, a goroutine, or the goroutine that prints output `i`. -/
inductive Choice where
  | main
  | thread (t : Nat)
  | print (i : Nat)
deriving DecidableEq, Repr

/-- `c.addError`, `api.go:136-140`. -/
def Shared.addError (sh : Shared) (e : CompErr) : Shared := { sh with errors := sh.errors ++ [e] }

/-- Thread `t` becomes `th`. -/
def CSt.set (st : CSt) (t : Nat) (th : Thread) : CSt := { st with threads := st.threads.set t th }

/-- All goroutines started by `p` have ended: `wg.Wait()`. -/
def CSt.joined (st : CSt) (p : Option Nat) : Bool :=
  st.threads.all fun th => if th.parent = p then (match th.pc with | .done => true | _ => false) else true

/-- `hasOutput`: true for the entries, `api.go:229`, and for imported files in follow mode, `api.go:192`. -/
def hasOutput (env : CEnv) (th : Thread) : Bool :=
  match th.parent with
  | none => true
  | some _ => decide (env.opts.importRules = .follow)

/-- Go on at `pc` with other shared memory. -/
def CSt.goto (st : CSt) (t : Nat) (th : Thread) (sh : Shared) (pc : PC) : Option SRes :=
  some (.ok { st with sh := sh, threads := st.threads.set t { th with pc := pc } })

/-- The first step: reads the loop variable.  `api.go:229`, or `api.go:185-192`. -/
def stepStart (env : CEnv) (st : CSt) (t : Nat) (th : Thread) : Option SRes :=
  match th.parent with
  | none => (env.entries[st.e]?).bind fun path => st.goto t th st.sh (.lookup path)
  | some p =>
    (st.threads[p]?).bind fun par =>
    (par.ss.imports[par.imp]?).bind fun imp =>
    (st.sh.heap[par.addr]?).bind fun source =>
    match env.resolve imp.value (dirOf source.path) with
    | none => st.goto t th (st.sh.addError (.resolve imp.value (dirOf source.path))) .done
    | some rel => st.goto t th st.sh (.lookup rel)

/-- `parser.Parse(source)`, `api.go:171-175`.  The line table is extended even if parsing fails. -/
def stepParse (env : CEnv) (st : CSt) (t : Nat) (th : Thread) (i addr : Nat) : Option SRes :=
  (st.sh.heap[addr]?).bind fun source =>
  let sh (lines : List Nat) : Shared :=
    { st.sh with
      heap := st.sh.heap.set addr { source with lines := source.lines ++ lines }
      parses := source.path :: st.sh.parses }
  match parse env.fuel source.content st.sh.parses.length with
  | .ok ss lines =>
    some (.ok { st with
      sh := sh lines
      threads := st.threads.set t { th with pc := .spawn i 0, addr := addr, ss := ss } })
  | .error e lines => st.goto t th ((sh lines).addError (.parse source.path e)) (.deliver none)
  | .panic => some .crash
  | .timeout => none

/-- `wg.Wait()` and `transformer.Transform`, `api.go:202-214`. -/
def stepWait (env : CEnv) (st : CSt) (t : Nat) (th : Thread) (i : Nat) : Option SRes :=
  if st.joined (some t) then
    (st.sh.heap[th.addr]?).bind fun source =>
    match transform env.fo env.opts (if env.opts.importRules = .inline then some th.repl else none) env.fuel th.ss with
    | .ok ss s =>
      st.goto t th { st.sh with errors := st.sh.errors ++ s.log.map (CompErr.transform source.path) } (.cache i ss)
    | .crash => some .crash
    | .timeout => none
  else none

/-- The end of a goroutine: `api.go:194-199`.  The loop variable of the caller is read again. -/
def stepDeliver (st : CSt) (t : Nat) (th : Thread) (res : Option Stylesheet) : Option SRes :=
  match th.parent, res with
  | some p, some ss =>
    (st.threads[p]?).bind fun par =>
    (par.ss.imports[par.imp]?).bind fun imp =>
    some (.ok { st with
      threads := (st.threads.set p { par with repl := (imp.rule, ss) :: par.repl }).set t { th with pc := .done } })
  | _, _ => st.goto t th st.sh .done

/-- One step of goroutine `t`; `none` if it cannot step. -/
def stepThread (env : CEnv) (st : CSt) (t : Nat) : Option SRes :=
  (st.threads[t]?).bind fun th =>
  let sh := st.sh
  match th.pc with
  | .start => stepStart env st t th
  | .lookup path =>
    match env.abs path with
    | none => st.goto t th (sh.addError (.abs path)) (.deliver none)
    | some abs =>
      match lookupMap sh.sources abs with
      | some i => st.goto t th sh (if hasOutput env th then .outBegin i else .cached i)
      | none => st.goto t th sh (.read path abs)
  | .read path abs =>
    match env.read abs with
    | none => st.goto t th (sh.addError (.read path)) (.deliver none)
    | some content => st.goto t th sh (.alloc abs content)
  | .alloc abs content =>
    st.goto t th { sh with sources := (abs, sh.nextIndex) :: sh.sources } (.store abs content sh.nextIndex)
  | .store abs content i =>
    st.goto t th { sh with heap := sh.heap ++ [⟨abs, content, []⟩], byIndex := (i, sh.heap.length) :: sh.byIndex }
      (.incRead i)
  | .incRead i => st.goto t th sh (.incWrite i sh.nextIndex)
  | .incWrite i v =>
    st.goto t th { sh with nextIndex := v + 1 } (if hasOutput env th then .outBegin i else .cached i)
  | .outBegin i =>
    if sh.writing then some .crash
    else st.goto t th { sh with writing := true } (.outEnd i)
  | .outEnd i => st.goto t th { sh with outputs := i :: sh.outputs, writing := false } (.cached i)
  | .cached i =>
    match lookupMap sh.asts i with
    | some ss => st.goto t th sh (.deliver (some ss))
    | none => st.goto t th sh (.source i)
  | .source i =>
    match lookupMap sh.byIndex i with
    | some addr => st.goto t th sh (.parse i addr)
    | none => some .crash
  | .parse i addr => stepParse env st t th i addr
  | .spawn i k =>
    if k < th.ss.imports.length then
      some (.ok { st with
        threads := st.threads.set t { th with pc := .spawn i (k + 1), imp := k } ++ [Thread.new (some t)] })
    else st.goto t th sh (.wait i)
  | .wait i => stepWait env st t th i
  | .cache i ss => st.goto t th { sh with asts := (i, ss) :: sh.asts } (.deliver (some ss))
  | .deliver res => stepDeliver st t th res
  | .done => none

/-- One step of `Compile`, `api.go:222-265`. -/
def stepMain (env : CEnv) (st : CSt) : Option SRes :=
  match st.main with
  | .spawn k =>
    if k < env.entries.length then
      some (.ok { st with main := .spawn (k + 1), e := k, threads := st.threads ++ [Thread.new none] })
    else some (.ok { st with main := .wait })
  | .wait => if st.joined none then some (.ok { st with main := .print st.sh.outputs.eraseDups }) else none
  | .print rest => if rest = [] then some (.ok { st with main := .done }) else none
  | .done => none

/-- The goroutine that prints output `i`, `api.go:238-260`. -/
def stepPrint (st : CSt) (i : Nat) : Option SRes :=
  match st.main with
  | .print rest =>
    if i ∈ rest then
      let main := MainPC.print (rest.erase i)
      match (lookupMap st.sh.byIndex i).bind (st.sh.heap[·]?), lookupMap st.sh.asts i with
      | some source, some ss =>
        match print (some source) ss with
        | .ok out => some (.ok { st with main := main, sh := { st.sh with files := (source.path, out) :: st.sh.files } })
        | .error => some (.ok { st with main := main, sh := st.sh.addError (.print source.path) })
        | .panic => some .crash
      | _, _ => some (.ok { st with main := main })
    else none
  | _ => none

/-- One step; `none` if the choice cannot step. -/
def cstep (env : CEnv) (st : CSt) : Choice → Option SRes
  | .main => stepMain env st
  | .thread t => stepThread env st t
  | .print i => stepPrint st i

/-- The states that some schedule leads to. -/
inductive Reached (env : CEnv) : CSt → Prop where
  | init : Reached env CSt.init
  | step {st st' : CSt} {c : Choice} : Reached env st → cstep env st c = some (.ok st') → Reached env st'

/-- A whole schedule; choices that cannot step are skipped. -/
def runSched (env : CEnv) (st : CSt) : List Choice → SRes
  | [] => .ok st
  | c :: cs =>
    match cstep env st c with
    | none => runSched env st cs
    | some .crash => .crash
    | some (.ok st') => runSched env st' cs

end Cssc
