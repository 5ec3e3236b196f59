import Verif.Compile

/-!
# Specification: what a compilation is about
-/

namespace Cssc

/-- The file names that a compilation has to look at: the entries, and what the imports of those files that can
be read and parsed are resolved to. -/
inductive Asked (env : CEnv) : Bytes → Prop where
  | entry {e} : e ∈ env.entries → Asked env e
  | imp {p a content id ss lines imp r} : Asked env p → env.abs p = some a → env.read a = some content →
    parse env.fuel content id = .ok ss lines → imp ∈ ss.imports → env.resolve imp.value (dirOf a) = some r → Asked env r

/-- The file names among them that come from an import. -/
inductive Imported (env : CEnv) : Bytes → Prop where
  | imp {p a content id ss lines imp r} : Asked env p → env.abs p = some a → env.read a = some content →
    parse env.fuel content id = .ok ss lines → imp ∈ ss.imports → env.resolve imp.value (dirOf a) = some r →
    Imported env r

theorem Imported.asked {env : CEnv} {p : Bytes} (h : Imported env p) : Asked env p := by
  obtain ⟨h1, h2, h3, h4, h5, h6⟩ := h
  exact .imp h1 h2 h3 h4 h5 h6

/-- Why nothing comes of the file `p`, as told to the reporter. -/
inductive FailsWith (env : CEnv) (p : Bytes) : CompErr → Prop where
  | abs : env.abs p = none → FailsWith env p (.abs p)
  | read {a} : env.abs p = some a → env.read a = none → FailsWith env p (.read p)
  | parse {a c e lines} : env.abs p = some a → env.read a = some c → parse env.fuel c = .error e lines →
    FailsWith env p (.parse a e)

/-- The stylesheets for the imports of a file in `dir`: each import has the stylesheet of the file it is resolved to. -/
def replOf (env : CEnv) (tab : Bytes → Option Stylesheet) (dir : Bytes) (imps : List ImportSpec) :
    List (AtId × Stylesheet) :=
  (imps.filterMap fun imp =>
    (((env.resolve imp.value dir).bind env.abs).bind tab).map fun ss => (imp.rule, ss)).reverse

/-- `ss'` is the compilation of the file with the absolute path `a`, whose text is `c` and whose lines begin at `lines`,
when `tab` has the compilations of the files it imports.  `log` has the errors found on the way. -/
def CompiledBy (env : CEnv) (tab : Bytes → Option Stylesheet) (a c : Bytes) (lines : List Nat) (ss' : Stylesheet)
    (log : List Report) : Prop :=
  ∃ id ss s, env.read a = some c ∧ parse env.fuel c id = .ok ss lines ∧
    transform env.fo env.opts (if env.opts.importRules = .inline then some (replOf env tab (dirOf a) ss.imports) else none)
      env.fuel ss = .ok ss' s ∧ s.log = log

/-- The imports have no cycles: `rank` decreases from every file that is looked at to the files that it imports. -/
def Acyclic (env : CEnv) (rank : Bytes → Nat) : Prop :=
  ∀ {p a c ss lines imp rel b}, Asked env p → env.abs p = some a → env.read a = some c → parse env.fuel c = .ok ss lines → imp ∈ ss.imports →
    env.resolve imp.value (dirOf a) = some rel → env.abs rel = some b → rank b < rank a

/-- Every file that is looked at has at most one import. -/
def Single (env : CEnv) : Prop :=
  ∀ {p a c id ss lines}, Asked env p → env.abs p = some a → env.read a = some c → parse env.fuel c id = .ok ss lines →
    ss.imports.length ≤ 1

/-- The files to be printed. -/
def ToPrint (env : CEnv) (a : Bytes) : Prop :=
  (∃ e ∈ env.entries, env.abs e = some a) ∨
    (env.opts.importRules = .follow ∧ ∃ p, Imported env p ∧ env.abs p = some a)

/-- What has become of the output of `source`. -/
def Printed (source : Source) (ss : Stylesheet) (sh : Shared) : Prop :=
  (∃ out, print (some source) ss = .ok out ∧ lookupMap sh.files source.path = some out) ∨
    (print (some source) ss = .error ∧ lookupMap sh.files source.path = none ∧ .print source.path ∈ sh.errors)

/-- The memory is the same but for the order of the files and the errors. -/
structure SameSh (a b : Shared) : Prop where
  sources : b.sources = a.sources
  nextIndex : b.nextIndex = a.nextIndex
  heap : b.heap = a.heap
  byIndex : b.byIndex = a.byIndex
  asts : b.asts = a.asts
  outputs : b.outputs = a.outputs
  writing : b.writing = a.writing
  errors : b.errors.Perm a.errors
  files : b.files.Perm a.files
  parses : b.parses = a.parses

/-- `n` steps lead from one state to the other. -/
inductive Steps (env : CEnv) : Nat → CSt → CSt → Prop where
  | refl {st} : Steps env 0 st st
  | step {n a b st c} : cstep env a c = some (.ok b) → Steps env n b st → Steps env (n + 1) a st

end Cssc
