import Verif.Spec.Made

/-!
# Specification: schedules in which every goroutine sees its own iteration

In `api.go:183-201` and `227-232` the goroutines of a loop read the loop variable, which the loop goes on to change.
The schedules here are those in which none of them reads it too late.  (With a variable per iteration, `imp := imp`, all
schedules would be such.)
-/

namespace Cssc

/-- How many goroutines `q` had started before it started goroutine `t`. -/
def CSt.ordinal (st : CSt) (q : Option Nat) (t : Nat) : Nat := ((st.threads.map Thread.parent).take t).count q

/-- The loop variable of `q`. -/
def CSt.loopVar (st : CSt) : Option Nat → Option Nat
  | none => some st.e
  | some p => (st.threads[p]?).map Thread.imp

/-- The next step reads the loop variable: the first step, and the one that hands over a stylesheet for an import.  (The
latter does so whatever the options, but the stylesheet is used only if imports are inlined.) -/
def Thread.ReadsLoop (env : CEnv) (th : Thread) : Prop :=
  match th.pc, th.parent with
  | .start, _ => True
  | .deliver (some _), some _ => env.opts.importRules = .inline
  | _, _ => False

/-- The loop variable is read while it still has its value of the iteration that started the goroutine. -/
def TidyStep (env : CEnv) (st : CSt) : Choice → Prop
  | .thread t => ∀ th, st.threads[t]? = some th → th.ReadsLoop env → st.loopVar th.parent = some (st.ordinal th.parent t)
  | _ => True

/-- The states that tidy schedules lead to. -/
inductive ReachedTidy (env : CEnv) : CSt → Prop where
  | init : ReachedTidy env CSt.init
  | step {st st' : CSt} {c : Choice} : ReachedTidy env st → TidyStep env st c → cstep env st c = some (.ok st') → ReachedTidy env st'

/-- Nothing comes of an import. -/
def NoFile (env : CEnv) (value dir : Bytes) : Prop :=
  env.resolve value dir = none ∨ ∃ rel e, env.resolve value dir = some rel ∧ FailsWith env rel e

/-- `ss'` is the whole compilation of the file with the absolute path `a`, with the reports `log`: if imports are inlined,
then each of its imports has the whole compilation of the file it is resolved to, unless nothing comes of it.  `ps` has the paths of the files parsed,
newest first; the number of a parse is the number of those before it. -/
inductive Full (env : CEnv) (ps : List Bytes) : Bytes → Stylesheet → List Report → Prop where
  | mk {p a c : Bytes} {id : Nat} {ss ss' : Stylesheet} {lines : List Nat} {repl : List (AtId × Stylesheet)} {s : TSt}
    (fileOf : AtId × Stylesheet → Bytes) (logOf : AtId × Stylesheet → List Report) :
    Asked env p → env.abs p = some a → env.read a = some c → parse env.fuel c id = .ok ss lines → ps.reverse[id]? = some a →
    (env.opts.importRules = .inline → ∀ kv ∈ repl, ∃ imp ∈ ss.imports, imp.rule = kv.1 ∧
      ∃ rel, env.resolve imp.value (dirOf a) = some rel ∧ env.abs rel = some (fileOf kv)) →
    (env.opts.importRules = .inline → ∀ kv ∈ repl, Full env ps (fileOf kv) kv.2 (logOf kv)) →
    (env.opts.importRules = .inline → ∀ imp ∈ ss.imports, (∃ kv ∈ repl, kv.1 = imp.rule) ∨ NoFile env imp.value (dirOf a)) →
    transform env.fo env.opts (if env.opts.importRules = .inline then some repl else none) env.fuel ss = .ok ss' s →
    Full env ps a ss' s.log

/-- What there is to tell the reporter. -/
inductive FullErr (env : CEnv) (ps : List Bytes) : CompErr → Prop where
  | fails {p e} : Asked env p → FailsWith env p e → FullErr env ps e
  | resolve {p a c id ss lines imp} : Asked env p → env.abs p = some a → env.read a = some c →
    parse env.fuel c id = .ok ss lines → imp ∈ ss.imports → env.resolve imp.value (dirOf a) = none →
    FullErr env ps (.resolve imp.value (dirOf a))
  | transform {a ss log r} : Full env ps a ss log → r ∈ log → FullErr env ps (.transform a r)
  | print {a ss log} : ToPrint env a → Full env ps a ss log → print none ss = .error → FullErr env ps (.print a)

end Cssc
