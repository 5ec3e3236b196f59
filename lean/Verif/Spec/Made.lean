import Verif.Spec.Compile

/-!
# Specification: what comes out of a compilation, whatever the order of its steps
-/

namespace Cssc

/-- `ss'` is what some order of the steps can make of the file with the absolute path `a`, with the reports `log`: the
file is looked at, read, parsed and transformed; the stylesheets put in for its imports are made likewise.
If `S` holds, they are made of files that it imports. -/
inductive Made (env : CEnv) (S : Prop) : Bytes → Stylesheet → List Report → Prop where
  | mk {p a c : Bytes} {id : Nat} {ss ss' : Stylesheet} {lines : List Nat} {repl : List (AtId × Stylesheet)} {s : TSt}
    (fileOf : AtId × Stylesheet → Bytes) (logOf : AtId × Stylesheet → List Report) :
    Asked env p → env.abs p = some a → env.read a = some c → parse env.fuel c id = .ok ss lines →
    (∀ kv ∈ repl, ∃ imp ∈ ss.imports, imp.rule = kv.1) →
    (∀ kv ∈ repl, Made env S (fileOf kv) kv.2 (logOf kv)) →
    (S → ∀ kv ∈ repl, ∃ imp ∈ ss.imports, ∃ rel, env.resolve imp.value (dirOf a) = some rel ∧ env.abs rel = some (fileOf kv)) →
    transform env.fo env.opts (if env.opts.importRules = .inline then some repl else none) env.fuel ss = .ok ss' s →
    Made env S a ss' s.log

/-- The error is one of a file that is looked at, and this file does have the problem.  If `S` holds, this is so of what
is found by transforming and printing too; otherwise the stylesheet printed may be made of another file, and its line
table be missing. -/
inductive TrueErr (env : CEnv) (S : Prop) : CompErr → Prop where
  | fails {p e} : Asked env p → FailsWith env p e → TrueErr env S e
  | resolve {p a c id ss lines imp} : Asked env p → env.abs p = some a → env.read a = some c →
    parse env.fuel c id = .ok ss lines → imp ∈ ss.imports → env.resolve imp.value (dirOf a) = none →
    TrueErr env S (.resolve imp.value (dirOf a))
  | transform {a ss log r} : Made env S a ss log → r ∈ log → TrueErr env S (.transform a r)
  | print {p a c b ss log lines} : Asked env p → env.abs p = some a → env.read a = some c → Made env S b ss log →
    print (some ⟨a, c, lines⟩) ss = .error → (S → b = a ∧ print none ss = .error) → TrueErr env S (.print a)

/-- No number has been given twice. -/
def Distinct (sh : Shared) : Prop := (sh.sources.map Prod.snd).Nodup

end Cssc
