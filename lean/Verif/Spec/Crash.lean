import Verif.Spec.Tidy

/-!
# Specification: what crashes a compilation
-/

namespace Cssc

/-- Goroutine `t` is about to write to the map `outputsByIndex`, and another one is doing so. -/
def MapClash (st : CSt) (t : Nat) : Prop :=
  ∃ u th x i j, u ≠ t ∧ st.threads[t]? = some th ∧ st.threads[u]? = some x ∧ th.pc = .outBegin i ∧ x.pc = .outEnd j

/-- Goroutine `t` is about to use the source with number `i`, which another one has yet to store. -/
def NoSource (st : CSt) (t : Nat) : Prop :=
  ∃ u th x i a c, u ≠ t ∧ st.threads[t]? = some th ∧ st.threads[u]? = some x ∧ th.pc = .source i ∧ x.pc = .store a c i ∧
    ∀ addr, (i, addr) ∉ st.sh.byIndex

/-- Who asks for a file: the options, in their entry `k`, or the file with the absolute path `a`, in its import `k`. -/
inductive Request (env : CEnv) : Option Bytes → Nat → Bytes → Prop where
  | entry {k p} : env.entries[k]? = some p → Request env none k p
  | imp {k p a c id ss lines imp rel} : Asked env p → env.abs p = some a → env.read a = some c →
    parse env.fuel c id = .ok ss lines → ss.imports[k]? = some imp → env.resolve imp.value (dirOf a) = some rel →
    Request env (some a) k rel

/-- No file is asked for twice. -/
def Unshared (env : CEnv) : Prop :=
  ∀ {o o' k k' p p' a}, Request env o k p → Request env o' k' p' → env.abs p = some a → env.abs p' = some a → o = o' ∧ k = k'

/-- The states that schedules lead to in which every goroutine starts while its loop variable still has its value of the
iteration that started it.  (`ReachedTidy` asks for more, if imports are inlined: that it ends in time, too.) -/
inductive ReachedStarts (env : CEnv) : CSt → Prop where
  | init : ReachedStarts env CSt.init
  | step {st st' : CSt} {c : Choice} : ReachedStarts env st →
    (∀ t th, c = .thread t → st.threads[t]? = some th → th.pc = .start → st.loopVar th.parent = some (st.ordinal th.parent t)) →
    cstep env st c = some (.ok st') → ReachedStarts env st'

end Cssc
