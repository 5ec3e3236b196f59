import Verif.Spec.Bundle
import Verif.Spec.Keeps

/-!
# Specification: projects in which nothing goes wrong
-/

namespace Cssc

/-- An import without conditions, a node that comes to nothing, or one that printing keeps as it is. -/
def Node.Good : Node → Prop
  | .at r => if r.name = b!"import" then ∃ sp v, r.preludes = [.str sp v]
      else Node.vain (.at r) = true ∨ ∀ it ∈ Node.items (.at r), it.Keeps
  | .rule r => Node.vain (.rule r) = true ∨ ∀ it ∈ Node.items (.rule r), it.Keeps

/-- Every path that is asked for is that of a file that is there and can be parsed; its imports can be resolved, and its
nodes are good. -/
def Whole (env : CEnv) : Prop :=
  ∀ p, Asked env p → ∃ a c ss lines, env.abs p = some a ∧ env.read a = some c ∧ parse env.fuel c = .ok ss lines ∧
    (∀ imp ∈ ss.imports, (env.resolve imp.value (dirOf a)).isSome) ∧ ∀ n ∈ ss.nodes, n.Good

end Cssc
