import Verif.Spec.Var
import Verif.Spec.Project

/-!
# Specification: projects with custom properties
-/

namespace Cssc

/-- A node asks for the custom property `x`. -/
def Node.Asks (n : Node) (x : Bytes) : Prop :=
  ∃ r b d v, n = .rule r ∧ r.block = some b ∧ d ∈ b.decls ∧ v ∈ d.vals ∧ v.varOf? = some x

/-- Projects whose custom properties can be put in, in each file by itself. -/
structure OwnVars (env : CEnv) : Prop where
  rooted : ∀ a ss, IsFile env a ss → Rooted ss.nodes
  /-- A file that asks for a custom property that is defined anywhere defines it too, and in the same way. -/
  own : ∀ a ss b ss2 n x vs, IsFile env a ss → IsFile env b ss2 → n ∈ ss.nodes → n.Asks x →
    lastDef (rootDefs ss2.nodes) x = some vs → ∃ vs', lastDef (rootDefs ss.nodes) x = some vs' ∧ bareVals vs' = bareVals vs

end Cssc
