import Verif.Props.TransformSafe
import Verif.Compile

/-!
# Specification: files that can be compiled
-/

namespace Cssc

/-- Every file that can be read is parsed, as a stylesheet or with an error, and the stylesheets have no rule without prelude
and no `@media` without queries, on which the transformer panics (C39).  Two steps at least are allowed. -/
structure Legible (env : CEnv) : Prop where
  fuel : 2 ≤ env.fuel
  parse : ∀ {a c}, env.read a = some c → (∃ ss l, parse env.fuel c = .ok ss l) ∨ ∃ e l, parse env.fuel c = .error e l
  complete : ∀ {a c ss l}, env.read a = some c → Cssc.parse env.fuel c = .ok ss l → ∀ x ∈ ss.nodes, x.complete

end Cssc
