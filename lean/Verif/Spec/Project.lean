import Verif.Spec.Cascade
import Verif.Spec.Bundle

/-!
# Specification: what a project says
-/

namespace Cssc

/-- `flat` is the nodes of a file in the directory `dir`, with the nodes of the files that it imports at the places of
the imports: the one file that the project stands for. -/
inductive Included (env : CEnv) : Bytes → List Node → List Node → Prop where
  | nil {dir : Bytes} : Included env dir [] []
  | keep {dir : Bytes} {n : Node} {ns flat : List Node} : n.isImport = false → Included env dir ns flat →
      Included env dir (n :: ns) (n :: flat)
  | imp {dir rel a c v : Bytes} {r : AtRule} {sp : Span} {id : Nat} {ss : Stylesheet} {lines : List Nat} {ns f1 f2 : List Node} :
      r.name = b!"import" → r.preludes = [.str sp v] → env.resolve v dir = some rel → env.abs rel = some a → env.read a = some c →
      parse env.fuel c id = .ok ss lines → Included env (dirOf a) ss.nodes f1 → Included env dir ns f2 →
      Included env dir (.at r :: ns) (f1 ++ f2)

/-- The file with the absolute path `a` is asked for, and parsed as `ss`. -/
def IsFile (env : CEnv) (a : Bytes) (ss : Stylesheet) : Prop :=
  ∃ p c id lines, Asked env p ∧ env.abs p = some a ∧ env.read a = some c ∧ parse env.fuel c id = .ok ss lines

/-- A node asks for the custom media query `name`. -/
def Node.Uses (n : Node) (name : Bytes) : Prop :=
  ∃ a l rest q p, n = .at a ∧ a.name = b!"media" ∧ a.preludes = .mql (some l) :: rest ∧ q ∈ l.queries ∧ p ∈ q.parts ∧ p.custom? = some name

/-- Projects whose files can be lowered each by itself. -/
structure Lucid (B : Browser) (env : CEnv) : Prop where
  /-- All files that are asked for can be parsed. -/
  files : ∀ p, Asked env p → ∃ a c ss lines, env.abs p = some a ∧ env.read a = some c ∧ parse env.fuel c = .ok ss lines
  /-- Imports have no conditions and can be resolved. -/
  imports : ∀ a ss r, IsFile env a ss → .at r ∈ ss.nodes → r.name = b!"import" →
    ∃ sp v rel, r.preludes = [.str sp v] ∧ env.resolve v (dirOf a) = some rel
  /-- Custom media queries are transformed, or there are none. -/
  custom : env.opts.customMediaQueries = true ∨ ∀ a ss, IsFile env a ss → mediaDefs ss.nodes = []
  /-- At most one `:any-link` in each selector. -/
  links : ∀ a ss r l, IsFile env a ss → .rule r ∈ ss.nodes → r.prelude = .sels l → ∀ s ∈ l.sels, s.parts.countP SelPart.anyLink ≤ 1
  definitions : ∀ a ss, IsFile env a ss → ∀ d ∈ mediaDefs ss.nodes, d.2.Definition ∧ ∀ p ∈ d.2.parts, p.Interval B env.fo
  /-- No `or` and no `not (…)`, ranges are intervals, and custom media queries are defined before. -/
  queries : ∀ a ss pre r post l rest, IsFile env a ss → ss.nodes = pre ++ .at r :: post → r.name = b!"media" →
    r.preludes = .mql (some l) :: rest → ∀ q ∈ l.queries, (∀ p ∈ q.parts, p.Interval B env.fo) ∧ q.Joinable ∧
      ∀ p ∈ q.parts, ∀ name, p.custom? = some name → lastDef (mediaDefs pre) name = lastDef (mediaDefs ss.nodes) name
  /-- A file that asks for a custom media query that is defined anywhere defines it too, and in the same way. -/
  own : ∀ a ss b ss2 n name q, IsFile env a ss → IsFile env b ss2 → n ∈ ss.nodes → n.Uses name →
    lastDef (mediaDefs ss2.nodes) name = some q → ∃ q', lastDef (mediaDefs ss.nodes) name = some q' ∧ q'.bare = q.bare

end Cssc
