import Verif.Spec.Compile

/-!
# Specification: files put together

What a stylesheet with imports stands for when everything is put in one file: at the place of each import are the
nodes of the imported file.
-/

namespace Cssc

/-- A node that comes to nothing: a rule without declarations, a definition of a custom media query. -/
def Node.vain : Node → Bool
  | .rule r => match r.block with
    | some b => b.decls.isEmpty
    | none => false
  | .at a => a.name == b!"custom-media"

/-- An `@import`. -/
def Node.isImport : Node → Bool
  | .rule _ => false
  | .at a => a.name == b!"import"

/-- `flat` is the nodes of a file in the directory `dir`, with the nodes of the files that it imports at the places of
the imports, and without those that come to nothing.  All imports are of existing files that can be parsed, and they
are without conditions. -/
inductive Bundled (env : CEnv) : Bytes → List Node → List Node → Prop where
  | nil {dir : Bytes} : Bundled env dir [] []
  | drop {dir : Bytes} {n : Node} {ns flat : List Node} : n.vain = true → Bundled env dir ns flat → Bundled env dir (n :: ns) flat
  | keep {dir : Bytes} {n : Node} {ns flat : List Node} : n.vain = false → n.isImport = false → Bundled env dir ns flat →
      Bundled env dir (n :: ns) (n :: flat)
  | imp {dir rel a c v : Bytes} {r : AtRule} {sp : Span} {id : Nat} {ss : Stylesheet} {lines : List Nat} {ns f1 f2 : List Node} :
      r.name = b!"import" → r.preludes = [.str sp v] → env.resolve v dir = some rel → env.abs rel = some a → env.read a = some c →
      parse env.fuel c id = .ok ss lines → Bundled env (dirOf a) ss.nodes f1 → Bundled env dir ns f2 →
      Bundled env dir (.at r :: ns) (f1 ++ f2)

end Cssc
