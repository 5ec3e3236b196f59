import Verif.Spec.Cascade

/-!
# Specification: what a stylesheet with custom properties says

Custom properties (CSS Custom Properties Level 1): the values that the custom properties of an element have are put in the
place of `var()`, also within functions; a fallback is used if there is none; a declaration in which a `var()` stands for
nothing is invalid.  How a browser finds the value of a custom property, by specificity and inheritance, is a parameter, of
which only the simplest case is taken for granted (`KnowsCustom`).
-/

namespace Cssc

mutual

/-- A value with all `var()` replaced; `none` if it is invalid.  An operand must be a single value. -/
def Value.expand (ρ : Bytes → Option (List Value)) : Value → Option (List Value)
  | .func sp name args =>
    if name = b!"var" then expandVar ρ args
    else (expandVals ρ args).map fun vs => [.func sp name vs]
  | .brackets sp vs => (expandVals ρ vs).map fun vs => [.brackets sp vs]
  | .paren sp v =>
    match v.expand ρ with
    | some [w] => some [.paren sp w]
    | _ => none
  | .math sp op l r =>
    match l.expand ρ, r.expand ρ with
    | some [a], some [b] => some [.math sp op a b]
    | _, _ => none
  | v => some [v]

/-- What `var()` with these arguments stands for. -/
def expandVar (ρ : Bytes → Option (List Value)) : List Value → Option (List Value)
  | [] => none
  | v :: rest =>
    match v with
    | .ident _ x =>
      match ρ x with
      | some vs => some vs
      | none => expandFallback ρ rest
    | _ => none

/-- The fallback, behind the comma. -/
def expandFallback (ρ : Bytes → Option (List Value)) : List Value → Option (List Value)
  | [] => none
  | _ :: fs => expandVals ρ fs

def expandVals (ρ : Bytes → Option (List Value)) : List Value → Option (List Value)
  | [] => some []
  | v :: vs =>
    match v.expand ρ, expandVals ρ vs with
    | some a, some b => some (a ++ b)
    | _, _ => none

end

mutual

/-- Without `var()`, also within functions. -/
def Value.noVar : Value → Bool
  | .func _ name args => name != b!"var" && noVars args
  | .brackets _ vs => noVars vs
  | .paren _ v => v.noVar
  | .math _ _ l r => l.noVar && r.noVar
  | _ => true

def noVars : List Value → Bool
  | [] => true
  | v :: vs => v.noVar && noVars vs

end

/-- All of them, one after the other. -/
def joined : List (Option (List α)) → Option (List α)
  | [] => some []
  | v :: vs =>
    match v, joined vs with
    | some a, some b => some (a ++ b)
    | _, _ => none

/-- The browser for an element with the custom properties `ρ`. -/
def Browser.under (B : Browser) (ρ : Bytes → Option (List Value)) : Browser :=
  { B with X := Option (List B.X), value := fun v => (v.expand ρ).map (List.map B.value) }

/-- A browser for which values are what is written. -/
def Browser.raw (B : Browser) : Browser := { B with X := Value, value := id }

/-- The declarations in a block. -/
def Block.allDecls : Block → List Decl
  | .none => []
  | .decls b => b.decls
  | .rules _ rs => rs.flatMap fun r => match r.block with | some b => b.decls | _ => []

/-- The values of a declaration. -/
def Decl.vals : Decl → List Value
  | .decl _ _ vals _ => vals
  | .raw _ _ => []

/-- What is said about an element, after custom properties have been put in: `none` for an invalid declaration. -/
inductive Saying (B : Browser) where
  | decl (applies : List B.W → Prop) (prop : Bytes) (vals : Option (List B.X)) (important : Bool)
  | raw (applies : List B.W → Prop) (text : Bytes)
  | other (a : AtRule) (vals : List (Option (List Value)))

def Offer.saying {B : Browser} (ρ : Bytes → Option (List Value)) : Offer (B.under ρ) → Option (Saying B)
  | .decl c prop vals imp => if prop.take 2 = b!"--" then none else some (.decl c prop (joined vals) imp)
  | .raw c text => some (.raw c text)
  | .other a => some (.other a (a.block.allDecls.map fun d => expandVals ρ d.vals))

/-- What a stylesheet says about an element with the custom properties `ρ`, but for the custom properties. -/
def sayings (B : Browser) (ρ : Bytes → Option (List Value)) (e : B.doc.Elem) (ns : List Node) : List (Saying B) :=
  (applied (B.under ρ) e ns).filterMap (Offer.saying ρ)

/-! ### Finding custom properties -/

/-- A custom property. -/
def Offer.custom? {B : Browser} : Offer B.raw → Option (Bytes × List Value)
  | .decl _ prop vals _ => if prop.take 2 = b!"--" then some (prop, vals) else none
  | _ => none

/-- Custom properties come from `:root`, and are not `!important`. -/
def Offer.FromRoot {B : Browser} (e : B.doc.Elem) : Offer B.raw → Prop
  | .decl c prop _ imp => prop.take 2 = b!"--" → imp = false ∧
      ∀ w, c w ↔ B.doc.has e (.pclass ⟨0, 0⟩ b!"root" .nil) ∧ w = [B.weigh (.pclass ⟨0, 0⟩ b!"root" .nil)]
  | .raw _ text => text.take 2 ≠ b!"--"
  | .other a => ∀ d ∈ a.block.allDecls, d.custom? = none ∧ ∀ sp v, d = .raw sp v → v.take 2 ≠ b!"--"

/-- The values of the custom properties of an element, from what is said about all elements. -/
abbrev Custom (B : Browser) := (B.doc.Elem → List (Offer B.raw)) → B.doc.Elem → Bytes → Option (List Value)

/-- If all custom properties come from `:root`, then the last declaration wins, and every element has its value. -/
def Browser.KnowsCustom (B : Browser) (cs : Custom B) : Prop :=
  ∀ said defs, (∀ e, (said e).filterMap Offer.custom? = defs) → (∀ e, ∀ o ∈ said e, o.FromRoot e) →
    (∀ d ∈ defs, noVars d.2 = true) → ∀ e x, cs said e x = lastDef defs x

/-- What a stylesheet says about an element. -/
def understood (B : Browser) (cs : Custom B) (e : B.doc.Elem) (ns : List Node) : List (Saying B) :=
  sayings B (cs (fun e => applied B.raw e ns) e) e ns

/-! ### Stylesheets in which custom properties can be put in -/

/-- The custom properties of the rules. -/
def rootDefs (ns : List Node) : List (Bytes × List Value) :=
  ns.flatMap fun
    | .rule ⟨_, _, some b⟩ => b.decls.filterMap Decl.custom?
    | _ => []

/-- `var(--x)` or `var(--x, …)`, without `var()` in the fallback. -/
def Value.varOf? : Value → Option Bytes
  | .func _ name (.ident _ x :: rest) => if name = b!"var" ∧ noVars rest = true then some x else none
  | _ => none

/-- Nothing about custom properties. -/
def Decl.Free (d : Decl) : Prop :=
  d.custom? = none ∧ noVars d.vals = true ∧ ∀ sp v, d = .raw sp v → v.take 2 ≠ b!"--"

/-- All custom properties are declared in rules `:root {…}` (with a space), before they are used; their values have no
`var()`, nor have functions, fallbacks and at-rules. -/
structure Rooted (ns : List Node) : Prop where
  defs : ∀ r b sp prop vals imp, .rule r ∈ ns → r.block = some b → .decl sp prop vals imp ∈ b.decls → prop.take 2 = b!"--" →
    r.takes ∧ (∃ l s, r.prelude = .sels l ∧ l.sels = [s] ∧ s.bare.parts = [.pclass ⟨0, 0⟩ b!"root" .nil]) ∧ imp = false ∧ noVars vals = true
  raws : ∀ r b sp v, .rule r ∈ ns → r.block = some b → .raw sp v ∈ b.decls → v.take 2 ≠ b!"--"
  uses : ∀ pre r post b d v, ns = pre ++ .rule r :: post → r.block = some b → d ∈ b.decls → v ∈ d.vals →
    v.noVar = true ∨ ∃ x, v.varOf? = some x ∧ lastDef (rootDefs (pre ++ [.rule r])) x = lastDef (rootDefs ns) x
  ats : ∀ a, .at a ∈ ns → ∀ d ∈ a.block.allDecls, d.Free

end Cssc
