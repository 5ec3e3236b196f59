import Verif.Transformer
import Verif.Spec.Select

/-!
# Specification: what a transform may do to each node

The output of a transform is described piece by piece: every element of a list is replaced by a list of
elements, in order (`Pieces`).  What a node becomes depends on the nodes before it only through the custom
properties (`varDefs`) and custom media queries (`mediaDefs`) that they define; both are read off the syntax
tree.
-/

namespace Cssc

/-- `out` is made of one piece for each element, in order. -/
inductive Pieces (R : α → List β → Prop) : List α → List β → Prop where
  | nil : Pieces R [] []
  | cons {x : α} {xs : List α} {o1 o2 : List β} : R x o1 → Pieces R xs o2 → Pieces R (x :: xs) (o1 ++ o2)

/-- The last entry for a key. -/
def lastDef (defs : List (Bytes × α)) (k : Bytes) : Option α :=
  ((defs.reverse.find? fun d => d.1 == k).map Prod.snd)

/-! ### Imports -/

/-- The stylesheet that replaces an `@import`. -/
def replacement (m : List (AtId × Stylesheet)) (a : AtRule) : Option Stylesheet :=
  (m.find? fun e => e.1 == a.id).map Prod.snd

/-- `flat` is the list of nodes with every `@import` that has a replacement replaced by the nodes of its
stylesheet, again with the imports replaced. -/
inductive Inlined (m : List (AtId × Stylesheet)) : List Node → List Node → Prop where
  | nil : Inlined m [] []
  | rule {r : QRule} {ns flat : List Node} : Inlined m ns flat → Inlined m (.rule r :: ns) (.rule r :: flat)
  | keep {a : AtRule} {ns flat : List Node} : (a.name = b!"import" → replacement m a = none) → Inlined m ns flat →
      Inlined m (.at a :: ns) (.at a :: flat)
  | replace {a : AtRule} {ss : Stylesheet} {ns f1 f2 : List Node} : a.name = b!"import" → replacement m a = some ss →
      Inlined m ss.nodes f1 → Inlined m ns f2 → Inlined m (.at a :: ns) (f1 ++ f2)

/-- Every `@import` twice: what happens without a map of replacements. -/
def doubleImports (ns : List Node) : List Node :=
  ns.flatMap fun
    | .at a => if a.name = b!"import" then [.at a, .at a] else [.at a]
    | n => [n]

/-! ### Custom properties -/

/-- A custom property. -/
def Decl.custom? : Decl → Option (Bytes × List Value)
  | .decl _ prop vals _ => if prop.take 2 = b!"--" then some (prop, vals) else none
  | .raw _ _ => none

/-- The rules whose custom properties the transformer takes (this is what the code does, not what it is meant
to do): the first selector starts with `:root`, and some selector does not consist of a single part. -/
def QRule.takes (r : QRule) : Prop :=
  ∃ l s rest sp args more, r.prelude = .sels l ∧ l.sels = s :: rest ∧ s.parts = .pclass sp b!"root" args :: more ∧
    ∃ t ∈ l.sels, t.parts.length ≠ 1

/-- The custom properties taken from a rule. -/
def RuleDefs (r : QRule) (ds : List (Bytes × List Value)) : Prop :=
  ∃ b, r.block = some b ∧ ((r.takes ∧ ds = b.decls.filterMap Decl.custom?) ∨ (¬ r.takes ∧ ds = []))

/-- The custom properties taken from a list of nodes, in order. -/
inductive VarDefs : List Node → List (Bytes × List Value) → Prop where
  | nil : VarDefs [] []
  | at {ns : List Node} {ds : List (Bytes × List Value)} {a : AtRule} : VarDefs ns ds → VarDefs (ns ++ [.at a]) ds
  | rule {ns : List Node} {ds e : List (Bytes × List Value)} {r : QRule} : VarDefs ns ds → RuleDefs r e →
      VarDefs (ns ++ [.rule r]) (ds ++ e)

/-! ### Values -/

/-- Formatting a number and reading it back gives the same number. -/
def RoundTrip (fo : FloatOps) : Prop := ∀ f, fo.parse (fo.fmt f) = some f

/-- The number and the unit that a `calc()` expression stands for: sums and differences of equal units,
products with a plain number, quotients by a plain number other than zero.  `defs` are the custom properties;
`none` if `var()` is not replaced. -/
inductive Denotes (fo : FloatOps) (defs : Option (List (Bytes × List Value))) : Value → fo.F → Bytes → Prop where
  | dim {sp : Span} {num unit : Bytes} {f : fo.F} : fo.parse num = some f → Denotes fo defs (.dim sp num unit) f unit
  | add {sp : Span} {l r : Value} {f g : fo.F} {u : Bytes} : Denotes fo defs l f u → Denotes fo defs r g u →
      Denotes fo defs (.math sp b!"+" l r) (fo.add f g) u
  | sub {sp : Span} {l r : Value} {f g : fo.F} {u : Bytes} : Denotes fo defs l f u → Denotes fo defs r g u →
      Denotes fo defs (.math sp b!"-" l r) (fo.sub f g) u
  | mulNum {sp : Span} {l r : Value} {f g : fo.F} {u : Bytes} : Denotes fo defs l f u → Denotes fo defs r g [] →
      Denotes fo defs (.math sp b!"*" l r) (fo.mul f g) u
  | numMul {sp : Span} {l r : Value} {f g : fo.F} {u : Bytes} : Denotes fo defs l f [] → Denotes fo defs r g u →
      Denotes fo defs (.math sp b!"*" l r) (fo.mul g f) u
  | div {sp : Span} {l r : Value} {f g : fo.F} {u : Bytes} : Denotes fo defs l f u → Denotes fo defs r g [] →
      fo.isZero g = false → Denotes fo defs (.math sp b!"/" l r) (fo.div f g) u
  | calc {sp : Span} {v : Value} {f : fo.F} {u : Bytes} : Denotes fo defs v f u →
      Denotes fo defs (.func sp b!"calc" [v]) f u
  | var {sp isp : Span} {x : Bytes} {rest : List Value} {ds : List (Bytes × List Value)} {v : Value} {f : fo.F} {u : Bytes} :
      defs = some ds → lastDef ds x = some [v] → Denotes fo defs v f u →
      Denotes fo defs (.func sp b!"var" (.ident isp x :: rest)) f u
  | fallback {sp isp : Span} {x : Bytes} {c v : Value} {ds : List (Bytes × List Value)} {f : fo.F} {u : Bytes} :
      defs = some ds → lastDef ds x = none → Denotes fo defs v f u →
      Denotes fo defs (.func sp b!"var" [.ident isp x, c, v]) f u

/-- What becomes of a value. -/
inductive ValuePiece (fo : FloatOps) (o : TOpts) (defs : List (Bytes × List Value)) : Value → List Value → Prop where
  | other {v : Value} : (∀ sp args, v ≠ .func sp b!"var" args) → (∀ sp args, v ≠ .func sp b!"calc" args) →
      ValuePiece fo o defs v [v]
  | varOff {sp : Span} {args : List Value} : o.customProperties = false →
      ValuePiece fo o defs (.func sp b!"var" args) [.func sp b!"var" args]
  | varDefined {sp isp : Span} {x : Bytes} {rest vals : List Value} : o.customProperties = true →
      lastDef defs x = some vals → ValuePiece fo o defs (.func sp b!"var" (.ident isp x :: rest)) vals
  | varFallback {sp isp : Span} {x : Bytes} {c v : Value} {vs : List Value} : o.customProperties = true →
      lastDef defs x = none → ValuePiece fo o defs (.func sp b!"var" (.ident isp x :: c :: v :: vs)) (v :: vs)
  | varUndefined {sp isp : Span} {x : Bytes} {rest : List Value} : o.customProperties = true →
      lastDef defs x = none → rest.length ≤ 1 →
      ValuePiece fo o defs (.func sp b!"var" (.ident isp x :: rest)) [.func sp b!"var" (.ident isp x :: rest)]
  | varBad {sp : Span} {args : List Value} : (∀ isp x rest, args ≠ .ident isp x :: rest) →
      ValuePiece fo o defs (.func sp b!"var" args) [.func sp b!"var" args]
  | calcKept {sp : Span} {args : List Value} : ValuePiece fo o defs (.func sp b!"calc" args) [.func sp b!"calc" args]
  | calcReduced {sp : Span} {args : List Value} {num unit : Bytes} : o.calcReduction = true →
      (RoundTrip fo → ∃ f, num = fo.fmt f ∧
        Denotes fo (if o.customProperties then some defs else none) (.func sp b!"calc" args) f unit) →
      ValuePiece fo o defs (.func sp b!"calc" args) [.dim ⟨0, 0⟩ num unit]

/-- What becomes of a declaration. -/
inductive DeclPiece (fo : FloatOps) (o : TOpts) (defs : List (Bytes × List Value)) : Decl → List Decl → Prop where
  | decl {sp : Span} {prop : Bytes} {vals vals' : List Value} {imp : Bool} :
      Pieces (ValuePiece fo o defs) vals vals' →
      DeclPiece fo o defs (.decl sp prop vals imp) [.decl sp prop vals' imp]
  | raw {sp : Span} {v : Bytes} : DeclPiece fo o defs (.raw sp v) [.raw sp v]

/-! ### Selectors -/

/-- A part with the pseudo class `name` in the place of `:any-link`. -/
def SelPart.linkAs (name : Bytes) (p : SelPart) : SelPart := if p.anyLink then .pclass ⟨0, 0⟩ name .nil else p

/-- A selector with the pseudo class `name` in the place of every `:any-link`. -/
def Sel.linkAs (name : Bytes) : Sel → Sel
  | .mk sp parts => .mk sp (parts.map (SelPart.linkAs name))

/-- What becomes of a selector. -/
inductive SelPiece (o : TOpts) : Sel → List Sel → Prop where
  | same {s : Sel} : (o.anyLink = true → ∀ p ∈ s.parts, p.anyLink = false) → SelPiece o s [s]
  | split {s : Sel} {out : List Sel} : o.anyLink = true → (∃ p ∈ s.parts, p.anyLink = true) →
      (∀ t ∈ out, t = s.linkAs b!"link" ∨ t = s.linkAs b!"visited") → s.linkAs b!"link" ∈ out → s.linkAs b!"visited" ∈ out →
      SelPiece o s out

/-! ### Media queries -/

/-- The custom media query that an at-rule defines. -/
def AtRule.customMedia? (a : AtRule) : Option (Bytes × MQ) :=
  if a.name = b!"custom-media" then
    match a.preludes with
    | [.ident _ name, .mq q] => some (name, q)
    | _ => none
  else none

/-- The custom media query that a node defines. -/
def Node.customMedia? : Node → Option (Bytes × MQ)
  | .at a => a.customMedia?
  | .rule _ => none

/-- The custom media queries defined by a list of nodes, in order. -/
def mediaDefs (ns : List Node) : List (Bytes × MQ) := ns.filterMap Node.customMedia?

/-- A bound moved by `d`; a bound that is not a number stays. -/
inductive Moved (fo : FloatOps) (d : fo.F) : Value → Value → Prop where
  | num {sp : Span} {num unit : Bytes} {f : fo.F} : fo.parse num = some f →
      Moved fo d (.dim sp num unit) (.dim ⟨0, 0⟩ (fo.fmt (fo.add f d)) unit)
  | notNum {v : Value} : (∀ sp num unit f, v = .dim sp num unit → fo.parse num ≠ some f) → Moved fo d v v

/-- The lower bound `v` on a feature: `min-…`. -/
def IsMin (prop : Bytes) (v : Value) (p : MQPart) : Prop := p = .plain ⟨0, 0⟩ ⟨0, 0⟩ (b!"min-" ++ prop) v

/-- The upper bound `v` on a feature: `max-…`. -/
def IsMax (prop : Bytes) (v : Value) (p : MQPart) : Prop := p = .plain ⟨0, 0⟩ ⟨0, 0⟩ (b!"max-" ++ prop) v

/-- The bound on `prop` that `v op prop` states. -/
inductive BoundPart (fo : FloatOps) (prop : Bytes) : Value → Bytes → MQPart → Prop where
  | le {v : Value} {p : MQPart} : IsMin prop v p → BoundPart fo prop v b!"<=" p
  | ge {v : Value} {p : MQPart} : IsMax prop v p → BoundPart fo prop v b!">=" p
  | lt {v v' : Value} {p : MQPart} : Moved fo fo.eps v v' → IsMin prop v' p → BoundPart fo prop v b!"<" p
  | gt {v v' : Value} {p : MQPart} : Moved fo fo.negEps v v' → IsMax prop v' p → BoundPart fo prop v b!">" p
  | bad {v : Value} {op : Bytes} {p : MQPart} : op ∉ [b!"<", b!"<=", b!">", b!">="] → BoundPart fo prop v op p

/-- The operator with its sides exchanged. -/
def flipOp (op : Bytes) : Bytes :=
  if op = b!"<" then b!">" else if op = b!"<=" then b!">=" else if op = b!">" then b!"<"
  else if op = b!">=" then b!"<=" else op

/-- What becomes of a range `left op prop op right`. -/
inductive RangePiece (fo : FloatOps) (prop : Bytes) (op : Bytes) : Value → Value → List MQPart → Prop where
  | neither : RangePiece fo prop op .nil .nil []
  | left {v : Value} {p : MQPart} : v ≠ .nil → BoundPart fo prop v op p → RangePiece fo prop op v .nil [p]
  | right {v : Value} {p : MQPart} : v ≠ .nil → BoundPart fo prop v (flipOp op) p → RangePiece fo prop op .nil v [p]
  | both {v w : Value} {p q : MQPart} : v ≠ .nil → w ≠ .nil → BoundPart fo prop v op p →
      BoundPart fo prop w (flipOp op) q → RangePiece fo prop op v w [p, .ident ⟨0, 0⟩ b!"and", q]

/-- The name, if the part is a custom media query: `(--name)`. -/
def MQPart.custom? : MQPart → Option Bytes
  | .plain _ _ prop .nil => if prop.take 2 = b!"--" then some prop else none
  | _ => none

/-- Is it a range? -/
def MQPart.isRange : MQPart → Bool
  | .range .. => true
  | _ => false

/-- What becomes of a part of a media query. -/
inductive MQPartPiece (fo : FloatOps) (o : TOpts) (defs : List (Bytes × MQ)) : MQPart → List MQPart → Prop where
  | custom {p : MQPart} {name : Bytes} {q : MQ} : o.customMediaQueries = true → p.custom? = some name →
      lastDef defs name = some q → MQPartPiece fo o defs p q.parts
  | same {p : MQPart} : (o.customMediaQueries = true → ∀ name, p.custom? = some name → lastDef defs name = none) →
      (o.mediaFeatureRanges = true → p.isRange = false) → MQPartPiece fo o defs p [p]
  | range {sp psp : Span} {prop op : Bytes} {l r : Value} {out : List MQPart} : o.mediaFeatureRanges = true →
      RangePiece fo prop op l r out → MQPartPiece fo o defs (.range sp psp prop l op r) out

/-- What becomes of a media query. -/
inductive MQPiece (fo : FloatOps) (o : TOpts) (defs : List (Bytes × MQ)) : MQ → List MQ → Prop where
  | mk {sp : Span} {parts parts' : List MQPart} : Pieces (MQPartPiece fo o defs) parts parts' →
      MQPiece fo o defs ⟨sp, parts⟩ [⟨sp, parts'⟩]

/-! ### Nodes -/

/-- The declarations that stay in a rule. -/
def RuleKept (o : TOpts) (r : QRule) (b : DeclBlock) (ds : List Decl) : Prop :=
  (o.customProperties = true ∧ r.takes ∧ ds = b.decls.filter fun d => d.custom?.isNone) ∨
    (¬ (o.customProperties = true ∧ r.takes) ∧ ds = b.decls)

/-- What becomes of a node after the nodes `pre`. -/
inductive NodePiece (fo : FloatOps) (o : TOpts) (pre : List Node) : Node → List Node → Prop where
  | rule {sp bsp lsp : Span} {sels sels' : List Sel} {decls ds ds' : List Decl} {defs : List (Bytes × List Value)} :
      VarDefs (pre ++ [.rule ⟨sp, .sels ⟨lsp, sels⟩, some ⟨bsp, decls⟩⟩]) defs →
      RuleKept o ⟨sp, .sels ⟨lsp, sels⟩, some ⟨bsp, decls⟩⟩ ⟨bsp, decls⟩ ds →
      Pieces (DeclPiece fo o defs) ds ds' → Pieces (SelPiece o) sels sels' → ds ≠ [] →
      NodePiece fo o pre (.rule ⟨sp, .sels ⟨lsp, sels⟩, some ⟨bsp, decls⟩⟩)
        [.rule ⟨sp, .sels ⟨lsp, sels'⟩, some ⟨bsp, ds'⟩⟩]
  | emptyRule {r : QRule} {b : DeclBlock} : r.block = some b → RuleKept o r b [] → NodePiece fo o pre (.rule r) []
  | customMedia {a : AtRule} : a.name = b!"custom-media" → NodePiece fo o pre (.at a) []
  | media {src : Nat} {sp lsp : Span} {qs qs' : List MQ} {rest : List AtPrelude} {block : Block} :
      Pieces (MQPiece fo o (mediaDefs pre)) qs qs' →
      NodePiece fo o pre (.at ⟨src, sp, b!"media", .mql (some ⟨lsp, qs⟩) :: rest, block⟩)
        [.at ⟨src, sp, b!"media", .mql (some ⟨lsp, qs'⟩) :: rest, block⟩]
  | other {a : AtRule} : a.name ≠ b!"custom-media" → a.name ≠ b!"media" → NodePiece fo o pre (.at a) [.at a]

/-- What becomes of a list of nodes after the nodes `pre`. -/
inductive NodePieces (fo : FloatOps) (o : TOpts) : List Node → List Node → List Node → Prop where
  | nil {pre : List Node} : NodePieces fo o pre [] []
  | cons {pre ns o1 o2 : List Node} {n : Node} : NodePiece fo o pre n o1 → NodePieces fo o (pre ++ [n]) ns o2 →
      NodePieces fo o pre (n :: ns) (o1 ++ o2)

end Cssc
