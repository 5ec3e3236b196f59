import Verif.Spec.Tree

/-!
# Specification: everything inside a syntax tree

`Stylesheet.items` lists every node, span and literal of a tree, at any depth.
-/

namespace Cssc

/-- Something found in a tree. -/
inductive Item where
  | span (sp : Span)
  | lit (t : Bytes)
  | value (v : Value)
  | part (p : SelPart)
  | sel (s : Sel)
  | sels (l : List Sel)
  | args (name : Bytes) (a : PArgs)
  | ksel (k : KSel)
  | decl (d : Decl)
  | rule (r : QRule)
  | mqpart (p : MQPart)
  | mq (q : MQ)
  | mql (l : MQList)
  | at (a : AtRule)

mutual
def Value.items : Value → List Item
  | .nil => []
  | .str sp v => [.value (.str sp v), .span sp, .lit v]
  | .dim sp num unit => [.value (.dim sp num unit), .span sp, .lit num, .lit unit]
  | .ident sp v => [.value (.ident sp v), .span sp, .lit v]
  | .hex sp v => [.value (.hex sp v), .span sp, .lit v]
  | .brackets sp vs => .value (.brackets sp vs) :: .span sp :: Value.itemsL vs
  | .func sp name args => .value (.func sp name args) :: .span sp :: .lit name :: Value.itemsL args
  | .math sp op l r => .value (.math sp op l r) :: .span sp :: .lit op :: (l.items ++ r.items)
  | .paren sp v => .value (.paren sp v) :: .span sp :: v.items
  | .raw sp v => [.value (.raw sp v), .span sp, .lit v]
  | .comma sp => [.value (.comma sp), .span sp]
def Value.itemsL : List Value → List Item
  | [] => []
  | v :: vs => v.items ++ Value.itemsL vs
end

mutual
def SelPart.items : SelPart → List Item
  | .type sp name => [.part (.type sp name), .span sp, .lit name]
  | .cls sp name => [.part (.cls sp name), .span sp, .lit name]
  | .id sp name => [.part (.id sp name), .span sp, .lit name]
  | .comb sp op => [.part (.comb sp op), .span sp, .lit op]
  | .pclass sp name args => .part (.pclass sp name args) :: .span sp :: .lit name :: .args name args :: args.items
  | .pelem sp isp name args =>
    .part (.pelem sp isp name args) :: .span sp :: .span isp :: .lit name :: .args name args :: args.items
  | .ws sp => [.part (.ws sp), .span sp]
  | .attr sp prop preOp value modifier =>
    .part (.attr sp prop preOp value modifier) :: .span sp :: .lit prop :: .lit preOp :: .lit modifier :: value.items
def PArgs.items : PArgs → List Item
  | .nil => []
  | .sels sp l => .sels l :: .span sp :: Sel.itemsL l
  | .ident sp v => [.span sp, .lit v]
  | .anb sp a op b => [.span sp, .lit a, .lit op, .lit b]
def Sel.items : Sel → List Item
  | .mk sp parts => .sel (.mk sp parts) :: .span sp :: SelPart.itemsL parts
def Sel.itemsL : List Sel → List Item
  | [] => []
  | s :: ss => s.items ++ Sel.itemsL ss
def SelPart.itemsL : List SelPart → List Item
  | [] => []
  | p :: ps => p.items ++ SelPart.itemsL ps
end

def KSel.items : KSel → List Item
  | .pct sp v => [.ksel (.pct sp v), .span sp, .lit v]
  | .ident sp v => [.ksel (.ident sp v), .span sp, .lit v]

def Prelude.items : Prelude → List Item
  | .nil => []
  | .sels l => .sels l.sels :: .span l.sp :: Sel.itemsL l.sels
  | .keyframes sp l => .span sp :: l.flatMap KSel.items

def Decl.items : Decl → List Item
  | .decl sp prop vals imp => .decl (.decl sp prop vals imp) :: .span sp :: .lit prop :: Value.itemsL vals
  | .raw sp v => [.decl (.raw sp v), .span sp, .lit v]

def DeclBlock.items (b : DeclBlock) : List Item := .span b.sp :: b.decls.flatMap Decl.items

def QRule.items (r : QRule) : List Item :=
  .rule r :: .span r.sp :: (r.prelude.items ++ r.block.toList.flatMap DeclBlock.items)

def MQPart.items : MQPart → List Item
  | .ident sp v => [.mqpart (.ident sp v), .span sp, .lit v]
  | .plain sp psp prop value => .mqpart (.plain sp psp prop value) :: .span sp :: .span psp :: .lit prop :: value.items
  | .range sp psp prop left op right => .mqpart (.range sp psp prop left op right) :: .span sp :: .span psp ::
      .lit prop :: .lit op :: (left.items ++ right.items)
  | .inParens sp parts => [.mqpart (.inParens sp parts), .span sp]

def MQ.items (q : MQ) : List Item := .mq q :: .span q.sp :: q.parts.flatMap MQPart.items

def MQList.items (l : MQList) : List Item := .mql l :: .span l.sp :: l.queries.flatMap MQ.items

def AtPrelude.items : AtPrelude → List Item
  | .str sp v => [.span sp, .lit v]
  | .ident sp v => [.span sp, .lit v]
  | .mql l => l.toList.flatMap MQList.items
  | .mq q => q.items

def Block.items : Block → List Item
  | .none => []
  | .decls b => b.items
  | .rules sp rs => .span sp :: rs.flatMap QRule.items

def AtRule.items (a : AtRule) : List Item :=
  .at a :: .span a.sp :: .lit a.name :: (a.preludes.flatMap AtPrelude.items ++ a.block.items)

def Node.items : Node → List Item
  | .rule r => r.items
  | .at a => a.items

/-- Everything inside a stylesheet. -/
def Stylesheet.items (ss : Stylesheet) : List Item := ss.nodes.flatMap Node.items

/-! ### What each property says about one item -/

/-- The strings that the parser itself supplies. -/
def fixedLits : List Bytes :=
  [[], b!"%", b!"url", b!"-1", b!"0", b!"+", b!"-", b!"*", b!"/", b!"<", b!"<=", b!">", b!">=",
   b!"^", b!"~", b!"$", b!"|", b!"s", b!"i"]

/-- C20, with the exception that is refuted: a property name may be `*` and a slice that do not touch. -/
def LitOk (src t : Bytes) : Prop := SliceOf src t ∨ t ∈ fixedLits ∨ ∃ u, SliceOf src u ∧ t = 42 :: u

/-- C22, with the exception that is refuted: the arguments of `nth-*` may be missing. -/
def Shape : Item → Prop
  | .decl (.decl _ _ vals _) => vals ≠ []
  | .sels l => l ≠ []
  | .sel s => s.parts ≠ []
  | .ksel (.pct _ _) => True
  | .ksel (.ident _ v) => v = b!"from" ∨ v = b!"to"
  | .mqpart (.range _ _ _ _ op _) => op ∈ [b!"<", b!"<=", b!">", b!">="]
  | .mqpart (.inParens _ _) => False
  | .mq q => q.parts ≠ []
  | .mql l => l.queries ≠ []
  | .rule r => ∃ b, r.block = some b
  | .args name (.ident _ v) => name ∈ nthNames ∧ (v = b!"even" ∨ v = b!"odd")
  | .args name (.anb _ _ _ _) => name ∈ nthNames
  | .args name (.sels _ _) => name ∉ nthNames
  | .at a => a.name = b!"custom-media" → ∃ sp v q, a.preludes = [.ident sp v, .mq q]
  | .value .nil => False
  | _ => True

/-- What nodes mean: arithmetic (C23) and An+B (C29). -/
def Sense (src : Bytes) : Item → Prop
  | .value (.math _ op l r) => MathOk op l r
  | .args _ (.anb sp a op b) => AnbMeans (textAt src sp) a op b ∧ (op ≠ [] → b ≠ [] ∨ StuckIn src)
  | _ => True

/-- C59: the literals of a node have the syntax of their kind, and its values are of a kind that may stand there.
The word of `url(word)` is kept in an identifier without a place. -/
def Form : Item → Prop
  | .value (.str _ v) => StrLit v
  | .value (.dim _ num unit) => DimLit num unit
  | .value (.ident sp v) => sp = ⟨0, 0⟩ ∨ IdentLit v
  | .value (.hex _ v) => HashLit v
  | .value (.brackets _ vs) => ∀ v ∈ vs, v.isComp = true
  | .value (.func _ name args) => (name = b!"url" ∧ ∃ w, args = [.ident ⟨0, 0⟩ w] ∧ UrlLit w) ∨
      IdentLit name ∧ ∀ v ∈ args, ArgOk name v
  | .value (.math _ _ l r) => l.isTerm = true ∧ r.isTerm = true
  | .value (.paren _ v) => v = .nil ∨ v.isTerm = true
  | .value (.raw _ v) => DelimLit v ∧ v ≠ b!"!"
  | .part (.type _ name) => name = b!"*" ∨ IdentLit name
  | .part (.cls _ name) => IdentLit name
  | .part (.id _ name) => HashLit name
  | .part (.pclass _ name _) => IdentLit name
  | .part (.pelem _ _ name _) => IdentLit name
  | .part (.attr _ prop _ value _) => IdentLit prop ∧ (value = .nil ∨ value.isComp = true)
  | .ksel (.pct _ v) => NumLit v
  | .decl (.decl _ prop vals _) => (∃ name, (prop = name ∨ prop = 42 :: name) ∧ IdentLit name) ∧
      ∀ v ∈ vals, (v.isComp || v.isSep || v.isRaw) = true
  | .mqpart (.ident _ v) => IdentLit v
  | .mqpart (.plain _ _ prop value) => IdentLit prop ∧ (value = .nil ∨ value.isComp = true)
  | .mqpart (.range _ _ prop left _ right) => IdentLit prop ∧ (left = .nil ∨ left.isComp = true) ∧
      (right = .nil ∨ right.isComp = true)
  | .at a => WordLit a.name ∧ (∀ sp v, .str sp v ∈ a.preludes → StrLit v ∨ UrlLit v) ∧
      ∀ sp v, .ident sp v ∈ a.preludes → IdentLit v
  | _ => True

/-- Everything at once. -/
def ItemOk (src : Bytes) (it : Item) : Prop :=
  (∀ sp, it = .span sp → SpOk src sp) ∧ (∀ t, it = .lit t → LitOk src t) ∧ Shape it ∧ Sense src it ∧ Form it

end Cssc
