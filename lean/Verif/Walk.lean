import Verif.Ast

/-!
# Walking the tree

`internal/ast/walk.go`.  `Walk(start, visit)` is modelled by the list of the nodes that `visit` is called with,
in order; `none` is a panic (the calls made before it are not kept).
-/

namespace Cssc

/-- An `ast.Node` of any type. -/
inductive WNode where
  | sheet (ss : Stylesheet)
  | rule (r : QRule)
  | at (a : AtRule)
  | selList (l : SelList)
  | sel (s : Sel)
  | part (p : SelPart)
  | anb (sp : Span) (a op b : Bytes)
  | keyframes (sp : Span) (l : List KSel)
  | percentage (sp : Span) (v : Bytes)
  | decls (b : DeclBlock)
  | rules (sp : Span) (rs : List QRule)
  | decl (d : Decl)
  | value (v : Value)
  | mqPart (p : MQPart)
  | mq (q : MQ)
  | mql (l : Option MQList)

/-- The visits of one call after another. -/
def andThen (a b : Option (List WNode)) : Option (List WNode) :=
  match a with
  | none => none
  | some l => match b with
    | none => none
    | some l' => some (l ++ l')

/-- `for _, x := range xs { Walk(x, visit) }`. -/
def walkEach (f : α → Option (List WNode)) : List α → Option (List WNode)
  | [] => some []
  | x :: xs => andThen (f x) (walkEach f xs)

/-- `visit(start)`, then the rest. -/
def visitThen (n : WNode) (rest : Option (List WNode)) : Option (List WNode) := andThen (some [n]) rest

mutual
/-- `Walk` on an `ast.Value`, `walk.go:10-14,80-85,92-95,100-110`.  There is no case for `*Brackets`. -/
def walkValue : Value → Option (List WNode)
  | .nil => some []
  | .brackets _ _ => none
  | .func sp name args => visitThen (.value (.func sp name args)) (walkValues args)
  | .math sp op l r => visitThen (.value (.math sp op l r)) (andThen (walkValue l) (walkValue r))
  | .paren sp v => visitThen (.value (.paren sp v)) (walkValue v)
  | v => some [.value v]

/-- `walk.go:93-95`. -/
def walkValues : List Value → Option (List WNode)
  | [] => some []
  | v :: vs => andThen (walkValue v) (walkValues vs)
end

/-- `Walk` on an `ast.SelectorPart`, `walk.go:73-74,97-104`: the arguments of a pseudo class are not walked. -/
def walkPart : SelPart → Option (List WNode)
  | .attr sp prop preOp value modifier => visitThen (.part (.attr sp prop preOp value modifier)) (walkValue value)
  | .pelem sp isp name args => visitThen (.part (.pelem sp isp name args)) (some [.part (.pclass isp name args)])
  | p => some [.part p]

/-- `Walk` on an `*ast.Selector`, `walk.go:30-33`. -/
def walkSel (s : Sel) : Option (List WNode) := visitThen (.sel s) (walkEach walkPart s.parts)

/-- `Walk` on an `*ast.SelectorList`, `walk.go:25-28`. -/
def walkSelList (l : SelList) : Option (List WNode) := visitThen (.selList l) (walkEach walkSel l.sels)

/-- `Walk` on an `ast.KeyframeSelector`, `walk.go:107,110`. -/
def walkKSel : KSel → Option (List WNode)
  | .pct sp v => some [.percentage sp v]
  | .ident sp v => some [.value (.ident sp v)]

/-- `Walk` on an `ast.Prelude`, `walk.go:10-12,25-28,87-90`. -/
def walkPrelude : Prelude → Option (List WNode)
  | .nil => some []
  | .sels l => walkSelList l
  | .keyframes sp l => visitThen (.keyframes sp l) (walkEach walkKSel l)

/-- `Walk` on an `ast.Declarationish`, `walk.go:63-66,111`. -/
def walkDecl : Decl → Option (List WNode)
  | .decl sp prop vals imp => visitThen (.decl (.decl sp prop vals imp)) (walkValues vals)
  | .raw sp v => some [.decl (.raw sp v)]

/-- `Walk` on an `*ast.DeclarationBlock`, `walk.go:68-71`. -/
def walkDecls (b : DeclBlock) : Option (List WNode) := visitThen (.decls b) (walkEach walkDecl b.decls)

/-- `Walk` on an `*ast.QualifiedRule`, `walk.go:21-23`.  A nil `*DeclarationBlock` in the interface is
dereferenced: a panic. -/
def walkRule (r : QRule) : Option (List WNode) :=
  visitThen (.rule r) (andThen (walkPrelude r.prelude)
    (match r.block with
      | none => none
      | some b => walkDecls b))

/-- `Walk` on an `ast.MediaQueryPart`, `walk.go:54-56,76-78,110`: the property of a range is not walked and
there is no case for `*MediaInParens`. -/
def walkMQPart : MQPart → Option (List WNode)
  | .ident sp v => some [.value (.ident sp v)]
  | .plain sp psp prop value =>
    visitThen (.mqPart (.plain sp psp prop value)) (andThen (some [.value (.ident psp prop)]) (walkValue value))
  | .range sp psp prop left op right =>
    visitThen (.mqPart (.range sp psp prop left op right)) (andThen (walkValue left) (walkValue right))
  | .inParens _ _ => none

/-- `Walk` on an `*ast.MediaQuery`, `walk.go:49-52`. -/
def walkMQ (q : MQ) : Option (List WNode) := visitThen (.mq q) (walkEach walkMQPart q.parts)

/-- `Walk` on an `ast.AtPrelude`, `walk.go:41-52,100,110`.  A nil `*MediaQueryList` in the interface is
dereferenced: a panic. -/
def walkAtPrelude : AtPrelude → Option (List WNode)
  | .str sp v => some [.value (.str sp v)]
  | .ident sp v => some [.value (.ident sp v)]
  | .mql none => none
  | .mql (some l) => visitThen (.mql (some l)) (walkEach walkMQ l.queries)
  | .mq q => walkMQ q

/-- `Walk` on an `ast.Block`, `walk.go:10-12,58-61,68-71`. -/
def walkBlock : Block → Option (List WNode)
  | .none => some []
  | .decls b => walkDecls b
  | .rules sp rs => visitThen (.rules sp rs) (walkEach walkRule rs)

/-- `Walk` on an `*ast.AtRule`, `walk.go:35-39`. -/
def walkAt (a : AtRule) : Option (List WNode) :=
  visitThen (.at a) (andThen (walkEach walkAtPrelude a.preludes) (walkBlock a.block))

/-- `Walk` on a top-level node. -/
def walkNode : Node → Option (List WNode)
  | .rule r => walkRule r
  | .at a => walkAt a

/-- `Walk` on an `*ast.Stylesheet`, `walk.go:16-19`. -/
def walk (ss : Stylesheet) : Option (List WNode) := visitThen (.sheet ss) (walkEach walkNode ss.nodes)

end Cssc
