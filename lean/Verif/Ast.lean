import Verif.Lexer

/-!
# The syntax tree

`internal/ast/*.go`.  A Go interface holding one of several pointer types becomes an inductive type
with one constructor per pointer type; every constructor carries the node's `Span`.  Where the code can
produce a nil interface or a nil pointer, there is an explicit constructor (or `Option`) for it.

Simplifications: the interfaces are closed (only the node types that the packages of the repository
put there exist); `ast.MediaType` is never constructed and is left out; trees are values, so aliasing of
subtrees between nodes is not represented (the compile model, `Compile.lean`, treats the one place where
aliasing is observable, the AST cache, explicitly).
-/

namespace Cssc

/-- `ast.Value` and its implementations, `internal/ast/value.go:4-140`.  `nil` is the nil interface. -/
inductive Value where
  | nil
  | str (sp : Span) (v : Bytes)
  | dim (sp : Span) (num unit : Bytes)
  | ident (sp : Span) (v : Bytes)
  | hex (sp : Span) (v : Bytes)
  | brackets (sp : Span) (vs : List Value)
  | func (sp : Span) (name : Bytes) (args : List Value)
  | math (sp : Span) (op : Bytes) (l r : Value)
  | paren (sp : Span) (v : Value)
  | raw (sp : Span) (v : Bytes)
  | comma (sp : Span)
deriving Inhabited

/-- `Location()` of a value; `none` for the nil interface (calling it is a run-time panic). -/
def Value.loc? : Value → Option Span
  | .nil => none
  | .str sp _ => some sp
  | .dim sp _ _ => some sp
  | .ident sp _ => some sp
  | .hex sp _ => some sp
  | .brackets sp _ => some sp
  | .func sp _ _ => some sp
  | .math sp _ _ _ => some sp
  | .paren sp _ => some sp
  | .raw sp _ => some sp
  | .comma sp => some sp

/-- Is this the nil interface? -/
def Value.isNil : Value → Bool
  | .nil => true
  | _ => false

/-- `Function.IsMath`, `internal/ast/value.go:77-87`. -/
def isMathName (n : Bytes) : Bool :=
  n == b!"calc" || n == b!"min" || n == b!"max" || n == b!"clamp"

mutual
/-- `ast.SelectorPart`, `internal/ast/selector.go:31-153`.  `PseudoElementSelector.Inner` (never nil:
`parser/selectors.go:159-162`) is flattened into `pelem`, whose `isp`, `name`, `args` are the inner
pseudo class. -/
inductive SelPart where
  | type (sp : Span) (name : Bytes)
  | cls (sp : Span) (name : Bytes)
  | id (sp : Span) (name : Bytes)
  | comb (sp : Span) (op : Bytes)
  | pclass (sp : Span) (name : Bytes) (args : PArgs)
  | pelem (sp : Span) (isp : Span) (name : Bytes) (args : PArgs)
  | ws (sp : Span)
  | attr (sp : Span) (prop preOp : Bytes) (value : Value) (modifier : Bytes)
/-- `ast.PseudoClassArguments`, `internal/ast/selector.go:78-101`. -/
inductive PArgs where
  | nil
  | sels (sp : Span) (l : List Sel)
  | ident (sp : Span) (v : Bytes)
  | anb (sp : Span) (a op b : Bytes)
/-- `ast.Selector`, `internal/ast/selector.go:21-25`. -/
inductive Sel where
  | mk (sp : Span) (parts : List SelPart)
end

instance : Inhabited SelPart := ⟨.ws ⟨0, 0⟩⟩
instance : Inhabited PArgs := ⟨.nil⟩
instance : Inhabited Sel := ⟨.mk ⟨0, 0⟩ []⟩

/-- `Location()` of a selector part. -/
def SelPart.loc : SelPart → Span
  | .type sp _ => sp
  | .cls sp _ => sp
  | .id sp _ => sp
  | .comb sp _ => sp
  | .pclass sp _ _ => sp
  | .pelem sp _ _ _ => sp
  | .ws sp => sp
  | .attr sp _ _ _ _ => sp

/-- Is this an `*ast.Whitespace`? -/
def SelPart.isWs : SelPart → Bool
  | .ws _ => true
  | _ => false

/-- `Selector.Span`, `Selector.Parts`. -/
def Sel.loc : Sel → Span | .mk sp _ => sp
def Sel.parts : Sel → List SelPart | .mk _ ps => ps

/-- `ast.SelectorList`, `internal/ast/selector.go:5-9`. -/
structure SelList where
  sp : Span
  sels : List Sel
deriving Inhabited

/-- `ast.KeyframeSelector`, `internal/ast/keyframe.go:16-26`. -/
inductive KSel where
  | pct (sp : Span) (v : Bytes)
  | ident (sp : Span) (v : Bytes)
deriving DecidableEq, Repr, Inhabited

/-- `Location()` of a keyframe selector. -/
def KSel.loc : KSel → Span
  | .pct sp _ => sp
  | .ident sp _ => sp

/-- `ast.Prelude`, `internal/ast/rule.go:13-17`; `nil` for a rule without prelude (`{}`). -/
inductive Prelude where
  | nil
  | sels (l : SelList)
  | keyframes (sp : Span) (l : List KSel)
deriving Inhabited

/-- `ast.Declarationish`: `Declaration` (`internal/ast/ast.go:79-90`) or `Raw`. -/
inductive Decl where
  | decl (sp : Span) (prop : Bytes) (vals : List Value) (important : Bool)
  | raw (sp : Span) (v : Bytes)
deriving Inhabited

/-- `Location()` of a declaration. -/
def Decl.loc : Decl → Span
  | .decl sp _ _ _ => sp
  | .raw sp _ => sp

/-- `ast.DeclarationBlock`, `internal/ast/ast.go:53-57`. -/
structure DeclBlock where
  sp : Span
  decls : List Decl
deriving Inhabited

/-- `ast.QualifiedRule`, `internal/ast/rule.go:4-10`.  `Block` is only ever assigned a
`*DeclarationBlock` (`parser.go:95`, `transformer.go`), or a typed nil one by the transformer: `none`. -/
structure QRule where
  sp : Span
  prelude : Prelude
  block : Option DeclBlock
deriving Inhabited

/-- `ast.MediaQueryPart`, `internal/ast/media.go:28-93`.  A nil `Value` is `Value.nil`. The `Property`
of a plain feature or range is an identifier: its span and text. -/
inductive MQPart where
  | ident (sp : Span) (v : Bytes)
  | plain (sp : Span) (psp : Span) (prop : Bytes) (value : Value)
  | range (sp : Span) (psp : Span) (prop : Bytes) (left : Value) (op : Bytes) (right : Value)
  | inParens (sp : Span) (parts : List MQPart)
deriving Inhabited

/-- `Location()` of a media query part. -/
def MQPart.loc : MQPart → Span
  | .ident sp _ => sp
  | .plain sp _ _ _ => sp
  | .range sp _ _ _ _ _ => sp
  | .inParens sp _ => sp

/-- `ast.MediaQuery`, `internal/ast/media.go:15-19`. -/
structure MQ where
  sp : Span
  parts : List MQPart
deriving Inhabited

/-- `ast.MediaQueryList`, `internal/ast/media.go:4-8`. -/
structure MQList where
  sp : Span
  queries : List MQ
deriving Inhabited

/-- `ast.AtPrelude`, `internal/ast/atrule.go:22-26`.  `mql none` is a non-nil interface holding a nil
`*MediaQueryList` (`parser.go:598` with `:646-648`). -/
inductive AtPrelude where
  | str (sp : Span) (v : Bytes)
  | ident (sp : Span) (v : Bytes)
  | mql (l : Option MQList)
  | mq (q : MQ)
deriving Inhabited

/-- `ast.Block`, `internal/ast/ast.go:46-76`. -/
inductive Block where
  | none
  | decls (b : DeclBlock)
  | rules (sp : Span) (rs : List QRule)
deriving Inhabited

/-- `ast.AtRule`, `internal/ast/atrule.go:4-12`.  `src` identifies the parse that created the node:
the pointer `*AtRule` is represented by the pair of `src` and the start offset. -/
structure AtRule where
  src : Nat
  sp : Span
  name : Bytes
  preludes : List AtPrelude
  block : Block
deriving Inhabited

/-- The identity of an `*ast.AtRule` pointer. -/
structure AtId where
  src : Nat
  start : Nat
deriving DecidableEq, Repr, Inhabited

def AtRule.id (a : AtRule) : AtId := ⟨a.src, a.sp.start⟩

/-- A top-level node: `*QualifiedRule` or `*AtRule`. -/
inductive Node where
  | rule (r : QRule)
  | at (a : AtRule)
deriving Inhabited

/-- `Location()` of a node. -/
def Node.loc : Node → Span
  | .rule r => r.sp
  | .at a => a.sp

/-- `ast.ImportSpecifier`, `internal/ast/ast.go:28-33`. -/
structure ImportSpec where
  value : Bytes
  rule : AtId
deriving DecidableEq, Repr, Inhabited

/-- `ast.Stylesheet`, `internal/ast/ast.go:21-25`. -/
structure Stylesheet where
  nodes : List Node
  imports : List ImportSpec
deriving Inhabited

end Cssc
