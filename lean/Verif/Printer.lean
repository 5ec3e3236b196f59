import Verif.SourceMap

/-!
# The printer

`internal/printer/printer.go`.  `Print` recovers a panic whose value implements `error` (every Go
run-time panic does) and returns it; `print`'s own panic on an unknown node type carries a string and is
raised again.
-/

namespace Cssc

/-- `printer` and `mappingState`, `printer.go:14-27`, without `options`. -/
structure PrSt where
  s : Bytes
  maps : Bytes
  lastWritten : Nat
  genCol : Int
  origLine : Int
  origCol : Int
deriving Inhabited

/-- Result of a printer method: `error` is a panic that `Print` recovers, `panic` one it re-raises. -/
inductive PrRes (α : Type) where
  | ok (a : α) (s : PrSt)
  | error
  | panic
deriving Inhabited

/-- A printer method. -/
def Pr (α : Type) : Type := PrSt → PrRes α

namespace Pr

protected def pure (a : α) : Pr α := fun s => .ok a s

protected def bind (m : Pr α) (f : α → Pr β) : Pr β := fun s =>
  match m s with
  | .ok a s' => f a s'
  | .error => .error
  | .panic => .panic

instance : Monad Pr where
  pure := Pr.pure
  bind := Pr.bind

/-- A run-time panic (nil dereference, index out of range): recovered by `Print`. -/
def error : Pr α := fun _ => .error

/-- A panic with a string: not recovered by `Print`. -/
def panic : Pr α := fun _ => .panic

end Pr

/-- `p.s.WriteString` / `WriteRune`. -/
def write (b : Bytes) : Pr Unit := fun st => .ok () { st with s := st.s ++ b }

/-- The loop of `addMapping` over the newly written text, `printer.go:96-105`: the mapping text, the
previous generated column (reset by a newline) and the new one. -/
def mapScan : List Int → Bytes → Int → Int → Bytes × Int × Int
  | [], maps, last, new => (maps, last, new)
  | ch :: rest, maps, last, new =>
    if ch = r!"\n" then mapScan rest (maps ++ b!";") 0 0
    else mapScan rest maps last (wrap32 (new + 1))

/-- `addMapping`, `printer.go:85-124`. -/
def addMapping (src : Option Source) (sp : Span) : Pr Unit := fun st =>
  match src with
  | none => .ok () st
  | some source =>
    match source.lineAndCol sp with
    | none => .error
    | some (line, col) =>
      let newLine := wrap32 (line - 1)
      let newCol := wrap32 (col - 1)
      if st.s.length < st.lastWritten then .error
      else
        let (maps, lastGen, newGen) :=
          mapScan (runes (st.s.drop st.lastWritten)) st.maps st.genCol st.genCol
        let emit (maps : Bytes) : PrRes Unit :=
          let maps := maps ++ vlqEncode (wrap32 (newGen - lastGen)) ++ vlqEncode 0 ++
            vlqEncode (wrap32 (newLine - st.origLine)) ++ vlqEncode (wrap32 (newCol - st.origCol))
          .ok () { st with maps, lastWritten := st.s.length, genCol := newGen,
                           origLine := newLine, origCol := newCol }
        if st.s.length > 0 then
          match maps.getLast? with
          | none => .error
          | some last => if last ≠ 59 then emit (maps ++ b!",") else emit maps
        else emit maps

/-- `if c { m }`. -/
def whenPr (c : Prop) [Decidable c] (m : Pr Unit) : Pr Unit := if c then m else pure ()

/-! ### Values, `printer.go:214-260,301-303,377-378` -/

mutual

/-- `print` on a value.  The nil interface reaches the default case, where `reflect.TypeOf(nil).String()`
is a nil dereference: a run-time panic. -/
def printValue : Value → Pr Unit
  | .nil => Pr.error
  | .comma _ => write b!","
  | .dim _ num unit => do write num; write unit
  | .str _ v => do write b!"\""; write v; write b!"\""
  | .ident _ v => write v
  | .func _ name args => do write name; write b!"("; printArgs args; write b!")"
  | .brackets _ vs => do write b!"["; printSpaced vs; write b!"]"
  | .paren _ v => do write b!"("; printValue v; write b!")"
  | .math _ op l r => do printValue l; write op; printValue r
  | .hex _ v => do write b!"#"; write v
  | .raw _ v => write v

/-- Function arguments, `printer.go:236-238`. -/
def printArgs : List Value → Pr Unit
  | [] => pure ()
  | v :: vs => do printValue v; printArgs vs

/-- Bracket values, `printer.go:243-249`. -/
def printSpaced : List Value → Pr Unit
  | [] => pure ()
  | v :: vs => do
    printValue v
    whenPr (vs ≠ []) (write b!" ")
    printSpaced vs

end

/-- Is this value an `*ast.Comma`? -/
def Value.isComma : Value → Bool
  | .comma _ => true
  | _ => false

/-- The space between two values unless one of them is a comma, `printer.go:199-207`. -/
def printGap (v : Value) : List Value → Pr Unit
  | [] => pure ()
  | w :: _ => whenPr (!w.isComma && !v.isComma) (write b!" ")

/-- The value loop of a declaration, `printer.go:196-208`. -/
def printDeclValues : List Value → Pr Unit
  | [] => pure ()
  | v :: vs => do
    printValue v
    printGap v vs
    printDeclValues vs

/-- `*ast.Declaration` (`printer.go:193-212`) and `*ast.Raw`. -/
def printDecl : Decl → Pr Unit
  | .decl _ prop vals important => do
    write prop
    write b!":"
    printDeclValues vals
    whenPr important (write b!"!important")
  | .raw _ v => write v

/-- `*ast.DeclarationBlock`, `printer.go:184-191`. -/
def printDecls : List Decl → Pr Unit
  | [] => pure ()
  | d :: ds => do
    printDecl d
    whenPr (ds ≠ []) (write b!";")
    printDecls ds

/-! ### Selectors, `printer.go:157-164,262-335` -/

/-- `*ast.ANPlusB`, `printer.go:314-335`. -/
def printANB (a op b : Bytes) : Pr Unit := do
  let wroteA : Bool := decide (a ≠ [] ∧ a ≠ b!"1" ∧ a ≠ b!"0")
  whenPr wroteA
    (if a = b!"-1" then write b!"-"
     else if hasPrefix a b!"+" then write (a.drop 1)
     else write a)
  let wroteN : Bool := decide (a ≠ b!"0")
  whenPr wroteN (write b!"n")
  whenPr (b ≠ [] ∧ b ≠ b!"0") do
    whenPr (wroteA || wroteN) (write op)
    write b

mutual

/-- `print` on a selector part. -/
def printSelPart : SelPart → Pr Unit
  | .ws _ => write b!" "
  | .attr _ prop _ value _ => do
    write b!"["
    write prop
    whenPr (!value.isNil) do write b!"="; printValue value
    write b!"]"
  | .type _ name => write name
  | .cls _ name => do write b!"."; write name
  | .id _ name => do write b!"#"; write name
  | .comb _ op => write op
  | .pelem _ _ name args => do
    write b!":"
    write b!":"
    write name
    printPArgs args
  | .pclass _ name args => do
    write b!":"
    write name
    printPArgs args

/-- The arguments of a pseudo class with their parentheses, `printer.go:308-312`. -/
def printPArgs : PArgs → Pr Unit
  | .nil => pure ()
  | .sels _ l => do write b!"("; printSels l; write b!")"
  | .ident _ v => do write b!"("; write v; write b!")"
  | .anb _ a op b => do write b!"("; printANB a op b; write b!")"

/-- `*ast.Selector`, `printer.go:265-272`: a last part that is whitespace is skipped. -/
def printSel : Sel → Pr Unit
  | .mk _ parts => printParts parts

def printParts : List SelPart → Pr Unit
  | [] => pure ()
  | p :: ps => do
    whenPr (!(ps.isEmpty && p.isWs)) (printSelPart p)
    printParts ps

/-- `*ast.SelectorList`, `printer.go:157-164`. -/
def printSels : List Sel → Pr Unit
  | [] => pure ()
  | s :: ss => do
    printSel s
    whenPr (ss ≠ []) (write b!",")
    printSels ss

end

/-- `*ast.KeyframeSelectorList`, `printer.go:166-169,221-223`. -/
def printKSels : List KSel → Pr Unit
  | [] => pure ()
  | .pct _ v :: ks => do write v; write b!"%"; printKSels ks
  | .ident _ v :: ks => do write v; printKSels ks

/-- `p.print(node.Prelude)`. -/
def printPrelude : Prelude → Pr Unit
  | .nil => Pr.error
  | .sels l => printSels l.sels
  | .keyframes _ l => printKSels l

/-- `p.print(node.Block)` of a rule.  A nil block reaches the default case. -/
def printBlock : Option DeclBlock → Pr Unit
  | none => Pr.error
  | some b => printDecls b.decls

/-- `*ast.QualifiedRule`, `printer.go:171-177`. -/
def printRule (src : Option Source) (r : QRule) : Pr Unit := do
  addMapping src r.sp
  printPrelude r.prelude
  write b!"{"
  printBlock r.block
  write b!"}"

/-- `*ast.QualifiedRuleBlock`, `printer.go:179-182`. -/
def printRules (src : Option Source) : List QRule → Pr Unit
  | [] => pure ()
  | r :: rs => do printRule src r; printRules src rs

/-! ### Media queries, `printer.go:337-375` -/

/-- `print` on a media query part.  `*ast.MediaInParens` has no case in the switch and reaches the
default, which panics with a string. -/
def printMQPart : MQPart → Pr Unit
  | .ident _ v => write v
  | .plain _ _ prop value => do
    write b!"("
    write prop
    whenPr (!value.isNil) do write b!":"; printValue value
    write b!")"
  | .range _ _ prop left op right => do
    write b!"("
    whenPr (!left.isNil) do printValue left; write op
    write prop
    whenPr (!right.isNil) do write op; printValue right
    write b!")"
  | .inParens _ _ => Pr.panic

/-- `*ast.MediaQuery`, `printer.go:346-353`. -/
def printMQParts : List MQPart → Pr Unit
  | [] => pure ()
  | p :: ps => do
    printMQPart p
    whenPr (ps ≠ []) (write b!" ")
    printMQParts ps

/-- `*ast.MediaQueryList`, `printer.go:337-344`. -/
def printMQs : List MQ → Pr Unit
  | [] => pure ()
  | q :: qs => do
    printMQParts q.parts
    whenPr (qs ≠ []) (write b!",")
    printMQs qs

/-- `print` on an at-rule prelude; a nil `*MediaQueryList` is dereferenced. -/
def printAtPrelude : AtPrelude → Pr Unit
  | .str _ v => do write b!"\""; write v; write b!"\""
  | .ident _ v => write v
  | .mql none => Pr.error
  | .mql (some l) => printMQs l.queries
  | .mq q => printMQParts q.parts

/-- The prelude loop of an at-rule, `printer.go:140-146`. -/
def printAtPreludes : List AtPrelude → Pr Unit
  | [] => pure ()
  | p :: ps => do
    printAtPrelude p
    whenPr (ps ≠ []) (write b!" ")
    printAtPreludes ps

/-- The block of an at-rule, `printer.go:149-155`. -/
def printAtBlock (src : Option Source) : Block → Pr Unit
  | .none => write b!";"
  | .decls b => do write b!"{"; printDecls b.decls; write b!"}"
  | .rules _ rs => do write b!"{"; printRules src rs; write b!"}"

/-- `*ast.AtRule`, `printer.go:134-155`. -/
def printAtRule (src : Option Source) (a : AtRule) : Pr Unit := do
  addMapping src a.sp
  write b!"@"
  write a.name
  whenPr (a.preludes ≠ []) do write b!" "; printAtPreludes a.preludes
  printAtBlock src a.block

/-- `print` on a top-level node. -/
def printNode (src : Option Source) : Node → Pr Unit
  | .rule r => printRule src r
  | .at a => printAtRule src a

/-- `*ast.Stylesheet`, `printer.go:129-132`. -/
def printNodes (src : Option Source) : List Node → Pr Unit
  | [] => pure ()
  | n :: ns => do printNode src n; printNodes src ns

/-- The JSON text of the source map, `printer.go:64-76`. -/
def mapJson (source : Source) (maps : Bytes) : Bytes :=
  b!"{\"version\": 3,\"file\":\"" ++ source.path ++
  b!"\",\"sourceRoot\":\"\", \"sources\": [\"source.css\"], \"sourcesContent\":[" ++
  jsonString source.content ++ b!"],\"names\":[],\"mappings\":\"" ++ maps ++ b!"\"}"

/-- The comment that `printMapping` appends, `printer.go:77-80`. -/
def mapComment (source : Source) (maps : Bytes) : Bytes :=
  b!"\n/*# sourceMappingURL=data:application/json;base64," ++ base64Std (mapJson source maps) ++ b!" */\n"

/-- `printMapping`, `printer.go:59-81`.  `json.Marshal` of a string does not fail. -/
def printMapping (src : Option Source) : Pr Unit := fun st =>
  match src with
  | none => .ok () st
  | some source => .ok () { st with s := st.s ++ mapComment source st.maps }

/-- The initial printer state. -/
def PrSt.init : PrSt := ⟨[], [], 0, 0, 0, 0⟩

/-- What `Print` does: returns text, returns an error, or panics. -/
inductive PrintRes where
  | ok (out : Bytes)
  | error
  | panic
deriving DecidableEq, Repr, Inhabited

/-- `Print`, `printer.go:36-57`, on a stylesheet. -/
def print (src : Option Source) (ss : Stylesheet) : PrintRes :=
  match (do printNodes src ss.nodes; printMapping src : Pr Unit) PrSt.init with
  | .ok () st => .ok st.s
  | .error => .error
  | .panic => .panic

end Cssc
