import Verif.Ast

/-!
# The parser

`internal/parser/parser.go` and `internal/parser/selectors.go`, method by method.

Go loops and recursion have no evident bound here (some inputs make the parser loop forever), so every
function takes `fuel`; a result other than `timeout` does not depend on the fuel given
(`Props/Fuel.lean`, C25), so "terminates" means "some fuel suffices".

Each accumulating Go loop keeps its accumulator, `xs ++ [x]` for `append(xs, x)`.
-/

namespace Cssc

/-- `X.Location()` on an `ast.Value`; nil is a run-time panic. -/
def locate (v : Value) : P Span :=
  match v.loc? with
  | some sp => pure sp
  | none => P.crash

/-- The pattern `prev := RetainWhitespace; RetainWhitespace = b; defer func() { RetainWhitespace =
prev }()`, `selectors.go:42-46,184-188,235-239`.  Deferred functions also run when panicking. -/
def withRetain (b : Bool) (m : P α) : P α := fun s =>
  let restore (s' : St) : St := { s' with lex := { s'.lex with retainWS := s.lex.retainWS } }
  match m { s with lex := { s.lex with retainWS := b } } with
  | .ok a s' => .ok a (restore s')
  | .err e s' => .err e (restore s')
  | .crash s' => .crash (restore s')
  | .timeout => .timeout

/-- `isImportantString`, `parser.go:68-79`. -/
def isImportantString : Bytes → Bool
  | [i, m, p, o, r, t, a, n, t'] =>
    (i == 105 || i == 73) && (m == 109 || m == 77) && (p == 112 || p == 80) &&
    (o == 111 || o == 79) && (r == 114 || r == 82) && (t == 116 || t == 84) &&
    (a == 97 || a == 65) && (n == 110 || n == 78) && (t' == 116 || t' == 84)
  | _ => false

/-! ### Values, `parser.go:270-457` -/

mutual

/-- `parseValue`, `parser.go:341-457`.  A single-token value is built from the current token, then the
deferred `Next` runs. -/
def parseValue : Nat → P Value
  | 0 => P.timeout
  | n + 1 => do
    let sp ← tokenSpan
    let str ← getStr
    let num ← getNum
    match ← getCur with
    | .dimension => next; pure (.dim sp num str)
    | .lbracket => next; bracketsLoop n sp.start []
    | .percentage => next; pure (.dim sp num b!"%")
    | .number => next; pure (.dim sp num [])
    | .ident => next; pure (.ident sp str)
    | .hash => next; pure (.hex sp str)
    | .string => next; pure (.str sp str)
    | .url => next; pure (.func sp b!"url" [.ident ⟨0, 0⟩ str])
    | .functionStart => next; argsLoop n sp str []
    | _ => pure .nil

/-- The loop of `[ ... ]`, `parser.go:358-373`. -/
def bracketsLoop : Nat → Nat → List Value → P Value
  | 0, _, _ => P.timeout
  | n + 1, start, vs => do
    if (← getCur) = .rbracket then
      let e ← tokenEnd
      next
      pure (.brackets ⟨start, e⟩ vs)
    else
      match ← parseValue n with
      | .nil => errorf "expected value"
      | v => bracketsLoop n start (vs ++ [v])

/-- The argument loop of a function, `parser.go:426-453`. `sp` is `fn.Span`. -/
def argsLoop : Nat → Span → Bytes → List Value → P Value
  | 0, _, _, _ => P.timeout
  | n + 1, sp, name, args => do
    match ← getCur with
    | .rparen =>
      let e ← tokenEnd
      next
      pure (.func ⟨sp.start, e⟩ name args)
    | .comma =>
      let csp ← tokenSpan
      next
      argsLoop n sp name (args ++ [.comma csp])
    | _ =>
      if isMathName name then
        let v ← parseMathSum n
        argsLoop n sp name (args ++ [v])
      else
        match ← parseValue n with
        | .nil => pure (.func sp name args)
        | v => argsLoop n sp name (args ++ [v])

/-- `parseMathExpression`/`parseMathSum`, `parser.go:272-297`. -/
def parseMathSum : Nat → P Value
  | 0 => P.timeout
  | n + 1 => do
    let left ← parseMathProduct n
    sumLoop n left

/-- The loop of `parseMathSum`, `parser.go:279-296`. -/
def sumLoop : Nat → Value → P Value
  | 0, _ => P.timeout
  | n + 1, left => do
    let op ← getStr
    if (← getCur) = .delim ∧ (op = b!"+" ∨ op = b!"-") then
      expect .delim
      let right ← parseMathProduct n
      let lsp ← locate left
      let rsp ← locate right
      sumLoop n (.math ⟨lsp.start, rsp.stop⟩ op left right)
    else pure left

/-- `parseMathProduct`, `parser.go:299-320`. -/
def parseMathProduct : Nat → P Value
  | 0 => P.timeout
  | n + 1 => do
    let left ← parseMathParen n
    productLoop n left

/-- The loop of `parseMathProduct`, `parser.go:302-319`. -/
def productLoop : Nat → Value → P Value
  | 0, _ => P.timeout
  | n + 1, left => do
    let op ← getStr
    if (← getCur) = .delim ∧ (op = b!"*" ∨ op = b!"/") then
      expect .delim
      let right ← parseMathParen n
      let lsp ← locate left
      let rsp ← locate right
      productLoop n (.math ⟨lsp.start, rsp.stop⟩ op left right)
    else pure left

/-- `parseMathParenthesizedExpression`, `parser.go:322-336`. -/
def parseMathParen : Nat → P Value
  | 0 => P.timeout
  | n + 1 => do
    if (← getCur) ≠ .lparen then parseValue n
    else
      let loc ← tokenSpan
      expect .lparen
      let v ← parseMathSum n
      let e ← tokenSpan
      expect .rparen
      pure (.paren ⟨loc.start, e.stop⟩ v)

end

/-! ### Declarations, `parser.go:110-221` -/

/-- `parseRaw`, `parser.go:147-149`: skip to the next `;`. -/
def rawLoop : Nat → P Unit
  | 0 => P.timeout
  | n + 1 => do
    if (← getCur) = .semicolon then pure ()
    else
      next
      rawLoop n

/-- `parseRaw`, `parser.go:142-156`. -/
def parseRaw (fuel : Nat) : P Decl := do
  let sp ← tokenSpan
  rawLoop fuel
  let e ← tokenEnd
  next
  let v ← slice sp.start e
  pure (.raw ⟨sp.start, e⟩ v)

/-- The loop of `parseDeclaration`, `parser.go:181-220`. -/
def declLoop : Nat → Bytes → Span → List Value → Bool → P Decl
  | 0, _, _, _, _ => P.timeout
  | n + 1, prop, sp, vals, imp => do
    let str ← getStr
    let tsp ← tokenSpan
    match ← getCur with
    | .eof => errorf "unexpected EOF"
    | .comma =>
      next
      declLoop n prop sp (vals ++ [.comma tsp]) imp
    | .delim =>
      if str ≠ b!"!" then
        next
        declLoop n prop sp (vals ++ [.raw tsp str]) imp
      else
        next
        if ¬ isImportantString (← getStr) then errorf "expected !important, unexpected token: %s"
        else
          let e ← tokenEnd
          next
          declLoop n prop ⟨sp.start, e⟩ vals true
    | _ =>
      match ← parseValue n with
      | .nil =>
        match vals.getLast? with
        | none => errorf "declaration must have a value"
        | some last =>
          let lsp ← locate last
          pure (.decl ⟨sp.start, if sp.stop < lsp.stop then lsp.stop else sp.stop⟩ prop vals imp)
      | v => declLoop n prop sp (vals ++ [v]) imp

/-- `parseDeclaration`, `parser.go:158-221`. -/
def parseDeclaration (fuel : Nat) : P Decl := do
  let str ← getStr
  let cur ← getCur
  let isPrefix := decide (cur = .delim ∧ str = b!"*")
  whenP (isPrefix = true) next
  let name ← getStr
  let prop := if isPrefix then str ++ name else name
  let sp ← tokenSpan
  expect .ident
  expect .colon
  declLoop fuel prop sp [] false

/-- `parseDeclarationOrFallback`, `parser.go:129-140`: any panic of `parseDeclaration` is recovered; the
lexer is restored (the source's line table is not) and the text up to the next `;` is kept raw. -/
def parseDeclarationOrFallback (fuel : Nat) : P Decl := fun s =>
  match parseDeclaration fuel s with
  | .ok d s' => .ok d s'
  | .err _ s' => parseRaw fuel { s' with lex := s.lex }
  | .crash s' => parseRaw fuel { s' with lex := s.lex }
  | .timeout => .timeout

/-- The loop of `parseDeclarationBlock`, `parser.go:118-123`. -/
def declsLoop : Nat → List Decl → P (List Decl)
  | 0, _ => P.timeout
  | n + 1, ds => do
    if (← getCur) = .rcurly then pure ds
    else
      let d ← parseDeclarationOrFallback n
      let cur ← getCur
      whenP (cur = .semicolon) next
      declsLoop n (ds ++ [d])

/-- `parseDeclarationBlock`, `parser.go:112-127`. -/
def parseDeclarationBlock (fuel : Nat) : P DeclBlock := do
  let sp ← tokenSpan
  next
  let ds ← declsLoop fuel []
  let e ← tokenEnd
  next
  pure ⟨⟨sp.start, e⟩, ds⟩

/-! ### Selectors, `selectors.go` -/

/-- The first half of `parseANPlusB`, `selectors.go:241-287`: what is read of `a`, operator, `b`, and the
end of the span. -/
def anbFirst : P (Bytes × Bytes × Bytes × Nat) := do
  let sp ← tokenSpan
  let cur ← getCur
  let str ← getStr
  let num ← getNum
  if cur = .dimension ∧ str = b!"n" then
    next
    pure (num, [], [], sp.stop)
  else if cur = .dimension ∧ hasPrefix str b!"n" then
    let numeral := str.drop 1
    if hasPrefix numeral b!"-" then
      if numeral.drop 1 = [] then errorf "expected number after operator"
      else
        next
        pure (num, b!"-", numeral.drop 1, sp.stop)
    else if hasPrefix numeral b!"+" then
      if numeral.drop 1 = [] then errorf "expected number after operator"
      else
        next
        pure (num, b!"+", numeral.drop 1, sp.stop)
    else errorf "expected +/- as part of An+B"
  else if cur = .ident ∧ str = b!"n" then
    expect .ident
    pure ([], [], [], sp.stop)
  else if cur = .ident ∧ str = b!"-n" then
    expect .ident
    pure (b!"-1", [], [], sp.stop)
  else if cur = .number then
    expect .number
    if hasPrefix num b!"-" then pure (b!"0", b!"-", num.drop 1, sp.stop)
    else if hasPrefix num b!"+" then pure (b!"0", b!"+", num.drop 1, sp.stop)
    else pure (b!"0", [], num, sp.stop)
  else pure ([], [], [], sp.stop)

/-- The second half of `parseANPlusB`, `selectors.go:289-310`. -/
def anbSecond (start : Nat) : Bytes × Bytes × Bytes × Nat → P PArgs
  | (a, op, b, stop) => do
    let cur ← getCur
    let str ← getStr
    let num ← getNum
    let e ← tokenEnd
    if cur = .number then
      if hasPrefix num b!"-" then
        expect .number
        pure (.anb ⟨start, e⟩ a b!"-" (num.drop 1))
      else if hasPrefix num b!"+" then
        expect .number
        pure (.anb ⟨start, e⟩ a b!"+" (num.drop 1))
      else errorf "expected +/- as part of An+B"
    else if cur = .delim ∧ (str = b!"+" ∨ str = b!"-") then
      next
      let num ← getNum
      let e ← tokenEnd
      expect .number
      pure (.anb ⟨start, e⟩ a str num)
    else pure (.anb ⟨start, stop⟩ a op b)

/-- `parseANPlusB`, `selectors.go:234-311`. -/
def parseANPlusB : P PArgs := withRetain false do
  let sp ← tokenSpan
  let first ← anbFirst
  anbSecond sp.start first

/-- `parseAttributeSelector`, `selectors.go:183-232`. -/
def parseAttributeSelector (fuel : Nat) : P SelPart := withRetain false do
  let sp ← tokenSpan
  next
  let prop ← getStr
  expect .ident
  if (← getCur) = .rbracket then
    let e ← tokenEnd
    next
    pure (.attr ⟨sp.start, e⟩ prop [] .nil [])
  else
    let op ← getStr
    let preOp ← (do
      if op = b!"^" ∨ op = b!"~" ∨ op = b!"$" ∨ op = b!"*" ∨ op = b!"|" then
        next
        if (← getStr) ≠ b!"=" then errorf "expected =, got %s: "
        else
          expect .delim
          pure op
      else
        expect .delim
        pure [] : P Bytes)
    match ← parseValue fuel with
    | .nil => errorf "value must be specified"
    | value =>
      let e ← tokenEnd
      let str ← getStr
      if (← getCur) = .ident ∧ (str = b!"s" ∨ str = b!"i") then
        next
        expect .rbracket
        pure (.attr ⟨sp.start, e⟩ prop preOp value str)
      else
        expect .rbracket
        pure (.attr ⟨sp.start, e⟩ prop preOp value [])

/-- The pseudo classes whose argument is An+B, `selectors.go:129`. -/
def isNth (name : Bytes) : Bool :=
  name == b!"nth-child" || name == b!"nth-last-child" || name == b!"nth-of-type" ||
    name == b!"nth-last-of-type"

/-- The arguments of an `nth-*` pseudo class, `selectors.go:130-147`. -/
def parseNthArgs : P PArgs := do
  let str ← getStr
  let sp ← tokenSpan
  match ← getCur with
  | .number => parseANPlusB
  | .dimension => parseANPlusB
  | .ident =>
    if str = b!"n" ∨ str = b!"-n" then parseANPlusB
    else if str ≠ b!"even" ∧ str ≠ b!"odd" then errorf "expected even, odd, or an+b syntax"
    else
      next
      pure (.ident sp str)
  | _ => pure .nil

mutual

/-- The loop of `parseSelectorList`, `selectors.go:15-28`. -/
def selListLoop : Nat → List Sel → P (List Sel)
  | 0, _ => P.timeout
  | n + 1, acc => do
    if (← getCur) = .eof then errorf "unexpected EOF"
    else
      let s ← parseSelector n
      if (← getCur) = .comma then
        next
        selListLoop n (acc ++ [s])
      else pure (acc ++ [s])

/-- `parseSelectorList`, `selectors.go:10-35`.  The final index `l.Selectors[len-1]` is a run-time panic
on an empty list. -/
def parseSelectorList : Nat → P SelList
  | 0 => P.timeout
  | n + 1 => do
    let sp ← tokenSpan
    let l ← selListLoop n []
    match l.getLast? with
    | none => P.crash
    | some last => pure ⟨⟨sp.start, last.loc.stop⟩, l⟩

/-- `parseSelector`, `selectors.go:37-181`. -/
def parseSelector : Nat → P Sel
  | 0 => P.timeout
  | n + 1 => do
    let sp ← tokenSpan
    withRetain true (selLoop n sp [])

/-- The loop of `parseSelector`, `selectors.go:48-180`. -/
def selLoop : Nat → Span → List SelPart → P Sel
  | 0, _, _ => P.timeout
  | n + 1, sp, parts => do
    let tsp ← tokenSpan
    let str ← getStr
    match ← getCur with
    | .eof => errorf "unexpected EOF"
    | .whitespace =>
      next
      selLoop n sp (parts ++ [.ws tsp])
    | .ident =>
      next
      selLoop n sp (parts ++ [.type tsp str])
    | .hash =>
      next
      selLoop n sp (parts ++ [.id tsp str])
    | .delim =>
      if str = b!"." then
        next
        let name ← getStr
        let e ← tokenEnd
        expect .ident
        selLoop n sp (parts ++ [.cls ⟨tsp.start, e⟩ name])
      else if str = b!"+" ∨ str = b!">" ∨ str = b!"~" ∨ str = b!"|" then
        next
        selLoop n sp (parts ++ [.comb tsp str])
      else if str = b!"*" then
        next
        selLoop n sp (parts ++ [.type tsp str])
      else errorf "unexpected delimeter: %s"
    | .colon =>
      next
      let p ← parsePseudo n tsp
      selLoop n sp (parts ++ [p])
    | .lbracket =>
      let p ← parseAttributeSelector n
      selLoop n sp (parts ++ [p])
    | _ =>
      match parts.getLast? with
      | none => errorf "expected selector"
      | some last => pure (.mk ⟨sp.start, last.loc.stop⟩ parts)

/-- A pseudo class or element after the first colon, `selectors.go:106-168`; `span` is the first
colon's span. -/
def parsePseudo : Nat → Span → P SelPart
  | 0, _ => P.timeout
  | n + 1, span => do
    if (← getCur) = .colon then
      let inner ← tokenSpan
      next
      let (isp, name, args) ← parsePseudoName n inner
      pure (.pelem ⟨span.start, isp.stop⟩ isp name args)
    else
      let (isp, name, args) ← parsePseudoName n span
      pure (.pclass isp name args)

/-- The name and arguments of a pseudo class, `selectors.go:116-156`. -/
def parsePseudoName : Nat → Span → P (Span × Bytes × PArgs)
  | 0, _ => P.timeout
  | n + 1, span => do
    let name ← getStr
    match ← getCur with
    | .ident =>
      let e ← tokenEnd
      next
      pure (⟨span.start, e⟩, name, .nil)
    | .functionStart =>
      next
      let args ← (if isNth name then parseNthArgs
        else do
          let l ← parseSelectorList n
          pure (.sels l.sp l.sels) : P PArgs)
      let e ← tokenEnd
      expect .rparen
      pure (⟨span.start, e⟩, name, args)
    | _ => errorf "unexpected token: %s"

end

/-! ### Keyframe selectors, `parser.go:223-268` -/

/-- The loop of `parseKeyframeSelectorList`, `parser.go:228-260`. -/
def ksLoop : Nat → List KSel → P (List KSel)
  | 0, _ => P.timeout
  | n + 1, acc => do
    let sp ← tokenSpan
    let str ← getStr
    let num ← getNum
    match ← getCur with
    | .eof => errorf "unexpected EOF"
    | .percentage =>
      next
      if (← getCur) = .comma then
        next
        ksLoop n (acc ++ [.pct sp num])
      else pure (acc ++ [.pct sp num])
    | .ident =>
      if str ≠ b!"from" ∧ str ≠ b!"to" then
        errorf "unexpected string: %s. keyframe selector can only be from, to, or a percentage"
      else
        next
        if (← getCur) = .comma then
          next
          ksLoop n (acc ++ [.ident sp str])
        else pure (acc ++ [.ident sp str])
    | _ => errorf "unexepected token: %s. keyframe selector can only be from, to, or a percentage"

/-- `parseKeyframeSelectorList`, `parser.go:223-268`. -/
def parseKeyframeSelectorList (fuel : Nat) : P Prelude := do
  let sp ← tokenSpan
  let l ← ksLoop fuel []
  match l.getLast? with
  | none => errorf "keyframes rule must have at least one selector (from, to, or a percentage)"
  | some last => pure (.keyframes ⟨sp.start, last.loc.stop⟩ l)

/-! ### Qualified rules, `parser.go:81-108` -/

/-- The loop of `parseQualifiedRule`, `parser.go:89-107`. -/
def ruleLoop (isKeyframes : Bool) : Nat → Span → Prelude → P QRule
  | 0, _, _ => P.timeout
  | n + 1, sp, prelude => do
    match ← getCur with
    | .eof => errorf "unexpected EOF"
    | .lcurly =>
      let b ← parseDeclarationBlock n
      pure ⟨⟨sp.start, b.sp.stop⟩, prelude, some b⟩
    | _ =>
      if isKeyframes then
        let p ← parseKeyframeSelectorList n
        ruleLoop isKeyframes n sp p
      else
        let l ← parseSelectorList n
        ruleLoop isKeyframes n sp (.sels l)

/-- `parseQualifiedRule`, `parser.go:84-108`. -/
def parseQualifiedRule (isKeyframes : Bool) (fuel : Nat) : P QRule := do
  let sp ← tokenSpan
  ruleLoop isKeyframes fuel sp .nil

/-! ### Media queries, `parser.go:623-807` -/

/-- `parseMediaRangeOperator`, `parser.go:777-807`. -/
def parseMediaRangeOperator : P Bytes := do
  let operator ← getStr
  next
  if (← getCur) = .delim then
    let str ← getStr
    if str ≠ b!"=" ∨ (operator ≠ b!"<" ∧ operator ≠ b!">") then errorf "unexpected token: %s"
    else
      next
      if operator = b!"<" then pure b!"<="
      else if operator = b!">" then pure b!">="
      else errorf "unknown operator: %s"
  else
    if operator = b!"<" then pure b!"<"
    else if operator = b!">" then pure b!">"
    else errorf "unknown operator: %s"

/-- The `lexer.Delim` case of `parseMediaFeature`, `parser.go:722-763`. -/
def mediaRange (fuel : Nat) (start : Nat) (first : Value) : P MQPart := do
  let op ← parseMediaRangeOperator
  let second ← parseValue fuel
  match second with
  | .ident psp prop =>
    let right ← (do
      if (← getCur) = .delim then
        let op2 ← parseMediaRangeOperator
        if op2 ≠ op then errorf "operators in a range must be the same"
        else parseValue fuel
      else pure .nil : P Value)
    let e ← tokenEnd
    expect .rparen
    pure (.range ⟨start, e⟩ psp prop first op right)
  | _ =>
    match first with
    | .ident psp prop =>
      let e ← tokenEnd
      expect .rparen
      pure (.range ⟨start, e⟩ psp prop .nil op second)
    | _ => errorf "expected identifier"

/-- `parseMediaFeature`, `parser.go:681-768`. -/
def parseMediaFeature (fuel : Nat) : P MQPart := do
  let sp ← tokenSpan
  expect .lparen
  let first ← parseValue fuel
  match ← getCur with
  | .rparen =>
    let e ← tokenEnd
    next
    match first with
    | .ident psp prop => pure (.plain ⟨sp.start, e⟩ psp prop .nil)
    | _ => errorf "expected identifier in media feature with no value"
  | .colon =>
    next
    match first with
    | .ident psp prop =>
      let second ← parseValue fuel
      let e ← tokenEnd
      expect .rparen
      pure (.plain ⟨sp.start, e⟩ psp prop second)
    | _ => errorf "expected identifier in non-range media feature"
  | .delim => mediaRange fuel sp.start first
  | _ => errorf "unexpected token: %s"

/-- The loop of `parseMediaQuery`, `parser.go:659-678`; `none` is the nil `*MediaQuery`.  The type
assertion `p.parseValue().(*ast.Identifier)` is a run-time panic on any other value. -/
def mqLoop : Nat → Span → List MQPart → P (Option MQ)
  | 0, _, _ => P.timeout
  | n + 1, sp, parts => do
    match ← getCur with
    | .eof => errorf "unexpected EOF"
    | .lparen =>
      let f ← parseMediaFeature n
      mqLoop n sp (parts ++ [f])
    | .ident =>
      match ← parseValue n with
      | .ident isp v => mqLoop n sp (parts ++ [.ident isp v])
      | _ => P.crash
    | _ =>
      match parts.getLast? with
      | some last => pure (some ⟨⟨sp.start, last.loc.stop⟩, parts⟩)
      | none => pure none

/-- `parseMediaQuery`, `parser.go:654-679`. -/
def parseMediaQuery (fuel : Nat) : P (Option MQ) := do
  let sp ← tokenSpan
  mqLoop fuel sp []

/-- The loop of `parseMediaQueryList`, `parser.go:628-644`. -/
def mqlLoop : Nat → List MQ → P (List MQ)
  | 0, _ => P.timeout
  | n + 1, acc => do
    if (← getCur) = .eof then errorf "unexpected EOF"
    else
      let q ← parseMediaQuery n
      let acc := acc ++ q.toList
      if (← getCur) = .comma then
        next
        mqlLoop n acc
      else pure acc

/-- `parseMediaQueryList`, `parser.go:623-652`; `none` is the nil `*MediaQueryList`. -/
def parseMediaQueryList (fuel : Nat) : P (Option MQList) := do
  let sp ← tokenSpan
  let l ← mqlLoop fuel []
  match l.getLast? with
  | none => pure none
  | some last => pure (some ⟨⟨sp.start, last.sp.stop⟩, l⟩)

/-! ### At-rules, `parser.go:459-621,809-848`

In Go these append to `p.ss.Nodes` and `p.ss.Imports`; here they return the node and the import
specifiers they add.  (`p.ss` is only visible after a parse that did not panic.) -/

/-- `Preludes[len-1].Location().End` of the preludes that `parseImportAtRule` builds. -/
def importEnd (sp : Span) : Option MQList → Nat
  | none => sp.stop
  | some l => l.sp.stop

/-- `parseImportAtRule`, `parser.go:480-537`. -/
def parseImportAtRule (fuel : Nat) : P (Node × List ImportSpec) := fun s0 => (do
  let sp ← tokenSpan
  let name ← getStr
  next
  let psp ← tokenSpan
  let str ← getStr
  let (psp, value) ← (do
    match ← getCur with
    | .url =>
      next
      pure (psp, str)
    | .functionStart =>
      if str ≠ b!"url" then errorf "@import target must be a url or string"
      else
        next
        let v ← getStr
        expect .string
        let e ← tokenEnd
        expect .rparen
        pure (⟨psp.start, e⟩, v)
    | .string =>
      expect .string
      pure (psp, str)
    | _ => errorf "unexpected import specifier" : P (Span × Bytes))
  let mq ← parseMediaQueryList fuel
  let preludes := AtPrelude.str psp value :: mq.toList.map fun l => AtPrelude.mql (some l)
  let rule : AtRule := ⟨s0.id, ⟨sp.start, importEnd psp mq⟩, name, preludes, .none⟩
  pure (.at rule, [⟨value, rule.id⟩]) : P (Node × List ImportSpec)) s0

/-- The rule loop of `parseKeyframes` and `parseMediaAtRule`, `parser.go:571-586,605-620`; returns the
rules and the end of the block. -/
def rulesLoop (isKeyframes : Bool) : Nat → List QRule → P (List QRule × Nat)
  | 0, _ => P.timeout
  | n + 1, acc => do
    match ← getCur with
    | .eof => errorf "unexpected EOF"
    | .rcurly =>
      let e ← tokenEnd
      next
      pure (acc, e)
    | _ =>
      let r ← parseQualifiedRule isKeyframes n
      rulesLoop isKeyframes n (acc ++ [r])

/-- `parseKeyframes`, `parser.go:541-587`. -/
def parseKeyframes (fuel : Nat) : P (Node × List ImportSpec) := fun s0 => (do
  let sp ← tokenSpan
  let name ← getStr
  next
  let psp ← tokenSpan
  let str ← getStr
  let prelude ← (do
    match ← getCur with
    | .string => pure (AtPrelude.str psp str)
    | .ident => pure (AtPrelude.ident psp str)
    | _ => errorf "unexpected token %s, expected string or identifier for keyframes" : P AtPrelude)
  next
  let bsp ← tokenSpan
  expect .lcurly
  let (rules, e) ← rulesLoop true fuel []
  pure (.at ⟨s0.id, ⟨sp.start, e⟩, name, [prelude], .rules ⟨bsp.start, e⟩ rules⟩, []) :
    P (Node × List ImportSpec)) s0

/-- `parseMediaAtRule`, `parser.go:591-621`. -/
def parseMediaAtRule (fuel : Nat) : P (Node × List ImportSpec) := fun s0 => (do
  let sp ← tokenSpan
  let name ← getStr
  next
  let mql ← parseMediaQueryList fuel
  let bsp ← tokenSpan
  expect .lcurly
  let (rules, e) ← rulesLoop false fuel []
  pure (.at ⟨s0.id, ⟨sp.start, e⟩, name, [.mql mql], .rules ⟨bsp.start, e⟩ rules⟩, []) :
    P (Node × List ImportSpec)) s0

/-- `parseCustomMediaAtRule`, `parser.go:811-834`.  `queries.Queries` on a nil list is a run-time
panic. -/
def parseCustomMediaAtRule (fuel : Nat) : P (Node × List ImportSpec) := fun s0 => (do
  let sp ← tokenSpan
  let name ← getStr
  next
  match ← parseValue fuel with
  | .ident isp v =>
    match ← parseMediaQueryList fuel with
    | none => P.crash
    | some ⟨_, [q]⟩ =>
      pure (.at ⟨s0.id, ⟨sp.start, q.sp.stop⟩, name, [.ident isp v, .mq q], .none⟩, [])
    | some _ => errorf "@custom-media rule requires a single media query argument"
  | _ => errorf "expected identifier" : P (Node × List ImportSpec)) s0

/-- `parseGenericAtRule`, `parser.go:837-848`. -/
def parseGenericAtRule (fuel : Nat) : P (Node × List ImportSpec) := fun s0 => (do
  let sp ← tokenSpan
  let name ← getStr
  next
  let b ← parseDeclarationBlock fuel
  pure (.at ⟨s0.id, ⟨sp.start, b.sp.stop⟩, name, [], .decls b⟩, []) : P (Node × List ImportSpec)) s0

/-- `parseAtRule`, `parser.go:459-476`. -/
def parseAtRule (fuel : Nat) : P (Node × List ImportSpec) := do
  let name ← getStr
  if name = b!"import" then parseImportAtRule fuel
  else if name = b!"media" then parseMediaAtRule fuel
  else if name = b!"keyframes" ∨ name = b!"-webkit-keyframes" ∨ name = b!"-o-keyframes" then
    parseKeyframes fuel
  else if name = b!"custom-media" then parseCustomMediaAtRule fuel
  else parseGenericAtRule fuel

/-- `parse`, `parser.go:47-66`. -/
def topLoop : Nat → Stylesheet → P Stylesheet
  | 0, _ => P.timeout
  | n + 1, ss => do
    match ← getCur with
    | .eof => pure ss
    | .at =>
      let (node, imports) ← parseAtRule n
      topLoop n ⟨ss.nodes ++ [node], ss.imports ++ imports⟩
    | .semicolon => next; topLoop n ss
    | .cdo => next; topLoop n ss
    | .cdc => next; topLoop n ss
    | _ =>
      let r ← parseQualifiedRule false n
      topLoop n ⟨ss.nodes ++ [.rule r], ss.imports⟩

/-- What a call of `Parse` does: returns a stylesheet, returns an error, panics, or has not finished
within the fuel.  The line table of the source is kept in the first two cases. -/
inductive ParseRes where
  | ok (ss : Stylesheet) (lines : List Nat)
  | error (e : LexErr) (lines : List Nat)
  | panic
  | timeout
deriving Inhabited

/-- `Parse`, `parser.go:11-31`.  `newParser` (which lexes the first token) runs before the deferred
`recover` is installed, so a lexer error in it panics out of `Parse`; after that a `*lexer.Error` becomes
the returned error and any other panic is re-raised. -/
def parse (fuel : Nat) (src : Bytes) (id : Nat := 0) : ParseRes :=
  match newLexer (St.init src id) with
  | .err _ _ => .panic
  | .crash _ => .panic
  | .timeout => .timeout
  | .ok () s =>
    match topLoop fuel ⟨[], []⟩ s with
    | .ok ss s' => .ok ss s'.lines
    | .err e s' => .error e s'.lines
    | .crash _ => .panic
    | .timeout => .timeout

end Cssc
