import Verif.Ast

/-!
# The transformer

`internal/transformer/transformer.go` with the options of `transforms/transforms.go`.

`Transform` rewrites the tree in place and reports errors and warnings through a `Reporter`; here a
transformer method is a state transformer that returns the rewritten part and appends the reports to a
log.  `crash` is a Go panic (run-time or explicit).  `timeout` only arises from the two recursions that
are not structural (nested `@import` replacement, `calc()` inside `calc()`).

Floating point is a parameter: `FloatOps` packages `strconv.ParseFloat`, `strconv.FormatFloat(_, 'f',
-1, 64)` and the operations of `float64`.
-/

namespace Cssc

/-- `float64` and the two conversions of `strconv` that the transformer uses
(`transformer.go:255,260,494,499,567,611,631`). -/
structure FloatOps where
  F : Type
  /-- `strconv.ParseFloat`; `none` is an error. -/
  parse : Bytes → Option F
  /-- `strconv.FormatFloat(f, 'f', -1, 64)`. -/
  fmt : F → Bytes
  add : F → F → F
  sub : F → F → F
  mul : F → F → F
  div : F → F → F
  /-- `f == 0`. -/
  isZero : F → Bool
  /-- `.001` and `-.001`. -/
  eps : F
  negEps : F

/-- `transforms.ImportRules`, `transforms.go:4-15`. -/
inductive ImportRules where
  | passthrough | follow | inline
deriving DecidableEq, Repr, Inhabited

/-- `transforms.Options`, `transforms.go:82-89`; each flag is "not passthrough". -/
structure TOpts where
  importRules : ImportRules
  mediaFeatureRanges : Bool
  anyLink : Bool
  customProperties : Bool
  customMediaQueries : Bool
  calcReduction : Bool
deriving DecidableEq, Repr, Inhabited

/-- The zero `transforms.Options`: everything passes through. -/
def TOpts.default : TOpts := ⟨.passthrough, false, false, false, false, false⟩

/-- A report: `AddError` with a `LocationErrorf` or `LocationWarnf` (`transformer.go:69-75`), or the
plain error of `transformer.go:52` (no location). -/
structure Report where
  warning : Bool
  span : Option Span
  msg : String
deriving DecidableEq, Repr, Inhabited

/-- The mutable part of `transformer`, `transformer.go:62-67`, and the reporter's log.  `none` is a nil
map; a map is an association list, newest entry first. -/
structure TSt where
  vars : Option (List (Bytes × List Value))
  media : Option (List (Bytes × MQ))
  log : List Report
deriving Inhabited

inductive TRes (α : Type) where
  | ok (a : α) (s : TSt)
  | crash
  | timeout
deriving Inhabited

/-- A transformer method. -/
def T (α : Type) : Type := TSt → TRes α

namespace T

protected def pure (a : α) : T α := fun s => .ok a s

protected def bind (m : T α) (f : α → T β) : T β := fun s =>
  match m s with
  | .ok a s' => f a s'
  | .crash => .crash
  | .timeout => .timeout

instance : Monad T where
  pure := T.pure
  bind := T.bind

def get : T TSt := fun s => .ok s s
def crash : T α := fun _ => .crash
def timeout : T α := fun _ => .timeout

end T

/-- `if c { m }`. -/
def whenT (c : Prop) [Decidable c] (m : T Unit) : T Unit := if c then m else pure ()

/-- A map lookup. -/
def assoc (m : List (Bytes × α)) (k : Bytes) : Option α :=
  match m with
  | [] => none
  | (k', v) :: rest => if k' = k then some v else assoc rest k

/-- `Reporter.AddError` of a located error or warning. -/
def report (warning : Bool) (span : Option Span) (msg : String) : T Unit := fun s =>
  .ok () { s with log := s.log ++ [⟨warning, span, msg⟩] }

/-- `t.addError(v, ...)` on a value; `Location()` of the nil interface is a run-time panic. -/
def addErrorV (v : Value) (msg : String) : T Unit :=
  match v.loc? with
  | none => T.crash
  | some sp => report false (some sp) msg

/-- `t.addWarn(v, ...)` on a value. -/
def addWarnV (v : Value) (msg : String) : T Unit :=
  match v.loc? with
  | none => T.crash
  | some sp => report true (some sp) msg

/-! ### Selectors -/

/-- Is this part a `:any-link` that the options ask to transform?  `transformer.go:83-87`. -/
def isAnyLink (o : TOpts) : SelPart → Bool
  | .pclass _ name _ => name == b!"any-link" && o.anyLink
  | _ => false

/-- A part with `:any-link` replaced by the pseudo class `name`. -/
def replaceAnyLink (o : TOpts) (name : Bytes) (p : SelPart) : SelPart :=
  if isAnyLink o p then .pclass ⟨0, 0⟩ name .nil else p

/-- One selector of `transformSelectors`, `transformer.go:79-107`.  `duplicate := *n` copies the slice
header only, so all duplicates share `n`'s array and end up with every `:any-link` replaced by
`:visited`; `newParts` is a fresh array with `:link`. -/
def transformSelector (o : TOpts) : Sel → List Sel
  | .mk sp parts =>
    List.replicate (parts.countP (isAnyLink o)) (.mk sp (parts.map (replaceAnyLink o b!"visited"))) ++
    [.mk sp (parts.map (replaceAnyLink o b!"link"))]

/-- `transformSelectors`, `transformer.go:77-109`. -/
def transformSelectors (o : TOpts) (sels : List Sel) : List Sel := sels.flatMap (transformSelector o)

/-! ### Values -/

/-- `doMath`, `transformer.go:493-518`: `none` is an error. -/
def doMath (fo : FloatOps) (left right op : Bytes) : Option fo.F :=
  match fo.parse left with
  | none => none
  | some l =>
    match fo.parse right with
    | none => none
    | some r =>
      if op = b!"+" then some (fo.add l r)
      else if op = b!"-" then some (fo.sub l r)
      else if op = b!"*" then some (fo.mul l r)
      else if op = b!"/" then if fo.isZero r then none else some (fo.div l r)
      else none

/-- `doMath` followed by the error report and the new dimension, `transformer.go:560-569,604-613,624-633`.
The result `Value.nil` is Go's nil. -/
def mathResult (fo : FloatOps) (l : Value) (left right op unit : Bytes) : T Value :=
  match doMath fo left right op with
  | none => do addErrorV l "%s"; pure .nil
  | some f => pure (.dim ⟨0, 0⟩ (fo.fmt f) unit)

/-- The operator switch of `evaluateMathExpression`, `transformer.go:536-645`, once nested expressions have
been evaluated. -/
def applyOp (fo : FloatOps) (op : Bytes) (l r : Value) : T Value :=
  if op = b!"+" ∨ op = b!"-" then
    match l with
    | .dim lsp lv lu =>
      match r with
      | .dim _ rv ru =>
        if lu ≠ ru then do
          whenT (lu = [] ∧ ru ≠ [])
            (report false (some lsp) "cannot add number type and %s type together")
          whenT (lu ≠ [] ∧ ru = [])
            (report false (some lsp) "cannot add number type and %s type together")
          pure .nil
        else mathResult fo l lv rv op lu
      | _ => pure .nil
    | _ => do addErrorV l "cannot perform %s on this type"; pure .nil
  else if op = b!"*" then
    match l, r with
    | .dim _ lv lu, .dim _ rv ru =>
      if lu ≠ [] ∧ ru ≠ [] then do
        addErrorV l "one side of multiplication must be a number (non-percentage/dimension)"
        pure .nil
      else if lu = [] then mathResult fo l rv lv op ru
      else mathResult fo l lv rv op lu
    | _, _ => pure .nil
  else if op = b!"/" then
    match r with
    | .dim _ rv [] =>
      match l with
      | .dim _ lv lu => mathResult fo l lv rv op lu
      | _ => do addErrorV l "cannot perform %s on this type"; pure .nil
    | _ => do
      addErrorV l "right side of division must be a number (non-percentage/dimension)"
      pure .nil
  else do
    addErrorV l "unknown op: %s"
    pure .nil

/-- The two leading conditionals of `evaluateMathExpression`, `transformer.go:524-534`: an operand that is
itself a `MathExpression` is replaced by its value when it has one. -/
def evalOperand (fo : FloatOps) : Value → T Value
  | .math sp op l r => do
    let l' ← evalOperand fo l
    let r' ← evalOperand fo r
    match ← applyOp fo op l' r' with
    | .nil => pure (.math sp op l r)
    | v => pure v
  | v => pure v

/-- `evaluateMathExpression`, `transformer.go:523-646`. -/
def evaluateMathExpression (fo : FloatOps) (l r : Value) (op : Bytes) : T Value := do
  let l' ← evalOperand fo l
  let r' ← evalOperand fo r
  applyOp fo op l' r'

/-- `append` of the results of `f` over a list. -/
def mapConcat (f : α → T (List β)) : List α → T (List β)
  | [] => pure []
  | v :: vs => do
    let xs ← f v
    let ys ← mapConcat f vs
    pure (xs ++ ys)

/-- The `var` closure of `transformValues`, `transformer.go:405-438`: the new `newValues`. -/
def substVar (v : Value) (name : Bytes) (args : List Value) : T (List Value) := do
  if name ≠ b!"var" then pure [v]
  else
    match (← T.get).vars with
    | none => pure [v]
    | some vars =>
      match args with
      | [] => do addErrorV v "expected at least one argument to var()"; pure [v]
      | .ident _ varName :: rest =>
        match assoc vars varName with
        | some vals => pure vals
        | none =>
          match rest with
          | _ :: fb :: more => pure (fb :: more)
          | _ => do addWarnV v "use of undefined variable without fallback: %s"; pure [v]
      | _ :: _ => do addErrorV v "expected identifier as argument to var()"; pure [v]

/-- The `calc` closure of `transformValues`, `transformer.go:440-481`; `rec` is `transformValues`, `cur`
is `newValues` so far. -/
def reduceCalc (fo : FloatOps) (o : TOpts) (rec : List Value → T (List Value)) (v : Value) (name : Bytes)
    (args cur : List Value) : T (List Value) := do
  if name ≠ b!"calc" then pure cur
  else if !o.calcReduction then pure cur
  else
    match args with
    | [a0] =>
      match ← rec [a0] with
      | [.math _ op left right] =>
        let l ← rec [left]
        let r ← rec [right]
        match l with
        | [l0] =>
          match r with
          | [r0] =>
            match ← evaluateMathExpression fo l0 r0 op with
            | .nil => pure cur
            | nv => pure [nv]
          | _ => do
            addWarnV right "expected right-hand side of math expression to be a single value"
            pure cur
        | _ => do
          addWarnV left "expected left-hand side of math expression to be a single value"
          pure cur
      | [_] => pure cur
      | _ => do addWarnV v "expected single argument for calc()"; pure cur
    | _ => do addWarnV v "expected single argument for calc()"; pure cur

/-- One value of `transformValues`, `transformer.go:402-487`. -/
def transformValue (fo : FloatOps) (o : TOpts) : Nat → Value → T (List Value)
  | 0, _ => T.timeout
  | n + 1, v =>
    match v with
    | .func _ name args => do
      let cur ← substVar v name args
      reduceCalc fo o (mapConcat (transformValue fo o n)) v name args cur
    | _ => pure [v]

/-- `transformValues`, `transformer.go:399-491`. -/
def transformValues (fo : FloatOps) (o : TOpts) (fuel : Nat) (vs : List Value) : T (List Value) :=
  mapConcat (transformValue fo o fuel) vs

/-- One declaration of `transformDeclarations`, `transformer.go:387-393`. -/
def transformDecl (fo : FloatOps) (o : TOpts) (fuel : Nat) : Decl → T (List Decl)
  | .decl sp prop vals imp => do
    let vals' ← transformValues fo o fuel vals
    pure [.decl sp prop vals' imp]
  | d => pure [d]

/-- `transformDeclarations`, `transformer.go:384-397`. -/
def transformDeclarations (fo : FloatOps) (o : TOpts) (fuel : Nat) (ds : List Decl) : T (List Decl) :=
  mapConcat (transformDecl fo o fuel) ds

/-! ### Media queries -/

/-- `addToValue`, `transformer.go:248-266`; `diff` is `none` for 0. -/
def addToValue (fo : FloatOps) (v : Value) (diff : Option fo.F) : T Value :=
  match diff with
  | none => pure v
  | some d =>
    match v with
    | .dim _ num unit =>
      match fo.parse num with
      | none => do
        addErrorV v "could not parse dimension value to lower media range: %s"
        pure v
      | some f => pure (.dim ⟨0, 0⟩ (fo.fmt (fo.add f d)) unit)
    | _ => do
      addErrorV v "tried to modify non-numeric value. expected dimension, percentage, or number, but got: %s"
      pure v

/-- The direction and difference for the left value, `transformer.go:276-289`. -/
def leftDir (fo : FloatOps) (op : Bytes) : Bytes × Option fo.F :=
  if op = b!">" then (b!"max", some fo.negEps)
  else if op = b!">=" then (b!"max", none)
  else if op = b!"<" then (b!"min", some fo.eps)
  else if op = b!"<=" then (b!"min", none)
  else ([], none)

/-- The direction and difference for the right value, `transformer.go:303-316`. -/
def rightDir (fo : FloatOps) (op : Bytes) : Bytes × Option fo.F :=
  if op = b!">" then (b!"min", some fo.eps)
  else if op = b!">=" then (b!"min", none)
  else if op = b!"<" then (b!"max", some fo.negEps)
  else if op = b!"<=" then (b!"max", none)
  else ([], none)

/-- A `MediaFeaturePlain` built by `transformMediaFeatureRange`, `transformer.go:291-295,318-322`. -/
def rangePart (fo : FloatOps) (dir : Bytes × Option fo.F) (prop : Bytes) (v : Value) : T MQPart := do
  let v' ← addToValue fo v dir.2
  pure (.plain ⟨0, 0⟩ ⟨0, 0⟩ (dir.1 ++ b!"-" ++ prop) v')

/-- `transformMediaFeatureRange`, `transformer.go:268-326`. -/
def transformMediaFeatureRange (fo : FloatOps) (o : TOpts) (part : MQPart) (prop : Bytes) (left : Value)
    (op : Bytes) (right : Value) : T (List MQPart) := do
  if !o.mediaFeatureRanges then pure [part]
  else
    let l ← (if left.isNil then pure []
      else do
        let p ← rangePart fo (leftDir fo op) prop left
        pure [p] : T (List MQPart))
    let r ← (if right.isNil then pure []
      else do
        let p ← rangePart fo (rightDir fo op) prop right
        pure [p] : T (List MQPart))
    let mid : List MQPart := if right.isNil || left.isNil then [] else [.ident ⟨0, 0⟩ b!"and"]
    pure (l ++ mid ++ r)

/-- One part of `transformMediaQueryParts`, `transformer.go:331-356`. -/
def transformMQPart (fo : FloatOps) (o : TOpts) (p : MQPart) : T (List MQPart) :=
  match p with
  | .plain _ _ prop value => do
    if !value.isNil || !hasPrefix prop b!"--" then pure [p]
    else
      match (← T.get).media with
      | none => pure [p]
      | some media =>
        match assoc media prop with
        | none => pure [p]
        | some q => pure q.parts
  | .range _ _ prop left op right => transformMediaFeatureRange fo o p prop left op right
  | _ => pure [p]

/-- One query of `transformMediaQueries`, `transformer.go:239-242`. -/
def transformMQ (fo : FloatOps) (o : TOpts) (q : MQ) : T (List MQ) := do
  let parts ← mapConcat (transformMQPart fo o) q.parts
  pure [⟨q.sp, parts⟩]

/-- `transformMediaQueries`, `transformer.go:237-244`. -/
def transformMediaQueries (fo : FloatOps) (o : TOpts) (qs : List MQ) : T (List MQ) :=
  mapConcat (transformMQ fo o) qs

/-! ### Nodes -/

/-- Does the first closure of the qualified rule case go on to collect variables,
`transformer.go:117-146`?  `none` is a run-time panic (`Parts[0]` of a selector without parts). -/
def collectsRoot (sels : List Sel) : Option Bool :=
  if sels.any fun s => s.parts.length ≠ 1 then
    match sels with
    | [] => none
    | s :: _ =>
      match s.parts with
      | [] => none
      | .pclass _ name _ :: _ => some (name == b!"root")
      | _ :: _ => some false
  else some false

/-- The declaration loop of that closure, `transformer.go:148-164`: variables go to the map (when there is
one), everything else stays. -/
def collectVars : List Decl → T (List Decl)
  | [] => pure []
  | .decl sp prop vals imp :: ds => fun s =>
    if hasPrefix prop b!"--" then
      match s.vars with
      | some vars => collectVars ds { s with vars := some ((prop, vals) :: vars) }
      | none => (do let rest ← collectVars ds; pure (.decl sp prop vals imp :: rest) : T (List Decl)) s
    else (do let rest ← collectVars ds; pure (.decl sp prop vals imp :: rest) : T (List Decl)) s
  | .raw sp v :: ds => do
    let rest ← collectVars ds
    pure (.raw sp v :: rest)

/-- The qualified rule case, `transformer.go:115-177`.  A rule whose declarations become empty is
dropped; a nil block panics ("unknown block", `transformer.go:378`). -/
def transformRule (fo : FloatOps) (o : TOpts) (fuel : Nat) (r : QRule) : T (List Node) :=
  match r.prelude with
  | .sels l =>
    match collectsRoot l.sels with
    | none => T.crash
    | some root =>
      match r.block with
      | none => T.crash
      | some b => do
        let decls ← (if root then collectVars b.decls else pure b.decls : T (List Decl))
        let decls ← transformDeclarations fo o fuel decls
        if decls.isEmpty then pure []
        else
          pure [.rule ⟨r.sp, .sels ⟨l.sp, transformSelectors o l.sels⟩, some ⟨b.sp, decls⟩⟩]
  | .nil => T.crash
  | .keyframes sp _ => do
    report false (some sp) "expected selector list for qualified rule"
    T.crash

/-- `ImportReplacements`, `transformer.go:27-29`: `none` is a nil map. -/
abbrev Replacements := Option (List (AtId × Stylesheet))

/-- Lookup in `ImportReplacements`. -/
def lookupImport (repl : List (AtId × Stylesheet)) (k : AtId) : Option Stylesheet :=
  match repl with
  | [] => none
  | (k', v) :: rest => if k' = k then some v else lookupImport rest k

/-- The `custom-media` closure, `transformer.go:199-219`. -/
def collectMedia (preludes : List AtPrelude) : T Unit := fun s =>
  match s.media with
  | none => .ok () s
  | some media =>
    match preludes with
    | [.ident _ name, .mq q] => .ok () { s with media := some ((name, q) :: media) }
    | _ => .ok () s

/-- The at-rule case, `transformer.go:179-228`; `rec` is `transformNodes`. -/
def transformAt (fo : FloatOps) (o : TOpts) (repl : Replacements) (rec : List Node → T (List Node))
    (a : AtRule) : T (List Node) :=
  if a.name = b!"import" then
    match repl with
    | none => pure [.at a, .at a]
    | some m =>
      match lookupImport m a.id with
      | none => pure [.at a]
      | some imported => do
        whenT (1 < a.preludes.length)
          (report true (some a.sp) "@import transform does not yet support @supports or media queries")
        rec imported.nodes
  else if a.name = b!"custom-media" then do
    collectMedia a.preludes
    pure []
  else if a.name = b!"media" then
    match a.preludes with
    | .mql (some l) :: rest => do
      let qs ← transformMediaQueries fo o l.queries
      pure [.at { a with preludes := .mql (some ⟨l.sp, qs⟩) :: rest }]
    | _ => T.crash
  else pure [.at a]

/-- One node of `transformNodes`, `transformer.go:114-232`. -/
def transformNode (fo : FloatOps) (o : TOpts) (repl : Replacements) : Nat → Node → T (List Node)
  | 0, _ => T.timeout
  | n + 1, .rule r => transformRule fo o (n + 1) r
  | n + 1, .at a => transformAt fo o repl (mapConcat (transformNode fo o repl n)) a

/-- `transformNodes`, `transformer.go:111-235`. -/
def transformNodes (fo : FloatOps) (o : TOpts) (repl : Replacements) (fuel : Nat) (ns : List Node) :
    T (List Node) := mapConcat (transformNode fo o repl fuel) ns

/-- The initial transformer state, `transformer.go:35-53`. -/
def TSt.init (o : TOpts) (repl : Replacements) : TSt :=
  { vars := if o.customProperties then some [] else none
    media := if o.customMediaQueries then some [] else none
    log := if repl.isNone && o.importRules == .inline then
        [⟨false, none, "ImportRules is set to ImportRulesInline, but ImportReplacements is not set"⟩]
      else [] }

/-- `Transform`, `transformer.go:34-58`. -/
def transform (fo : FloatOps) (o : TOpts) (repl : Replacements) (fuel : Nat) (ss : Stylesheet) :
    TRes Stylesheet :=
  match transformNodes fo o repl fuel ss.nodes (TSt.init o repl) with
  | .ok nodes s => .ok ⟨nodes, ss.imports⟩ s
  | .crash => .crash
  | .timeout => .timeout

end Cssc
