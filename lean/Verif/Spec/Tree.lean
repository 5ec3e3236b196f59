import Verif.Spec.AnB
import Verif.Ast
import Verif.Spec.Tok

/-!
# Specification: well-formed syntax trees of a text

What a syntax tree should look like relative to the text it was parsed from: spans inside the text, in
document order and nested; literals that are text of the source; and the shape that each construct must
have.  Written over `Ast.lean` and the syntax of tokens only, independently of the parser.
-/

namespace Cssc

/-- A span inside a text. -/
def SpOk (src : Bytes) (sp : Span) : Prop := sp.start ≤ sp.stop ∧ sp.stop ≤ src.length

/-- The text of a span. -/
def textAt (src : Bytes) (sp : Span) : Bytes := sub src sp.start sp.stop

/-- A text that is a slice of the source inside a span. -/
def TextIn (src : Bytes) (sp : Span) (t : Bytes) : Prop :=
  ∃ i j, sp.start ≤ i ∧ i ≤ j ∧ j ≤ sp.stop ∧ t = sub src i j

/-- A text that is a slice of the source. -/
def SliceOf (src t : Bytes) : Prop := ∃ i j, i ≤ j ∧ j ≤ src.length ∧ t = sub src i j

/-- The sequences that make the lexer return a token without consuming any text. -/
def StuckIn (src : Bytes) : Prop :=
  SliceOf src b!"-->" ∨ SliceOf src b!"<!--" ∨ SliceOf src b!".+" ∨ SliceOf src b!".-" ∨ SliceOf src b!".."

/-- `lo ≤` the span `≤ hi`. -/
def SpIn (lo hi : Nat) (sp : Span) : Prop := lo ≤ sp.start ∧ sp.start ≤ sp.stop ∧ sp.stop ≤ hi

/-- Spans in document order between two offsets, without overlap. -/
def Ordered : Nat → Nat → List Span → Prop
  | lo, hi, [] => lo ≤ hi
  | lo, hi, sp :: sps => lo ≤ sp.start ∧ sp.start ≤ sp.stop ∧ Ordered sp.stop hi sps

/-- The span of a value (arbitrary for the nil value). -/
def Value.sp (v : Value) : Span := v.loc?.getD ⟨0, 0⟩

/-- A sum or difference at the top of an expression. -/
def Value.isSum : Value → Bool
  | .math _ op _ _ => op == b!"+" || op == b!"-"
  | _ => false

/-- Any arithmetic at the top of an expression. -/
def Value.isMath : Value → Bool
  | .math _ _ _ _ => true
  | _ => false

/-- Precedence and associativity: an operand of `*` or `/` is not an unparenthesised sum, and a right operand
is not an unparenthesised expression of the same level. -/
def MathOk (op : Bytes) (l r : Value) : Prop :=
  ((op = b!"+" ∨ op = b!"-") ∧ r.isSum = false) ∨
  ((op = b!"*" ∨ op = b!"/") ∧ l.isSum = false ∧ r.isMath = false)

/-! ### The syntax of literals

Literals without escapes, carriage returns and (numbers, units and delimiters) non-ASCII characters have their CSS
syntax. -/

def IdentLit (v : Bytes) : Prop := NoEsc v → IsIdent v
def WordLit (v : Bytes) : Prop := NoEsc v → IsWord v
def HashLit (v : Bytes) : Prop := NoEsc v → v ≠ [] ∧ ∀ b ∈ v, isNameByte b = true
def NumLit (v : Bytes) : Prop := Clean v → IsNum v
def StrLit (v : Bytes) : Prop := 13 ∉ v → 92 ∉ v → IsStringText v
def UrlLit (v : Bytes) : Prop := 13 ∉ v → isUrlBody v = true
def DelimLit (v : Bytes) : Prop := Clean v → ∃ b, v = [b] ∧ (PTok.delim b).Wf

/-- Number and unit: the number is missing only if the unit is, too; the unit is a word that does not start with
a digit. -/
def DimLit (num unit : Bytes) : Prop :=
  (Clean num → num = [] ∧ unit = [] ∨ IsNum num) ∧
  (Clean unit → unit = [] ∨ unit = b!"%" ∨ IsWord unit ∧ ∀ b t, unit = b :: t → isAD b = false)

/-! ### Values -/

/-- The functions whose arguments are arithmetic. -/
def mathNames : List Bytes := [b!"calc", b!"min", b!"max", b!"clamp"]

/-- A component value: neither missing, nor arithmetic, nor punctuation. -/
def Value.isComp : Value → Bool
  | .nil | .math _ _ _ _ | .paren _ _ | .raw _ _ | .comma _ => false
  | _ => true

/-- What may stand in arithmetic. -/
def Value.isTerm : Value → Bool
  | .nil | .raw _ _ | .comma _ => false
  | _ => true

def Value.isSep : Value → Bool
  | .comma _ => true
  | _ => false

def Value.isRaw : Value → Bool
  | .raw _ _ => true
  | _ => false

/-- What may stand among the arguments of a function. -/
def ArgOk (name : Bytes) (v : Value) : Prop :=
  v.isSep = true ∨ (if mathNames.contains name then v.isTerm else v.isComp) = true

mutual
/-- A well-formed value. -/
def VOk (src : Bytes) : Value → Prop
  | .nil => False
  | .str sp v => SpOk src sp ∧ TextIn src sp v ∧ StrLit v
  | .dim sp num unit => SpOk src sp ∧ TextIn src sp num ∧ (num ++ unit = textAt src sp ∨ unit = b!"%") ∧ DimLit num unit
  | .ident sp v => SpOk src sp ∧ v = textAt src sp ∧ IdentLit v
  | .hex sp v => SpOk src sp ∧ TextIn src sp v ∧ HashLit v
  | .brackets sp vs => SpOk src sp ∧ Ordered sp.start sp.stop (vs.map Value.sp) ∧ VsOk src vs ∧ ∀ v ∈ vs, v.isComp = true
  | .func sp name args => SpOk src sp ∧
      ((name = b!"url" ∧ ∃ w, args = [.ident ⟨0, 0⟩ w] ∧ TextIn src sp w ∧ UrlLit w) ∨
       (TextIn src sp name ∧ (∃ hi, hi ≤ src.length ∧ Ordered sp.start hi (args.map Value.sp)) ∧ VsOk src args ∧
          IdentLit name ∧ ∀ v ∈ args, ArgOk name v))
  | .math sp op l r => SpOk src sp ∧ Ordered sp.start sp.stop [l.sp, r.sp] ∧ VOk src l ∧ VOk src r ∧ MathOk op l r ∧
      l.isTerm = true ∧ r.isTerm = true
  | .paren sp v => SpOk src sp ∧ (v = .nil ∨ VOk src v ∧ SpIn sp.start sp.stop v.sp ∧ v.isTerm = true)
  | .raw sp v => SpOk src sp ∧ v = textAt src sp ∧ DelimLit v ∧ v ≠ b!"!"
  | .comma sp => SpOk src sp

/-- A list of well-formed values. -/
def VsOk (src : Bytes) : List Value → Prop
  | [] => True
  | v :: vs => VOk src v ∧ VsOk src vs
end

/-- A value that may be missing. -/
def OptVOk (src : Bytes) (lo hi : Nat) (v : Value) : Prop := v = .nil ∨ VOk src v ∧ SpIn lo hi v.sp ∧ v.isComp = true

/-! ### Selectors -/

/-- The pseudo classes that take An+B. -/
def nthNames : List Bytes := [b!"nth-child", b!"nth-last-child", b!"nth-of-type", b!"nth-last-of-type"]

/-- The literals of An+B are text of the source or supplied by the parser, and a number follows the operator. -/
def AnbOk (src : Bytes) (sp : Span) (a op b : Bytes) : Prop :=
  (TextIn src sp a ∨ a = b!"-1" ∨ a = b!"0") ∧ (op = [] ∨ op = b!"+" ∨ op = b!"-") ∧ TextIn src sp b ∧
    (op ≠ [] → b ≠ [] ∨ StuckIn src)

mutual
/-- A well-formed part of a selector. -/
def PartOk (src : Bytes) : SelPart → Prop
  | .type sp name => SpOk src sp ∧ name = textAt src sp ∧ (name = b!"*" ∨ IdentLit name)
  | .cls sp name => SpOk src sp ∧ TextIn src sp name ∧ IdentLit name
  | .id sp name => SpOk src sp ∧ TextIn src sp name ∧ HashLit name
  | .comb sp op => SpOk src sp ∧ op = textAt src sp ∧ op ∈ [b!"+", b!">", b!"~", b!"|"]
  | .pclass sp name args => SpOk src sp ∧ TextIn src sp name ∧ ArgsOk src sp (nthNames.contains name) args ∧
      IdentLit name
  | .pelem sp isp name args => SpOk src sp ∧ SpIn sp.start sp.stop isp ∧ TextIn src isp name ∧
      ArgsOk src isp (nthNames.contains name) args ∧ IdentLit name
  | .ws sp => SpOk src sp
  | .attr sp prop preOp value modifier => SpOk src sp ∧ TextIn src sp prop ∧
      preOp ∈ [[], b!"^", b!"~", b!"$", b!"*", b!"|"] ∧ OptVOk src sp.start sp.stop value ∧
      (value = .nil → preOp = []) ∧ modifier ∈ [[], b!"s", b!"i"] ∧ IdentLit prop

/-- Well-formed arguments of a pseudo class with the given span. -/
def ArgsOk (src : Bytes) (sp : Span) (nth : Bool) : PArgs → Prop
  | .nil => True
  | .sels lsp l => nth = false ∧ SpIn sp.start sp.stop lsp ∧ l ≠ [] ∧
      Ordered lsp.start lsp.stop (l.map Sel.loc) ∧ SelsOk src l
  | .ident isp v => nth = true ∧ SpIn sp.start sp.stop isp ∧ v = textAt src isp ∧ (v = b!"even" ∨ v = b!"odd")
  | .anb asp a op b => nth = true ∧ SpIn sp.start sp.stop asp ∧ AnbOk src asp a op b ∧ AnbMeans (textAt src asp) a op b

/-- A well-formed selector. -/
def SelOk (src : Bytes) : Sel → Prop
  | .mk sp parts => SpOk src sp ∧ parts ≠ [] ∧ Ordered sp.start sp.stop (parts.map SelPart.loc) ∧
      PartsOk src parts

def PartsOk (src : Bytes) : List SelPart → Prop
  | [] => True
  | p :: ps => PartOk src p ∧ PartsOk src ps

def SelsOk (src : Bytes) : List Sel → Prop
  | [] => True
  | s :: ss => SelOk src s ∧ SelsOk src ss
end

/-- A well-formed selector list. -/
def SelListOk (src : Bytes) (l : SelList) : Prop :=
  SpOk src l.sp ∧ l.sels ≠ [] ∧ Ordered l.sp.start l.sp.stop (l.sels.map Sel.loc) ∧ SelsOk src l.sels

/-! ### Rules -/

/-- A well-formed keyframe selector. -/
def KSelOk (src : Bytes) : KSel → Prop
  | .pct sp v => SpOk src sp ∧ TextIn src sp v ∧ NumLit v
  | .ident sp v => SpOk src sp ∧ v = textAt src sp ∧ (v = b!"from" ∨ v = b!"to")

/-- The span of a prelude. -/
def Prelude.sp? : Prelude → Option Span
  | .nil => none
  | .sels l => some l.sp
  | .keyframes sp _ => some sp

/-- A well-formed prelude of a qualified rule, `kf` inside `@keyframes`. -/
def PreludeOk (src : Bytes) (kf : Bool) : Prelude → Prop
  | .nil => True
  | .sels l => kf = false ∧ SelListOk src l
  | .keyframes sp l => kf = true ∧ SpOk src sp ∧ l ≠ [] ∧ Ordered sp.start sp.stop (l.map KSel.loc) ∧
      ∀ k ∈ l, KSelOk src k

/-- A well-formed declaration: at least one value, the property name is the text where the declaration
starts, with the `*` hack possibly in front. -/
def DeclOk (src : Bytes) : Decl → Prop
  | .decl sp prop vals _ => SpOk src sp ∧
      (∃ e, e ≤ sp.stop ∧ (prop = sub src sp.start e ∨ prop = 42 :: sub src sp.start e) ∧ IdentLit (sub src sp.start e)) ∧
      vals ≠ [] ∧ Ordered sp.start sp.stop (vals.map Value.sp) ∧ VsOk src vals ∧
      ∀ v ∈ vals, (v.isComp || v.isSep || v.isRaw) = true
  | .raw sp v => SpOk src sp ∧ v = textAt src sp

def DeclBlockOk (src : Bytes) (b : DeclBlock) : Prop :=
  SpOk src b.sp ∧ Ordered b.sp.start b.sp.stop (b.decls.map Decl.loc) ∧ ∀ d ∈ b.decls, DeclOk src d

/-- A well-formed qualified rule: prelude, then block, both inside the rule. -/
def RuleOk (src : Bytes) (kf : Bool) (r : QRule) : Prop :=
  SpOk src r.sp ∧ PreludeOk src kf r.prelude ∧
  ∃ b, r.block = some b ∧ DeclBlockOk src b ∧ Ordered r.sp.start r.sp.stop (r.prelude.sp?.toList ++ [b.sp])

/-! ### Media queries -/

def MQPartOk (src : Bytes) : MQPart → Prop
  | .ident sp v => SpOk src sp ∧ v = textAt src sp ∧ IdentLit v
  | .plain sp psp prop value => SpOk src sp ∧ SpIn sp.start sp.stop psp ∧ prop = textAt src psp ∧
      OptVOk src psp.stop sp.stop value ∧ IdentLit prop
  | .range sp psp prop left op right => SpOk src sp ∧ SpIn sp.start sp.stop psp ∧ prop = textAt src psp ∧
      OptVOk src sp.start psp.start left ∧ OptVOk src psp.stop sp.stop right ∧
      op ∈ [b!"<", b!"<=", b!">", b!">="] ∧ IdentLit prop
  | .inParens _ _ => False

def MQOk (src : Bytes) (q : MQ) : Prop :=
  SpOk src q.sp ∧ q.parts ≠ [] ∧ Ordered q.sp.start q.sp.stop (q.parts.map MQPart.loc) ∧
    ∀ p ∈ q.parts, MQPartOk src p

def MQListOk (src : Bytes) (l : MQList) : Prop :=
  SpOk src l.sp ∧ l.queries ≠ [] ∧ Ordered l.sp.start l.sp.stop (l.queries.map MQ.sp) ∧
    ∀ q ∈ l.queries, MQOk src q

/-! ### At-rules and stylesheets -/

def AtPrelude.sp? : AtPrelude → Option Span
  | .str sp _ => some sp
  | .ident sp _ => some sp
  | .mql l => l.map MQList.sp
  | .mq q => some q.sp

def AtPreludeOk (src : Bytes) : AtPrelude → Prop
  | .str sp v => SpOk src sp ∧ TextIn src sp v ∧ (StrLit v ∨ UrlLit v)
  | .ident sp v => SpOk src sp ∧ v = textAt src sp ∧ IdentLit v
  | .mql none => True
  | .mql (some l) => MQListOk src l
  | .mq q => MQOk src q

def Block.sp? : Block → Option Span
  | .none => Option.none
  | .decls b => some b.sp
  | .rules sp _ => some sp

def BlockOk (src : Bytes) (kf : Bool) : Block → Prop
  | .none => True
  | .decls b => DeclBlockOk src b
  | .rules sp rs => SpOk src sp ∧ Ordered sp.start sp.stop (rs.map QRule.sp) ∧ ∀ r ∈ rs, RuleOk src kf r

/-- The at-rules that contain keyframes. -/
def keyframesNames : List Bytes := [b!"keyframes", b!"-webkit-keyframes", b!"-o-keyframes"]

/-- The prelude and block that each at-rule has. -/
def AtShape (name : Bytes) (ps : List AtPrelude) (b : Block) : Prop :=
  if name = b!"import" then
    (∃ sp v, ps = [.str sp v] ∨ ∃ l, ps = [.str sp v, .mql (some l)]) ∧ b = .none
  else if name = b!"media" then (∃ l, ps = [.mql l]) ∧ ∃ sp rs, b = .rules sp rs
  else if name ∈ keyframesNames then
    (∃ sp v, ps = [.str sp v] ∨ ps = [.ident sp v]) ∧ ∃ sp rs, b = .rules sp rs
  else if name = b!"custom-media" then (∃ sp v q, ps = [.ident sp v, .mq q]) ∧ b = .none
  else ps = [] ∧ ∃ d, b = .decls d

def AtOk (src : Bytes) (a : AtRule) : Prop :=
  SpOk src a.sp ∧ TextIn src a.sp a.name ∧ (∀ p ∈ a.preludes, AtPreludeOk src p) ∧
  BlockOk src (keyframesNames.contains a.name) a.block ∧
  Ordered a.sp.start a.sp.stop (a.preludes.filterMap AtPrelude.sp? ++ a.block.sp?.toList) ∧
  AtShape a.name a.preludes a.block ∧ WordLit a.name

def NodeOk (src : Bytes) : Node → Prop
  | .rule r => RuleOk src false r
  | .at a => AtOk src a

/-- The import specifiers that a list of nodes should give. -/
def importsOf (nodes : List Node) : List ImportSpec :=
  nodes.filterMap fun
    | .at a => if a.name = b!"import" then
        match a.preludes with
        | .str _ v :: _ => some ⟨v, a.id⟩
        | _ => none
      else none
    | .rule _ => none

/-- A well-formed stylesheet of a text. -/
structure SheetOk (src : Bytes) (ss : Stylesheet) : Prop where
  nodes : ∀ n ∈ ss.nodes, NodeOk src n
  order : Ordered 0 src.length (ss.nodes.map Node.loc)
  imports : ss.imports = importsOf ss.nodes

end Cssc
