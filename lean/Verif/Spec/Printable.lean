import Verif.Spec.Tok
import Verif.Ast

/-!
# Specification: trees that can be written down and read back

For a syntax tree: the tokens it should be written as, when the tree has a shape that some text denotes,
and the tree without its source positions.  Nothing here refers to the parser or the printer.
-/

namespace Cssc

/-! ### Texts -/

/-- The text of a sequence of tokens. -/
def texts : List PTok → Bytes
  | [] => []
  | t :: ts => t.text ++ texts ts

/-- Every token is well formed and is not changed by the text that follows it. -/
def Lay : List PTok → Prop
  | [] => True
  | t :: ts => t.Wf ∧ t.Follow (texts ts) ∧ Lay ts

/-- A text that consists of these tokens, with comments anywhere before, between and behind them. -/
inductive Laid : List PTok → Bytes → Prop where
  | nil : Laid [] []
  | tok {t : PTok} {ts : List PTok} {r : Bytes} : t.Wf → t.Follow r → Laid ts r → Laid (t :: ts) (t.text ++ r)
  | comment {body : Bytes} {ts : List PTok} {r : Bytes} : IsCommentBody body → Laid ts r →
      Laid ts (47 :: 42 :: (body ++ 42 :: 47 :: r))

/-- A single space. -/
def PTok.space : PTok := .ws [32]

/-- Is this white space? -/
def PTok.isWs : PTok → Bool
  | .ws _ => true
  | _ => false

/-- The same tokens, except for the characters of white space. -/
inductive Alike : List PTok → List PTok → Prop where
  | nil : Alike [] []
  | cons {t u : PTok} {ts us : List PTok} : t = u ∨ t.isWs = true ∧ u.isWs = true → Alike ts us → Alike (t :: ts) (u :: us)

/-- `{`, `}`, `;` and at-keywords. -/
def PTok.isBound : PTok → Bool
  | .punct b => b == 123 || b == 125 || b == 59
  | .at _ => true
  | _ => false

/-- What follows belongs to the selectors of a rule: the next bound is `{`, and the one behind it is not `{` again (then
what follows is the prelude of an at-rule with rules in it). -/
def InSelector (ts : List PTok) : Bool :=
  match ts.dropWhile (! ·.isBound) with
  | .punct 123 :: us => (us.dropWhile (! ·.isBound)).head? != some (.punct 123)
  | _ => false

/-- The places where white space has no meaning, between a token and those that follow it: behind a bound, and anywhere
but in selectors. -/
def Loose (t : PTok) (ts : List PTok) : Prop := t.isBound = true ∨ InSelector ts = false

/-- The tokens `us` that follow the token `t` are the tokens `ts`, except for white space where it has no meaning, and for
the characters of white space. -/
inductive Spaced : PTok → List PTok → List PTok → Prop where
  | nil {t : PTok} : Spaced t [] []
  | tok {t u : PTok} {ts us : List PTok} : Spaced u ts us → Spaced t (u :: ts) (u :: us)
  | blank {t : PTok} {v w : Bytes} {ts us : List PTok} : Spaced (.ws v) ts us → Spaced t (.ws v :: ts) (.ws w :: us)
  | add {t : PTok} {w : Bytes} {ts us : List PTok} : Loose t ts → Spaced t ts us → Spaced t ts (.ws w :: us)
  | drop {t : PTok} {w : Bytes} {ts us : List PTok} : Loose t ts → Spaced t ts us → Spaced t (.ws w :: ts) us

/-- The beginning of the text counts as a bound. -/
def Respaced (ts us : List PTok) : Prop := Spaced (.punct 59) ts us

/-- The next token that is not white space is one that has a text: not a number, punctuation or the end. -/
def NextHasText (ts : List PTok) : Prop := ∃ u us, ts.dropWhile PTok.isWs = u :: us ∧ u.str.isSome = true

/-- After `!`, and after `[` and a name (unless it is closed), comes a token that has a text. -/
def Named : List PTok → Prop
  | [] => True
  | t :: ts =>
    (t = .delim 33 → NextHasText ts) ∧
    (t = .punct 91 → ∀ w us, ts.dropWhile PTok.isWs = .ident w :: us →
      NextHasText us ∨ ∃ vs, us.dropWhile PTok.isWs = .punct 93 :: vs) ∧
    Named ts

/-! ### Spellings -/

/-- A capital letter as a small one. -/
def lowerCase (b : UInt8) : UInt8 := if 65 ≤ b ∧ b ≤ 90 then b + 32 else b

/-- The forms of an address: `"x"`, `url(x)`, `url("x")`. -/
inductive AddressForm where
  | string
  | url (word : Bytes)
  | function

/-- The choices left open by a tree, for each of its nodes (told apart by their positions): the quotes of a string, the
case of `url`, the form of the address of an import, the case of `!important`, whether the last declaration of a block
ends with `;`, and the white space before (except the first) and behind a selector. -/
class Spelling where
  mark : Span → UInt8
  urlWord : Span → Bytes
  address : Span → AddressForm
  important : Span → Bytes
  semicolon : Span → Bool
  lead : Span → Bytes
  trail : Span → Bytes
  important_eq : ∀ sp, (important sp).map lowerCase = b!"important"

/-- What the printer chooses. -/
instance (priority := low) Spelling.printed : Spelling where
  mark _ := 34
  urlWord _ := b!"url"
  address _ := .string
  important _ := b!"important"
  semicolon _ := false
  lead _ := []
  trail _ := []
  important_eq _ := by decide

@[simp] theorem printed_mark (sp : Span) : Spelling.mark sp = 34 := rfl
@[simp] theorem printed_urlWord (sp : Span) : Spelling.urlWord sp = b!"url" := rfl
@[simp] theorem printed_address (sp : Span) : Spelling.address sp = .string := rfl
@[simp] theorem printed_important (sp : Span) : Spelling.important sp = b!"important" := rfl
@[simp] theorem printed_semicolon (sp : Span) : Spelling.semicolon sp = false := rfl
@[simp] theorem printed_lead (sp : Span) : Spelling.lead sp = [] := rfl
@[simp] theorem printed_trail (sp : Span) : Spelling.trail sp = [] := rfl

/-- White space, if any. -/
def padToks : Bytes → List PTok
  | [] => []
  | w => [.ws w]

@[simp] theorem padToks_nil : padToks [] = [] := rfl

variable [Spelling]

open Spelling (mark urlWord address important semicolon lead trail)

/-! ### Values -/

mutual

/-- The tokens of a value.  Function arguments are written without spaces, bracketed values with one. -/
def Value.toks : Value → List PTok
  | .nil => []
  | .comma _ => [.punct 44]
  | .dim _ num unit => [if unit = [] then .number num else if unit = [37] then .percentage num else .dimension num unit]
  | .str sp v => [.string (mark sp) v]
  | .ident _ v => [.ident v]
  | .func sp name args =>
    match name, args with
    | [117, 114, 108], [.ident _ v] => [.url (urlWord sp) v]
    | _, _ => .func name :: (argsToks args ++ [.punct 41])
  | .brackets _ vs => .punct 91 :: (spacedToks vs ++ [.punct 93])
  | .paren _ v => .punct 40 :: (v.toks ++ [.punct 41])
  | .math _ op l r => l.toks ++ (op.map .delim ++ r.toks)
  | .hex _ v => [.hash v]
  | .raw _ v => v.map .delim

def argsToks : List Value → List PTok
  | [] => []
  | v :: vs => v.toks ++ argsToks vs

def spacedToks : List Value → List PTok
  | [] => []
  | v :: vs => v.toks ++ (if vs.isEmpty then [] else .space :: spacedToks vs)

end

/-- An optional value with what stands before it. -/
def valueAfter (pre : List PTok) : Value → List PTok
  | .nil => []
  | v => pre ++ v.toks

/-- An optional value with what stands behind it. -/
def valueBefore (post : List PTok) : Value → List PTok
  | .nil => []
  | v => v.toks ++ post

/-- The syntactic classes of values: a component value, and the three levels of arithmetic. -/
inductive VMode where
  | val | atom | prod | sum

/-- Is this the address form `url(...)`? -/
def isUrlCall : Bytes → List Value → Bool
  | [117, 114, 108], [.ident _ _] => true
  | _, _ => false

/-- Values that some text denotes. -/
inductive Value.Shape : VMode → Value → Prop where
  | str {sp v} : Shape .val (.str sp v)
  | dim {sp num unit} : Shape .val (.dim sp num unit)
  | ident {sp v} : Shape .val (.ident sp v)
  | hex {sp v} : Shape .val (.hex sp v)
  | brackets {sp vs} : (∀ v ∈ vs, Shape .val v) → Shape .val (.brackets sp vs)
  | url {sp isp v} : Shape .val (.func sp b!"url" [.ident isp v])
  | func {sp name args} : isMathName name = false → isUrlCall name args = false →
      (∀ v ∈ args, (∀ csp, v ≠ .comma csp) → Shape .val v) → Shape .val (.func sp name args)
  | mathFunc {sp name args} : isMathName name = true →
      (∀ v ∈ args, (∀ csp, v ≠ .comma csp) → Shape .sum v) → Shape .val (.func sp name args)
  | atom {v} : Shape .val v → Shape .atom v
  | paren {sp v} : Shape .sum v → Shape .atom (.paren sp v)
  | prod {v} : Shape .atom v → Shape .prod v
  | mul {sp op l r} : op = b!"*" ∨ op = b!"/" → Shape .prod l → Shape .atom r → Shape .prod (.math sp op l r)
  | sum {v} : Shape .prod v → Shape .sum v
  | add {sp op l r} : op = b!"+" ∨ op = b!"-" → Shape .sum l → Shape .prod r → Shape .sum (.math sp op l r)

mutual

/-- A value without its positions. -/
def Value.bare : Value → Value
  | .nil => .nil
  | .comma _ => .comma ⟨0, 0⟩
  | .dim _ num unit => .dim ⟨0, 0⟩ num unit
  | .str _ v => .str ⟨0, 0⟩ v
  | .ident _ v => .ident ⟨0, 0⟩ v
  | .func _ name args => .func ⟨0, 0⟩ name (bareVals args)
  | .brackets _ vs => .brackets ⟨0, 0⟩ (bareVals vs)
  | .paren _ v => .paren ⟨0, 0⟩ v.bare
  | .math _ op l r => .math ⟨0, 0⟩ op l.bare r.bare
  | .hex _ v => .hex ⟨0, 0⟩ v
  | .raw _ v => .raw ⟨0, 0⟩ v

def bareVals : List Value → List Value
  | [] => []
  | v :: vs => v.bare :: bareVals vs

end

/-! ### Declarations -/

/-- What separates two values of a declaration: a space, except around a comma. -/
def gapToks : Value → Value → List PTok
  | .comma _, _ => []
  | _, .comma _ => []
  | _, _ => [.space]

/-- The values of a declaration. -/
def declToks : List Value → List PTok
  | [] => []
  | [v] => v.toks
  | v :: w :: vs => v.toks ++ (gapToks v w ++ declToks (w :: vs))

/-- A declaration's value is a component value, a comma or a delimiter other than `!`. -/
def Value.InDecl : Value → Prop
  | .comma _ => True
  | .raw _ v => ∃ b, v = [b] ∧ b ≠ 33
  | v => v.Shape .val

/-- The name of a property: `*` is a hack that the parser accepts before the name. -/
def propToks : Bytes → List PTok
  | 42 :: w => [.delim 42, .ident w]
  | w => [.ident w]

def Decl.toks : Decl → List PTok
  | .decl sp prop vals imp =>
    propToks prop ++ (.punct 58 :: (declToks vals ++ (if imp then [.delim 33, .ident (important sp)] else [])))
  | .raw _ _ => []

/-- Declarations, not kept as raw text, with at least one value. -/
def Decl.Shape : Decl → Prop
  | .decl _ _ vals _ => vals ≠ [] ∧ ∀ v ∈ vals, v.InDecl
  | .raw _ _ => False

def Decl.bare : Decl → Decl
  | .decl _ prop vals important => .decl ⟨0, 0⟩ prop (bareVals vals) important
  | .raw _ v => .raw ⟨0, 0⟩ v

/-- Is there a `;` behind the last declaration? -/
def Decl.lastToks : Decl → List PTok
  | .decl sp _ _ _ => if semicolon sp then [.punct 59] else []
  | .raw _ _ => []

omit [Spelling] in
theorem printed_lastToks (d : Decl) : @Decl.lastToks Spelling.printed d = [] := by cases d <;> rfl

/-- Declarations separated by `;`. -/
def declsToks : List Decl → List PTok
  | [] => []
  | [d] => d.toks ++ d.lastToks
  | d :: e :: ds => d.toks ++ (.punct 59 :: declsToks (e :: ds))

def DeclBlock.bare (b : DeclBlock) : DeclBlock := ⟨⟨0, 0⟩, b.decls.map Decl.bare⟩

/-! ### Selectors -/

/-- Is this an attribute selector? -/
def SelPart.isAttr : SelPart → Bool
  | .attr .. => true
  | _ => false

/-- The argument of an `nth-*` pseudo class that is neither `even` nor `odd`. -/
inductive AnbShape : Bytes → Bytes → Bytes → Prop where
  /-- `n` -/
  | n : AnbShape [] [] []
  /-- `n+b` -/
  | nPlus {b} : b ≠ [] → b ≠ b!"0" → AnbShape [] b!"+" b
  /-- `-n` -/
  | neg : AnbShape b!"-1" [] []
  /-- `-n+b` -/
  | negPlus {b} : b ≠ [] → b ≠ b!"0" → AnbShape b!"-1" b!"+" b
  /-- `an` -/
  | an {a} : a ≠ [] → a ≠ b!"0" → a ≠ b!"1" → a ≠ b!"-1" → a.head? ≠ some 43 → AnbShape a [] []
  /-- `an+b` -/
  | anPlus {a b} : a ≠ [] → a ≠ b!"0" → a ≠ b!"1" → a ≠ b!"-1" → a.head? ≠ some 43 → b ≠ [] → b ≠ b!"0" →
      AnbShape a b!"+" b
  /-- `an-b` -/
  | anMinus {a b} : a ≠ [] → a ≠ b!"0" → a ≠ b!"1" → a ≠ b!"-1" → a.head? ≠ some 43 → b ≠ [] → b ≠ b!"0" →
      AnbShape a b!"-" b
  /-- `b` -/
  | b {b} : b ≠ [] → b ≠ b!"0" → b.head? ≠ some 43 → b.head? ≠ some 45 → AnbShape b!"0" [] b

/-- The pseudo classes that take An+B. -/
def isNthName (name : Bytes) : Prop :=
  name = b!"nth-child" ∨ name = b!"nth-last-child" ∨ name = b!"nth-of-type" ∨ name = b!"nth-last-of-type"

/-- The tokens of An+B. -/
def anbToks (a op b : Bytes) : List PTok :=
  if a = b!"0" then [.number b]
  else
    let sgn := if a = b!"-1" then b!"-" else []
    if a = [] ∨ a = b!"-1" then .ident (sgn ++ b!"n") :: (if op = b!"+" then [.number (43 :: b)] else [])
    else if op = b!"-" then [.dimension a (110 :: 45 :: b)]
    else .dimension a b!"n" :: (if op = b!"+" then [.number (43 :: b)] else [])

mutual

def SelPart.toks : SelPart → List PTok
  | .ws _ => [.space]
  | .type _ name => [if name = b!"*" then .delim 42 else .ident name]
  | .cls _ name => [.delim 46, .ident name]
  | .id _ name => [.hash name]
  | .comb _ op => op.map .delim
  | .pclass _ name args => .punct 58 :: args.toks name
  | .pelem _ _ name args => .punct 58 :: .punct 58 :: args.toks name
  | .attr _ prop _ value _ =>
    .punct 91 :: .ident prop :: (valueAfter [.delim 61] value ++ [.punct 93])

/-- A name with its arguments. -/
def PArgs.toks (name : Bytes) : PArgs → List PTok
  | .nil => [.ident name]
  | .sels _ l => .func name :: (selsToks l ++ [.punct 41])
  | .ident _ v => [.func name, .ident v, .punct 41]
  | .anb _ a op b => .func name :: (anbToks a op b ++ [.punct 41])

/-- White space at the end of a selector has no meaning: it is not in `partsToks`. -/
def Sel.toks : Sel → List PTok
  | .mk sp parts => partsToks parts ++ padToks (trail sp)


def partsToks : List SelPart → List PTok
  | [] => []
  | p :: ps => (if ps.isEmpty && p.isWs then [] else p.toks) ++ partsToks ps

def selsToks : List Sel → List PTok
  | [] => []
  | s :: ss => s.toks ++ (if ss.isEmpty then [] else .punct 44 :: selsToks ss)

end

/-- No two white space parts in a row, and none after an attribute selector. -/
def Spacing : List SelPart → Prop
  | [] => True
  | p :: ps => (p.isWs = true ∨ p.isAttr = true → ∀ q, ps.head? = some q → q.isWs = false) ∧ Spacing ps

mutual

def SelPart.Shape : SelPart → Prop
  | .ws _ => True
  | .type _ _ => True
  | .cls _ _ => True
  | .id _ _ => True
  | .comb _ op => op = b!"+" ∨ op = b!">" ∨ op = b!"~" ∨ op = b!"|"
  | .pclass _ name args => args.Shape name
  | .pelem _ _ name args => args.Shape name
  | .attr _ _ preOp value modifier => preOp = [] ∧ modifier = [] ∧ (value = .nil ∨ value.Shape .val)

def PArgs.Shape (name : Bytes) : PArgs → Prop
  | .nil => True
  | .sels _ l => ¬ isNthName name ∧ l ≠ [] ∧ selsShape l
  | .ident _ v => isNthName name ∧ (v = b!"even" ∨ v = b!"odd")
  | .anb _ a op b => isNthName name ∧ AnbShape a op b

def Sel.Shape : Sel → Prop
  | .mk _ parts => partsShape parts ∧ Spacing parts ∧ ∃ p ∈ parts, p.isWs = false

def partsShape : List SelPart → Prop
  | [] => True
  | p :: ps => p.Shape ∧ partsShape ps

def selsShape : List Sel → Prop
  | [] => True
  | s :: ss => s.Shape ∧ selsShape ss

end

/-- A selector does not start with white space. -/
def Sel.NoLead : Sel → Prop
  | .mk _ parts => ∀ p, parts.head? = some p → p.isWs = false

mutual

def SelPart.bare : SelPart → SelPart
  | .ws _ => .ws ⟨0, 0⟩
  | .type _ name => .type ⟨0, 0⟩ name
  | .cls _ name => .cls ⟨0, 0⟩ name
  | .id _ name => .id ⟨0, 0⟩ name
  | .comb _ op => .comb ⟨0, 0⟩ op
  | .pclass _ name args => .pclass ⟨0, 0⟩ name args.bare
  | .pelem _ _ name args => .pelem ⟨0, 0⟩ ⟨0, 0⟩ name args.bare
  | .attr _ prop preOp value modifier => .attr ⟨0, 0⟩ prop preOp value.bare modifier

def PArgs.bare : PArgs → PArgs
  | .nil => .nil
  | .sels _ l => .sels ⟨0, 0⟩ (bareSels l)
  | .ident _ v => .ident ⟨0, 0⟩ v
  | .anb _ a op b => .anb ⟨0, 0⟩ a op b

/-- A selector without positions, and without white space at its end (it has no meaning there). -/
def Sel.bare : Sel → Sel
  | .mk _ parts => .mk ⟨0, 0⟩ (bareParts parts)

def bareParts : List SelPart → List SelPart
  | [] => []
  | p :: ps => if ps.isEmpty && p.isWs then [] else p.bare :: bareParts ps

def bareSels : List Sel → List Sel
  | [] => []
  | s :: ss => s.bare :: bareSels ss

end

/-! ### Rules -/

/-- The tokens of a keyframe selector. -/
def KSel.toks : KSel → List PTok
  | .pct _ v => [.percentage v]
  | .ident _ v => [.ident v]

def KSel.bare : KSel → KSel
  | .pct _ v => .pct ⟨0, 0⟩ v
  | .ident _ v => .ident ⟨0, 0⟩ v

/-- The selectors of a rule; unlike those in the arguments of a pseudo class, white space before them has no meaning. -/
def topToks : List Sel → List PTok
  | [] => []
  | [s] => s.toks
  | s :: r :: ss => s.toks ++ .punct 44 :: (padToks (lead r.loc) ++ topToks (r :: ss))

omit [Spelling] in
@[simp] theorem printed_sel (sp : Span) (ps : List SelPart) : @Sel.toks .printed (.mk sp ps) = @partsToks .printed ps := by
  simp [Sel.toks]

omit [Spelling] in
@[simp] theorem printed_topToks : ∀ l : List Sel, @topToks .printed l = @selsToks .printed l
  | [] => by rw [topToks, selsToks]
  | [s] => by rw [topToks, selsToks, List.isEmpty_nil, if_pos rfl, List.append_nil]
  | s :: r :: ss => by rw [topToks, selsToks, if_neg (by simp), printed_topToks (r :: ss), printed_lead, padToks_nil]; rfl

def Prelude.toks : Prelude → List PTok
  | .nil => []
  | .sels l => topToks l.sels
  | .keyframes sp l => (l.map KSel.toks).flatten ++ padToks (trail sp)

def Prelude.bare : Prelude → Prelude
  | .nil => .nil
  | .sels l => .sels ⟨⟨0, 0⟩, bareSels l.sels⟩
  | .keyframes _ l => .keyframes ⟨0, 0⟩ (l.map KSel.bare)

def QRule.toks (r : QRule) : List PTok :=
  r.prelude.toks ++ (.punct 123 :: ((match r.block with | none => [] | some b => declsToks b.decls) ++ [.punct 125]))

def QRule.bare (r : QRule) : QRule := ⟨⟨0, 0⟩, r.prelude.bare, r.block.map DeclBlock.bare⟩

/-- A declaration block that can be written. -/
def DeclBlock.Shape (b : DeclBlock) : Prop := ∀ d ∈ b.decls, d.Shape

/-- A style rule. -/
def QRule.Shape (r : QRule) : Prop :=
  (∃ l, r.prelude = .sels l ∧ l.sels ≠ [] ∧ selsShape l.sels ∧ ∀ s ∈ l.sels, s.NoLead) ∧
  ∃ b, r.block = some b ∧ b.Shape

/-- A rule of `@keyframes`: one selector. -/
def QRule.FrameShape (r : QRule) : Prop :=
  (∃ sp k, r.prelude = .keyframes sp [k] ∧ ∀ sp v, k = .ident sp v → v = b!"from" ∨ v = b!"to") ∧
  ∃ b, r.block = some b ∧ b.Shape

def rulesToks : List QRule → List PTok
  | [] => []
  | r :: rs => r.toks ++ rulesToks rs

/-! ### Media queries -/

def MQPart.toks : MQPart → List PTok
  | .ident _ v => [.ident v]
  | .plain _ _ prop value =>
    .punct 40 :: .ident prop :: (valueAfter [.punct 58] value ++ [.punct 41])
  | .range _ _ prop left op right =>
    .punct 40 :: (valueBefore (op.map .delim) left ++
      (.ident prop :: (valueAfter (op.map .delim) right ++ [.punct 41])))
  | .inParens _ _ => []

def isRangeOp (op : Bytes) : Prop := op = b!"<" ∨ op = b!">" ∨ op = b!"<=" ∨ op = b!">="

def MQPart.Shape : MQPart → Prop
  | .ident _ _ => True
  | .plain _ _ _ value => value = .nil ∨ value.Shape .val
  | .range _ _ _ left op right =>
    isRangeOp op ∧
    (left.Shape .val ∧ (right = .nil ∨ right.Shape .val) ∨
      left = .nil ∧ right.Shape .val ∧ ∀ sp v, right ≠ .ident sp v)
  | .inParens _ _ => False

def MQPart.bare : MQPart → MQPart
  | .ident _ v => .ident ⟨0, 0⟩ v
  | .plain _ _ prop value => .plain ⟨0, 0⟩ ⟨0, 0⟩ prop value.bare
  | .range _ _ prop left op right => .range ⟨0, 0⟩ ⟨0, 0⟩ prop left.bare op right.bare
  | .inParens _ ps => .inParens ⟨0, 0⟩ ps

def mqPartsToks : List MQPart → List PTok
  | [] => []
  | p :: ps => p.toks ++ (if ps.isEmpty then [] else .space :: mqPartsToks ps)

def MQ.Shape (q : MQ) : Prop := q.parts ≠ [] ∧ ∀ p ∈ q.parts, p.Shape

def MQ.bare (q : MQ) : MQ := ⟨⟨0, 0⟩, q.parts.map MQPart.bare⟩

def mqsToks : List MQ → List PTok
  | [] => []
  | q :: qs => mqPartsToks q.parts ++ (if qs.isEmpty then [] else .punct 44 :: mqsToks qs)

def MQList.Shape (l : MQList) : Prop := l.queries ≠ [] ∧ ∀ q ∈ l.queries, q.Shape

def MQList.bare (l : MQList) : MQList := ⟨⟨0, 0⟩, l.queries.map MQ.bare⟩

/-! ### At-rules and stylesheets -/

/-- The tokens of a prelude; only the address of an import has other forms than a string. -/
def AtPrelude.toks (name : Bytes) : AtPrelude → List PTok
  | .str sp v => match (if name = b!"import" then address sp else .string) with
    | .string => [.string (mark sp) v]
    | .url w => [.url w v]
    | .function => [.func b!"url", .string (mark sp) v, .punct 41]
  | .ident _ v => [.ident v]
  | .mql none => []
  | .mql (some l) => mqsToks l.queries
  | .mq q => mqPartsToks q.parts

def AtPrelude.bare : AtPrelude → AtPrelude
  | .str _ v => .str ⟨0, 0⟩ v
  | .ident _ v => .ident ⟨0, 0⟩ v
  | .mql l => .mql (l.map MQList.bare)
  | .mq q => .mq q.bare

def preludesToks (name : Bytes) : List AtPrelude → List PTok
  | [] => []
  | p :: ps => .space :: (p.toks name ++ preludesToks name ps)

def Block.toks : Block → List PTok
  | .none => [.punct 59]
  | .decls b => .punct 123 :: (declsToks b.decls ++ [.punct 125])
  | .rules _ rs => .punct 123 :: (rulesToks rs ++ [.punct 125])

def Block.bare : Block → Block
  | .none => .none
  | .decls b => .decls b.bare
  | .rules _ rs => .rules ⟨0, 0⟩ (rs.map QRule.bare)

def AtRule.toks (a : AtRule) : List PTok := .at a.name :: (preludesToks a.name a.preludes ++ a.block.toks)

def AtRule.bare (a : AtRule) : AtRule := ⟨0, ⟨0, 0⟩, a.name, a.preludes.map AtPrelude.bare, a.block.bare⟩

/-- The names of `@keyframes`. -/
def isKeyframesName (name : Bytes) : Prop :=
  name = b!"keyframes" ∨ name = b!"-webkit-keyframes" ∨ name = b!"-o-keyframes"

/-- The at-rules that have a text. -/
inductive AtRule.Shape : AtRule → Prop where
  | import {src sp psp v} : Shape ⟨src, sp, b!"import", [.str psp v], .none⟩
  | importMedia {src sp psp v l} : l.Shape → Shape ⟨src, sp, b!"import", [.str psp v, .mql (some l)], .none⟩
  | media {src sp l bsp rs} : l.Shape → (∀ r ∈ rs, r.Shape) →
      Shape ⟨src, sp, b!"media", [.mql (some l)], .rules bsp rs⟩
  | keyframes {src sp name psp v bsp rs} : isKeyframesName name → (∀ r ∈ rs, r.FrameShape) →
      Shape ⟨src, sp, name, [.ident psp v], .rules bsp rs⟩
  | keyframesStr {src sp name psp v bsp rs} : isKeyframesName name → (∀ r ∈ rs, r.FrameShape) →
      Shape ⟨src, sp, name, [.str psp v], .rules bsp rs⟩
  | customMedia {src sp psp v q} : q.Shape → Shape ⟨src, sp, b!"custom-media", [.ident psp v, .mq q], .none⟩
  | generic {src sp name b} : name ≠ b!"import" → name ≠ b!"media" → ¬ isKeyframesName name →
      name ≠ b!"custom-media" → b.Shape → Shape ⟨src, sp, name, [], .decls b⟩

def Node.toks : Node → List PTok
  | .rule r => r.toks
  | .at a => a.toks

def Node.Shape : Node → Prop
  | .rule r => r.Shape
  | .at a => a.Shape

def Node.bare : Node → Node
  | .rule r => .rule r.bare
  | .at a => .at a.bare

def nodesToks : List Node → List PTok
  | [] => []
  | n :: ns => n.toks ++ nodesToks ns

/-- The address of an `@import` rule. -/
def Node.importValue : Node → Option Bytes
  | .at ⟨_, _, name, .str _ v :: _, _⟩ => if name = b!"import" then some v else none
  | _ => none

/-- The addresses of a stylesheet's `@import` rules. -/
def importValues (ns : List Node) : List Bytes := ns.filterMap Node.importValue

omit [Spelling]

/-- A stylesheet that some text denotes: its nodes have the shape of the grammar, its tokens do not run
into each other when written as the printer does, and its import list lists its `@import` rules. -/
structure Stylesheet.Printable (ss : Stylesheet) : Prop where
  shape : ∀ n ∈ ss.nodes, n.Shape
  lay : Lay (nodesToks ss.nodes)
  imports : ss.imports.map ImportSpec.value = importValues ss.nodes

/-- Two stylesheets that differ only in positions: of nodes, and of the rules that imports refer to. -/
structure Stylesheet.Same (a b : Stylesheet) : Prop where
  nodes : a.nodes.map Node.bare = b.nodes.map Node.bare
  imports : a.imports.map ImportSpec.value = b.imports.map ImportSpec.value

/-! ### Text that is kept -/

/-- Is the declaration kept as text? -/
def Decl.asText : Decl → Bool
  | .raw _ _ => true
  | .decl .. => false

/-- No declaration is kept as text. -/
def DeclBlock.clean (b : DeclBlock) : Prop := ∀ d ∈ b.decls, d.asText = false

def QRule.clean (r : QRule) : Prop := ∀ b, r.block = some b → b.clean

def Node.clean : Node → Prop
  | .rule r => r.clean
  | .at a => match a.block with
    | .none => True
    | .decls b => b.clean
    | .rules _ rs => ∀ r ∈ rs, r.clean

end Cssc
