import Verif.Spec.Items
import Verif.Spec.Printable

/-!
# Specification: what a printed text keeps

The constructs that survive being written without optional white space, comments, quotes of the other kind,
comparison operators and so on, one condition for each kind of node.  Each condition is about a node and its
immediate parts only.  Written over the syntax tree, independently of the parser and the printer.
-/

namespace Cssc

/-- A text that reads like an exponent: `e` or `E` and a digit, or a `-` and a digit. -/
def expLike : Bytes → Bool
  | e :: t => (e == 101 || e == 69) && (match t with
    | d :: u => isAD d || (d == 45 && (match u with | f :: _ => isAD f | [] => false))
    | [] => false)
  | [] => false

/-- A value whose last token does not run into what follows: a string, a percentage, a closing bracket or a
comma. -/
def Value.closed : Value → Bool
  | .str _ _ | .func _ _ _ | .brackets _ _ | .paren _ _ | .comma _ => true
  | .dim _ _ unit => unit == b!"%"
  | .math _ _ _ r => r.closed
  | _ => false

/-- A value whose first token does not run into what stands before it. -/
def Value.opener : Value → Bool
  | .str _ _ | .hex _ _ | .brackets _ _ | .comma _ => true
  | .math _ _ l _ => l.opener
  | _ => false

/-- A value that begins with a bracket, a string or a `#`. -/
def Value.fenced : Value → Bool
  | .str _ _ | .hex _ _ | .brackets _ _ | .paren _ _ => true
  | .math _ _ l _ => l.fenced
  | _ => false

/-- A value that begins with a number without a sign. -/
def Value.unsigned : Value → Bool
  | .dim _ (b :: _) _ => b != 43 && b != 45
  | .math _ _ l _ => l.unsigned
  | _ => false

/-- Values that can be written next to each other. -/
def Touching : List Value → Prop
  | [] => True
  | [_] => True
  | v :: w :: vs => (v.closed = true ∨ w.opener = true) ∧ Touching (w :: vs)

/-- The text of a string that can be written between double quotes. -/
def Quotable (v : Bytes) : Prop := isStringBody 34 v = true

/-- The arguments of a function: those that would run together if written without spaces are excluded, and
`url(` must be followed by a string or an address. -/
def KeepArgs (name : Bytes) (args : List Value) : Prop :=
  isUrlCall name args = true ∨ Touching args ∧ (IsUrlWord name → ∃ sp v vs, args = .str sp v :: vs)

/-- A part of a selector that ends in a word. -/
def SelPart.wordy : SelPart → Bool
  | .type _ name => name != b!"*"
  | .cls _ _ | .id _ _ => true
  | .pclass _ _ .nil | .pelem _ _ _ .nil => true
  | _ => false

/-- No word directly behind a word. -/
def Apart : List SelPart → Prop
  | [] => True
  | p :: ps => (p.wordy = true → ∀ sp n, ps.head? = some (.type sp n) → n = b!"*") ∧ Apart ps

/-- What the printer keeps, node by node. -/
def Item.Keeps : Item → Prop
  -- no double quotes, no carriage returns
  | .value (.str _ v) => Quotable v
  -- no number without text, no unit that reads like an exponent
  | .value (.dim _ num unit) => num ≠ [] ∧ Clean num ∧ Clean unit ∧ expLike unit = false
  | .value (.ident _ v) => NoEsc v
  | .value (.hex _ v) => NoEsc v
  | .value (.func _ name vs) => NoEsc name ∧ KeepArgs name vs
  -- no difference that is not between brackets; no sum whose right side begins with a number without a sign
  | .value (.math _ op l r) => (op = b!"-" → l.closed = true ∧ r.fenced = true) ∧ (op = b!"+" → r.unsigned = false)
  | .value (.paren _ v) => v ≠ .nil
  | .value (.raw _ v) => Clean v
  | .part (.type _ name) => NoEsc name
  | .part (.cls _ name) => NoEsc name
  | .part (.id _ name) => NoEsc name
  | .part (.pclass _ name _) => NoEsc name
  | .part (.pelem _ _ name _) => NoEsc name
  -- no comparison other than `=`, no modifier
  | .part (.attr _ prop preOp _ modifier) => NoEsc prop ∧ preOp = [] ∧ modifier = []
  | .args name (.anb _ a op b) => ¬ IsUrlWord name ∧ AnbShape a op b ∧ ∀ t ∈ anbToks a op b, t.Wf
  | .args _ .nil => True
  | .args name _ => ¬ IsUrlWord name
  | .sel s => Spacing s.parts ∧ Apart s.parts ∧ ∃ p ∈ s.parts, p.isWs = false
  | .ksel (.pct _ v) => Clean v
  -- no text kept as it is
  | .decl (.decl _ prop _ _) => NoEsc prop
  | .decl (.raw _ _) => False
  -- no rule without selectors, and one selector for each keyframe
  | .rule r => (∃ l, r.prelude = .sels l ∧ ∀ s ∈ l.sels, s.NoLead) ∨ ∃ sp k, r.prelude = .keyframes sp [k]
  | .mqpart (.ident _ v) => NoEsc v
  | .mqpart (.plain _ _ prop _) => NoEsc prop
  | .mqpart (.range _ _ prop left _ right) => NoEsc prop ∧
      (left = .nil → right ≠ .nil ∧ ∀ sp v, right ≠ .ident sp v)
  -- no empty media query list
  | .at a => NoEsc a.name ∧ a.preludes ≠ [.mql none] ∧ (∀ sp v, .str sp v ∈ a.preludes → Quotable v) ∧
      ∀ sp v, .ident sp v ∈ a.preludes → NoEsc v
  | _ => True

/-- A stylesheet without constructs that printing loses. -/
def Stylesheet.Keeps (ss : Stylesheet) : Prop := ∀ it ∈ ss.items, it.Keeps

end Cssc
