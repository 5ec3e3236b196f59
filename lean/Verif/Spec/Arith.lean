import Verif.Spec.Tok

/-!
# Specification: the text between the parentheses of a math function

Nothing here refers to the parser.
-/

namespace Cssc

/-- A place in an expression: at the beginning of an argument or of parentheses, behind an operand, behind an operator. -/
inductive Slot where
  | first
  | behind
  | due
deriving DecidableEq

/-- A token that is an operand by itself. -/
def PTok.isOperand : PTok → Bool
  | .number _ | .percentage _ | .dimension _ _ | .ident _ | .hash _ | .string _ _ | .url _ _ => true
  | _ => false

/-- `ArithTok strict t d pl d' pl'`: at the place `pl`, with `d` parentheses open, the token `t` may stand, and leads to
the place `pl'` with `d'` parentheses open.  If `strict`, an operator is behind an operand and before one. -/
inductive ArithTok (strict : Bool) : PTok → Nat → Slot → Nat → Slot → Prop where
  | operand {t d pl} : t.isOperand = true → ArithTok strict t (d + 1) pl (d + 1) .behind
  | paren {d pl} : ArithTok strict (.punct 40) (d + 1) pl (d + 2) .first
  | func {w d pl} : ArithTok strict (.func w) (d + 1) pl (d + 2) .first
  | close {d pl} : (strict = true → pl ≠ .due) → ArithTok strict (.punct 41) (d + 1) pl d .behind
  | comma {d pl} : (strict = true → pl ≠ .due) → ArithTok strict (.punct 44) (d + 1) pl (d + 1) .first
  | op {b d pl} : b = 42 ∨ b = 43 ∨ b = 45 ∨ b = 47 → (strict = true → pl = .behind) →
      ArithTok strict (.delim b) (d + 1) pl (d + 1) .due

/-- The text begins with such tokens, up to the one that closes the last of `d` open parentheses.  White space and
comments may stand between the tokens. -/
inductive ArithText (strict : Bool) : Nat → Slot → Bytes → Prop where
  | done {pl r} : ArithText strict 0 pl r
  | tok {w t d pl d' pl' r} : Gap w → t.Wf → t.Follow r → ArithTok strict t d pl d' pl' → ArithText strict d' pl' r →
      ArithText strict d pl (w ++ (t.text ++ r))

/-- In `src`, the text `r` follows the opening parenthesis of a math function. -/
def MathCall (src r : Bytes) : Prop :=
  ∃ a t, t ∈ [b!"calc", b!"min", b!"max", b!"clamp"] ∧ (src = a ++ (t ++ (b!"(" ++ r)) ∨ src = a ++ (t ++ (b!"\r(" ++ r)))

end Cssc
