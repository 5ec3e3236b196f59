import Verif.Bytes

/-!
# What An+B texts mean (C29)
-/

namespace Cssc

/-- A decimal digit. -/
def decDigit (b : UInt8) : Option Nat := if 48 ≤ b.toNat ∧ b.toNat ≤ 57 then some (b.toNat - 48) else none

/-- The value of a non-empty run of digits. -/
def decVal (t : Bytes) : Option Nat :=
  if t = [] then none
  else t.foldl (fun acc b => match acc, decDigit b with
    | some v, some d => some (10 * v + d)
    | _, _ => none) (some 0)

/-- An integer with an optional sign. -/
def intVal (t : Bytes) : Option Int :=
  if t.head? = some 43 then (decVal t.tail).map fun (n : Nat) => (n : Int)
  else if t.head? = some 45 then (decVal t.tail).map fun (n : Nat) => -(n : Int)
  else (decVal t).map fun (n : Nat) => (n : Int)

/-- The coefficient before `n`: nothing or a sign stands for one. -/
def coefVal (t : Bytes) : Option Int :=
  if t = [] ∨ t = b!"+" then some 1 else if t = b!"-" then some (-1) else intVal t

/-- The offset after `n`: nothing, or an integer with a sign. -/
def offsetVal (t : Bytes) : Option Int :=
  if t = [] then some 0
  else if t.head? = some 43 ∨ t.head? = some 45 then intVal t
  else none

/-- `A` and `B` of an An+B text without spaces (CSS Syntax, section 6). -/
def anbVal (t : Bytes) : Option (Int × Int) :=
  if 110 ∈ t then
    match coefVal (t.takeWhile (· ≠ 110)), offsetVal ((t.dropWhile (· ≠ 110)).tail) with
    | some a, some b => some (a, b)
    | _, _ => none
  else (intVal t).map fun b => (0, b)

/-- The indices that an An+B selects. -/
def Selects (a b i : Int) : Prop := 1 ≤ i ∧ ∃ n : Nat, i = a * n + b

/-- What the fields of an `ANPlusB` node mean: a missing coefficient is one, a missing offset zero, and an
offset has a sign unless it is all there is. -/
def fieldsVal (a op b : Bytes) : Option (Int × Int) :=
  match (if a = [] then some 1 else intVal a), (if b = [] then (if op = [] then some 0 else none) else (decVal b).map fun (n : Nat) => (n : Int)) with
  | some x, some y =>
    if op = b!"-" then some (x, -y)
    else if op = b!"+" ∨ (op = [] ∧ (a = b!"0" ∨ b = [])) then some (x, y)
    else none
  | _, _ => none

/-- A text without its spaces, tabs and newlines. -/
def unspaced (t : Bytes) : Bytes := t.filter fun b => b ≠ 32 ∧ b ≠ 10 ∧ b ≠ 9

/-- The fields mean what the text means, if it is An+B at all.  (White space is more restricted in CSS than
here, so this asks for more than CSS does.) -/
def AnbMeans (t a op b : Bytes) : Prop :=
  ∀ x y, anbVal (unspaced t) = some (x, y) → fieldsVal a op b = some (x, y)

end Cssc
