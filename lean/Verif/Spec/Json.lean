import Verif.Bytes

/-!
# Specification: UTF-8 and JSON

UTF-8 as in RFC 3629 and a reader of JSON texts as in RFC 8259, written without any function of the printer.
The reader is narrower than the RFC where source maps need nothing more (numbers are natural numbers, no
`true`, `false`, `null`, no surrogate pairs): what it reads is JSON and means what it says.
-/

namespace Cssc

/-- The Unicode scalar values. -/
def IsScalar (c : Nat) : Prop := c < 0xD800 ∨ (0xE000 ≤ c ∧ c < 0x110000)

/-- The UTF-8 sequence of a scalar value (RFC 3629, section 3). -/
def utf8Encode (c : Nat) : Bytes :=
  if c < 0x80 then [UInt8.ofNat c]
  else if c < 0x800 then [UInt8.ofNat (0xC0 + c / 64), UInt8.ofNat (0x80 + c % 64)]
  else if c < 0x10000 then
    [UInt8.ofNat (0xE0 + c / 4096), UInt8.ofNat (0x80 + c / 64 % 64), UInt8.ofNat (0x80 + c % 64)]
  else
    [UInt8.ofNat (0xF0 + c / 262144), UInt8.ofNat (0x80 + c / 4096 % 64), UInt8.ofNat (0x80 + c / 64 % 64),
     UInt8.ofNat (0x80 + c % 64)]

/-- A text in UTF-8. -/
def IsUtf8 (bs : Bytes) : Prop := ∃ cs : List Nat, (∀ c ∈ cs, IsScalar c) ∧ bs = cs.flatMap utf8Encode

/-- `v` is `w` with every byte at which no UTF-8 sequence begins replaced by U+FFFD. -/
inductive Mended : Bytes → Bytes → Prop
  | nil : Mended [] []
  | char {c : Nat} {w v : Bytes} : IsScalar c → Mended w v → Mended (utf8Encode c ++ w) (utf8Encode c ++ v)
  | bad {b : UInt8} {w v : Bytes} : (∀ c, IsScalar c → ¬ utf8Encode c <+: b :: w) → Mended w v →
      Mended (b :: w) (0xEF :: 0xBF :: 0xBD :: v)

/-- The value of a hexadecimal digit. -/
def hexValue (b : UInt8) : Option Nat :=
  if 48 ≤ b.toNat ∧ b.toNat ≤ 57 then some (b.toNat - 48)
  else if 97 ≤ b.toNat ∧ b.toNat ≤ 102 then some (b.toNat - 97 + 10)
  else if 65 ≤ b.toNat ∧ b.toNat ≤ 70 then some (b.toNat - 65 + 10)
  else none

/-- The two-character escapes. -/
def shortEscape (b : UInt8) : Option UInt8 :=
  if b = 34 ∨ b = 92 ∨ b = 47 then some b
  else if b = 98 then some 8
  else if b = 102 then some 12
  else if b = 110 then some 10
  else if b = 114 then some 13
  else if b = 116 then some 9
  else none

/-- What stands behind `\u`: a code unit that is not a surrogate, in UTF-8. -/
def unitEscape (a b c d : UInt8) : Option Bytes := do
  let a ← hexValue a
  let b ← hexValue b
  let c ← hexValue c
  let d ← hexValue d
  let n := ((a * 16 + b) * 16 + c) * 16 + d
  if 0xD800 ≤ n ∧ n < 0xE000 then none else some (utf8Encode n)

/-- A string behind its opening quote: what it stands for, and the text behind the closing quote. -/
def jsonStr : Bytes → Option (Bytes × Bytes)
  | [] => none
  | 34 :: t => some ([], t)
  | 92 :: 117 :: a :: b :: c :: d :: t => do
    let x ← unitEscape a b c d
    let (s, r) ← jsonStr t
    some (x ++ s, r)
  | 92 :: e :: t => do
    let x ← shortEscape e
    let (s, r) ← jsonStr t
    some (x :: s, r)
  | b :: t =>
    if b.toNat < 32 ∨ b = 92 then none
    else do
      let (s, r) ← jsonStr t
      some (b :: s, r)

/-- JSON values. -/
inductive Json where
  | num (n : Nat)
  | str (s : Bytes)
  | arr (l : List Json)
  | obj (l : List (Bytes × Json))

/-- White space (RFC 8259, section 2). -/
def skipJsonWs : Bytes → Bytes
  | [] => []
  | b :: t => if b = 32 ∨ b = 9 ∨ b = 10 ∨ b = 13 then skipJsonWs t else b :: t

/-- The digits at the start of a text. -/
def jsonDigits : Bytes → Bytes
  | [] => []
  | b :: t => if 48 ≤ b.toNat ∧ b.toNat ≤ 57 then b :: jsonDigits t else []

/-- A character with white space around it. -/
def jsonChar (c : UInt8) (t : Bytes) : Option Bytes :=
  match skipJsonWs t with
  | [] => none
  | b :: t => if b = c then some (skipJsonWs t) else none

mutual

/-- A value, with white space around it. -/
def jsonVal : Nat → Bytes → Option (Json × Bytes)
  | 0, _ => none
  | n + 1, t =>
    match skipJsonWs t with
    | [] => none
    | 34 :: t => (jsonStr t).map fun (s, r) => (.str s, skipJsonWs r)
    | 91 :: t =>
      match jsonChar 93 t with
      | some r => some (.arr [], r)
      | none => (jsonElems n t).map fun (l, r) => (.arr l, r)
    | 123 :: t =>
      match jsonChar 125 t with
      | some r => some (.obj [], r)
      | none => (jsonMembers n t).map fun (l, r) => (.obj l, r)
    | b :: t =>
      match jsonDigits (b :: t) with
      | [] => none
      | ds =>
        if b = 48 ∧ ds.length ≠ 1 then none
        else some (.num (ds.foldl (fun v d => v * 10 + (d.toNat - 48)) 0), skipJsonWs ((b :: t).drop ds.length))

/-- The elements of an array and its end. -/
def jsonElems : Nat → Bytes → Option (List Json × Bytes)
  | 0, _ => none
  | n + 1, t => do
    let (v, r) ← jsonVal n t
    match jsonChar 93 r with
    | some r => some ([v], r)
    | none => do
      let r ← jsonChar 44 r
      let (l, r) ← jsonElems n r
      some (v :: l, r)

/-- The members of an object and its end. -/
def jsonMembers : Nat → Bytes → Option (List (Bytes × Json) × Bytes)
  | 0, _ => none
  | n + 1, t => do
    let t ← match skipJsonWs t with
      | 34 :: t => some t
      | _ => none
    let (k, r) ← jsonStr t
    let r ← jsonChar 58 r
    let (v, r) ← jsonVal n r
    match jsonChar 125 r with
    | some r => some ([(k, v)], r)
    | none => do
      let r ← jsonChar 44 r
      let (l, r) ← jsonMembers n r
      some ((k, v) :: l, r)

end

/-- A JSON text (the nesting depth and the number of members are at most its length). -/
def readJson (t : Bytes) : Option Json :=
  match jsonVal (t.length + 1) t with
  | some (v, []) => some v
  | _ => none

/-- A member of an object: the first with that name, which must be the only one. -/
def Json.get (k : Bytes) : Json → Option Json
  | .obj l =>
    match l.filter fun m => m.1 == k with
    | [(_, v)] => some v
    | _ => none
  | _ => none

end Cssc
