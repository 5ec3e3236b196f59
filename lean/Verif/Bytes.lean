/-!
# Byte strings

Go's `string` and `[]byte` are modelled as `List UInt8`.  Two macros give readable literals:
`b!"abc"` is the list of UTF-8 bytes of the literal and `r!"a"` is the code point of a
one-character literal, as an `Int` (Go's `rune`).
-/

namespace Cssc

/-- A Go `string` / `[]byte`. -/
abbrev Bytes := List UInt8

/-- `b!"abc"`: the bytes of a string literal. -/
syntax:max (name := byteLit) "b!" str : term

macro_rules
  | `(b! $s:str) => do
    let elems ← s.getString.toUTF8.toList.mapM fun (b : UInt8) =>
      `(term| ($(Lean.quote b.toNat) : UInt8))
    `(([$(elems.toArray),*] : List UInt8))

/-- `r!"a"`: the code point of a single character, as an `Int`. -/
syntax:max (name := runeLit) "r!" str : term

macro_rules
  | `(r! $s:str) => do
    let n := s.getString.toList.head!.toNat
    `(($(Lean.quote n) : Int))

/-- `s[a:b]` when in range. -/
def sub (s : Bytes) (a b : Nat) : Bytes := (s.drop a).take (b - a)

/-- `strings.HasPrefix(s, p)`. -/
def hasPrefix : (s p : Bytes) → Bool
  | _, [] => true
  | [], _ :: _ => false
  | x :: s, y :: p => x == y && hasPrefix s p

end Cssc
