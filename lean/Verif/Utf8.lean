import Verif.Bytes

/-!
# UTF-8 decoding

Go's `utf8.DecodeRuneInString` (standard library, used by `internal/lexer/lexer.go:77,87,114` and by
`range` over a string in `internal/printer/printer.go:96` and `internal/sources/source.go:40`).
-/

namespace Cssc

/-- `utf8.RuneError`. -/
def runeError : Int := 0xFFFD

/-- Is `b` in the default continuation range `0x80..0xBF`?  (`locb`, `hicb` in Go's `utf8`.) -/
def isCont (b : Nat) : Bool := 0x80 ≤ b && b ≤ 0xBF

/-- `utf8.DecodeRuneInString`: the first rune of `s` and its width.  Width 0 means `s` is empty; an
invalid encoding gives `(RuneError, 1)`.  The table `first`/`acceptRanges` of Go's `utf8` package is
written out as conditions on the first two bytes. -/
def decodeRune : Bytes → Int × Nat
  | [] => (runeError, 0)
  | b0 :: t =>
    let x := b0.toNat
    if x < 0x80 then ((x : Int), 1)
    else if x < 0xC2 then (runeError, 1)
    else if x < 0xE0 then
      match t with
      | b1 :: _ =>
        let y := b1.toNat
        if isCont y then (((x - 0xC0) * 64 + (y - 0x80) : Nat), 2) else (runeError, 1)
      | _ => (runeError, 1)
    else if x < 0xF0 then
      match t with
      | b1 :: b2 :: _ =>
        let y := b1.toNat
        let z := b2.toNat
        let lo := if x = 0xE0 then 0xA0 else 0x80
        let hi := if x = 0xED then 0x9F else 0xBF
        if lo ≤ y && y ≤ hi && isCont z then
          (((x - 0xE0) * 4096 + (y - 0x80) * 64 + (z - 0x80) : Nat), 3)
        else (runeError, 1)
      | _ => (runeError, 1)
    else if x < 0xF5 then
      match t with
      | b1 :: b2 :: b3 :: _ =>
        let y := b1.toNat
        let z := b2.toNat
        let w := b3.toNat
        let lo := if x = 0xF0 then 0x90 else 0x80
        let hi := if x = 0xF4 then 0x8F else 0xBF
        if lo ≤ y && y ≤ hi && isCont z && isCont w then
          (((x - 0xF0) * 262144 + (y - 0x80) * 4096 + (z - 0x80) * 64 + (w - 0x80) : Nat), 4)
        else (runeError, 1)
      | _ => (runeError, 1)
    else (runeError, 1)

/-- The starts of the runs of ten consecutive decimal digits (general category Nd) above U+00FF, in
Unicode 13 (Go 1.16). No theorem depends on the contents of this table. -/
def ndStarts : List Nat :=
  [0x660, 0x6F0, 0x7C0, 0x966, 0x9E6, 0xA66, 0xAE6, 0xB66, 0xBE6, 0xC66, 0xCE6, 0xD66, 0xDE6,
   0xE50, 0xED0, 0xF20, 0x1040, 0x1090, 0x17E0, 0x1810, 0x1946, 0x19D0, 0x1A80, 0x1A90, 0x1B50,
   0x1BB0, 0x1C40, 0x1C50, 0xA620, 0xA8D0, 0xA900, 0xA9D0, 0xA9F0, 0xAA50, 0xABF0, 0xFF10,
   0x104A0, 0x10D30, 0x11066, 0x110F0, 0x11136, 0x111D0, 0x112F0, 0x11450, 0x114D0, 0x11650,
   0x116C0, 0x11730, 0x118E0, 0x11950, 0x11C50, 0x11D50, 0x11DA0, 0x16A60, 0x16B50, 0x1D7CE,
   0x1D7D8, 0x1D7E2, 0x1D7EC, 0x1D7F6, 0x1E140, 0x1E2F0, 0x1E950, 0x1FBF0]

/-- `unicode.IsDigit` (standard library): ASCII digits within Latin-1, the Nd table above it. -/
def isDigit (r : Int) : Bool :=
  if r ≤ 0xFF then r!"0" ≤ r && r ≤ r!"9"
  else ndStarts.any fun s => (s : Int) ≤ r && r ≤ (s : Int) + 9

end Cssc
