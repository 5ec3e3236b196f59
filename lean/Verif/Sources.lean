import Verif.Ast

/-!
# Sources and error messages

`internal/sources/source.go` and `internal/logging/logging.go`.  A Go run-time panic is `none`.
-/

namespace Cssc

/-- Go's conversion to `int32` and the result of `int32` arithmetic: two's complement wrap-around. -/
def wrap32 (x : Int) : Int := Int.bmod x 4294967296

/-- `sources.Source`, `internal/sources/source.go:10-21`. -/
structure Source where
  path : Bytes
  content : Bytes
  lines : List Nat
deriving Inhabited

/-- The loop of Go's `sort.Search` (standard library): binary search in `[i, j)`. -/
def searchLoop (f : Nat → Bool) : Nat → Nat → Nat → Nat
  | 0, i, _ => i
  | fuel + 1, i, j =>
    if i < j then
      let h := (i + j) / 2
      if !f h then searchLoop f fuel (h + 1) j else searchLoop f fuel i h
    else i

/-- `sort.Search(n, f)`.  The interval shrinks at every step, so `n` steps are enough. -/
def sortSearch (n : Nat) (f : Nat → Bool) : Nat := searchLoop f n 0 n

/-- `LineAndCol`, `internal/sources/source.go:25-31`. -/
def Source.lineAndCol (s : Source) (sp : Span) : Option (Int × Int) :=
  let line := sortSearch s.lines.length fun i => decide (sp.start < s.lines.getD i 0)
  if line = 0 then none
  else
    match s.lines[line - 1]? with
    | none => none
    | some start => some (wrap32 line, wrap32 ((sp.start : Int) - start + 1))

/-- The runes of a byte string: Go's `for _, ch := range s`.  `fuel` is at least the length. -/
def runesAux : Nat → Bytes → List Int
  | 0, _ => []
  | n + 1, bs =>
    let (cp, size) := decodeRune bs
    if size = 0 then [] else cp :: runesAux n (bs.drop size)

def runes (bs : Bytes) : List Int := runesAux bs.length bs

/-- The byte offset of the first newline rune in `bs` (Go's `for i, ch := range`), if any. -/
def newlineAux : Nat → Bytes → Nat → Option Nat
  | 0, _, _ => none
  | n + 1, bs, i =>
    let (cp, size) := decodeRune bs
    if size = 0 then none
    else if cp = r!"\n" then some i
    else newlineAux n (bs.drop size) (i + size)

/-- `FullLine`, `internal/sources/source.go:35-48`. -/
def Source.fullLine (s : Source) (sp : Span) : Option (Nat × Nat) :=
  match s.lineAndCol sp with
  | none => none
  | some (lineNumber, _) =>
    if lineNumber - 1 < 0 then none
    else
      match s.lines[(lineNumber - 1).toNat]? with
      | none => none
      | some lineStart =>
        if s.content.length < sp.start then none
        else
          let rest := s.content.drop sp.start
          match newlineAux rest.length rest 0 with
          | some i => some (lineStart, i + sp.start)
          | none => some (lineStart, s.content.length)

/-- `strings.Repeat(string(b), n)`; a negative count is a run-time panic. -/
def repeatByte (b : UInt8) (n : Int) : Option Bytes :=
  if n < 0 then none else some (List.replicate n.toNat b)

/-- `AnnotateSourceSpan`, `internal/logging/logging.go:83-100`. -/
def annotateSourceSpan (s : Source) (sp : Span) : Option Bytes := do
  let (_, col) ← s.lineAndCol sp
  let (lineStart, lineEnd) ← s.fullLine sp
  if lineEnd < lineStart ∨ s.content.length < lineEnd then none
  else
    let line := sub s.content lineStart lineEnd
    let tabCount := line.count 9
    let withoutTabs := line.flatMap fun b => if b = 9 then b!"  " else [b]
    let indent ← repeatByte 32 (col + tabCount - 1)
    let underline ← repeatByte 126 ((sp.stop : Int) - sp.start)
    let excess : Int := (sp.stop : Int) - lineEnd
    if excess > 0 then
      if (underline.length : Int) - excess < 0 then none
      else
        some (b!"\t" ++ withoutTabs ++ b!"\n\t" ++ indent ++
          underline.take (underline.length - excess.toNat) ++ b!">")
    else some (b!"\t" ++ withoutTabs ++ b!"\n\t" ++ indent ++ underline)

/-- Decimal digits of an integer, `%d`. -/
def fmtInt (n : Int) : Bytes := (toString n).toUTF8.toList

/-- `locationError.Error`, `internal/logging/logging.go:65-72`, given the text of the inner error. -/
def locationErrorText (s : Source) (sp : Span) (inner : Bytes) : Option Bytes := do
  let (line, col) ← s.lineAndCol sp
  let annotation ← annotateSourceSpan s sp
  some (s.path ++ b!":" ++ fmtInt line ++ b!":" ++ fmtInt col ++ b!"\n" ++ inner ++ b!":\n" ++ annotation)

end Cssc
