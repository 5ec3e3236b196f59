import Verif.Utf8

/-!
# The lexer

`internal/lexer/lexer.go` and `internal/lexer/tokens.go`, method by method.

A Go method on `*Lexer` becomes a function in the monad `P`: it takes the whole mutable state (the
source's content and line table, and the lexer's fields) and returns a `Res`:

* `ok`     - normal return,
* `err`    - the method panicked with a `*lexer.Error` (`Errorf`, `lexer.go:581-588`),
* `crash`  - a Go run-time panic (nil dereference, slice out of range),
* `timeout`- the model's fuel ran out (a loop that has not finished yet).

State is kept on `err` and `crash` because a recovering caller sees it (`parser.go:131-137`).
-/

namespace Cssc

/-- `ast.Span`, `internal/ast/ast.go:9-15`. -/
structure Span where
  start : Nat
  stop : Nat
deriving DecidableEq, Repr, Inhabited

/-- `lexer.Token`, `internal/lexer/tokens.go:9-39`. -/
inductive Tok where
  | illegal | eof | whitespace | comma | colon | semicolon | lparen | rparen | cdo | cdc
  | lbracket | rbracket | lcurly | rcurly | comment | url | functionStart | at | hash | number
  | percentage | dimension | string | ident | delim
deriving DecidableEq, Repr, Inhabited

/-- `lexer.Lexer`, `internal/lexer/lexer.go:17-59`, without the `source` pointer (see `St`). -/
structure Lex where
  /-- `ch`: the last rune consumed with `step`, `-1` at the end. -/
  ch : Int
  pos : Nat
  lastPos : Nat
  start : Nat
  cur : Tok
  str : Bytes
  num : Bytes
  retainWS : Bool
  retainComments : Bool
deriving DecidableEq, Repr, Inhabited

/-- The mutable state shared by lexer and parser: `sources.Source` (`internal/sources/source.go:10-21`;
`Content`, `Lines`) and the current `Lexer`.  `id` identifies the parse; it only serves to give
`*ast.AtRule` pointers an identity (`Ast.lean`). -/
structure St where
  src : Bytes
  lines : List Nat
  lex : Lex
  id : Nat
deriving DecidableEq, Repr, Inhabited

/-- A `*lexer.Error` (`lexer.go:591-593`): the format string of the message and the span it carries.
The formatted arguments of the message are not modelled. -/
structure LexErr where
  msg : String
  span : Span
deriving DecidableEq, Repr, Inhabited

/-- The outcome of running a lexer or parser method. -/
inductive Res (α : Type) where
  | ok (a : α) (s : St)
  | err (e : LexErr) (s : St)
  | crash (s : St)
  | timeout
deriving DecidableEq, Repr, Inhabited

/-- A lexer or parser method. -/
def P (α : Type) : Type := St → Res α

namespace P

/-- Return a value. -/
protected def pure (a : α) : P α := fun s => .ok a s

/-- Sequencing: a panic or a timeout ends the computation. -/
protected def bind (m : P α) (f : α → P β) : P β := fun s =>
  match m s with
  | .ok a s' => f a s'
  | .err e s' => .err e s'
  | .crash s' => .crash s'
  | .timeout => .timeout

instance : Monad P where
  pure := P.pure
  bind := P.bind

/-- Read the whole state. -/
def get : P St := fun s => .ok s s

/-- The model ran out of fuel. -/
def timeout : P α := fun _ => .timeout

/-- A Go run-time panic. -/
def crash : P α := fun s => .crash s

/-- Update lexer fields. -/
def modLex (f : Lex → Lex) : P Unit := fun s => .ok () { s with lex := f s.lex }

end P

/-- `if c { m }`. -/
def whenP (c : Prop) [Decidable c] (m : P Unit) : P Unit := if c then m else pure ()

/-- `TokenSpan`, `lexer.go:128-130`. -/
def tokenSpan : P Span := fun s => .ok ⟨s.lex.start, s.lex.lastPos⟩ s

/-- `TokenEnd`, `lexer.go:122-124`. -/
def tokenEnd : P Nat := fun s => .ok s.lex.lastPos s

/-- `Errorf`, `lexer.go:586-588` with `LocationErrorf`, `lexer.go:581-583`. -/
def errorf (msg : String) : P α := fun s => .err ⟨msg, ⟨s.lex.start, s.lex.lastPos⟩⟩ s

/-- Field reads `l.ch`, `l.lastPos`, `l.Current`, `l.CurrentString`, `l.CurrentNumeral`. -/
def getCh : P Int := fun s => .ok s.lex.ch s
def getLastPos : P Nat := fun s => .ok s.lex.lastPos s
def getCur : P Tok := fun s => .ok s.lex.cur s
def getStr : P Bytes := fun s => .ok s.lex.str s
def getNum : P Bytes := fun s => .ok s.lex.num s

/-- Field writes. -/
def setCur (t : Tok) : P Unit := P.modLex fun l => { l with cur := t }
def setStr (b : Bytes) : P Unit := P.modLex fun l => { l with str := b }
def setNum (b : Bytes) : P Unit := P.modLex fun l => { l with num := b }
def setRetainWS (b : Bool) : P Unit := P.modLex fun l => { l with retainWS := b }

/-- `l.source.Content[a:b]`; out of range is a Go run-time panic. -/
def slice (a b : Nat) : P Bytes := fun s =>
  if a ≤ b ∧ b ≤ s.src.length then .ok (sub s.src a b) s else .crash s

/-- `step`, `lexer.go:72-105`.  The slice expression `Content[l.pos:]` panics when `pos` is beyond the
end.  Appending to `Lines` happens first, as in Go. -/
def step : P Unit := fun s =>
  let l := s.lex
  let lines0 := if l.pos = 0 then s.lines ++ [l.pos] else s.lines
  if s.src.length < l.pos then .crash { s with lines := lines0 }
  else
    let (cp, size) := decodeRune (s.src.drop l.pos)
    if size = 0 then
      .ok () { s with lines := lines0, lex := { l with ch := -1, lastPos := l.pos } }
    else if cp = r!"\r" then
      let (next, nextSize) := decodeRune (s.src.drop (l.pos + size))
      let lines1 := if next = r!"\n" then lines0 ++ [l.pos + size + nextSize] else lines0
      .ok () { s with
        lines := lines1
        lex := { l with ch := next, lastPos := l.pos, pos := l.pos + size + nextSize } }
    else
      let lines1 := if cp = r!"\n" then lines0 ++ [l.pos + size] else lines0
      .ok () { s with
        lines := lines1
        lex := { l with ch := cp, lastPos := l.pos, pos := l.pos + size } }

/-- `peek`, `lexer.go:109-119`. -/
def St.peek (s : St) (i : Nat) : Int :=
  if s.src.length < s.lex.pos + i then -1
  else
    let (cp, size) := decodeRune (s.src.drop (s.lex.pos + i))
    if size = 0 then -1 else cp

def peek (i : Nat) : P Int := fun s => .ok (s.peek i) s

/-! ### Character classes, `tokens.go:83-105` -/

/-- `isHexDigit`, `tokens.go:83-85`. -/
def isHexDigit (r : Int) : Bool :=
  isDigit r || (r!"A" ≤ r && r ≤ r!"F") || (r!"a" ≤ r && r ≤ r!"f")

/-- `isWhitespace`, `tokens.go:88-90`. -/
def isWhitespace (r : Int) : Bool := r == r!"\n" || r == 9 || r == r!" "

/-- `isNameStartCodePoint`, `tokens.go:93-95`. -/
def isNameStart (r : Int) : Bool :=
  (r!"A" ≤ r && r ≤ r!"Z") || (r!"a" ≤ r && r ≤ r!"z") || 0x80 ≤ r || r == r!"_"

/-- `isNonPrintable`, `tokens.go:98-100`. -/
def isNonPrintable (r : Int) : Bool :=
  (0 ≤ r && r ≤ 0x8) || r == 0xb || (0xe ≤ r && r ≤ 0x1f) || r == 0x7f

/-- `isNameCodePoint`, `tokens.go:103-105`. -/
def isName (r : Int) : Bool := isNameStart r || (r ≤ r!"9" && r!"0" ≤ r) || r == r!"-"

/-- `startsEscape`, `lexer.go:386-396`. -/
def startsEscape (p0 p1 : Int) : Bool :=
  if p0 ≠ r!"\\" then false else if p1 = r!"\n" then false else true

/-- `startsIdentifier`, `lexer.go:374-383`. -/
def startsIdentifier (p0 p1 p2 : Int) : Bool :=
  if p0 = r!"-" then p1 == r!"-" || isName p1 || startsEscape p1 p2
  else if p0 = r!"\n" then false
  else isName p0

/-- `startsNumber`, `lexer.go:399-417`. -/
def startsNumber (p0 p1 p2 : Int) : Bool :=
  if p0 = r!"+" ∨ p0 = r!"-" then
    if isDigit p1 then true
    else if p1 = r!"." ∧ isDigit p2 then true
    else false
  else if p0 = r!"." ∧ isDigit p1 then true
  else isDigit p0

/-- `isURLString`, `lexer.go:440-442`. -/
def isURLString : Bytes → Bool
  | [a, b, c] => (a == 117 || a == 85) && (b == 114 || b == 82) && (c == 108 || c == 76)
  | _ => false

/-! ### Consuming tokens

The loops inside a token are bounded by `lexFuel`; `Props/Lexer.lean` proves that it never runs out
(C10), so the bound is not a restriction. -/

/-- Enough fuel for any loop over the rest of the source. -/
def lexFuel : P Nat := fun s => .ok (s.src.length + 2) s

/-- `for unicode.IsDigit(l.ch) { l.step() }`, `lexer.go:517-519,525-527,537-539`. -/
def digitsLoop : Nat → P Unit
  | 0 => P.timeout
  | n + 1 => do
    if isDigit (← getCh) then
      step
      digitsLoop n
    else pure ()

/-- `nextNumber`, `lexer.go:512-541`. -/
def nextNumber : P Unit := do
  let fuel ← lexFuel
  let c ← getCh
  whenP (c = r!"+" ∨ c = r!"-") step
  digitsLoop fuel
  let c ← getCh
  let p0 ← peek 0
  whenP (c = r!"." ∧ isDigit p0) do
    step
    step
    digitsLoop fuel
  let p0 ← peek 0
  let p1 ← peek 1
  let c ← getCh
  whenP ((c = r!"e" ∨ c = r!"E") ∧ (isDigit p0 ∨ ((p0 = r!"+" ∨ p0 = r!"-") ∧ isDigit p1))) do
    step
    let c ← getCh
    whenP (c = r!"+" ∨ c = r!"-") step
    digitsLoop fuel

/-- `nextDelimToken`, `lexer.go:544-549`. -/
def nextDelimToken : P Unit := do
  let start ← getLastPos
  step
  setCur .delim
  let e ← getLastPos
  setStr (← slice start e)

/-- The loop of `nextEscaped`, `lexer.go:572-577`: at most five more hex digits, each optionally
followed by one whitespace. -/
def escapedLoop : Nat → P Unit
  | 0 => pure ()
  | i + 1 => do
    if isHexDigit (← getCh) then
      step
      let c ← getCh
      whenP (isWhitespace c) step
      escapedLoop i
    else pure ()

/-- `nextEscaped`, `lexer.go:570-578`. -/
def nextEscaped : P Unit := do
  step
  escapedLoop 5

/-- `nextName`, `lexer.go:553-563`. -/
def nameLoop : Nat → P Unit
  | 0 => P.timeout
  | n + 1 => do
    let c ← getCh
    if isName c then
      step
      nameLoop n
    else if startsEscape c (← peek 0) then
      nextEscaped
      nameLoop n
    else pure ()

def nextName : P Unit := do nameLoop (← lexFuel)

/-- `nextNumericToken`, `lexer.go:421-437`. -/
def nextNumericToken : P Unit := do
  let start ← getLastPos
  nextNumber
  let e ← getLastPos
  setNum (← slice start e)
  let c ← getCh
  let p0 ← peek 0
  let p1 ← peek 1
  if startsIdentifier c p0 p1 then
    let dimenStart ← getLastPos
    nextName
    let e ← getLastPos
    setStr (← slice dimenStart e)
    setCur .dimension
  else if c = r!"%" then
    setCur .percentage
    step
  else setCur .number

/-- The whitespace loop after `url(`, `lexer.go:455-457`: the counter `i` runs from `lastPos` to
`len(Content)`, so there are at most `len - lastPos` iterations. -/
def urlWsLoop : Nat → P Unit
  | 0 => pure ()
  | n + 1 => do
    if isWhitespace (← getCh) then
      step
      urlWsLoop n
    else pure ()

/-- The loop over an unquoted url, `lexer.go:466-495`. -/
def urlLoop (urlStart : Nat) : Nat → P Unit
  | 0 => P.timeout
  | n + 1 => do
    let c ← getCh
    if c = r!")" then
      let e ← getLastPos
      setStr (← slice urlStart e)
      step
    else if c = -1 then errorf "unexpected EOF"
    else if c = r!"\"" ∨ c = r!"'" ∨ c = r!"(" then errorf "unexpected token: %c"
    else if c = r!"\\" then
      if startsEscape c (← peek 0) then
        nextEscaped
        urlLoop urlStart n
      else errorf "unexpected token: %c"
    else if isWhitespace c then
      step
      urlLoop urlStart n
    else if isNonPrintable c then errorf "unexpected token: %c"
    else
      step
      urlLoop urlStart n

/-- `nextIdentLikeToken`, `lexer.go:447-507`. -/
def nextIdentLikeToken : P Unit := do
  let start ← getLastPos
  nextName
  let e ← getLastPos
  setStr (← slice start e)
  let str ← getStr
  let c ← getCh
  if isURLString str ∧ c = r!"(" then
    step
    let s ← P.get
    urlWsLoop (s.src.length - s.lex.lastPos)
    let c ← getCh
    if c = r!"'" ∨ c = r!"\"" then setCur .functionStart
    else
      setCur .url
      let urlStart ← getLastPos
      urlLoop urlStart (← lexFuel)
  else if c = r!"(" then
    step
    setCur .functionStart
  else setCur .ident

/-- The loop over a comment body, `lexer.go:275-291`; returns `end`. -/
def commentLoop : Nat → P Nat
  | 0 => P.timeout
  | n + 1 => do
    let c ← getCh
    if c = r!"*" then
      let maybeEnd ← getLastPos
      step
      if (← getCh) = r!"/" then
        step
        pure maybeEnd
      else commentLoop n
    else if c = -1 then errorf "unexpected EOF"
    else
      step
      commentLoop n

/-- The loop over a string body, `lexer.go:305-332`; returns `end`. -/
def stringLoop (mark : Int) : Nat → P Nat
  | 0 => P.timeout
  | n + 1 => do
    let c ← getCh
    if c = mark then
      let e ← getLastPos
      step
      pure e
    else if c = r!"\n" then errorf "unclosed string: unexpected newline"
    else if c = r!"\\" then
      step
      let c ← getCh
      if c = r!"\n" then
        step
        stringLoop mark n
      else if c = -1 then errorf "unexpected EOF"
      else if startsEscape c (← peek 0) then
        nextEscaped
        stringLoop mark n
      else stringLoop mark n
    else if c = -1 then errorf "unexpected EOF"
    else
      step
      stringLoop mark n

/-- `for isWhitespace(l.ch) { l.step() }`, `lexer.go:348-350`. -/
def wsLoop : Nat → P Unit
  | 0 => P.timeout
  | n + 1 => do
    if isWhitespace (← getCh) then
      step
      wsLoop n
    else pure ()

/-- The `for` loop of `Next`, `lexer.go:142-371`. -/
def nextLoop : Nat → P Unit
  | 0 => P.timeout
  | n + 1 => do
    P.modLex fun l => { l with start := l.lastPos }
    let c ← getCh
    let p0 ← peek 0
    let p1 ← peek 1
    let p2 ← peek 2
    if c = -1 then setCur .eof
    else if c = r!";" then
      setCur .semicolon
      step
    else if c = r!":" then
      setCur .colon
      step
    else if c = r!"+" then
      if startsNumber c p0 p1 then nextNumericToken else nextDelimToken
    else if c = r!"-" then
      if startsNumber c p0 p1 then nextNumericToken
      else if p0 = r!"-" ∧ p1 = r!">" then setCur .cdc
      else if startsIdentifier p0 p1 p2 then nextIdentLikeToken
      else nextDelimToken
    else if c = r!"<" then
      if p0 = r!"!" ∧ p1 = r!"-" ∧ p2 = r!"-" then setCur .cdo else nextDelimToken
    else if c = r!"@" then
      if startsIdentifier p0 p1 p2 then
        step
        setCur .at
        let start ← getLastPos
        nextName
        let e ← getLastPos
        setStr (← slice start e)
      else nextDelimToken
    else if c = r!"#" then
      if isName p0 || startsEscape p0 p1 then
        setCur .hash
        step
        let start ← getLastPos
        nextName
        let e ← getLastPos
        setStr (← slice start e)
      else nextDelimToken
    else if c = r!"," then
      setCur .comma
      step
    else if c = r!"(" then
      setCur .lparen
      step
    else if c = r!")" then
      setCur .rparen
      step
    else if c = r!"[" then
      setCur .lbracket
      step
    else if c = r!"]" then
      setCur .rbracket
      step
    else if c = r!"{" then
      setCur .lcurly
      step
    else if c = r!"}" then
      setCur .rcurly
      step
    else if c = r!"." then
      if startsNumber p0 p1 p2 then nextNumericToken else nextDelimToken
    else if c = r!"\\" then
      if startsEscape c p0 then nextIdentLikeToken else errorf "parse error"
    else if c = r!"/" then
      if p0 ≠ r!"*" then nextDelimToken
      else
        step
        step
        let start ← getLastPos
        let e ← commentLoop (← lexFuel)
        setCur .comment
        setStr (← slice start e)
        let s ← P.get
        if s.lex.retainComments then pure () else nextLoop n
    else if c = r!"\"" ∨ c = r!"'" then
      step
      let start ← getLastPos
      let e ← stringLoop c (← lexFuel)
      setCur .string
      setStr (← slice start e)
    else if isWhitespace c then
      let s ← P.get
      if s.lex.retainWS then
        wsLoop (← lexFuel)
        setCur .whitespace
      else
        step
        nextLoop n
    else if isDigit c then nextNumericToken
    else if isNameStart c then nextIdentLikeToken
    else nextDelimToken

/-- `Next`, `lexer.go:142-371`. -/
def next : P Unit := do nextLoop (← lexFuel)

/-- `Expect`, `lexer.go:134-139`. -/
def expect (t : Tok) : P Unit := do
  if (← getCur) ≠ t then errorf "expected %s, but got %s instead"
  else next

/-- The zero `Lexer` of `NewLexer`, `lexer.go:63-65`. -/
def Lex.zero : Lex :=
  { ch := 0, pos := 0, lastPos := 0, start := 0, cur := .illegal, str := [], num := [],
    retainWS := false, retainComments := false }

/-- The state in which `NewLexer` starts: a fresh `Source` with no line table. -/
def St.init (src : Bytes) (id : Nat := 0) : St := { src, lines := [], lex := Lex.zero, id }

/-- `NewLexer`, `lexer.go:62-69`: prime the lexer with one rune and one token. -/
def newLexer : P Unit := do
  step
  next

end Cssc
