import Verif.Lexer

/-!
# Specification: the text of CSS tokens

The concrete syntax of the tokens that the lexer is expected to recognise, written from the CSS syntax
and independently of the lexer: a token, its text, when it is well formed, and what may follow it
without being absorbed.
-/

namespace Cssc

/-! ### Byte classes -/

/-- ASCII digits. -/
def isAD (b : UInt8) : Bool := 48 ≤ b.toNat && b.toNat ≤ 57

/-- Bytes of names: ASCII letters, digits, `_`, `-` and all bytes from 0x80. -/
def isNameByte (b : UInt8) : Bool :=
  (65 ≤ b.toNat && b.toNat ≤ 90) || (97 ≤ b.toNat && b.toNat ≤ 122) || 0x80 ≤ b.toNat ||
    b.toNat == 95 || isAD b || b.toNat == 45

/-- ASCII letters and `_`. -/
def isLetter (b : UInt8) : Bool :=
  (65 ≤ b.toNat && b.toNat ≤ 90) || (97 ≤ b.toNat && b.toNat ≤ 122) || b.toNat == 95

/-- Space, tab, newline. -/
def isWsByte (b : UInt8) : Bool := b == 32 || b == 9 || b == 10

/-- The bytes that may occur in a plain string body: no quote of the same kind, no backslash, no line
break. -/
def isStringByte (mark b : UInt8) : Bool := b != mark && b != 92 && b != 10 && b != 13

/-- The text between two quotes `mark`: no quote of the same kind, no line break, and backslashes together with the
character behind them, which may be a line break.  (The lexer ends a string at an escaped quote of the same kind, see
C16.) -/
def isStringBody (mark : UInt8) : Bytes → Bool
  | [] => true
  | b :: t =>
    if b = 92 then (match t with
      | c :: u => c != mark && c != 13 && isStringBody mark u
      | [] => false)
    else isStringByte mark b && isStringBody mark t

/-- The bytes that may occur in an unquoted url: no quote, parenthesis, backslash, white space or control
character. -/
def isUrlByte (b : UInt8) : Bool :=
  32 < b.toNat && b.toNat != 127 && !([34, 39, 40, 41, 92].contains b)

/-- The bytes that the lexer takes as part of an unquoted url: also white space, form feeds and backslashes. -/
def isUrlBodyByte (b : UInt8) : Bool := isUrlByte b || isWsByte b || b == 12 || b == 92

/-- No backslash directly in front of a line break. -/
def noEscLf : Bytes → Bool
  | [] => true
  | b :: t => !(b == 92 && t.head? == some 10) && noEscLf t

/-- The text of an unquoted url: it does not begin with white space, and no backslash stands in front of a line
break. -/
def isUrlBody (v : Bytes) : Bool := v.all isUrlBodyByte && noEscLf v && !(v.head?.any isWsByte)

/-- A text of ASCII without escapes and carriage returns. -/
def Clean (w : Bytes) : Prop := ∀ b ∈ w, b.toNat < 0x80 ∧ b ≠ 13 ∧ b ≠ 92

instance (w : Bytes) : Decidable (Clean w) := by unfold Clean; infer_instance

/-- A text without escapes and carriage returns. -/
def NoEsc (w : Bytes) : Prop := ∀ b ∈ w, b ≠ 13 ∧ b ≠ 92

instance (w : Bytes) : Decidable (NoEsc w) := by unfold NoEsc; infer_instance

/-- The rune at the head of a text, `-1` at the end. -/
def headRune (t : Bytes) : Int := if t = [] then -1 else (decodeRune t).1

/-! ### Numbers -/

/-- An optional sign. -/
def IsSign (b : Bytes) : Prop := b = [] ∨ b = [43] ∨ b = [45]

/-- The parts of a number: sign, integer digits, fraction with its point, exponent. -/
structure IsNumeral (sgn ds fr ex : Bytes) : Prop where
  sgnOk : IsSign sgn
  dsOk : ∀ b ∈ ds, isAD b = true
  frOk : fr = [] ∨ ∃ f, fr = 46 :: f ∧ f ≠ [] ∧ ∀ b ∈ f, isAD b = true
  exOk : ex = [] ∨ ∃ e sg f, ex = e :: (sg ++ f) ∧ (e = 101 ∨ e = 69) ∧ IsSign sg ∧ f ≠ [] ∧
    ∀ b ∈ f, isAD b = true
  nonempty : ds ≠ [] ∨ fr ≠ []

/-- A CSS number. -/
def IsNum (n : Bytes) : Prop := ∃ sgn ds fr ex, IsNumeral sgn ds fr ex ∧ n = sgn ++ (ds ++ (fr ++ ex))

/-- A text that does not continue a number. -/
def NumStop (rest : Bytes) : Prop :=
  rest = [] ∨ ∃ b t, rest = b :: t ∧ b.toNat < 0x80 ∧ b ≠ 13 ∧ isAD b = false ∧
    (b = 46 → isDigit (headRune t) = false) ∧
    (b = 101 ∨ b = 69 → ¬ (isDigit (headRune t) = true ∨
      ((headRune t = r!"+" ∨ headRune t = r!"-") ∧ isDigit (headRune (t.drop 1)) = true)))

/-- A text that begins a number without a sign. -/
def StartsUnsigned (rest : Bytes) : Prop :=
  isDigit (headRune rest) = true ∨ headRune rest = r!"." ∧ isDigit (headRune (rest.drop 1)) = true

/-- A text that begins a number. -/
def StartsNum (rest : Bytes) : Prop :=
  StartsUnsigned rest ∨ (headRune rest = r!"+" ∨ headRune rest = r!"-") ∧ StartsUnsigned (rest.drop 1)

instance (rest : Bytes) : Decidable (StartsUnsigned rest) := by unfold StartsUnsigned; infer_instance
instance (rest : Bytes) : Decidable (StartsNum rest) := by unfold StartsNum; infer_instance

/-! ### Words -/

/-- A word that can stand where CSS expects an identifier: name bytes, starting with a letter, `_` or a
non-ASCII character that is not a decimal digit; or `-` and such a character; or `--` and more. -/
def IsIdent (w : Bytes) : Prop :=
  (∀ b ∈ w, isNameByte b = true) ∧
  ((∃ b t, w = b :: t ∧ isLetter b = true) ∨
    (∃ b t, w = b :: t ∧ 0x80 ≤ b.toNat ∧ isDigit (decodeRune w).1 = false) ∨
    (∃ b t, w = 45 :: b :: t ∧ isLetter b = true) ∨
    (∃ b t, w = 45 :: b :: t ∧ 0x80 ≤ b.toNat ∧ isDigit (decodeRune (b :: t)).1 = false) ∨
    (∃ b t, w = 45 :: 45 :: b :: t))

/-- A word after `@` or after a number: name bytes, not just `-`. -/
def IsWord (w : Bytes) : Prop := w ≠ [] ∧ w ≠ [45] ∧ ∀ b ∈ w, isNameByte b = true

/-- `url` in any case. -/
def IsUrlWord (w : Bytes) : Prop := w.map (fun b => b.toNat % 32) = [21, 18, 12] ∧ ∀ b ∈ w, 64 ≤ b.toNat ∧ b.toNat < 128

/-- The text between the quotes of a string without escapes. -/
def IsStringText (v : Bytes) : Prop := (∀ b ∈ v, isStringByte 34 b = true) ∨ ∀ b ∈ v, isStringByte 39 b = true

/-- A text that does not continue a word. -/
def WordStop (rest : Bytes) : Prop :=
  rest = [] ∨ ∃ b t, rest = b :: t ∧ b.toNat < 0x80 ∧ b ≠ 13 ∧ isNameByte b = false ∧ b ≠ 92

/-! ### White space and comments -/

/-- A comment body: it contains neither the end marker nor the end marker with a carriage return inside. -/
structure IsCommentBody (w : Bytes) : Prop where
  close : ¬ [42, 47] <:+: w
  closeCr : ¬ [42, 13, 47] <:+: w

/-- White space and comments: spaces, tabs, line breaks (LF or CR LF) and terminated comments. -/
inductive Gap : Bytes → Prop where
  | nil : Gap []
  | ws {b : UInt8} {w : Bytes} : isWsByte b = true → Gap w → Gap (b :: w)
  | crlf {w : Bytes} : Gap w → Gap (13 :: 10 :: w)
  | comment {body w : Bytes} : IsCommentBody body → Gap w →
      Gap (47 :: 42 :: (body ++ 42 :: 47 :: w))

/-! ### Tokens -/

/-- The punctuation tokens. -/
def punctTok : UInt8 → Option Tok
  | 59 => some .semicolon
  | 58 => some .colon
  | 44 => some .comma
  | 40 => some .lparen
  | 41 => some .rparen
  | 91 => some .lbracket
  | 93 => some .rbracket
  | 123 => some .lcurly
  | 125 => some .rcurly
  | _ => none

/-- ASCII bytes that are a token by themselves whatever follows: `!`, `$`, `%`, `&`, `*`, `=`, `>`, `?`,
`^`, `` ` ``, `|`, `~` and the control characters other than tab, LF and CR. -/
def isLoneDelim (b : UInt8) : Bool :=
  b.toNat < 0x80 && !isNameByte b && !isWsByte b && b != 13 && (punctTok b).isNone &&
    !([34, 35, 39, 43, 45, 46, 47, 60, 64, 92].contains b)

/-- A token, as text. -/
inductive PTok where
  /-- One of `; : , ( ) [ ] { }`. -/
  | punct (b : UInt8)
  | delim (b : UInt8)
  | ident (w : Bytes)
  /-- A name immediately followed by `(`. -/
  | func (w : Bytes)
  | at (w : Bytes)
  | hash (w : Bytes)
  | number (n : Bytes)
  | percentage (n : Bytes)
  | dimension (n u : Bytes)
  | string (mark : UInt8) (body : Bytes)
  | ws (w : Bytes)
  /-- `url(` with an unquoted address and `)`. -/
  | url (w v : Bytes)
deriving DecidableEq, Repr, Inhabited

namespace PTok

/-- The text of a token. -/
def text : PTok → Bytes
  | punct b => [b]
  | delim b => [b]
  | ident w => w
  | func w => w ++ [40]
  | «at» w => 64 :: w
  | hash w => 35 :: w
  | number n => n
  | percentage n => n ++ [37]
  | dimension n u => n ++ u
  | string m body => m :: (body ++ [m])
  | ws w => w
  | url w v => w ++ 40 :: (v ++ [41])

/-- Well-formed tokens. -/
def Wf : PTok → Prop
  | punct b => (punctTok b).isSome = true
  | delim b => isLoneDelim b = true ∨ b = 43 ∨ b = 45 ∨ b = 46 ∨ b = 47 ∨ b = 60 ∨ b = 35 ∨ b = 64
  | ident w => IsIdent w
  | func w => IsIdent w
  | «at» w => IsWord w
  | hash w => w ≠ [] ∧ ∀ b ∈ w, isNameByte b = true
  | number n => IsNum n
  | percentage n => IsNum n
  | dimension n u => IsNum n ∧ IsWord u
  | string m body => (m = 34 ∨ m = 39) ∧ isStringBody m body = true
  | ws w => w ≠ [] ∧ ∀ b ∈ w, isWsByte b = true
  | url w v => IsUrlWord w ∧ isUrlBody v = true

/-- The texts that may follow a token without changing it. -/
def Follow : PTok → Bytes → Prop
  | punct _, _ => True
  | delim b, rest =>
    isLoneDelim b = true ∨
    (b = 43 ∧ ¬ StartsUnsigned rest) ∨
    (b = 45 ∧ (rest = [] ∨ ∃ c t, rest = c :: t ∧ c.toNat < 0x80 ∧ isNameByte c = false ∧ c ≠ 46 ∧ c ≠ 92)) ∨
    (b = 46 ∧ ¬ StartsNum rest) ∨
    (b = 47 ∧ ∀ t, rest ≠ 42 :: t) ∨
    (b = 60 ∧ ∀ t, rest ≠ 33 :: 45 :: 45 :: t) ∨
    ((b = 35 ∨ b = 64) ∧ (rest = [] ∨ ∃ c t, rest = c :: t ∧ c.toNat < 0x80 ∧ isNameByte c = false ∧ c ≠ 92))
  | ident _, rest => WordStop rest ∧ ∀ t, rest ≠ 40 :: t
  | func w, rest => IsUrlWord w → ∃ m t, rest = m :: t ∧ (m = 34 ∨ m = 39)
  | «at» _, rest => WordStop rest
  | hash _, rest => WordStop rest
  | number _, rest => NumStop rest ∧ WordStop rest ∧ ∀ t, rest ≠ 37 :: t
  | percentage _, _ => True
  | dimension _ u, rest => NumStop (u ++ rest) ∧ WordStop rest
  | string _ _, _ => True
  | ws _, rest => rest = [] ∨ ∃ b t, rest = b :: t ∧ isWsByte b = false ∧ b ≠ 13
  | url _ _, _ => True

/-- The kind the lexer should report. -/
def tok : PTok → Tok
  | punct b => (punctTok b).getD .illegal
  | delim _ => .delim
  | ident _ => .ident
  | func _ => .functionStart
  | «at» _ => .at
  | hash _ => .hash
  | number _ => .number
  | percentage _ => .percentage
  | dimension _ _ => .dimension
  | string _ _ => .string
  | ws _ => .whitespace
  | url _ _ => .url

/-- The payload the lexer should report, if the kind has one. -/
def str : PTok → Option Bytes
  | delim b => some [b]
  | ident w | func w | «at» w | hash w => some w
  | dimension _ u => some u
  | string _ body => some body
  | url _ v => some v
  | _ => none

/-- The numeral the lexer should report, if the kind has one. -/
def num : PTok → Option Bytes
  | number n | percentage n | dimension n _ => some n
  | _ => none

end PTok

/-- The syntax of the literals of a token, for literals without escapes, carriage returns and (numbers, units and
delimiters) non-ASCII characters.  The lexer also has a number without any text. -/
def TokClass : Tok → Bytes → Bytes → Prop
  | .ident, str, _ => NoEsc str → IsIdent str
  | .functionStart, str, _ => NoEsc str → IsIdent str
  | .at, str, _ => NoEsc str → IsWord str
  | .hash, str, _ => NoEsc str → str ≠ [] ∧ ∀ b ∈ str, isNameByte b = true
  | .number, _, num => Clean num → num = [] ∨ IsNum num
  | .percentage, _, num => Clean num → IsNum num
  | .dimension, str, num => (Clean num → IsNum num) ∧ (Clean str → IsWord str ∧ ∀ b t, str = b :: t → isAD b = false)
  | .string, str, _ => 13 ∉ str → 92 ∉ str → IsStringText str
  | .url, str, _ => 13 ∉ str → isUrlBody str = true
  | .delim, str, _ => Clean str → ∃ b, str = [b] ∧ (PTok.delim b).Wf
  | _, _, _ => True

end Cssc
