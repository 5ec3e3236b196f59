import Verif.Sources

/-!
# VLQ numbers and encodings used by source maps

`internal/printer/sourcemaps.go`, plus the two standard library encoders that `printMapping` calls.
`int32` values are integers with explicit wrap-around (`wrap32`).
-/

namespace Cssc

/-- `base64Forward`, `sourcemaps.go:4`. -/
def base64Forward : Bytes := b!"ABCDEFGHIJKLMNOPQRSTUVWXYZabcdefghijklmnopqrstuvwxyz0123456789+/"

/-- `base64Forward[i]` (the caller keeps `i` below 64). -/
def b64 (i : Nat) : UInt8 := base64Forward.getD i 0

/-- `base64Reverse`, `sourcemaps.go:6-71`: an array of 127 bytes, zero where the literal has no key. -/
def base64Reverse : List UInt8 :=
  List.replicate 43 0 ++ [62, 0, 0, 0, 63, 52, 53, 54, 55, 56, 57, 58, 59, 60, 61] ++
  List.replicate 7 0 ++
  [0, 1, 2, 3, 4, 5, 6, 7, 8, 9, 10, 11, 12, 13, 14, 15, 16, 17, 18, 19, 20, 21, 22, 23, 24, 25] ++
  List.replicate 6 0 ++
  [26, 27, 28, 29, 30, 31, 32, 33, 34, 35, 36, 37, 38, 39, 40, 41, 42, 43, 44, 45, 46, 47, 48, 49, 50, 51] ++
  List.replicate 4 0

/-- The loop of `VLQEncode`, `sourcemaps.go:94-113`.  On `int32`, `in & 31` is `in % 32` and the
arithmetic shift `in >> 5` is `in / 32` (rounding down). -/
def vlqLoop (x : Int) : Bytes :=
  let cur := (x % 32).toNat
  let y := x / 32
  let cur := if y ≠ 0 then cur + 32 else cur
  if y ≤ 0 then [b64 cur] else b64 cur :: vlqLoop y
termination_by x.toNat
decreasing_by omega

/-- `VLQEncode`, `sourcemaps.go:77-116`. -/
def vlqEncode (n : Int) : Bytes :=
  let x := if n < 0 then wrap32 (wrap32 (wrap32 (-n) * 2) + 1) else wrap32 (n * 2)
  if x / 32 = 0 then [b64 (x % 32).toNat] else vlqLoop x

/-- The loop of `VLQDecode`, `sourcemaps.go:127-139`; `none` is a run-time panic: an index beyond the
table or a negative shift count.  Returns `rv` and `read`. -/
def vlqDecodeLoop : Bytes → (rv shift read : Int) → Option (Int × Int)
  | [], rv, _, read => some (rv, read)
  | b :: rest, rv, shift, read =>
    let read := wrap32 (read + 1)
    match base64Reverse[b.toNat]? with
    | none => none
    | some c =>
      let cur : Int := c.toNat
      if shift < 0 then none
      else
        let rv := wrap32 (rv + wrap32 (cur % 32 * 2 ^ shift.toNat))
        let shift := wrap32 (shift + 5)
        if cur / 32 % 2 = 0 then some (rv, read) else vlqDecodeLoop rest rv shift read

/-- `VLQDecode`, `sourcemaps.go:122-146`: the value and the number of bytes read. -/
def vlqDecode (bs : Bytes) : Option (Int × Int) :=
  match vlqDecodeLoop bs 0 0 0 with
  | none => none
  | some (rv, read) =>
    if rv % 2 = 1 then some (wrap32 (-(wrap32 (rv - 1) / 2)), read) else some (rv / 2, read)

/-- `base64.StdEncoding.EncodeToString` (standard library). -/
def base64Std : Bytes → Bytes
  | [] => []
  | [a] =>
    let n := a.toNat * 65536
    [b64 (n / 262144 % 64), b64 (n / 4096 % 64), 61, 61]
  | [a, b] =>
    let n := a.toNat * 65536 + b.toNat * 256
    [b64 (n / 262144 % 64), b64 (n / 4096 % 64), b64 (n / 64 % 64), 61]
  | a :: b :: c :: rest =>
    let n := a.toNat * 65536 + b.toNat * 256 + c.toNat
    b64 (n / 262144 % 64) :: b64 (n / 4096 % 64) :: b64 (n / 64 % 64) :: b64 (n % 64) :: base64Std rest

/-- A lower-case hex digit. -/
def hexDigit (n : Nat) : UInt8 := b!"0123456789abcdef".getD n 0

/-- The body of a JSON string as written by `json.Marshal` (standard library, `encodeState.string` with
HTML escaping, as in Go up to 1.21).  `fuel` is at least the length. -/
def jsonBody : Nat → Bytes → Bytes
  | 0, _ => []
  | _ + 1, [] => []
  | n + 1, b :: t =>
    if b.toNat < 0x80 then
      (if b = 92 then b!"\\\\"
       else if b = 34 then b!"\\\""
       else if b = 10 then b!"\\n"
       else if b = 13 then b!"\\r"
       else if b = 9 then b!"\\t"
       else if b.toNat < 0x20 ∨ b = 60 ∨ b = 62 ∨ b = 38 then
         b!"\\u00" ++ [hexDigit (b.toNat / 16), hexDigit (b.toNat % 16)]
       else [b]) ++ jsonBody n t
    else
      let (cp, size) := decodeRune (b :: t)
      if cp = runeError ∧ size = 1 then b!"\\ufffd" ++ jsonBody n t
      else if cp = 0x2028 ∨ cp = 0x2029 then
        b!"\\u202" ++ [hexDigit (cp.toNat % 16)] ++ jsonBody n ((b :: t).drop size)
      else (b :: t).take size ++ jsonBody n ((b :: t).drop size)

/-- `json.Marshal` of a string. -/
def jsonString (bs : Bytes) : Bytes := b!"\"" ++ jsonBody bs.length bs ++ b!"\""

end Cssc
