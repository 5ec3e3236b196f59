import Verif.Parser
import Verif.Printer
import Verif.Transformer
import Verif.Walk

/-!
# The tests of the repository, run on the model

The expected results of the repository's own tests, evaluated on the model by the kernel.  They are not part of
any proof: they are evidence that the model is the program.  Error texts are not compared.  Arithmetic is done
with thousandths instead of `float64` (the test with `10% / 3` is left out).
-/

namespace Cssc.Conformance

/-- `Print(t, src)` of `printer_test.go`. -/
def prints (src out : Bytes) : Bool :=
  match parse 1000 src with
  | .ok ss _ => decide (print none ss = .ok out)
  | _ => false

/-- `Transform(t, o, src)` of `transformer_test.go`: a report is a panic there. -/
def transforms (fo : FloatOps) (o : TOpts) (src : Bytes) : Option Bytes :=
  match parse 1000 src with
  | .ok ss _ =>
    match transform fo o none 1000 ss with
    | .ok ss s => if s.log.isEmpty then (match print none ss with | .ok out => some out | _ => none) else none
    | _ => none
  | _ => none

/-- The tokens of a text with their literals, `lexer_test.go`; `none` if the lexer panics. -/
def tokens (src : Bytes) : Option (List (Tok × Bytes × Bytes)) :=
  let rec go : Nat → Res Unit → Option (List (Tok × Bytes × Bytes))
    | 0, _ => none
    | n + 1, .ok _ s =>
      if s.lex.cur = .eof then some []
      else
        (go n (next { s with lex := { s.lex with str := [], num := [] } })).map
          ((s.lex.cur, s.lex.str, s.lex.num) :: ·)
    | _, _ => none
  go 100 (newLexer (St.init src 0))

/-- Decimal digits. -/
def digits (n : Nat) : Bytes := (Nat.toDigits 10 n).map fun c => c.toNat.toUInt8

/-- A number as thousandths. -/
def parseMilli (b : Bytes) : Option Int :=
  let (neg, b) := match b with | 45 :: t => (true, t) | 43 :: t => (false, t) | t => (false, t)
  let whole := b.takeWhile (· ≠ 46)
  let frac := (b.dropWhile (· ≠ 46)).drop 1
  if (whole ++ frac).all (fun c => 48 ≤ c && c ≤ 57) && frac.length ≤ 3 then
    let n : Int := ((whole ++ frac ++ List.replicate (3 - frac.length) 48).foldl (fun (n : Nat) (c : UInt8) => n * 10 + (c.toNat - 48)) 0 : Nat)
    some (if neg then -n else n)
  else none

/-- Thousandths as text. -/
def fmtMilli (n : Int) : Bytes :=
  let m := n.natAbs
  let frac := ((digits (1000 + m % 1000)).drop 1).reverse.dropWhile (· = 48) |>.reverse
  (if n < 0 then [45] else []) ++ digits (m / 1000) ++ (if frac.isEmpty then [] else 46 :: frac)

/-- Arithmetic with thousandths. -/
def milli : FloatOps :=
  { F := Int, parse := parseMilli, fmt := fmtMilli, add := (· + ·), sub := (· - ·), mul := fun a b => a * b / 1000
    div := fun a b => a * 1000 / b, isZero := (· == 0), eps := 1, negEps := -1 }

/-! ### `internal/printer/printer_test.go`, `math_test.go` -/

example : prints b!".class {\n\t\tfont-family: \"Helvetica\", sans-serif;\n\t}"
    b!".class{font-family:\"Helvetica\",sans-serif}" = true := by decide +kernel

example : prints b!".class {\n\t\tfont-family: \"Helvetica\", sans-serif;\n\t\twidth: 2rem;\n\t}"
    b!".class{font-family:\"Helvetica\",sans-serif;width:2rem}" = true := by decide +kernel

example : prints b!"div.test #thing, div.test#thing, div .test#thing { }"
    b!"div.test #thing,div.test#thing,div .test#thing{}" = true := by decide +kernel

example : prints b!"@media (200px < width < 600px), (200px < width), (width < 600px) {}"
    b!"@media (200px<width<600px),(200px<width),(width<600px){}" = true := by decide +kernel

example : prints b!"@keyframes x { from { opacity: 0 } to { opacity: 1 } }"
    b!"@keyframes x{from{opacity:0}to{opacity:1}}" = true := by decide +kernel

example : prints b!".class { width: 2rem }"
    b!".class{width:2rem}" = true := by decide +kernel

example : prints b!":nth-child(n + 3) {}"
    b!":nth-child(n+3){}" = true := by decide +kernel

example : prints b!":nth-child(n+ 3) {}"
    b!":nth-child(n+3){}" = true := by decide +kernel

example : prints b!":nth-child(n+3) {}"
    b!":nth-child(n+3){}" = true := by decide +kernel

example : prints b!":nth-child(2n-1) {}"
    b!":nth-child(2n-1){}" = true := by decide +kernel

example : prints b!":nth-child(2n -1) {}"
    b!":nth-child(2n-1){}" = true := by decide +kernel

example : prints b!":nth-child(2n - 1) {}"
    b!":nth-child(2n-1){}" = true := by decide +kernel

example : prints b!":nth-child(2n + 3) {}"
    b!":nth-child(2n+3){}" = true := by decide +kernel

example : prints b!":nth-child(2n +3) {}"
    b!":nth-child(2n+3){}" = true := by decide +kernel

example : prints b!":nth-child(-n + 6) {}"
    b!":nth-child(-n+6){}" = true := by decide +kernel

example : prints b!":nth-child(-2n + 6) {}"
    b!":nth-child(-2n+6){}" = true := by decide +kernel

example : prints b!":nth-child(n) {}"
    b!":nth-child(n){}" = true := by decide +kernel

example : prints b!":nth-child(-n) {}"
    b!":nth-child(-n){}" = true := by decide +kernel

example : prints b!":nth-child(2n+0) {}"
    b!":nth-child(2n){}" = true := by decide +kernel

example : prints b!":nth-child(even) {}"
    b!":nth-child(even){}" = true := by decide +kernel

example : prints b!":nth-child(4n+1) {}"
    b!":nth-child(4n+1){}" = true := by decide +kernel

example : prints b!":nth-child(-1n+6) {}"
    b!":nth-child(-n+6){}" = true := by decide +kernel

example : prints b!":nth-child(-4n+10) {}"
    b!":nth-child(-4n+10){}" = true := by decide +kernel

example : prints b!":nth-child(0n+5) {}"
    b!":nth-child(5){}" = true := by decide +kernel

example : prints b!":nth-child(5) {}"
    b!":nth-child(5){}" = true := by decide +kernel

example : prints b!":nth-child(1n+0) {}"
    b!":nth-child(n){}" = true := by decide +kernel

example : prints b!":nth-child(n+0) {}"
    b!":nth-child(n){}" = true := by decide +kernel

example : prints b!":nth-child(n) {}"
    b!":nth-child(n){}" = true := by decide +kernel

example : prints b!":nth-child(2n+0) {}"
    b!":nth-child(2n){}" = true := by decide +kernel

example : prints b!":nth-child(2n) {}"
    b!":nth-child(2n){}" = true := by decide +kernel

example : prints b!":nth-child(3n-6) {}"
    b!":nth-child(3n-6){}" = true := by decide +kernel

example : prints b!":nth-child(3n + 1) {}"
    b!":nth-child(3n+1){}" = true := by decide +kernel

example : prints b!":nth-child(+3n - 2) {}"
    b!":nth-child(3n-2){}" = true := by decide +kernel

example : prints b!":nth-child(-n+ 6) {}"
    b!":nth-child(-n+6){}" = true := by decide +kernel

example : prints b!":nth-child(+6) {}"
    b!":nth-child(6){}" = true := by decide +kernel

example : prints b!"a { background: url(https://example.com/test.png); }"
    b!"a{background:url(https://example.com/test.png)}" = true := by decide +kernel

example : prints b!"svg { filter: url(#example); }"
    b!"svg{filter:url(#example)}" = true := by decide +kernel

example : prints b!"a { *letter-spacing: 2rem; }"
    b!"a{*letter-spacing:2rem}" = true := by decide +kernel

example : prints b!".class { width: calc(1px + 2px) }"
    b!".class{width:calc(1px+2px)}" = true := by decide +kernel

example : prints b!".class { width: calc(1px + 2px / 2) }"
    b!".class{width:calc(1px+2px/2)}" = true := by decide +kernel

example : prints b!".class { width: calc(22% + 1rem) }"
    b!".class{width:calc(22%+1rem)}" = true := by decide +kernel

example : prints b!".class { width: calc(22% - 5%) }"
    b!".class{width:calc(22%-5%)}" = true := by decide +kernel

/-! ### `internal/transformer/*_test.go` -/

example : transforms milli { TOpts.default with anyLink := true } b!"\n.test:any-link {\n\tcolor: red;\n}" =
    some b!".test:visited,.test:link{color:red}" := by decide +kernel

example : transforms milli { TOpts.default with anyLink := true } b!"\ncomplex .test:any-link:not(.thing) {\n\tcolor: red;\n}" =
    some b!"complex .test:visited:not(.thing),complex .test:link:not(.thing){color:red}" := by decide +kernel

example : transforms milli { TOpts.default with anyLink := true } b!"\na:any-link, section, .Something {\n\tcolor: red;\n}" =
    some b!"a:visited,a:link,section,.Something{color:red}" := by decide +kernel

example : transforms milli TOpts.default b!"\n.test:any-link {\n\tcolor: red;\n}" =
    some b!".test:any-link{color:red}" := by decide +kernel

example : transforms milli { TOpts.default with customMediaQueries := true } b!"\n\t@custom-media --narrow-window (max-width: 30em);\n\n\t@media (--narrow-window) {\n\t\t.a { color: green; }\n\t}\n\n\t@media (--narrow-window) and (script) {\n\t\t.c { color: red; }\n\t}" =
    some b!"@media (max-width:30em){.a{color:green}}@media (max-width:30em) and (script){.c{color:red}}" := by decide +kernel

example : transforms milli TOpts.default b!"\n\t@custom-media --narrow-window (max-width: 30em);\n\n\t@media (--narrow-window) {\n\t\t.a { color: green; }\n\t}\n\n\t@media (--narrow-window) and (script) {\n\t\t.c { color: red; }\n\t}" =
    some b!"@media (--narrow-window){.a{color:green}}@media (--narrow-window) and (script){.c{color:red}}" := by decide +kernel

example : transforms milli { TOpts.default with customProperties := true } b!":root {\n\t--var-width: 1rem 3rem 5rem;\n}\n\n.class {\n\tmargin: 0rem var(--var-width);\n}" =
    some b!".class{margin:0rem 1rem 3rem 5rem}" := by decide +kernel

example : transforms milli { TOpts.default with customProperties := true } b!":root {\n\t\t--font: \"Helvetica\", sans-serif, other;\n}\n\n.class {\n\tfont-family: var(--font);\n}" =
    some b!".class{font-family:\"Helvetica\",sans-serif,other}" := by decide +kernel

example : transforms milli { TOpts.default with customProperties := true } b!".class {\n\tmargin: 0rem var(--var-width, 2rem);\n}" =
    some b!".class{margin:0rem 2rem}" := by decide +kernel

example : transforms milli { TOpts.default with customProperties := true } b!".class {\n\tmargin: 0rem var(--var-width, 2rem 1rem 3rem);\n}" =
    some b!".class{margin:0rem 2rem 1rem 3rem}" := by decide +kernel

example : transforms milli { TOpts.default with customProperties := true } b!".class {\n\t\tfont-family: var(--font, \"Helvetica\", sans-serif);\n\t}" =
    some b!".class{font-family:\"Helvetica\",sans-serif}" := by decide +kernel

example : transforms milli { TOpts.default with calcReduction := true } b!".class { width: calc(1px + 2px) }" =
    some b!".class{width:3px}" := by decide +kernel

example : transforms milli { TOpts.default with calcReduction := true } b!".class { width: calc(1px - 2px) }" =
    some b!".class{width:-1px}" := by decide +kernel

example : transforms milli { TOpts.default with calcReduction := true } b!".class { width: calc(1px + 2rem) }" =
    some b!".class{width:calc(1px+2rem)}" := by decide +kernel

example : transforms milli { TOpts.default with calcReduction := true } b!".class { width: calc(22% - 5%) }" =
    some b!".class{width:17%}" := by decide +kernel

example : transforms milli { TOpts.default with calcReduction := true } b!".class { width: calc(10% + 25%) }" =
    some b!".class{width:35%}" := by decide +kernel

example : transforms milli { TOpts.default with calcReduction := true } b!".class { width: calc(2 * 25%) }" =
    some b!".class{width:50%}" := by decide +kernel

example : transforms milli { TOpts.default with calcReduction := true } b!".class { width: calc(10% / 2) }" =
    some b!".class{width:5%}" := by decide +kernel

example : transforms milli { TOpts.default with calcReduction := true } b!".class { width: calc(20px / 5) }" =
    some b!".class{width:4px}" := by decide +kernel

example : transforms milli { TOpts.default with calcReduction := true } b!".class { width: calc(20 / 1) }" =
    some b!".class{width:20}" := by decide +kernel

example : transforms milli { TOpts.default with calcReduction := true } b!".class { width: calc(1px + 4px / 2) }" =
    some b!".class{width:3px}" := by decide +kernel

example : transforms milli TOpts.default b!".class { width: calc(1px + 2px) }" =
    some b!".class{width:calc(1px+2px)}" := by decide +kernel

example : transforms milli { TOpts.default with calcReduction := true } b!".class { width: calc(2 + 25%) }" = none := by decide +kernel

example : transforms milli { TOpts.default with calcReduction := true } b!".class { width: calc(2% * 25%) }" = none := by decide +kernel

example : transforms milli { TOpts.default with calcReduction := true } b!".class { width: calc(2% / 25%) }" = none := by decide +kernel

example : transforms milli { TOpts.default with calcReduction := true } b!".class { width: calc(2% / 0) }" = none := by decide +kernel

example : transforms milli { TOpts.default with mediaFeatureRanges := true } b!"@media (200px <= width <= 600px), (200px <= width), (width <= 600px) {}" =
    some b!"@media (min-width:200px) and (max-width:600px),(min-width:200px),(max-width:600px){}" := by decide +kernel

example : transforms milli { TOpts.default with mediaFeatureRanges := true } b!"@media (200px >= width >= 600px), (200px >= width), (width >= 600px) {}" =
    some b!"@media (max-width:200px) and (min-width:600px),(max-width:200px),(min-width:600px){}" := by decide +kernel

example : transforms milli { TOpts.default with mediaFeatureRanges := true } b!"@media (25% < width < 75%) {}" =
    some b!"@media (min-width:25.001%) and (max-width:74.999%){}" := by decide +kernel

example : transforms milli { TOpts.default with mediaFeatureRanges := true } b!"@media (200px < width < 600px) {}" =
    some b!"@media (min-width:200.001px) and (max-width:599.999px){}" := by decide +kernel

example : transforms milli { TOpts.default with mediaFeatureRanges := true } b!"@media (width < 600px) {}" =
    some b!"@media (max-width:599.999px){}" := by decide +kernel

example : transforms milli { TOpts.default with mediaFeatureRanges := true } b!"@media (200px < width) {}" =
    some b!"@media (min-width:200.001px){}" := by decide +kernel

example : transforms milli { TOpts.default with mediaFeatureRanges := true } b!"@media (200px > width > 600px) {}" =
    some b!"@media (max-width:199.999px) and (min-width:600.001px){}" := by decide +kernel

example : transforms milli { TOpts.default with mediaFeatureRanges := true } b!"@media (width > 600px) {}" =
    some b!"@media (min-width:600.001px){}" := by decide +kernel

example : transforms milli { TOpts.default with mediaFeatureRanges := true } b!"@media (200px > width) {}" =
    some b!"@media (max-width:199.999px){}" := by decide +kernel

example : transforms milli TOpts.default b!"@media (200px >= width >= 600px), (200px >= width), (width >= 600px) {}" =
    some b!"@media (200px>=width>=600px),(200px>=width),(width>=600px){}" := by decide +kernel

/-- `TestCustomMediaViaImport`. -/
example : (match parse 1000 b!"\n\t@import \"other.css\";\n\n\t@media (--narrow-window) {\n\t\t.a { color: green; }\n\t}\n\n\t@media (--narrow-window) and (script) {\n\t\t.c { color: red; }\n\t}",
      parse 1000 b!"@custom-media --narrow-window (max-width: 30em);" 1 with
    | .ok main _, .ok other _ =>
      match transform milli { TOpts.default with customMediaQueries := true } (main.imports.head?.map fun (i : ImportSpec) => [(i.rule, other)]) 1000 main with
      | .ok ss _ => print none ss
      | _ => .panic
    | _, _ => .panic) =
    .ok b!"@media (max-width:30em){.a{color:green}}@media (max-width:30em) and (script){.c{color:red}}" := by decide +kernel

/-- `TestCustomMedia_Unsupported`. -/
example : (match parse 1000 b!"\n\t@custom-media --narrow-window (max-width: 30em), print;\n\n\t@media (--narrow-window) {\n\t\t.a { color: green; }\n\t}" with
    | .error e lines => ((Source.mk b!"main.css" b!"\n\t@custom-media --narrow-window (max-width: 30em), print;\n\n\t@media (--narrow-window) {\n\t\t.a { color: green; }\n\t}" lines).lineAndCol e.span,
        annotateSourceSpan ⟨b!"main.css", b!"\n\t@custom-media --narrow-window (max-width: 30em), print;\n\n\t@media (--narrow-window) {\n\t\t.a { color: green; }\n\t}", lines⟩ e.span)
    | _ => (none, none)) =
    (some (2, 56), some b!"\t  @custom-media --narrow-window (max-width: 30em), print;\n\t                                                        ~") := by decide +kernel

/-! ### `internal/lexer/lexer_test.go` -/

example : tokens b!"url(http://test.com/image.jpg)" =
    some [(.url, b!"http://test.com/image.jpg", [])] := by decide +kernel

example : tokens b!"url(\"http://test.com/image.jpg\")" =
    some [(.functionStart, b!"url", []), (.string, b!"http://test.com/image.jpg", []), (.rparen, [], [])] := by decide +kernel

example : tokens b!"rgb(255, 254, 253)" =
    some [(.functionStart, b!"rgb", []), (.number, [], b!"255"), (.comma, [], []), (.number, [], b!"254"), (.comma, [], []), (.number, [], b!"253"), (.rparen, [], [])] := by decide +kernel

example : tokens b!"20%" =
    some [(.percentage, [], b!"20")] := by decide +kernel

example : tokens b!"0.15s" =
    some [(.dimension, b!"s", b!"0.15")] := by decide +kernel

example : tokens b!"2rem" =
    some [(.dimension, b!"rem", b!"2")] := by decide +kernel

example : tokens b!"@import \"test.css\"" =
    some [(.at, b!"import", []), (.string, b!"test.css", [])] := by decide +kernel

example : tokens b!".class {\n\twidth: 5px;\n}\n\n/** this is the root\n\tcontainer id */\n#id {\n\tmargin: -2.75rem;\n\tcontent: \"text\";\n}" =
    some [(.delim, b!".", []), (.ident, b!"class", []), (.lcurly, [], []), (.ident, b!"width", []), (.colon, [], []), (.dimension, b!"px", b!"5"), (.semicolon, [], []), (.rcurly, [], []), (.hash, b!"id", []), (.lcurly, [], []), (.ident, b!"margin", []), (.colon, [], []), (.dimension, b!"rem", b!"-2.75"), (.semicolon, [], []), (.ident, b!"content", []), (.colon, [], []), (.string, b!"text", []), (.semicolon, [], []), (.rcurly, [], [])] := by decide +kernel

example : tokens b!"[list]::-webkit-calendar-picker-indicator" =
    some [(.lbracket, [], []), (.ident, b!"list", []), (.rbracket, [], []), (.colon, [], []), (.colon, [], []), (.ident, b!"-webkit-calendar-picker-indicator", [])] := by decide +kernel

example : tokens b!"url(http://test.com/image.jpg" = none := by decide +kernel

example : tokens b!"url(())" = none := by decide +kernel

example : tokens b!".class {\n\tsomething: \"ok\";\n\tbad: \"no good;\n}" = none := by decide +kernel

/-! ### `internal/printer/sourcemaps_test.go` -/

example : [0, 123, 123456, 123456789].map vlqEncode = [b!"A", b!"2H", b!"gkxH", b!"qxmvrH"] := by decide +kernel

example : [b!"A", b!"2H", b!"gkxH", b!"qxmvrH", b!"A2HgkxHqxmvrH"].map vlqDecode =
    [some (0, 1), some (123, 2), some (123456, 4), some (123456789, 6), some (0, 1)] := by decide +kernel

end Cssc.Conformance
