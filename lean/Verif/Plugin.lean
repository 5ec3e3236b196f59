import Verif.Sources

/-!
# The esbuild plugin

`esbuildplugin/plugin.go`.  The compilation is a parameter: the errors that it reports and the files that it
returns.  The options given to `Plugin` only set `Transforms` and `Resolver` (`plugin.go:57-71`), so they are
part of that parameter.
-/

namespace Cssc

/-- An `error` given to the reporter: a `locationError` (`logging.go:33-78`), which the transformer reports and which
has a `Location` method; a `lexer.Error` around a `locationError` (`lexer.go:580-604`), which `Parse` returns and which
has no such method; or any other one, with its text. -/
inductive CErr where
  | located (source : Source) (span : Span) (inner : Bytes)
  | wrapped (source : Source) (span : Span) (inner : Bytes)
  | plain (text : Bytes)
deriving Inhabited

/-- `err.Error()`; `none` is a panic. -/
def CErr.text : CErr → Option Bytes
  | .located source span inner => locationErrorText source span inner
  | .wrapped source span inner => locationErrorText source span inner
  | .plain t => some t

/-- esbuild's `api.Location`. -/
structure MsgLoc where
  file : Bytes
  column : Int
  line : Int
  length : Int
  lineText : Bytes
deriving DecidableEq, Repr

/-- esbuild's `api.Message`. -/
structure Msg where
  text : Bytes
  location : Option MsgLoc
deriving DecidableEq, Repr

/-- The `Location` of a message, `plugin.go:31-43`. -/
def msgLoc (source : Source) (span : Span) : Option MsgLoc := do
  let (_, col) ← source.lineAndCol span
  let (lineStart, lineEnd) ← source.fullLine span
  if lineEnd < lineStart ∨ source.content.length < lineEnd then none
  else some ⟨source.path, col, lineStart, lineEnd - lineStart, sub source.content lineStart lineEnd⟩

/-- The body of the loop of `toEsbuild`, `plugin.go:29-48`: what one error adds to the list.  There is no
`continue` after the first `append`; the type assertion does not look into a `lexer.Error`. -/
def errMessages (e : CErr) : Option (List Msg) := do
  match e with
  | .located source span _ =>
    let l ← msgLoc source span
    let t ← e.text
    let t' ← e.text
    some [⟨t, some l⟩, ⟨t', none⟩]
  | .wrapped .. | .plain _ =>
    let t ← e.text
    some [⟨t, none⟩]

/-- `toEsbuild`, `plugin.go:25-52`. -/
def toEsbuild : List CErr → Option (List Msg)
  | [] => some []
  | e :: es => do
    let a ← errMessages e
    let b ← toEsbuild es
    some (a ++ b)

/-- esbuild's `api.OnLoadResult` (the fields that are set) and the returned error. -/
structure OnLoadRes where
  errors : List Msg
  contents : Option Bytes
  err : Bool
deriving DecidableEq, Repr

/-- The `OnLoad` callback, `plugin.go:80-108`, given what the compilation reported and `result.Files`. -/
def onLoad (errors : List CErr) (files : List (Bytes × Bytes)) (path : Bytes) : Option OnLoadRes :=
  if errors.length > 0 then do
    let ms ← toEsbuild errors
    some ⟨ms, none, false⟩
  else
    match files.lookup path with
    | none => some ⟨[], none, true⟩
    | some f => some ⟨[], some f, false⟩

end Cssc
