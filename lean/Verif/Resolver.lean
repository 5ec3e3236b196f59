import Verif.Bytes

/-!
# The module resolver

`resolver/node_resolver.go`, with the parts of `path/filepath` (standard library, Unix) that it calls.

The file system is a fixed function for the duration of a call.  `json.Unmarshal` of `package.json` is a
parameter: the theorems hold for every decoder.  `oops.Wrapf(err, …)` keeps the cause of `err` and is nil
when `err` is nil (as documented by the library).
-/

namespace Cssc

/-! ### `path/filepath` -/

/-- Split at every slash. -/
def splitSlash : Bytes → List Bytes
  | [] => [[]]
  | b :: t =>
    if b = 47 then [] :: splitSlash t
    else match splitSlash t with
      | [] => [[b]]
      | c :: cs => (b :: c) :: cs

/-- `strings.Join(cs, "/")`. -/
def joinSlash : List Bytes → Bytes
  | [] => []
  | [c] => c
  | c :: cs => c ++ 47 :: joinSlash cs

/-- One component in the loop of `filepath.Clean`: nothing for an empty one and `.`, back up for `..`
(kept when there is nothing to back up over and the path is not rooted). -/
def cleanStep (rooted : Bool) (out : List Bytes) (c : Bytes) : List Bytes :=
  if c = [] ∨ c = b!"." then out
  else if c = b!".." then
    match out.getLast? with
    | none => if rooted then out else out ++ [c]
    | some l => if l = b!".." then (if rooted then out else out ++ [c]) else out.dropLast
  else out ++ [c]

/-- `filepath.Clean` (standard library, Unix). -/
def clean (p : Bytes) : Bytes :=
  match p with
  | [] => b!"."
  | b :: _ =>
    if b = 47 then 47 :: joinSlash ((splitSlash p).foldl (cleanStep true) [])
    else match (splitSlash p).foldl (cleanStep false) [] with
      | [] => b!"."
      | cs => joinSlash cs

/-- `filepath.Join` (standard library, Unix): leading empty elements are ignored. -/
def joinPath : List Bytes → Bytes
  | [] => []
  | [] :: es => joinPath es
  | es => clean (joinSlash es)

/-- `path[:i+1]` where `i` is the index of the last slash, or -1. -/
def upToLastSlash (p : Bytes) : Bytes := (p.reverse.dropWhile (· != 47)).reverse

/-- `filepath.Dir` (standard library, Unix). -/
def dirOf (p : Bytes) : Bytes := clean (upToLastSlash p)

/-! ### The file system -/

/-- What `os.Stat` says. -/
inductive Stat where
  | file
  | dir
  | notExist
  | failed
deriving DecidableEq, Repr, Inhabited

/-- A file system, as far as the resolver looks at it: `os.Stat`, `ioutil.ReadFile` (`none` on error) and
the `style` attribute that `json.Unmarshal` finds (`none` on error, empty if missing). -/
structure FS where
  stat : Bytes → Stat
  read : Bytes → Option Bytes
  style : Bytes → Option Bytes

/-- What `resolve` and `Resolve` return: a path and a nil error, an error whose cause is `ErrNotFound`, or
another error. -/
inductive Resolved where
  | path (p : Bytes)
  | notFound
  | failed
deriving DecidableEq, Repr, Inhabited

/-- The common ending of `resolveAsDir`, `node_resolver.go:107-114` and `128-135`: in the case of a directory
`err` is nil, so `oops.Wrapf(err, …)` is nil and the returned path is empty. -/
def statEntry (fs : FS) (p : Bytes) : Resolved :=
  match fs.stat p with
  | .file => .path p
  | .notExist => .notFound
  | .failed => .failed
  | .dir => .path []

/-- `resolveAsDir`, `node_resolver.go:101-136`. -/
def resolveAsDir (fs : FS) (path : Bytes) : Resolved :=
  match fs.read (joinPath [path, b!"package.json"]) with
  | none => statEntry fs (joinPath [path, b!"index.css"])
  | some pkg =>
    match fs.style pkg with
    | none => .failed
    | some style =>
      if style = [] then .notFound
      else statEntry fs (joinPath [path, style])

/-- `resolve`, `node_resolver.go:62-98`. -/
def resolvePath (fs : FS) (absPath : Bytes) : Resolved :=
  match fs.stat absPath with
  | .failed => .failed
  | .notExist =>
    match fs.stat (absPath ++ b!".css") with
    | .notExist => .notFound
    | .failed => .failed
    | .dir => .notFound
    | .file => .path (absPath ++ b!".css")
  | .file => .path absPath
  | .dir => resolveAsDir fs absPath

/-- The loop of `resolveFromNodeModules`, `node_resolver.go:139-152`; `none` when the fuel runs out. -/
def nodeModulesLoop (fs : FS) (module : Bytes) : Nat → Bytes → Option Resolved
  | 0, _ => none
  | n + 1, currentDir =>
    if currentDir ≠ b!"/" then
      match resolvePath fs (joinPath [currentDir, b!"node_modules", module]) with
      | .path p => some (.path p)
      | _ => nodeModulesLoop fs module n (dirOf currentDir)
    else some .notFound

/-- The specs that are resolved against the importing directory, `node_resolver.go:31`. -/
def isRelativeSpec (spec : Bytes) : Bool :=
  hasPrefix spec b!"../" || hasPrefix spec b!"./" || hasPrefix spec b!"/"

/-- `Resolve`, `node_resolver.go:30-54`; `none` when the fuel runs out. -/
def resolve (fs : FS) (baseURL : Bytes) (fuel : Nat) (spec fromDir : Bytes) : Option Resolved :=
  if isRelativeSpec spec then some (resolvePath fs (joinPath [fromDir, spec]))
  else
    let viaModules : Option Resolved :=
      match nodeModulesLoop fs spec fuel fromDir with
      | none => none
      | some (.path p) => some (.path p)
      | some _ => some .notFound
    if baseURL ≠ [] then
      match resolvePath fs (joinPath [baseURL, spec]) with
      | .path p => some (.path p)
      | _ => viaModules
    else viaModules

end Cssc
