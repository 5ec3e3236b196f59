import Verif.Compile

/-!
# Specification: what a path denotes

The place in the tree of directories (without symbolic links) that one gets to by following a path.
-/

namespace Cssc

/-- A place: from the root, or else from where one is, `ups` directories up and then down along `names`. -/
structure Place where
  rooted : Bool
  ups : Nat
  names : List Bytes
deriving DecidableEq, Repr

/-- Follow one component of a path. -/
def Place.move (pl : Place) (c : Bytes) : Place :=
  if c = [] ∨ c = b!"." then pl
  else if c = b!".." then
    if pl.names ≠ [] then { pl with names := pl.names.dropLast }
    else if pl.rooted then pl
    else { pl with ups := pl.ups + 1 }
  else { pl with names := pl.names ++ [c] }

/-- Follow a path from a place. -/
def Place.walk (pl : Place) (p : Bytes) : Place := (p.splitOn 47).foldl Place.move pl

/-- What a path denotes. -/
def placeOf (p : Bytes) : Place := Place.walk ⟨p.head? = some 47, 0, []⟩ p

/-- What a file name denotes in a compilation: relative names start in the working directory. -/
def CEnv.place (env : CEnv) (p : Bytes) : Option Place :=
  if p.head? = some 47 then some (placeOf p) else env.cwd.map fun d => (placeOf d).walk p

end Cssc
