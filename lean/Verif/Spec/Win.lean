import Verif.Spec.Cascade
import Verif.Spec.Compile

/-!
# Specification: which declarations win

The cascade of a browser: of the declarations of a property that apply to an element the important ones win, then the more
specific ones, then the last one.  What imported stylesheets say, and which weights are above which, are parameters.
-/

namespace Cssc

/-- The property that is declared. -/
def Offer.prop? {B : Browser} : Offer B → Option Bytes
  | .decl _ p _ _ => some p
  | _ => none

/-- The weights with which a declaration applies. -/
def Offer.With {B : Browser} : Offer B → List B.W → Prop
  | .decl c _ _ _ => c
  | _ => fun _ => False

def Offer.isImportant {B : Browser} : Offer B → Bool
  | .decl _ _ _ i => i
  | _ => false

/-- A declaration that applies. -/
def Offer.Applies {B : Browser} (o : Offer B) : Prop := ∃ w, o.With w

/-- `o` wins over `o'` wherever they stand: it is more important, or as important and applies with a weight above all
those of `o'`. -/
def Stronger {B : Browser} (lt : List B.W → List B.W → Prop) (o o' : Offer B) : Prop :=
  o.prop? = o'.prop? ∧ o.Applies ∧
  ((o.isImportant = true ∧ o'.isImportant = false) ∨ (o.isImportant = o'.isImportant ∧ ∃ w, o.With w ∧ ∀ w', o'.With w' → lt w' w))

/-- `o` wins over `o'` if it stands after it. -/
def Supersedes {B : Browser} (lt : List B.W → List B.W → Prop) (o o' : Offer B) : Prop :=
  o.prop? = o'.prop? ∧ o.Applies ∧ ¬ Stronger lt o' o

/-- A declaration that wins among all that is said about an element. -/
def Wins {B : Browser} (lt : List B.W → List B.W → Prop) (said : List (Offer B)) (o : Offer B) : Prop :=
  ∃ before after, said = before ++ o :: after ∧ o.Applies ∧ (∀ o' ∈ before, ¬ Stronger lt o' o) ∧ ∀ o' ∈ after, ¬ Supersedes lt o' o

/-- Whatever is said before and after, the same declarations win. -/
def SameWins {B : Browser} (lt : List B.W → List B.W → Prop) (x y : List (Offer B)) : Prop :=
  ∀ p q o, Wins lt (p ++ (x ++ q)) o ↔ Wins lt (p ++ (y ++ q)) o

/-- What is said, with what the imported stylesheets say (`imp`) at the places of the imports. -/
def withImports {B : Browser} (imp : AtRule → List (Offer B)) (said : List (Offer B)) : List (Offer B) :=
  said.flatMap fun
    | .other a => if a.name = b!"import" then imp a else [.other a]
    | o => [o]

/-- What is said under a condition. -/
def Offer.under {B : Browser} (c : Prop) : Offer B → Offer B
  | .decl applies p v i => .decl (fun w => c ∧ applies w) p v i
  | .raw applies t => .raw (fun w => c ∧ applies w) t
  | .other a => .other a

/-- The condition of an import, after its path: a list of media queries (without custom ones), or nothing. -/
def ImportHolds (B : Browser) : List AtPrelude → Prop
  | [] => True
  | .mql (some l) :: _ => MediaHold B [] l.queries
  | _ => False

/-- What nodes in the directory `dir` say about an element, with imports to the depth `d`, when `sheet` has the nodes of the
files.  Every file has its own custom media queries. -/
def saidBy (B : Browser) (env : CEnv) (e : B.doc.Elem) (sheet : Bytes → Option (List Node)) : Nat → Bytes → List Node → List (Offer B)
  | 0, _, ns => withImports (fun _ => []) (applied B e ns)
  | d + 1, dir, ns => withImports (fun r => match r.preludes with
      | .str _ v :: rest => ((((env.resolve v dir).bind env.abs).bind fun f =>
          (sheet f).map (saidBy B env e sheet d (dirOf f))).getD []).map (Offer.under (ImportHolds B rest))
      | _ => []) (applied B e ns)

/-- The nodes of the files of a project. -/
def sourceOf (env : CEnv) (f : Bytes) : Option (List Node) :=
  (env.read f).bind fun c => match parse env.fuel c with
    | .ok ss _ => some ss.nodes
    | _ => none

/-- The file `f` that is written is parsed as these nodes, with enough fuel. -/
def ParsedAs (files : List (Bytes × Bytes)) (f : Bytes) (ns : List Node) : Prop :=
  ∃ out k ss lines, lookupMap files f = some out ∧ (∀ n, k ≤ n → parse n out = .ok ss lines) ∧ ns = ss.nodes

open Classical in
/-- The nodes of the files that are written. -/
noncomputable def writtenOf (files : List (Bytes × Bytes)) (f : Bytes) : Option (List Node) :=
  if h : ∃ ns, ParsedAs files f ns then some (choose h) else none

end Cssc
