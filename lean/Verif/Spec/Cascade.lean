import Verif.Spec.Transform
import Verif.Spec.Printable

/-!
# Specification: what a stylesheet says about an element

What a browser takes from a stylesheet for an element: the declarations, in the order of the text, each with the condition
under which it applies, namely that the media queries around it hold and a selector of its rule matches the element; the
weights of that selector's parts decide which declaration wins.  Positions do not count, so everything is said of
stylesheets without positions (`Node.bare`).  Which simple selectors an element satisfies, the sizes of the device and
what values mean are parameters.
-/

namespace Cssc

/-- The values of a feature that can be compared, and where the device is among them. -/
structure Axis where
  V : Type
  le : V → V → Prop
  lt : V → V → Prop
  val : Value → V
  here : V

/-- A browser with a document, on a device. -/
structure Browser where
  doc : Doc
  /-- What a simple selector contributes to the specificity. -/
  W : Type
  weigh : SelPart → W
  /-- The media types: `screen`, `print`. -/
  medium : Bytes → Prop
  /-- The features with `min-` and `max-` forms. -/
  axis : Bytes → Axis
  /-- All other features. -/
  plain : Bytes → Value → Prop
  /-- Conditions in parentheses. -/
  group : List MQPart → Prop
  /-- What values mean. -/
  X : Type
  value : Value → X

/-! ### Media queries -/

/-- `a op b`. -/
def Axis.rel (A : Axis) (op : Bytes) (a b : A.V) : Prop :=
  (op = b!"<" ∧ A.lt a b) ∨ (op = b!"<=" ∧ A.le a b) ∨ (op = b!">" ∧ A.lt b a) ∨ (op = b!">=" ∧ A.le b a)

/-- A feature, where custom media queries are just names. -/
def Browser.feature (B : Browser) : MQPart → Prop
  | .plain _ _ name v =>
    if name.take 4 = b!"min-" then (B.axis (name.drop 4)).le ((B.axis (name.drop 4)).val v) (B.axis (name.drop 4)).here
    else if name.take 4 = b!"max-" then (B.axis (name.drop 4)).le (B.axis (name.drop 4)).here ((B.axis (name.drop 4)).val v)
    else B.plain name v
  | .range _ _ name l op r =>
    (l ≠ .nil → (B.axis name).rel op ((B.axis name).val l) (B.axis name).here) ∧
    (r ≠ .nil → (B.axis name).rel op (B.axis name).here ((B.axis name).val r))
  | .inParens _ ps => B.group ps
  | .ident _ _ => False

/-- A condition in parentheses, not a word. -/
def MQPart.isFeature : MQPart → Bool
  | .ident _ _ => false
  | _ => true

/-- Features with the word `w` between them. -/
def chain (w : Bytes) : List MQPart → Bool
  | [] => false
  | [p] => p.isFeature
  | p :: .ident _ v :: ps => p.isFeature && v == w && chain w ps
  | _ :: _ :: _ => false

/-- Nothing, or the word `w` and features with the word `w` between them. -/
def tailOk (w : Bytes) : List MQPart → Bool
  | [] => true
  | .ident _ v :: ps => v == w && chain w ps
  | _ => false

/-- All features hold. -/
def AllHold (F : MQPart → Prop) (ps : List MQPart) : Prop := ∀ p ∈ ps, p.isFeature = true → F p

/-- A media query holds when the features `F` do (Media Queries Level 4; what cannot be understood does not hold). -/
def QueryHolds (B : Browser) (F : MQPart → Prop) : List MQPart → Prop
  | .ident _ w :: ps =>
    if w = b!"not" then
      match ps with
      | .ident _ t :: ps => tailOk b!"and" ps = true ∧ ¬ (B.medium t ∧ AllHold F ps)
      | [p] => ¬ F p
      | _ => False
    else if w = b!"only" then
      match ps with
      | .ident _ t :: ps => tailOk b!"and" ps = true ∧ B.medium t ∧ AllHold F ps
      | _ => False
    else tailOk b!"and" ps = true ∧ B.medium w ∧ AllHold F ps
  | ps => (chain b!"and" ps = true ∧ AllHold F ps) ∨ (chain b!"or" ps = true ∧ ∃ p ∈ ps, p.isFeature = true ∧ F p)

/-- A feature or a custom media query, with the definitions `defs`. -/
def Browser.cond (B : Browser) (defs : List (Bytes × MQ)) (p : MQPart) : Prop :=
  match p.custom? with
  | none => B.feature p
  | some name =>
    match lastDef defs name with
    | none => B.feature p
    | some q => QueryHolds B B.feature q.parts

/-- A list of media queries; the empty one holds. -/
def MediaHold (B : Browser) (defs : List (Bytes × MQ)) (qs : List MQ) : Prop :=
  qs = [] ∨ ∃ q ∈ qs, QueryHolds B (B.cond defs) q.parts

/-! ### Rules -/

/-- What is said about an element: a declaration and the weights with which it applies (not at all if there are none), or
something that is not about this element. -/
inductive Offer (B : Browser) where
  | decl (applies : List B.W → Prop) (prop : Bytes) (vals : List B.X) (important : Bool)
  | raw (applies : List B.W → Prop) (text : Bytes)
  | other (a : AtRule)

/-- The offer of a declaration. -/
def Decl.offer (B : Browser) (applies : List B.W → Prop) : Decl → Offer B
  | .decl _ prop vals imp => .decl applies prop (vals.map B.value) imp
  | .raw _ v => .raw applies v

/-- The weights with which selectors match an element. -/
def Weights (B : Browser) (e : B.doc.Elem) (l : List Sel) (w : List B.W) : Prop :=
  ∃ s ∈ l, SelMatches B.doc s e ∧ s.parts.map B.weigh = w

/-- The offers of a rule under a condition. -/
def QRule.offers (B : Browser) (e : B.doc.Elem) (c : Prop) (r : QRule) : List (Offer B) :=
  match r.prelude, r.block with
  | .sels l, some b => b.decls.map (Decl.offer B fun w => c ∧ Weights B e l.sels w)
  | _, _ => []

/-- The offers of a block under a condition. -/
def Block.offers (B : Browser) (e : B.doc.Elem) (c : Prop) : Block → List (Offer B)
  | .none => []
  | .decls b => b.decls.map (Decl.offer B fun w => c ∧ w = [])
  | .rules _ rs => rs.flatMap (QRule.offers B e c)

/-- The offers of a node, with the custom media queries `defs`. -/
def Node.offers (B : Browser) (defs : List (Bytes × MQ)) (e : B.doc.Elem) : Node → List (Offer B)
  | .rule r => r.offers B e True
  | .at a =>
    if a.name = b!"custom-media" then []
    else if a.name = b!"media" then
      match a.preludes with
      | .mql (some l) :: _ => a.block.offers B e (MediaHold B defs l.queries)
      | _ => []
    else [.other a]

/-- What nodes without positions say about an element. -/
def offersOf (B : Browser) (e : B.doc.Elem) (ns : List Node) : List (Offer B) := ns.flatMap (Node.offers B (mediaDefs ns) e)

/-- What a stylesheet says about an element. -/
def applied (B : Browser) (e : B.doc.Elem) (ns : List Node) : List (Offer B) := offersOf B e (ns.map Node.bare)

/-! ### What is taken for granted of browsers -/

/-- `:any-link` means `:link` or `:visited`, and weighs as much. -/
def Browser.KnowsLinks (B : Browser) : Prop :=
  AnyLinkDoc B.doc ∧ ∀ sp args name, name = b!"link" ∨ name = b!"visited" →
    B.weigh (.pclass sp b!"any-link" args) = B.weigh (.pclass ⟨0, 0⟩ name .nil)

/-- `calc()` means the number that the expression stands for. -/
def Browser.KnowsCalc (B : Browser) (fo : FloatOps) : Prop :=
  ∀ sp args f unit, Denotes fo none (.func sp b!"calc" args) f unit →
    B.value (Value.bare (.func sp b!"calc" args)) = B.value (.dim ⟨0, 0⟩ (fo.fmt f) unit)

/-- No point of this feature is less than 0.001 away from a bound: to be above it is to be at least 0.001 above it. -/
def Axis.Coarse (A : Axis) (fo : FloatOps) : Prop :=
  ∀ num unit f, fo.parse num = some f →
    (A.lt (A.val (.dim ⟨0, 0⟩ num unit)) A.here ↔ A.le (A.val (.dim ⟨0, 0⟩ (fo.fmt (fo.add f fo.eps)) unit)) A.here) ∧
    (A.lt A.here (A.val (.dim ⟨0, 0⟩ num unit)) ↔ A.le A.here (A.val (.dim ⟨0, 0⟩ (fo.fmt (fo.add f fo.negEps)) unit)))

/-! ### What can be lowered -/

/-- A bound that can be moved: a number, or no bound. -/
def Value.Bound (fo : FloatOps) (v : Value) : Prop := v = .nil ∨ ∃ sp num unit f, v = .dim sp num unit ∧ fo.parse num = some f

/-- A range that is an interval: with `<=` or `>=`, or with `<` or `>` and numbers, on a coarse axis. -/
def MQPart.Interval (B : Browser) (fo : FloatOps) : MQPart → Prop
  | .range _ _ name l op r =>
    (l ≠ .nil ∨ r ≠ .nil) ∧
    (op = b!"<=" ∨ op = b!">=" ∨ (op = b!"<" ∨ op = b!">") ∧ l.Bound fo ∧ r.Bound fo ∧ (B.axis name).Coarse fo)
  | _ => True

/-- A part that becomes one part: not a range with two bounds, and not a custom media query with several conditions. -/
def MQPart.Single (defs : List (Bytes × MQ)) (p : MQPart) : Prop :=
  (∀ sp psp name l op r, p = .range sp psp name l op r → l = .nil ∨ r = .nil) ∧
  ∀ name q, p.custom? = some name → lastDef defs name = some q → q.parts.length = 1

/-- The word `or`. -/
def MQPart.isOr : MQPart → Bool
  | .ident _ w => w == b!"or"
  | _ => false

/-- A query in which each part may become several: not `not (…)`, and without `or`. -/
def MQ.Joinable (q : MQ) : Prop :=
  (∀ p ∈ q.parts, p.isOr = false) ∧ ∀ sp p, q.parts = [.ident sp b!"not", p] → p.isFeature = false

/-- A definition of a custom media query: features joined by `and`, no other custom media queries. -/
def MQ.Definition (q : MQ) : Prop := chain b!"and" q.parts = true ∧ ∀ p ∈ q.parts, p.custom? = none

/-- A query that can be lowered with the definitions `defs`, of which `before` precede it. -/
structure MQ.Lowerable (B : Browser) (fo : FloatOps) (before defs : List (Bytes × MQ)) (q : MQ) : Prop where
  interval : ∀ p ∈ q.parts, p.Interval B fo
  known : ∀ p ∈ q.parts, ∀ name, p.custom? = some name → lastDef before name = lastDef defs name
  shape : (∀ p ∈ q.parts, p.Single defs) ∨ q.Joinable

/-- A list of nodes all of which can be lowered. -/
structure Lowerable (B : Browser) (fo : FloatOps) (o : TOpts) (ns : List Node) : Prop where
  /-- Custom media queries are transformed, or there are none. -/
  custom : o.customMediaQueries = true ∨ mediaDefs ns = []
  /-- At most one `:any-link` in each selector. -/
  links : ∀ r l, .rule r ∈ ns → r.prelude = .sels l → ∀ s ∈ l.sels, s.parts.countP SelPart.anyLink ≤ 1
  definitions : ∀ d ∈ mediaDefs ns, d.2.Definition
  queries : ∀ pre a post l rest, ns = pre ++ .at a :: post → a.name = b!"media" → a.preludes = .mql (some l) :: rest →
    ∀ q ∈ l.queries, q.Lowerable B fo (mediaDefs pre) (mediaDefs ns)

end Cssc
