import Verif.Proofs.TransformInline
import Verif.Props.TransformBasic

/-!
# Properties of the transformer: C32 to C38

C32: ranges in media queries.  C33: custom media queries.  C34, C35: custom properties.  C36: `calc()`.
C37: imports.  C38: nothing else changes.
-/

namespace Cssc

/-! ### C37: imports -/

/-- The nodes of the stylesheet with the imports replaced. -/
def Flat (repl : Replacements) (ns flat : List Node) : Prop :=
  match repl with
  | some m => Inlined m ns flat
  | none => flat = doubleImports ns

/-- The output is made of one piece for each node of the inlined stylesheet. -/
theorem transform_pieces {fo : FloatOps} {o : TOpts} {repl : Replacements} {n : Nat} {ss ss' : Stylesheet} {s : TSt}
    (h : transform fo o repl n ss = .ok ss' s) :
    ss'.imports = ss.imports ∧ ∃ flat, Flat repl ss.nodes flat ∧ NodePieces fo o [] flat ss'.nodes := by
  unfold transform at h
  rcases h1 : transformNodes fo o repl n ss.nodes (TSt.init o repl) with ⟨nodes, s1⟩ | _ | _ <;> rw [h1] at h <;> cases h
  refine ⟨rfl, ?_⟩
  cases repl with
  | none =>
    exact ⟨_, rfl, (transformNodes_pieces (After.init o none) (transformNodes_doubled h1)).1⟩
  | some m =>
    obtain ⟨flat, d, h2, _, h3⟩ := transformNodes_inlined h1
    exact ⟨flat, h2, (transformNodes_pieces (After.init o (some m)) h3).1⟩

/-- The number of imports among the nodes. -/
def importCount (ns : List Node) : Nat := ns.countP fun | .at a => a.name == b!"import" | _ => false

theorem pieces_imports {fo : FloatOps} {o : TOpts} {pre ns out : List Node} (h : NodePieces fo o pre ns out) :
    importCount out = importCount ns := by
  induction h with
  | nil => rfl
  | cons hp _ ih =>
    unfold importCount at ih ⊢
    rw [List.countP_append, ih, List.countP_cons]
    cases hp with
    | rule => simp
    | emptyRule => simp
    | customMedia h => simp [h]
    | media => simp
    | other => rw [List.countP_singleton]; omega

/-- **C37**: with a map of replacements, the output is made of one piece for each node of the list of nodes in
which each `@import` that has a replacement is replaced, at its position, by the nodes of the imported stylesheet
(again with the imports replaced); the pieces are in the order of that list; an `@import` without replacement is
kept exactly once, as it was. -/
theorem imports_inlined {fo : FloatOps} {o : TOpts} {m : List (AtId × Stylesheet)} {n : Nat} {ss ss' : Stylesheet} {s : TSt}
    (h : transform fo o (some m) n ss = .ok ss' s) :
    ∃ flat, Inlined m ss.nodes flat ∧ NodePieces fo o [] flat ss'.nodes ∧
      importCount ss'.nodes = importCount flat ∧
      ∀ pre a out, a.name = b!"import" → NodePiece fo o pre (.at a) out → out = [.at a] := by
  obtain ⟨_, flat, h1, h2⟩ := transform_pieces h
  refine ⟨flat, h1, h2, pieces_imports h2, fun pre a out ha hp => ?_⟩
  cases hp with
  | customMedia h => rw [ha] at h; exact absurd h (by decide)
  | media => exact absurd ha (by show ¬ b!"media" = b!"import"; decide)
  | other => rfl

/-- The nodes of the example: an import with a replacement, one without, and a rule. -/
def importExample : Option (Stylesheet × Stylesheet) :=
  match (parse 80 b!"@import \"x\"; @import \"y\"; a{b:c}").sheet?, (parse 80 b!"p{q:r} @import \"z\"; s{t:u}" 1).sheet? with
  | some (s, _), some (t, _) => some (s, t)
  | _, _ => none

/-- What the example gives: the imported rules, the import that the imported stylesheet makes, then the rest. -/
example : (importExample.bind fun (s, t) => s.nodes.head?.bind fun
    | .at a => (transform unaryOps .default (some [(a.id, t)]) 30 s).out?.map fun r => outline r.nodes
    | _ => none) = some [([], 1), (b!"import", 0), ([], 1), (b!"import", 0), ([], 1)] := by decide +kernel

/-! ### Pieces -/

/-- The piece of one node, with the pieces before and after it. -/
theorem NodePieces.split {fo : FloatOps} {o : TOpts} {x : Node} {post : List Node} : ∀ {pre1 pre out : List Node},
    NodePieces fo o pre1 (pre ++ x :: post) out →
    ∃ o1 p o2, out = o1 ++ p ++ o2 ∧ NodePieces fo o pre1 pre o1 ∧ NodePiece fo o (pre1 ++ pre) x p ∧
      NodePieces fo o (pre1 ++ pre ++ [x]) post o2
  | pre1, [], out, h => by
    cases h with
    | cons hp hr =>
      refine ⟨[], _, _, by rw [List.nil_append], .nil, ?_, ?_⟩
      · rwa [List.append_nil]
      · rwa [List.append_nil]
  | pre1, y :: pre, out, h => by
    cases h with
    | cons hp hr =>
      obtain ⟨o1, p, o2, rfl, h1, h2, h3⟩ := NodePieces.split hr
      refine ⟨_ ++ o1, p, o2, by simp only [List.append_assoc], .cons hp h1, ?_, ?_⟩
      · simpa using h2
      · simpa using h3

/-- Where a node of the output comes from. -/
theorem NodePieces.origin {fo : FloatOps} {o : TOpts} {pre1 ns out : List Node} (h : NodePieces fo o pre1 ns out) :
    ∀ y ∈ out, ∃ pre x post p, ns = pre ++ x :: post ∧ NodePiece fo o (pre1 ++ pre) x p ∧ y ∈ p := by
  induction h with
  | nil => simp
  | cons hp _ ih =>
    rename_i pre1 ns o1 o2 x _
    intro y hy
    rw [List.mem_append] at hy
    rcases hy with hy | hy
    · exact ⟨[], x, ns, o1, rfl, by rwa [List.append_nil], hy⟩
    · obtain ⟨pre, x', post, p, rfl, h2, h3⟩ := ih y hy
      exact ⟨x :: pre, x', post, p, rfl, by simpa using h2, h3⟩

theorem Pieces.origin {R : α → List β → Prop} {xs : List α} {out : List β} (h : Pieces R xs out) :
    ∀ y ∈ out, ∃ x ∈ xs, ∃ p, R x p ∧ y ∈ p := by
  induction h with
  | nil => simp
  | cons hp _ ih =>
    intro y hy
    rw [List.mem_append] at hy
    rcases hy with hy | hy
    · exact ⟨_, List.mem_cons_self .., _, hp, hy⟩
    · obtain ⟨x, hx, p, h1, h2⟩ := ih y hy
      exact ⟨x, List.mem_cons_of_mem _ hx, p, h1, h2⟩

theorem Pieces.flatMap {R : α → List β → Prop} {g : α → List β} {xs : List α} {out : List β} (h : Pieces R xs out)
    (hg : ∀ x ∈ xs, ∀ p, R x p → p = g x) : out = xs.flatMap g := by
  induction h with
  | nil => rfl
  | cons hp _ ih =>
    rw [List.flatMap_cons, ← ih fun x hx => hg x (List.mem_cons_of_mem _ hx), hg _ (List.mem_cons_self ..) _ hp]

theorem Pieces.same {R : α → List α → Prop} {xs out : List α} (h : Pieces R xs out) (hg : ∀ x ∈ xs, ∀ p, R x p → p = [x]) :
    out = xs := by
  rw [h.flatMap (g := fun x => [x]) hg, List.flatMap_singleton']

/-! ### C33: custom media queries -/

/-- A part of a media query with a defined custom media query replaced. -/
def substMedia (defs : List (Bytes × MQ)) (p : MQPart) : List MQPart :=
  match p.custom?.bind (lastDef defs) with
  | some q => q.parts
  | none => [p]

theorem mqPiece_exact {fo : FloatOps} {o : TOpts} (ho : o.customMediaQueries = true) (hr : o.mediaFeatureRanges = false)
    {defs : List (Bytes × MQ)} {q : MQ} {out : List MQ} (h : MQPiece fo o defs q out) :
    out = [⟨q.sp, q.parts.flatMap (substMedia defs)⟩] := by
  cases h with
  | mk h =>
    dsimp only
    rw [h.flatMap fun p _ out hp => ?_]
    unfold substMedia
    cases hp with
    | custom _ h1 h2 => rw [h1, Option.bind_some, h2]
    | same h1 _ =>
      rcases hc : p.custom? with _ | name
      · rfl
      · rw [Option.bind_some, h1 ho name hc]
    | range h1 => rw [hr] at h1; cases h1

/-- **C33**: with custom media queries transformed, take any `@media` among the (inlined) nodes: in its place in
the output there is the same rule with each query the same except that every `(--name)` whose name was defined
before (by the last such definition) is replaced by the parts of that definition; other `(--name)` stay.  No
`@custom-media` is left.  (If ranges are transformed too, each part becomes a piece as in `MQPartPiece`.) -/
theorem custom_media {fo : FloatOps} {o : TOpts} (ho : o.customMediaQueries = true) {repl : Replacements} {n : Nat}
    {ss ss' : Stylesheet} {s : TSt} (h : transform fo o repl n ss = .ok ss' s) :
    (∀ a, .at a ∈ ss'.nodes → a.name ≠ b!"custom-media") ∧
    ∃ flat, Flat repl ss.nodes flat ∧ ∀ pre a post, flat = pre ++ .at a :: post → a.name = b!"media" →
      ∃ l rest, a.preludes = .mql (some l) :: rest ∧ ∃ o1 o2 qs,
        ss'.nodes = o1 ++ .at { a with preludes := .mql (some ⟨l.sp, qs⟩) :: rest } :: o2 ∧
        NodePieces fo o [] pre o1 ∧ NodePieces fo o (pre ++ [.at a]) post o2 ∧
        Pieces (MQPiece fo o (mediaDefs pre)) l.queries qs ∧
        (o.mediaFeatureRanges = false →
          qs = l.queries.map fun q => ⟨q.sp, q.parts.flatMap (substMedia (mediaDefs pre))⟩) := by
  obtain ⟨_, flat, h1, h2⟩ := transform_pieces h
  refine ⟨fun a ha => ?_, flat, h1, fun pre a post hf hname => ?_⟩
  · obtain ⟨pre, x, post, p, _, hp, hy⟩ := h2.origin _ ha
    cases hp with
    | rule => simp at hy
    | emptyRule => simp at hy
    | customMedia => simp at hy
    | media =>
      rw [List.mem_singleton] at hy
      cases hy
      show ¬ b!"media" = b!"custom-media"
      decide
    | other h3 h4 =>
      rw [List.mem_singleton] at hy
      cases hy
      exact h3
  · subst hf
    obtain ⟨o1, p, o2, hout, p1, p2, p3⟩ := h2.split
    cases p2 with
    | customMedia h => rw [hname] at h; exact absurd h (by decide)
    | other _ h => exact absurd hname h
    | media hq =>
      refine ⟨_, _, rfl, o1, o2, _, ?_, p1, ?_, hq, fun hr => ?_⟩
      · rw [hout, List.append_assoc]
        rfl
      · simpa using p3
      · rw [hq.flatMap fun q _ out hp => mqPiece_exact ho hr hp]
        rw [List.nil_append, List.map_eq_flatMap]

/-- What is left of the media queries: for each query the properties of its parts. -/
def mediaOutline (ns : List Node) : List (List Bytes) :=
  ns.flatMap fun
    | .at a => match a.preludes with
      | .mql (some l) :: _ => l.queries.map fun q => q.parts.map fun
        | .ident _ v => v
        | .plain _ _ prop _ => prop
        | .range _ _ prop _ op _ => prop ++ op
        | .inParens _ _ => b!"()"
      | _ => []
    | _ => []

/-- Parse, transform, outline of the media queries. -/
def transformMedia (o : TOpts) (src : Bytes) : Option (Option (List (List Bytes))) :=
  (parse 80 src).sheet?.map fun x => (transform unaryOps o (some []) 30 x.1).out?.map fun ss => mediaOutline ss.nodes

example : transformMedia { TOpts.default with customMediaQueries := true }
    b!"@custom-media --x (a:1) and (b); @media (--x) and (--y){} @custom-media --y (c); @media (--y),(--x){}" =
    some (some [[b!"a", b!"and", b!"b", b!"and", b!"--y"], [b!"c"], [b!"a", b!"and", b!"b"]]) := by decide +kernel

/-! ### C32: ranges -/

/-- A scale of feature values: the values that are written denote points on it. -/
structure Scale where
  V : Type
  le : V → V → Prop
  val : Value → V

/-- `a op b`, for the two operators with equality. -/
def Scale.holds (S : Scale) (op : Bytes) (a b : S.V) : Prop :=
  (op = b!"<=" ∧ S.le a b) ∨ (op = b!">=" ∧ S.le b a)

/-- The range `left op feature op right` accepts `x`; a missing side is no restriction. -/
def Scale.inRange (S : Scale) (op : Bytes) (left right : Value) (x : S.V) : Prop :=
  (left ≠ .nil → S.holds op (S.val left) x) ∧ (right ≠ .nil → S.holds op x (S.val right))

/-- A part of a query on the feature `prop` accepts `x`: `min-…` is a lower bound, `max-…` an upper bound. -/
def Scale.accepts (S : Scale) (prop : Bytes) (x : S.V) : MQPart → Prop
  | .plain _ _ name v => (name = b!"min-" ++ prop ∧ S.le (S.val v) x) ∨ (name = b!"max-" ++ prop ∧ S.le x (S.val v))
  | _ => False

/-- A conjunction: parts with `and` between them, all of which accept `x`. -/
inductive Scale.acceptsAll (S : Scale) (prop : Bytes) (x : S.V) : List MQPart → Prop where
  | one {p : MQPart} : S.accepts prop x p → S.acceptsAll prop x [p]
  | and {p : MQPart} {sp : Span} {ps : List MQPart} : S.accepts prop x p → S.acceptsAll prop x ps →
      S.acceptsAll prop x (p :: .ident sp b!"and" :: ps)

theorem accepts_min {S : Scale} {prop : Bytes} {x : S.V} {v : Value} {p : MQPart} (h : IsMin prop v p) :
    S.accepts prop x p ↔ S.le (S.val v) x := by
  rw [show p = _ from h]
  simp [Scale.accepts]

theorem accepts_max {S : Scale} {prop : Bytes} {x : S.V} {v : Value} {p : MQPart} (h : IsMax prop v p) :
    S.accepts prop x p ↔ S.le x (S.val v) := by
  rw [show p = _ from h]
  simp [Scale.accepts]

theorem bound_accepts {fo : FloatOps} {S : Scale} {prop : Bytes} {x : S.V} {v : Value} {op : Bytes} {p : MQPart}
    (hop : op = b!"<=" ∨ op = b!">=") (h : BoundPart fo prop v op p) : S.accepts prop x p ↔ S.holds op (S.val v) x := by
  cases h with
  | le h => rw [accepts_min h]; simp [Scale.holds]
  | ge h => rw [accepts_max h]; simp [Scale.holds]
  | lt => simp at hop
  | gt => simp at hop
  | bad h => rcases hop with rfl | rfl <;> simp at h

theorem holds_flip {S : Scale} {op : Bytes} (hop : op = b!"<=" ∨ op = b!">=") (a b : S.V) :
    S.holds (flipOp op) a b ↔ S.holds op b a := by
  rcases hop with rfl | rfl <;> simp [flipOp, Scale.holds]

theorem acceptsAll_one {S : Scale} {prop : Bytes} {x : S.V} {p : MQPart} :
    S.acceptsAll prop x [p] ↔ S.accepts prop x p :=
  ⟨fun h => by cases h; assumption, .one⟩

theorem acceptsAll_and {S : Scale} {prop : Bytes} {x : S.V} {p q : MQPart} {sp : Span} :
    S.acceptsAll prop x [p, .ident sp b!"and", q] ↔ S.accepts prop x p ∧ S.accepts prop x q := by
  constructor
  · intro h
    cases h with
    | and h k => exact ⟨h, acceptsAll_one.1 k⟩
  · exact fun h => .and h.1 (.one h.2)

/-- **C32** (equivalence): a range with `<=` or `>=` becomes a conjunction of `min-` and `max-` features that
accepts the same values, on every scale. -/
theorem range_equiv {fo : FloatOps} {o : TOpts} (ho : o.mediaFeatureRanges = true) {part : MQPart} {prop op : Bytes}
    {left right : Value} {out : List MQPart} {s s' : TSt} (hop : op = b!"<=" ∨ op = b!">=")
    (hv : left ≠ .nil ∨ right ≠ .nil)
    (h : transformMediaFeatureRange fo o part prop left op right s = .ok out s') (S : Scale) (x : S.V) :
    S.acceptsAll prop x out ↔ S.inRange op left right x := by
  have hop' : flipOp op = b!"<=" ∨ flipOp op = b!">=" := by rcases hop with rfl | rfl <;> decide
  unfold Scale.inRange
  cases range_piece ho h with
  | neither => simp at hv
  | left hl hp => rw [acceptsAll_one, bound_accepts hop hp]; simp [hl]
  | right hr hp => rw [acceptsAll_one, bound_accepts hop' hp, holds_flip hop]; simp [hr]
  | both hl hr hp hq =>
    rw [acceptsAll_and, bound_accepts hop hp, bound_accepts hop' hq, holds_flip hop]
    simp [hl, hr]

/-- **C32** (strict bounds): with `<` and `>`, the lower bounds are raised and the upper bounds lowered by 0.001. -/
theorem range_strict {fo : FloatOps} {o : TOpts} (ho : o.mediaFeatureRanges = true) {part : MQPart} {prop : Bytes}
    {sp sp' : Span} {num num' unit unit' : Bytes} {f g : fo.F} (hf : fo.parse num = some f) (hg : fo.parse num' = some g)
    (s : TSt) :
    transformMediaFeatureRange fo o part prop (.dim sp num unit) b!"<" (.dim sp' num' unit') s =
      .ok [.plain ⟨0, 0⟩ ⟨0, 0⟩ (b!"min-" ++ prop) (.dim ⟨0, 0⟩ (fo.fmt (fo.add f fo.eps)) unit),
        .ident ⟨0, 0⟩ b!"and",
        .plain ⟨0, 0⟩ ⟨0, 0⟩ (b!"max-" ++ prop) (.dim ⟨0, 0⟩ (fo.fmt (fo.add g fo.negEps)) unit')] s ∧
    transformMediaFeatureRange fo o part prop (.dim sp num unit) b!">" (.dim sp' num' unit') s =
      .ok [.plain ⟨0, 0⟩ ⟨0, 0⟩ (b!"max-" ++ prop) (.dim ⟨0, 0⟩ (fo.fmt (fo.add f fo.negEps)) unit),
        .ident ⟨0, 0⟩ b!"and",
        .plain ⟨0, 0⟩ ⟨0, 0⟩ (b!"min-" ++ prop) (.dim ⟨0, 0⟩ (fo.fmt (fo.add g fo.eps)) unit')] s ∧
    transformMediaFeatureRange fo o part prop .nil b!"<" (.dim sp' num' unit') s =
      .ok [.plain ⟨0, 0⟩ ⟨0, 0⟩ (b!"max-" ++ prop) (.dim ⟨0, 0⟩ (fo.fmt (fo.add g fo.negEps)) unit')] s ∧
    transformMediaFeatureRange fo o part prop .nil b!">" (.dim sp' num' unit') s =
      .ok [.plain ⟨0, 0⟩ ⟨0, 0⟩ (b!"min-" ++ prop) (.dim ⟨0, 0⟩ (fo.fmt (fo.add g fo.eps)) unit')] s ∧
    transformMediaFeatureRange fo o part prop (.dim sp num unit) b!"<" .nil s =
      .ok [.plain ⟨0, 0⟩ ⟨0, 0⟩ (b!"min-" ++ prop) (.dim ⟨0, 0⟩ (fo.fmt (fo.add f fo.eps)) unit)] s ∧
    transformMediaFeatureRange fo o part prop (.dim sp num unit) b!">" .nil s =
      .ok [.plain ⟨0, 0⟩ ⟨0, 0⟩ (b!"max-" ++ prop) (.dim ⟨0, 0⟩ (fo.fmt (fo.add f fo.negEps)) unit)] s := by
  have h1 : ∀ d s, addToValue fo (.dim sp num unit) (some d) s = .ok (.dim ⟨0, 0⟩ (fo.fmt (fo.add f d)) unit) s := by
    intro d s
    unfold addToValue
    dsimp only
    rw [hf]
    rfl
  have h2 : ∀ d s, addToValue fo (.dim sp' num' unit') (some d) s =
      .ok (.dim ⟨0, 0⟩ (fo.fmt (fo.add g d)) unit') s := by
    intro d s
    unfold addToValue
    dsimp only
    rw [hg]
    rfl
  have r1 : ∀ dir d prop s, rangePart fo (dir, some d) prop (.dim sp num unit) s =
      .ok (.plain ⟨0, 0⟩ ⟨0, 0⟩ (dir ++ b!"-" ++ prop) (.dim ⟨0, 0⟩ (fo.fmt (fo.add f d)) unit)) s := by
    intro dir d prop s
    unfold rangePart
    rw [tbind_eq_ok (h1 d s)]
    rfl
  have r2 : ∀ dir d prop s, rangePart fo (dir, some d) prop (.dim sp' num' unit') s =
      .ok (.plain ⟨0, 0⟩ ⟨0, 0⟩ (dir ++ b!"-" ++ prop) (.dim ⟨0, 0⟩ (fo.fmt (fo.add g d)) unit')) s := by
    intro dir d prop s
    unfold rangePart
    rw [tbind_eq_ok (h2 d s)]
    rfl
  have single : ∀ {m : T MQPart} {p : MQPart}, m s = .ok p s →
      (do let p ← m; pure [p] : T (List MQPart)) s = .ok [p] s := by
    intro m p h
    rw [tbind_eq_ok h]
    rfl
  have none' : (pure [] : T (List MQPart)) s = .ok [] s := rfl
  refine ⟨?_, ?_, ?_, ?_, ?_, ?_⟩ <;> unfold transformMediaFeatureRange <;> rw [if_neg (by simp [ho])]
  · exact (tbind_eq_ok (single (r1 b!"min" fo.eps prop s))).trans (tbind_eq_ok (single (r2 b!"max" fo.negEps prop s)))
  · exact (tbind_eq_ok (single (r1 b!"max" fo.negEps prop s))).trans (tbind_eq_ok (single (r2 b!"min" fo.eps prop s)))
  · exact (tbind_eq_ok none').trans (tbind_eq_ok (single (r2 b!"max" fo.negEps prop s)))
  · exact (tbind_eq_ok none').trans (tbind_eq_ok (single (r2 b!"min" fo.eps prop s)))
  · exact (tbind_eq_ok (single (r1 b!"min" fo.eps prop s))).trans (tbind_eq_ok none')
  · exact (tbind_eq_ok (single (r1 b!"max" fo.negEps prop s))).trans (tbind_eq_ok none')

theorem rangePiece_clean {fo : FloatOps} {prop op : Bytes} {l r : Value} {out : List MQPart}
    (hop : op ∈ [b!"<", b!"<=", b!">", b!">="]) (h : RangePiece fo prop op l r out) : ∀ p ∈ out, p.isRange = false := by
  have hop' : flipOp op ∈ [b!"<", b!"<=", b!">", b!">="] := by
    simp only [List.mem_cons, List.not_mem_nil, or_false] at hop
    rcases hop with rfl | rfl | rfl | rfl <;> decide
  have hb : ∀ {v op p}, op ∈ [b!"<", b!"<=", b!">", b!">="] → BoundPart fo prop v op p → p.isRange = false := by
    intro v op p hop h
    cases h with
    | le h => rw [show p = _ from h]; rfl
    | ge h => rw [show p = _ from h]; rfl
    | lt _ h => rw [show p = _ from h]; rfl
    | gt _ h => rw [show p = _ from h]; rfl
    | bad h => exact absurd hop h
  cases h with
  | neither => simp
  | left _ hp => simpa using hb hop hp
  | right _ hp => simpa using hb hop' hp
  | both _ _ hp hq =>
    intro x hx
    simp only [List.mem_cons, List.not_mem_nil, or_false] at hx
    rcases hx with rfl | rfl | rfl
    · exact hb hop hp
    · rfl
    · exact hb hop' hq

/-- The operators of all ranges among the parts of the `@media` rules are the four that there are. -/
def RangeOps (ns : List Node) : Prop :=
  ∀ a, .at a ∈ ns → ∀ l rest, a.preludes = .mql (some l) :: rest → ∀ q ∈ l.queries, ∀ sp psp prop left op right,
    .range sp psp prop left op right ∈ q.parts → op ∈ [b!"<", b!"<=", b!">", b!">="]

/-- **C32** (none left): if ranges are transformed, the only ranges left in the queries of an `@media` are those
that come from a custom media query put in its place. -/
theorem ranges_gone {fo : FloatOps} {o : TOpts} (ho : o.mediaFeatureRanges = true) {repl : Replacements} {n : Nat}
    {ss ss' : Stylesheet} {s : TSt} (h : transform fo o repl n ss = .ok ss' s) :
    ∃ flat, Flat repl ss.nodes flat ∧ (RangeOps flat → ∀ a, .at a ∈ ss'.nodes → a.name = b!"media" →
      ∃ l rest, a.preludes = .mql (some l) :: rest ∧ ∀ q ∈ l.queries, ∀ p ∈ q.parts, p.isRange = true →
        o.customMediaQueries = true ∧ ∃ d ∈ mediaDefs flat, p ∈ d.2.parts) := by
  obtain ⟨_, flat, h1, h2⟩ := transform_pieces h
  refine ⟨flat, h1, fun hops a ha hname => ?_⟩
  obtain ⟨pre, x, post, pc, hflat, hp, hy⟩ := h2.origin _ ha
  rw [List.nil_append] at hp
  cases hp with
  | rule => simp at hy
  | emptyRule => simp at hy
  | customMedia => simp at hy
  | other h3 h4 =>
    rw [List.mem_singleton] at hy
    cases hy
    exact absurd hname h4
  | media hq =>
    rename_i src sp lsp qs qs' rest block
    rw [List.mem_singleton] at hy
    cases hy
    refine ⟨_, _, rfl, fun q hq' p hp hr => ?_⟩
    obtain ⟨q0, hq0, qp, hqp, hmem⟩ := hq.origin q hq'
    cases hqp with
    | mk hparts =>
      rename_i qsp parts parts'
      rw [List.mem_singleton] at hmem
      subst hmem
      obtain ⟨p0, hp0, pp, hpp, hpm⟩ := hparts.origin p hp
      cases hpp with
      | custom hc h5 h6 =>
        rename_i name d
        refine ⟨hc, (name, d), ?_, hpm⟩
        unfold lastDef at h6
        rw [Option.map_eq_some_iff] at h6
        obtain ⟨⟨k, d'⟩, hf, rfl⟩ := h6
        have hk := List.find?_some hf
        have hm := List.mem_of_find?_eq_some hf
        dsimp only at hk
        rw [beq_iff_eq] at hk
        subst hk
        rw [List.mem_reverse] at hm
        rw [hflat]
        unfold mediaDefs at hm ⊢
        rw [List.filterMap_append]
        exact List.mem_append_left _ hm
      | same _ h5 =>
        rw [List.mem_singleton] at hpm
        subst hpm
        rw [h5 ho] at hr
        cases hr
      | range _ hrp =>
        have := rangePiece_clean (hops _ (hflat ▸ List.mem_append_right _ (List.mem_cons_self ..)) _ _ rfl _ hq0 _ _ _ _ _ _ hp0) hrp p hpm
        rw [this] at hr
        cases hr

example : transformMedia { TOpts.default with mediaFeatureRanges := true, customMediaQueries := true }
    b!"@custom-media --x (w<1px); @media (11px<=w<=111px) and (--x){} @media (h>1px){}" =
    some (some [[b!"min-w", b!"and", b!"max-w", b!"and", b!"w<"], [b!"min-h"]]) := by decide +kernel

/-! ### C34, C35: custom properties -/

/-- **C34, partial**: which custom properties are taken.  At its place in the (inlined) stylesheet, a rule keeps
all its declarations if it is not one that the transformer takes from (`QRule.takes`) or if custom properties are
not transformed; otherwise it loses its custom properties and keeps the rest.  Missing from the full statement:
that the rules the transformer takes from are those with selector `:root` (next theorem). -/
theorem custom_property_rules_partial {fo : FloatOps} {o : TOpts} {repl : Replacements} {n : Nat} {ss ss' : Stylesheet}
    {s : TSt} (h : transform fo o repl n ss = .ok ss' s) :
    ∃ flat, Flat repl ss.nodes flat ∧ ∀ pre r post, flat = pre ++ .rule r :: post →
      ∃ b o1 p o2 kept, r.block = some b ∧ ss'.nodes = o1 ++ p ++ o2 ∧ NodePieces fo o [] pre o1 ∧
        NodePieces fo o (pre ++ [.rule r]) post o2 ∧ RuleKept o r b kept ∧ (kept = [] → p = []) ∧
        (kept ≠ [] → ∃ r' b' defs, p = [.rule r'] ∧ r'.sp = r.sp ∧ r'.block = some b' ∧ b'.sp = b.sp ∧
          VarDefs (pre ++ [.rule r]) defs ∧ Pieces (DeclPiece fo o defs) kept b'.decls) := by
  obtain ⟨_, flat, h1, h2⟩ := transform_pieces h
  refine ⟨flat, h1, fun pre r post hf => ?_⟩
  subst hf
  obtain ⟨o1, p, o2, hout, p1, p2, p3⟩ := h2.split
  rw [List.nil_append] at p2 p3
  cases p2 with
  | emptyRule hb hk => exact ⟨_, o1, _, o2, [], hb, hout, p1, p3, hk, fun _ => rfl, fun h => absurd rfl h⟩
  | rule hv hk hd hs hne =>
    exact ⟨_, o1, _, o2, _, rfl, hout, p1, p3, hk, fun h => absurd h hne, fun _ =>
      ⟨_, _, _, rfl, rfl, rfl, rfl, hv, hd⟩⟩

/-- The declarations (property and number of values) of the rules. -/
def declOutline (ns : List Node) : List (List (Bytes × Nat)) :=
  ns.map fun
    | .rule r => match r.block with
      | some b => b.decls.map fun
        | .decl _ prop vals _ => (prop, vals.length)
        | .raw _ v => (v, 0)
      | none => []
    | .at _ => []

/-- Parse, transform, outline of the declarations. -/
def transformDecls (o : TOpts) (src : Bytes) : Option (Option (List (List (Bytes × Nat)))) :=
  (parse 80 src).sheet?.map fun x => (transform unaryOps o (some []) 30 x.1).out?.map fun ss => declOutline ss.nodes

/-- **C34, refuted as stated**: the definition under the selector `:root` is not taken, and the one under
`:root .a` is. -/
theorem custom_property_rules_refuted :
    transformDecls { TOpts.default with customProperties := true } b!":root{--x:1 1} a{b:var(--x)}" =
      some (some [[(b!"--x", 2)], [(b!"b", 1)]]) ∧
    transformDecls { TOpts.default with customProperties := true } b!":root .a{--x:1 1} a{b:var(--x)}" =
      some (some [[(b!"b", 2)]]) := ⟨by decide +kernel, by decide +kernel⟩

/-- What `var()` with these arguments stands for: the last definition, or the fallback. -/
def varResult (defs : List (Bytes × List Value)) : List Value → Option (List Value)
  | .ident _ x :: rest =>
    match lastDef defs x with
    | some vals => some vals
    | none => if 2 ≤ rest.length then some (rest.drop 1) else none
  | _ => none

/-- A value with `var()` replaced. -/
def substVal (defs : List (Bytes × List Value)) : Value → List Value
  | .func sp name args => if name = b!"var" then (varResult defs args).getD [.func sp name args] else [.func sp name args]
  | v => [v]

/-- The first argument is an identifier. -/
def hasName : List Value → Bool
  | .ident _ _ :: _ => true
  | _ => false

/-- The report about a value: a warning for a `var()` that is neither defined nor has a fallback, an error for one
without name. -/
def varReport (defs : List (Bytes × List Value)) : Value → List (Bool × Option Span)
  | .func sp name args =>
    if name = b!"var" then
      if hasName args then if (varResult defs args).isNone then [(true, some sp)] else [] else [(false, some sp)]
    else []
  | _ => []

theorem valuePiece_exact {fo : FloatOps} {o : TOpts} (ho : o.customProperties = true) {defs : List (Bytes × List Value)}
    {v : Value} {out : List Value} (hc : ∀ sp args, v ≠ .func sp b!"calc" args) (h : ValuePiece fo o defs v out) :
    out = substVal defs v := by
  cases h with
  | other h1 h2 =>
    cases v with
    | func sp name args =>
      rw [substVal, if_neg]
      rintro rfl
      exact h1 _ _ rfl
    | _ => rfl
  | varOff h => rw [ho] at h; cases h
  | varDefined _ h => simp [substVal, varResult, h]
  | varFallback _ h => simp [substVal, varResult, h]
  | varUndefined _ h hl =>
    have : ¬ 2 ≤ List.length _ := Nat.not_le.2 (Nat.lt_succ_of_le hl)
    simp [substVal, varResult, h, this]
  | varBad h =>
    rename_i sp args
    rw [substVal, if_pos rfl]
    rcases args with _ | ⟨a, args⟩
    · rfl
    · cases a with
      | ident isp x => exact absurd rfl (h isp x args)
      | _ => rfl
  | calcKept => exact absurd rfl (hc _ _)
  | calcReduced => exact absurd rfl (hc _ _)

/-- **C35, partial** (values): with custom properties transformed, each value becomes: the last definition, for a
`var()` of a defined name; the fallback, for one of an undefined name with a fallback; otherwise itself (a
`calc()` may be reduced, see C36).  If `calc()` is not reduced, the reports are exactly: a warning at each
undefined `var()` without fallback, and an error at each `var()` without name.  Missing from the full statement:
rules inside at-rules are not transformed (next theorem). -/
theorem var_replaced_partial {fo : FloatOps} {o : TOpts} (ho : o.customProperties = true) {n : Nat} {vs out : List Value}
    {s s' : TSt} {defs : List (Bytes × List Value)} (hs : s.vars = some defs.reverse)
    (h : transformValues fo o n vs s = .ok out s') :
    (∃ pieces, Pieces (fun v p => (∀ sp args, v ≠ .func sp b!"calc" args) → p = substVal defs v) vs pieces ∧
      out = pieces) ∧
    ((o.calcReduction = false ∨ ∀ v ∈ vs, ∀ sp args, v ≠ .func sp b!"calc" args) → out = vs.flatMap (substVal defs) ∧
      s'.log.map (fun r => (r.warning, r.span)) =
        s.log.map (fun r => (r.warning, r.span)) ++ vs.flatMap (varReport defs)) := by
  have hs' : s.vars = (knownVars o defs).map List.reverse := by
    unfold knownVars
    rw [if_pos ho, hs]
    rfl
  have hp := mapConcat_pieces (f := transformValue fo o n) (R := ValuePiece fo o defs)
    (I := fun s => s.vars = (knownVars o defs).map List.reverse) hs' (fun x _ s s' out hs h =>
      ⟨transformValue_piece hs h, ((LogOnly.transformValue fo o n x).ok h).vars.trans hs⟩) h
  refine ⟨⟨out, ?_, rfl⟩, fun hcalc => ?_⟩
  · have := hp.1
    clear hp h
    induction this with
    | nil => exact .nil
    | cons h1 _ ih => exact .cons (fun hc => valuePiece_exact ho hc h1) ih
  · -- one value
    have one : ∀ v ∈ vs, ∀ {s s' out}, s.vars = some defs.reverse → transformValue fo o n v s = .ok out s' →
        out = substVal defs v ∧ s'.vars = some defs.reverse ∧
        s'.log.map (fun r => (r.warning, r.span)) =
          s.log.map (fun r => (r.warning, r.span)) ++ varReport defs v := by
      intro v hv s s' out hs h
      refine ⟨?_, ((LogOnly.transformValue fo o n v).ok h).vars.trans hs, ?_⟩
      all_goals
        cases n with
        | zero => cases h
        | succ n =>
          cases v with
          | func sp name args =>
            rw [transformValue] at h
            obtain ⟨cur, s1, h1, h⟩ := tbind_ok h
            have hred : out = cur ∧ s1 = s' := by
              unfold reduceCalc at h
              split at h
              · obtain ⟨rfl, rfl⟩ := tpure_ok h
                exact ⟨rfl, rfl⟩
              · rename_i hname
                rcases hcalc with hcalc | hcalc
                · rw [if_pos (by simp [hcalc])] at h
                  obtain ⟨rfl, rfl⟩ := tpure_ok h
                  exact ⟨rfl, rfl⟩
                · simp only [ne_eq, Decidable.not_not] at hname
                  subst hname
                  exact absurd rfl (hcalc _ hv _ _)
            obtain ⟨rfl, rfl⟩ := hred
            unfold substVar at h1
            by_cases hname : name = b!"var"
            · subst hname
              rw [if_neg (by simp), tbind_eq_ok (show T.get s = .ok s s from rfl), hs] at h1
              dsimp only at h1
              rcases args with _ | ⟨a, rest⟩
              · obtain ⟨_, s2, h2, h1⟩ := tbind_ok h1
                obtain ⟨rfl, rfl⟩ := tpure_ok h1
                cases h2
                simp [substVal, varReport, varResult, hasName]
              · by_cases ha : ∃ isp x, a = .ident isp x
                · obtain ⟨isp, x, rfl⟩ := ha
                  dsimp only at h1
                  rw [← lastDef_eq] at h1
                  rcases hl : lastDef defs x with _ | vals <;> rw [hl] at h1 <;> dsimp only at h1
                  · rcases rest with _ | ⟨_, _ | ⟨_, _⟩⟩
                    · obtain ⟨_, s2, h2, h1⟩ := tbind_ok h1
                      obtain ⟨rfl, rfl⟩ := tpure_ok h1
                      cases h2
                      simp [substVal, varReport, varResult, hasName, hl]
                    · obtain ⟨_, s2, h2, h1⟩ := tbind_ok h1
                      obtain ⟨rfl, rfl⟩ := tpure_ok h1
                      cases h2
                      simp [substVal, varReport, varResult, hasName, hl]
                    · obtain ⟨rfl, rfl⟩ := tpure_ok h1
                      simp [substVal, varReport, varResult, hasName, hl]
                  · obtain ⟨rfl, rfl⟩ := tpure_ok h1
                    simp [substVal, varReport, varResult, hasName, hl]
                · cases a with
                  | ident isp x => exact absurd ⟨isp, x, rfl⟩ ha
                  | _ =>
                    obtain ⟨_, s2, h2, h1⟩ := tbind_ok h1
                    obtain ⟨rfl, rfl⟩ := tpure_ok h1
                    cases h2
                    simp [substVal, varReport, varResult, hasName]
            · rw [if_pos hname] at h1
              obtain ⟨rfl, rfl⟩ := tpure_ok h1
              simp [substVal, varReport, hname]
          | _ =>
            obtain ⟨rfl, rfl⟩ := tpure_ok h
            simp [substVal, varReport, varResult, hasName]
    clear hp hs' hcalc
    unfold transformValues at h
    induction vs generalizing s s' out with
    | nil =>
      obtain ⟨rfl, rfl⟩ := tpure_ok h
      simp
    | cons v vs ih =>
      obtain ⟨o1, s1, o2, h1, h2, rfl⟩ := mapConcat_cons_ok h
      obtain ⟨e1, e2, e3⟩ := one v (List.mem_cons_self ..) hs h1
      obtain ⟨k1, k2⟩ := ih e2 h2 fun w hw => one w (List.mem_cons_of_mem _ hw)
      rw [List.flatMap_cons, List.flatMap_cons, e1, k1, k2, e3, List.append_assoc]
      exact ⟨rfl, rfl⟩

/-- **C35, refuted as stated**: a declaration inside `@media` keeps its `var()`. -/
theorem var_replaced_refuted :
    ((parse 80 b!":root .a{--x:1 1} @media a{b{c:var(--x)}}").sheet?.map fun x =>
      (transform unaryOps { TOpts.default with customProperties := true } (some []) 30 x.1).out?.map fun ss =>
        ss.items.any fun | .value (.func _ name _) => name == b!"var" | _ => false) = some (some true) := by
  decide +kernel

example : transformDecls { TOpts.default with customProperties := true }
    b!":root .a{--x:1 1;--y:2} :root .b{--x:3 3 3;k:var(--x)} c{p:0 var(--x) var(--y) var(--z,4 4) var(--z)}" =
    some (some [[(b!"k", 3)], [(b!"p", 8)]]) := by decide +kernel

/-! ### C36: `calc()` -/

/-- **C36** (soundness): a `calc()` stays as it was written or becomes a single dimension: the value and the unit
of the expression, as CSS defines them (`Denotes`).  In particular an expression without value (mixed units, a
product of units, a quotient by a unit or by zero) stays. -/
theorem calc_sound {fo : FloatOps} (rt : RoundTrip fo) {o : TOpts} {n : Nat} {sp : Span} {args out : List Value} {s s' : TSt}
    {defs : List (Bytes × List Value)} (hs : s.vars = if o.customProperties then some defs.reverse else none)
    (h : transformValue fo o n (.func sp b!"calc" args) s = .ok out s') :
    out = [.func sp b!"calc" args] ∨
      o.calcReduction = true ∧ ∃ f u, out = [.dim ⟨0, 0⟩ (fo.fmt f) u] ∧
        Denotes fo (if o.customProperties then some defs else none) (.func sp b!"calc" args) f u := by
  have hs' : s.vars = (knownVars o defs).map List.reverse := by
    unfold knownVars
    rw [hs]
    split <;> rfl
  cases transformValue_piece hs' h with
  | other _ h2 => exact absurd rfl (h2 _ _)
  | calcKept => exact .inl rfl
  | calcReduced ho hd =>
    obtain ⟨f, rfl, hd'⟩ := hd rt
    exact .inr ⟨ho, f, _, rfl, hd'⟩

/-- Arithmetic on dimensions only. -/
inductive Arith : Value → Prop where
  | dim {sp : Span} {num unit : Bytes} : Arith (.dim sp num unit)
  | math {sp : Span} {op : Bytes} {l r : Value} : Arith l → Arith r → Arith (.math sp op l r)

theorem mathResult_eq {fo : FloatOps} {l : Value} {a b op u : Bytes} {f : fo.F} {s : TSt} (h : doMath fo a b op = some f) :
    mathResult fo l a b op u s = .ok (.dim ⟨0, 0⟩ (fo.fmt f) u) s := by
  unfold mathResult
  rw [h]
  rfl

/-- An operator on two dimensions that have a value. -/
theorem applyOp_complete {fo : FloatOps} (hc : ∀ a b, fo.mul a b = fo.mul b a)
    {D : Option (List (Bytes × List Value))} {op : Bytes} {sp lsp rsp : Span}
    {ln lu rn ru : Bytes} {f : fo.F} {u : Bytes} (h : Denotes fo D (.math sp op (.dim lsp ln lu) (.dim rsp rn ru)) f u)
    (s : TSt) : applyOp fo op (.dim lsp ln lu) (.dim rsp rn ru) s = .ok (.dim ⟨0, 0⟩ (fo.fmt f) u) s := by
  have dm : ∀ {x : fo.F} {a b op : Bytes} {p q : fo.F}, fo.parse a = some p → fo.parse b = some q →
      (if op = b!"+" then some (fo.add p q) else if op = b!"-" then some (fo.sub p q)
        else if op = b!"*" then some (fo.mul p q)
        else if op = b!"/" then if fo.isZero q then none else some (fo.div p q) else none) = some x →
      doMath fo a b op = some x := by
    intro x a b op p q hp hq hx
    unfold doMath
    rw [hp, hq]
    exact hx
  cases h with
  | add h k =>
    cases h with
    | dim h =>
      cases k with
      | dim k =>
        unfold applyOp
        rw [if_pos (.inl rfl)]
        dsimp only
        rw [if_neg (by simp)]
        exact mathResult_eq (dm h k rfl)
  | sub h k =>
    cases h with
    | dim h =>
      cases k with
      | dim k =>
        unfold applyOp
        rw [if_pos (.inr rfl)]
        dsimp only
        rw [if_neg (by simp)]
        exact mathResult_eq (dm h k rfl)
  | mulNum h k =>
    cases h with
    | dim h =>
      cases k with
      | dim k =>
        by_cases hu : lu = []
        · subst hu
          unfold applyOp
          rw [if_neg (by decide), if_pos rfl]
          dsimp only
          rw [if_neg (by simp), if_pos rfl, hc]
          exact mathResult_eq (dm k h rfl)
        · unfold applyOp
          rw [if_neg (by decide), if_pos rfl]
          dsimp only
          rw [if_neg (by simp), if_neg hu]
          exact mathResult_eq (dm h k rfl)
  | numMul h k =>
    cases h with
    | dim h =>
      cases k with
      | dim k =>
        unfold applyOp
        rw [if_neg (by decide), if_pos rfl]
        dsimp only
        rw [if_neg (by simp), if_pos rfl]
        exact mathResult_eq (dm k h rfl)
  | div h k z =>
    cases h with
    | dim h =>
      cases k with
      | dim k =>
        unfold applyOp
        rw [if_neg (by decide), if_neg (by decide), if_pos rfl]
        dsimp only
        refine mathResult_eq (dm h k ?_)
        simp [z]

theorem evalOperand_complete {fo : FloatOps} (rt : RoundTrip fo) (hc : ∀ a b, fo.mul a b = fo.mul b a)
    {D : Option (List (Bytes × List Value))} {v : Value}
    (ha : Arith v) : ∀ {f : fo.F} {u : Bytes}, Denotes fo D v f u → ∀ s, ∃ sp num, fo.parse num = some f ∧
      evalOperand fo v s = .ok (.dim sp num u) s := by
  induction ha with
  | dim =>
    intro f u hd s
    cases hd with
    | dim h => exact ⟨_, _, h, rfl⟩
  | math hl hr ihl ihr =>
    rename_i sp op l r
    intro f u hd s
    have ops : ∃ fl ul fr ur, Denotes fo D l fl ul ∧ Denotes fo D r fr ur ∧
        ∀ lsp ln rsp rn, fo.parse ln = some fl → fo.parse rn = some fr →
          Denotes fo D (.math sp op (.dim lsp ln ul) (.dim rsp rn ur)) f u := by
      cases hd with
      | add h k => exact ⟨_, _, _, _, h, k, fun _ _ _ _ h k => .add (.dim h) (.dim k)⟩
      | sub h k => exact ⟨_, _, _, _, h, k, fun _ _ _ _ h k => .sub (.dim h) (.dim k)⟩
      | mulNum h k => exact ⟨_, _, _, _, h, k, fun _ _ _ _ h k => .mulNum (.dim h) (.dim k)⟩
      | numMul h k => exact ⟨_, _, _, _, h, k, fun _ _ _ _ h k => .numMul (.dim h) (.dim k)⟩
      | div h k z => exact ⟨_, _, _, _, h, k, fun _ _ _ _ h k => .div (.dim h) (.dim k) z⟩
    obtain ⟨fl, ul, fr, ur, dl, dr, hop⟩ := ops
    obtain ⟨lsp, ln, pl, el⟩ := ihl dl s
    obtain ⟨rsp, rn, pr, er⟩ := ihr dr s
    refine ⟨⟨0, 0⟩, fo.fmt f, rt f, ?_⟩
    rw [evalOperand, tbind_eq_ok el, tbind_eq_ok er, tbind_eq_ok (applyOp_complete hc (hop _ _ _ _ pl pr) s)]
    rfl

/-- A value that stands for `v`: `v`, or a `var()` that is replaced by it. -/
def Stands (s : TSt) (l v : Value) : Prop := l = v ∨ ∃ defs, s.vars = some defs.reverse ∧ substVal defs l = [v]

theorem Arith.not_func {v : Value} (h : Arith v) {sp : Span} {name : Bytes} {args : List Value} : v ≠ .func sp name args := by
  cases h <;> simp

theorem transformValues_arith {fo : FloatOps} {o : TOpts} {l v : Value} {s : TSt} (ha : Arith v) (h : Stands s l v) (n : Nat) :
    transformValues fo o (n + 1) [l] s = .ok [v] s := by
  have key : transformValue fo o (n + 1) l s = .ok [v] s := by
    rcases h with rfl | ⟨defs, hs, hv⟩
    · cases ha <;> rfl
    · cases l with
      | func sp name args =>
        rw [substVal] at hv
        by_cases hn : name = b!"var"
        · subst hn
          rw [if_pos rfl] at hv
          rw [transformValue]
          have h1 : substVar (.func sp b!"var" args) b!"var" args s = .ok [v] s := by
            unfold substVar
            rw [if_neg (by simp), tbind_eq_ok (show T.get s = .ok s s from rfl), hs]
            dsimp only
            rcases args with _ | ⟨a, rest⟩
            · simp only [varResult, Option.getD_none, List.cons.injEq, and_true] at hv
              exact absurd hv.symm ha.not_func
            · cases a with
              | ident isp x =>
                dsimp only
                rw [← lastDef_eq]
                rw [varResult] at hv
                rcases hl : lastDef defs x with _ | vals <;> rw [hl] at hv <;> dsimp only at hv ⊢
                · rcases rest with _ | ⟨_, _ | ⟨w, ws⟩⟩
                  · rw [if_neg (by simp)] at hv
                    simp only [Option.getD_none, List.cons.injEq, and_true] at hv
                    exact absurd hv.symm ha.not_func
                  · rw [if_neg (by simp)] at hv
                    simp only [Option.getD_none,
                      List.cons.injEq, and_true] at hv
                    exact absurd hv.symm ha.not_func
                  · rw [if_pos (by simp)] at hv
                    rw [← hv]
                    rfl
                · rw [← hv]
                  rfl
              | _ =>
                simp only [varResult, Option.getD_none, List.cons.injEq, and_true] at hv
                exact absurd hv.symm ha.not_func
          rw [tbind_eq_ok h1]
          rfl
        · rw [if_neg hn, List.cons.injEq] at hv
          exact absurd hv.1.symm ha.not_func
      | _ =>
        simp only [substVal, List.cons.injEq, and_true] at hv
        subst hv
        rfl
  unfold transformValues mapConcat
  rw [tbind_eq_ok key]
  rfl

/-- **C36** (completeness): a `calc()` of two operands that are arithmetic on dimensions (or a `var()` replaced by
such) is replaced by its value, if it has one.  (The two hypotheses on numbers: a number that is written and read
again is the same, and products commute.) -/
theorem calc_complete {fo : FloatOps} (rt : RoundTrip fo) (hc : ∀ a b, fo.mul a b = fo.mul b a) {o : TOpts}
    (ho : o.calcReduction = true) {sp msp : Span} {op : Bytes} {l r l' r' : Value} {s : TSt} (hl : Stands s l l')
    (hr : Stands s r r') (ha : Arith (.math msp op l' r')) {f : fo.F}
    {u : Bytes} (hd : Denotes fo none (.math msp op l' r') f u) (n : Nat) :
    transformValue fo o (n + 2) (.func sp b!"calc" [.math msp op l r]) s = .ok [.dim ⟨0, 0⟩ (fo.fmt f) u] s := by
  cases ha with
  | math al ar =>
  have ops : ∃ fl ul fr ur, Denotes fo none l' fl ul ∧ Denotes fo none r' fr ur ∧
      ∀ lsp ln rsp rn, fo.parse ln = some fl → fo.parse rn = some fr →
        Denotes fo none (.math msp op (.dim lsp ln ul) (.dim rsp rn ur)) f u := by
    cases hd with
    | add h k => exact ⟨_, _, _, _, h, k, fun _ _ _ _ h k => .add (.dim h) (.dim k)⟩
    | sub h k => exact ⟨_, _, _, _, h, k, fun _ _ _ _ h k => .sub (.dim h) (.dim k)⟩
    | mulNum h k => exact ⟨_, _, _, _, h, k, fun _ _ _ _ h k => .mulNum (.dim h) (.dim k)⟩
    | numMul h k => exact ⟨_, _, _, _, h, k, fun _ _ _ _ h k => .numMul (.dim h) (.dim k)⟩
    | div h k z => exact ⟨_, _, _, _, h, k, fun _ _ _ _ h k => .div (.dim h) (.dim k) z⟩
  obtain ⟨fl, ul, fr, ur, dl, dr, hop⟩ := ops
  obtain ⟨lsp, ln, pl, el⟩ := evalOperand_complete rt hc al dl s
  obtain ⟨rsp, rn, pr, er⟩ := evalOperand_complete rt hc ar dr s
  have h1 : substVar (.func sp b!"calc" [.math msp op l r]) b!"calc" [.math msp op l r] s =
      .ok [.func sp b!"calc" [.math msp op l r]] s := rfl
  have h2 : transformValues fo o (n + 1) [.math msp op l r] s = .ok [.math msp op l r] s := rfl
  have h3 : evaluateMathExpression fo l' r' op s = .ok (.dim ⟨0, 0⟩ (fo.fmt f) u) s := by
    unfold evaluateMathExpression
    rw [tbind_eq_ok el, tbind_eq_ok er]
    exact applyOp_complete hc (hop _ _ _ _ pl pr) s
  rw [transformValue, tbind_eq_ok h1]
  unfold reduceCalc
  rw [if_neg (by simp), if_neg (by simp [ho])]
  dsimp only
  refine (tbind_eq_ok h2).trans ?_
  dsimp only
  refine (tbind_eq_ok (transformValues_arith al hl n)).trans ?_
  refine (tbind_eq_ok (transformValues_arith ar hr n)).trans ?_
  dsimp only
  rw [tbind_eq_ok h3]
  rfl

theorem unaryOps_roundTrip : RoundTrip unaryOps := by
  intro (n : Nat)
  show (if (List.replicate n (49 : UInt8)).all (· == 49) then some (List.replicate n (49 : UInt8)).length else none) = some n
  simp

theorem unaryOps_comm : ∀ a b, unaryOps.mul a b = unaryOps.mul b a := Nat.mul_comm

/-- `calc(11px * 11 + 1px)` is `11111px`. -/
example (s : TSt) (n : Nat) : transformValue unaryOps { TOpts.default with calcReduction := true } (n + 2)
    (.func ⟨0, 9⟩ b!"calc" [.math ⟨1, 8⟩ b!"+" (.math ⟨1, 4⟩ b!"*" (.dim ⟨1, 2⟩ b!"11" b!"px") (.dim ⟨3, 4⟩ b!"11" []))
      (.dim ⟨6, 8⟩ b!"1" b!"px")]) s = .ok [.dim ⟨0, 0⟩ b!"11111" b!"px"] s :=
  calc_complete unaryOps_roundTrip unaryOps_comm rfl (.inl rfl) (.inl rfl) (.math (.math .dim .dim) .dim)
    (.add (.mulNum (f := (2 : Nat)) (g := (2 : Nat)) (.dim rfl) (.dim rfl)) (.dim (f := (1 : Nat)) rfl)) n

/-- Mixed units have no value. -/
theorem mixed_units {fo : FloatOps} {D : Option (List (Bytes × List Value))} {sp lsp rsp : Span} {a b u v : Bytes}
    (h : u ≠ v) (f : fo.F) (w : Bytes) : ¬ Denotes fo D (.math sp b!"+" (.dim lsp a u) (.dim rsp b v)) f w := by
  intro hd
  cases hd with
  | add h1 h2 =>
    cases h1
    cases h2
    exact h rfl

/-! ### C38: nothing else changes -/

/-- A declaration without `var()` and `calc()`. -/
def Decl.plain : Decl → Prop
  | .decl _ _ vals _ => ∀ v ∈ vals, ∀ sp args, v ≠ .func sp b!"var" args ∧ v ≠ .func sp b!"calc" args
  | .raw .. => True

theorem selPiece_same {o : TOpts} {s : Sel} {out : List Sel} (hs : ∀ p ∈ s.parts, p.anyLink = false) (h : SelPiece o s out) :
    out = [s] := by
  cases h with
  | same => rfl
  | split _ h =>
    obtain ⟨p, hp, h⟩ := h
    rw [hs p hp] at h
    cases h

theorem declPiece_same {fo : FloatOps} {o : TOpts} {defs : List (Bytes × List Value)} {d : Decl} {out : List Decl}
    (hd : d.plain) (h : DeclPiece fo o defs d out) : out = [d] := by
  cases h with
  | raw => rfl
  | decl h =>
    rw [h.same fun v hv p hp => ?_]
    have := hd v hv
    cases hp with
    | other => rfl
    | varOff => rfl
    | varDefined => exact absurd rfl (this _ _).1
    | varFallback => exact absurd rfl (this _ _).1
    | varUndefined => rfl
    | varBad => rfl
    | calcKept => rfl
    | calcReduced => exact absurd rfl (this _ _).2

theorem mqPartPiece_same {fo : FloatOps} {o : TOpts} {defs : List (Bytes × MQ)} {p : MQPart} {out : List MQPart}
    (h1 : p.isRange = false) (h2 : p.custom? = none) (h : MQPartPiece fo o defs p out) : out = [p] := by
  cases h with
  | custom _ h => rw [h2] at h; cases h
  | same => rfl
  | range => cases h1

/-- A node in which there is nothing to transform: a rule with declarations, none of which has `var()` or `calc()`
or defines a custom property, and without `:any-link`; an `@media` without ranges and custom media queries; any
other at-rule but `@custom-media`. -/
def Node.plain : Node → Prop
  | .rule r => (∃ b, r.block = some b ∧ b.decls ≠ [] ∧ ∀ d ∈ b.decls, d.plain ∧ d.custom? = none) ∧
      ∀ l, r.prelude = .sels l → ∀ s ∈ l.sels, ∀ p ∈ s.parts, p.anyLink = false
  | .at a => a.name ≠ b!"custom-media" ∧ (a.name = b!"media" → ∀ l rest, a.preludes = .mql (some l) :: rest →
      ∀ q ∈ l.queries, ∀ p ∈ q.parts, p.isRange = false ∧ p.custom? = none)

/-- **C38** (nodes): a node in which there is nothing to transform comes out unchanged, at its place, under all
options. -/
theorem plain_node_unchanged {fo : FloatOps} {o : TOpts} {repl : Replacements} {n : Nat} {ss ss' : Stylesheet} {s : TSt}
    (h : transform fo o repl n ss = .ok ss' s) :
    ∃ flat, Flat repl ss.nodes flat ∧ ∀ pre x post, flat = pre ++ x :: post → x.plain →
      ∃ o1 o2, ss'.nodes = o1 ++ x :: o2 ∧ NodePieces fo o [] pre o1 ∧ NodePieces fo o (pre ++ [x]) post o2 := by
  obtain ⟨_, flat, h1, h2⟩ := transform_pieces h
  refine ⟨flat, h1, fun pre x post hf hx => ?_⟩
  subst hf
  obtain ⟨o1, p, o2, hout, p1, p2, p3⟩ := h2.split
  rw [List.nil_append] at p2 p3
  refine ⟨o1, o2, ?_, p1, p3⟩
  suffices p = [x] by
    rw [hout, this, List.append_assoc]
    rfl
  cases p2 with
  | rule hv hk hd hs hne =>
    rename_i sp bsp lsp sels sels' decls ds ds' defs
    obtain ⟨⟨b, hb, _, hdecl⟩, hsel⟩ := hx
    cases hb
    have hds : ds = decls := by
      rcases hk with ⟨_, _, rfl⟩ | ⟨_, rfl⟩
      · rw [List.filter_eq_self]
        intro d hd
        rw [(hdecl d hd).2]
        rfl
      · rfl
    subst hds
    rw [hd.same fun d hm p hp => declPiece_same (hdecl d hm).1 hp,
      hs.same fun s hm p hp => selPiece_same (hsel _ rfl s hm) hp]
  | emptyRule hb hk =>
    obtain ⟨⟨b, hb', hne, hdecl⟩, hsel⟩ := hx
    rw [hb] at hb'
    cases hb'
    rcases hk with ⟨_, _, hk⟩ | ⟨_, hk⟩
    · rw [List.filter_eq_self.2 fun d hd => by rw [(hdecl d hd).2]; rfl] at hk
      exact absurd hk.symm hne
    · exact absurd hk.symm hne
  | customMedia h => exact absurd h hx.1
  | media hq =>
    rw [hq.same fun q hm p hp => ?_]
    cases hp with
    | mk hp =>
      rw [hp.same fun p hp out h => ?_]
      obtain ⟨k1, k2⟩ := hx.2 rfl _ _ rfl _ hm p hp
      exact mqPartPiece_same k1 k2 h
  | other => rfl

/-- **C38** (parts): under all options, in a rule or query in which something is transformed, the rest is as it
was: `imports` of the stylesheet, selectors without `:any-link`, declarations without `var()` and `calc()`, parts
of media queries that are neither ranges nor custom media queries, and everything about an `@media` but its
queries. -/
theorem rest_unchanged {fo : FloatOps} {o : TOpts} {repl : Replacements} {n : Nat} {ss ss' : Stylesheet} {s : TSt}
    (h : transform fo o repl n ss = .ok ss' s) :
    ss'.imports = ss.imports ∧ ∃ flat, Flat repl ss.nodes flat ∧ NodePieces fo o [] flat ss'.nodes ∧
      (∀ s out, (∀ p ∈ s.parts, p.anyLink = false) → SelPiece o s out → out = [s]) ∧
      (∀ defs d out, d.plain → DeclPiece fo o defs d out → out = [d]) ∧
      (∀ defs p out, p.isRange = false → p.custom? = none → MQPartPiece fo o defs p out → out = [p]) ∧
      (∀ pre a out, a.name ≠ b!"custom-media" → NodePiece fo o pre (.at a) out →
        ∃ ps, out = [.at { a with preludes := ps }] ∧ ps.tail = a.preludes.tail ∧ (a.name ≠ b!"media" → ps = a.preludes)) := by
  obtain ⟨h0, flat, h1, h2⟩ := transform_pieces h
  refine ⟨h0, flat, h1, h2, fun _ _ => selPiece_same, fun _ _ _ => declPiece_same, fun _ _ _ => mqPartPiece_same,
    fun pre a out ha hp => ?_⟩
  cases hp with
  | customMedia h => exact absurd h ha
  | media => exact ⟨_, rfl, rfl, fun h => absurd rfl h⟩
  | other => exact ⟨_, rfl, rfl, fun _ => rfl⟩

/-- All options on. -/
def allOn : TOpts := ⟨.inline, true, true, true, true, true⟩

/-- All options on: everything comes out as it was. -/
example : transformDecls allOn b!"a:link{b:c d(1)} @font-face{x:y}" = some (some [[(b!"b", 2)], []]) ∧
    transformMedia allOn b!"@media print and (a:1){p{q:var(--x)}}" = some (some [[b!"print", b!"and", b!"a"]]) :=
  ⟨by decide +kernel, by decide +kernel⟩

end Cssc
