import Verif.Walk
import Verif.Props.Parser

/-!
# Properties of the walk: C51

Specification side: `Stylesheet.allNodes` lists every node of the tree, parents before children and siblings in
document order.  `Stylesheet.hidden` lists the nodes inside the arguments of pseudo classes and the properties
of range features.
-/

namespace Cssc

/-! ### Specification -/

mutual
/-- A value and everything in it. -/
def Value.nodes : Value → List WNode
  | .nil => []
  | .str sp v => [.value (.str sp v)]
  | .dim sp n u => [.value (.dim sp n u)]
  | .ident sp v => [.value (.ident sp v)]
  | .hex sp v => [.value (.hex sp v)]
  | .brackets sp vs => .value (.brackets sp vs) :: Value.nodesL vs
  | .func sp name args => .value (.func sp name args) :: Value.nodesL args
  | .math sp op l r => .value (.math sp op l r) :: (l.nodes ++ r.nodes)
  | .paren sp v => .value (.paren sp v) :: v.nodes
  | .raw sp v => [.value (.raw sp v)]
  | .comma sp => [.value (.comma sp)]

def Value.nodesL : List Value → List WNode
  | [] => []
  | v :: vs => v.nodes ++ Value.nodesL vs
end

mutual
/-- A part of a selector and everything in it. -/
def SelPart.nodes : SelPart → List WNode
  | .type sp name => [.part (.type sp name)]
  | .cls sp name => [.part (.cls sp name)]
  | .id sp name => [.part (.id sp name)]
  | .comb sp op => [.part (.comb sp op)]
  | .pclass sp name args => .part (.pclass sp name args) :: args.nodes
  | .pelem sp isp name args => .part (.pelem sp isp name args) :: .part (.pclass isp name args) :: args.nodes
  | .ws sp => [.part (.ws sp)]
  | .attr sp prop preOp value modifier => .part (.attr sp prop preOp value modifier) :: value.nodes

def PArgs.nodes : PArgs → List WNode
  | .nil => []
  | .sels sp l => .selList ⟨sp, l⟩ :: Sel.nodesL l
  | .ident sp v => [.value (.ident sp v)]
  | .anb sp a op b => [.anb sp a op b]

def Sel.nodes : Sel → List WNode
  | .mk sp parts => .sel (.mk sp parts) :: SelPart.nodesL parts

def Sel.nodesL : List Sel → List WNode
  | [] => []
  | s :: ss => s.nodes ++ Sel.nodesL ss

def SelPart.nodesL : List SelPart → List WNode
  | [] => []
  | p :: ps => p.nodes ++ SelPart.nodesL ps
end

def KSel.nodes : KSel → List WNode
  | .pct sp v => [.percentage sp v]
  | .ident sp v => [.value (.ident sp v)]

def Prelude.nodes : Prelude → List WNode
  | .nil => []
  | .sels l => .selList l :: l.sels.flatMap Sel.nodes
  | .keyframes sp l => .keyframes sp l :: l.flatMap KSel.nodes

def Decl.nodes : Decl → List WNode
  | .decl sp prop vals imp => .decl (.decl sp prop vals imp) :: vals.flatMap Value.nodes
  | .raw sp v => [.decl (.raw sp v)]

def DeclBlock.nodes (b : DeclBlock) : List WNode := .decls b :: b.decls.flatMap Decl.nodes

def QRule.nodes (r : QRule) : List WNode :=
  .rule r :: (r.prelude.nodes ++ r.block.toList.flatMap DeclBlock.nodes)

def MQPart.nodes : MQPart → List WNode
  | .ident sp v => [.value (.ident sp v)]
  | .plain sp psp prop value => .mqPart (.plain sp psp prop value) :: .value (.ident psp prop) :: value.nodes
  | .range sp psp prop left op right =>
    .mqPart (.range sp psp prop left op right) :: (left.nodes ++ .value (.ident psp prop) :: right.nodes)
  | .inParens sp parts => [.mqPart (.inParens sp parts)]

def MQ.nodes (q : MQ) : List WNode := .mq q :: q.parts.flatMap MQPart.nodes

def AtPrelude.nodes : AtPrelude → List WNode
  | .str sp v => [.value (.str sp v)]
  | .ident sp v => [.value (.ident sp v)]
  | .mql l => .mql l :: l.toList.flatMap fun l => l.queries.flatMap MQ.nodes
  | .mq q => q.nodes

def Block.nodes : Block → List WNode
  | .none => []
  | .decls b => b.nodes
  | .rules sp rs => .rules sp rs :: rs.flatMap QRule.nodes

def AtRule.nodes' (a : AtRule) : List WNode := .at a :: (a.preludes.flatMap AtPrelude.nodes ++ a.block.nodes)

def Node.nodes : Node → List WNode
  | .rule r => r.nodes
  | .at a => a.nodes'

/-- Every node of a stylesheet. -/
def Stylesheet.allNodes (ss : Stylesheet) : List WNode := .sheet ss :: ss.nodes.flatMap Node.nodes

/-- The nodes inside the arguments of a pseudo class. -/
def SelPart.hidden : SelPart → List WNode
  | .pclass _ _ args => args.nodes
  | .pelem _ _ _ args => args.nodes
  | _ => []

def Prelude.hidden : Prelude → List WNode
  | .sels l => l.sels.flatMap fun s => s.parts.flatMap SelPart.hidden
  | _ => []

/-- The property of a range. -/
def MQPart.hidden : MQPart → List WNode
  | .range _ psp prop _ _ _ => [.value (.ident psp prop)]
  | _ => []

def MQ.hidden (q : MQ) : List WNode := q.parts.flatMap MQPart.hidden

def AtPrelude.hidden : AtPrelude → List WNode
  | .mql l => l.toList.flatMap fun l => l.queries.flatMap MQ.hidden
  | .mq q => q.hidden
  | _ => []

def Block.hidden : Block → List WNode
  | .rules _ rs => rs.flatMap fun r => r.prelude.hidden
  | _ => []

def Node.hidden : Node → List WNode
  | .rule r => r.prelude.hidden
  | .at a => a.preludes.flatMap AtPrelude.hidden ++ a.block.hidden

/-- The nodes that are in the arguments of a pseudo class of a rule, or that are the property of a range. -/
def Stylesheet.hidden (ss : Stylesheet) : List WNode := ss.nodes.flatMap Node.hidden

/-- The nodes that `Walk` has no case for. -/
def WNode.unknown : WNode → Bool
  | .value (.brackets _ _) => true
  | .mqPart (.inParens _ _) => true
  | .mql none => true
  | .rule r => r.block.isNone
  | _ => false

/-! ### The walk is the listing -/

/-- What one walk does, relative to all nodes and the hidden ones: on success the visited nodes are all nodes but
the hidden ones, in the same order; on a panic there is an unknown node; and unknown nodes that are not hidden
cause a panic. -/
def WalkOk (w : Option (List WNode)) (all hid : List WNode) : Prop :=
  match w with
  | none => ∃ n ∈ all, n.unknown = true
  | some vis => vis.Sublist all ∧ (vis ++ hid).Perm all ∧ ∀ n ∈ vis, n.unknown = false

theorem WalkOk.andThen {a b : Option (List WNode)} {la ha lb hb : List WNode} (h1 : WalkOk a la ha)
    (h2 : WalkOk b lb hb) : WalkOk (andThen a b) (la ++ lb) (ha ++ hb) := by
  unfold Cssc.andThen
  cases a with
  | none =>
    obtain ⟨n, hn, hu⟩ := h1
    exact ⟨n, by simp [hn], hu⟩
  | some va =>
    cases b with
    | none =>
      obtain ⟨n, hn, hu⟩ := h2
      exact ⟨n, by simp [hn], hu⟩
    | some vb =>
      obtain ⟨s1, p1, u1⟩ := h1
      obtain ⟨s2, p2, u2⟩ := h2
      refine ⟨s1.append s2, ?_, fun n hn => ?_⟩
      · refine List.Perm.trans ?_ (p1.append p2)
        rw [List.append_assoc, List.append_assoc, ← List.append_assoc vb, ← List.append_assoc ha]
        exact (List.perm_append_comm.append_right hb).append_left va
      · rw [List.mem_append] at hn
        exact hn.elim (u1 n) (u2 n)

theorem WalkOk.one {n : WNode} (h : n.unknown = false) : WalkOk (some [n]) [n] [] :=
  ⟨.refl _, by simp, by simpa using h⟩

theorem WalkOk.nil : WalkOk (some []) [] [] := ⟨.refl _, .refl _, by simp⟩

theorem WalkOk.visit {n : WNode} {w : Option (List WNode)} {l h : List WNode} (hn : n.unknown = false)
    (hw : WalkOk w l h) : WalkOk (visitThen n w) (n :: l) h := by
  have := (WalkOk.one hn).andThen hw
  simpa [visitThen] using this

theorem WalkOk.each {f : α → Option (List WNode)} {g h : α → List WNode} : ∀ {xs : List α},
    (∀ x ∈ xs, WalkOk (f x) (g x) (h x)) → WalkOk (walkEach f xs) (xs.flatMap g) (xs.flatMap h)
  | [], _ => .nil
  | x :: xs, hx => by
    rw [walkEach, List.flatMap_cons, List.flatMap_cons]
    exact (hx x (List.mem_cons_self ..)).andThen (WalkOk.each fun y hy => hx y (List.mem_cons_of_mem _ hy))

theorem flatMap_nil (l : List α) : l.flatMap (fun _ => ([] : List WNode)) = [] := by
  induction l with
  | nil => rfl
  | cons a l ih => rw [List.flatMap_cons, ih, List.nil_append]

mutual
theorem walkValue_ok : ∀ (v : Value), WalkOk (walkValue v) v.nodes []
  | .nil => by rw [walkValue, Value.nodes]; exact .nil
  | .brackets sp vs => by
    rw [walkValue, Value.nodes]
    exact ⟨_, List.mem_cons_self .., rfl⟩
  | .func sp name args => by
    rw [walkValue, Value.nodes]
    exact .visit rfl (walkValues_ok args)
  | .math sp op l r => by
    rw [walkValue, Value.nodes]
    exact .visit rfl ((walkValue_ok l).andThen (walkValue_ok r))
  | .paren sp v => by
    rw [walkValue, Value.nodes]
    exact .visit rfl (walkValue_ok v)
  | .str .. => by rw [walkValue, Value.nodes] <;> first | exact .one rfl | simp
  | .dim .. => by rw [walkValue, Value.nodes] <;> first | exact .one rfl | simp
  | .ident .. => by rw [walkValue, Value.nodes] <;> first | exact .one rfl | simp
  | .hex .. => by rw [walkValue, Value.nodes] <;> first | exact .one rfl | simp
  | .raw .. => by rw [walkValue, Value.nodes] <;> first | exact .one rfl | simp
  | .comma .. => by rw [walkValue, Value.nodes] <;> first | exact .one rfl | simp

theorem walkValues_ok : ∀ (vs : List Value), WalkOk (walkValues vs) (Value.nodesL vs) []
  | [] => by rw [walkValues, Value.nodesL]; exact .nil
  | v :: vs => by
    rw [walkValues, Value.nodesL]
    exact (walkValue_ok v).andThen (walkValues_ok vs)
end

theorem Value.nodesL_eq : ∀ (vs : List Value), Value.nodesL vs = vs.flatMap Value.nodes
  | [] => by simp [Value.nodesL]
  | v :: vs => by rw [Value.nodesL, Value.nodesL_eq vs, List.flatMap_cons]

theorem SelPart.nodesL_eq : ∀ (ps : List SelPart), SelPart.nodesL ps = ps.flatMap SelPart.nodes
  | [] => by simp [SelPart.nodesL]
  | v :: vs => by rw [SelPart.nodesL, SelPart.nodesL_eq vs, List.flatMap_cons]

/-- Nodes that are not visited at all. -/
theorem WalkOk.hide {w : Option (List WNode)} {l h k : List WNode} (hw : WalkOk w l h) : WalkOk w (l ++ k) (h ++ k) := by
  cases w with
  | none =>
    obtain ⟨n, hn, hu⟩ := hw
    exact ⟨n, by simp [hn], hu⟩
  | some vis =>
    obtain ⟨s, p, u⟩ := hw
    exact ⟨s.trans (List.sublist_append_left ..), by rw [← List.append_assoc]; exact p.append_right k, u⟩

theorem walkPart_ok (p : SelPart) : WalkOk (walkPart p) p.nodes p.hidden := by
  cases p with
  | attr =>
    rw [SelPart.nodes]
    exact .visit rfl (walkValue_ok _)
  | pelem sp isp name args =>
    rw [SelPart.nodes]
    exact .visit rfl ((WalkOk.one (n := .part (.pclass isp name args)) rfl).hide (k := args.nodes))
  | pclass sp name args =>
    rw [SelPart.nodes]
    exact (WalkOk.one (n := .part (.pclass sp name args)) rfl).hide (k := args.nodes)
  | _ =>
    rw [SelPart.nodes]
    exact .one rfl

theorem walkSel_ok (s : Sel) : WalkOk (walkSel s) s.nodes (s.parts.flatMap SelPart.hidden) := by
  obtain ⟨sp, parts⟩ := s
  rw [Sel.nodes, SelPart.nodesL_eq]
  exact .visit rfl (.each fun p _ => walkPart_ok p)

theorem walkPrelude_ok (p : Prelude) : WalkOk (walkPrelude p) p.nodes p.hidden := by
  cases p with
  | nil => exact .nil
  | sels l => exact .visit rfl (.each fun s _ => walkSel_ok s)
  | keyframes sp l =>
    refine .visit rfl ?_
    have := WalkOk.each (f := walkKSel) (g := KSel.nodes) (h := fun _ => []) (xs := l) fun k _ => by
      cases k <;> exact .one rfl
    rwa [flatMap_nil] at this

theorem walkDecls_ok (b : DeclBlock) : WalkOk (walkDecls b) b.nodes [] := by
  have := WalkOk.each (f := walkDecl) (g := Decl.nodes) (h := fun _ => []) (xs := b.decls) fun d _ => by
    cases d with
    | raw => exact .one rfl
    | decl sp prop vals imp =>
      rw [Decl.nodes, ← Value.nodesL_eq]
      exact .visit rfl (walkValues_ok vals)
  rw [flatMap_nil] at this
  exact .visit rfl this

theorem walkRule_ok (r : QRule) : WalkOk (walkRule r) r.nodes r.prelude.hidden := by
  obtain ⟨sp, prelude, block⟩ := r
  unfold walkRule QRule.nodes
  cases block with
  | none =>
    have : ∀ w, visitThen w (andThen (walkPrelude prelude) none) = none := by
      intro w
      cases walkPrelude prelude <;> rfl
    rw [this]
    exact ⟨_, List.mem_cons_self .., rfl⟩
  | some b =>
    refine .visit rfl ?_
    have := (walkPrelude_ok prelude).andThen (walkDecls_ok b)
    simpa using this

theorem walkMQPart_ok (p : MQPart) : WalkOk (walkMQPart p) p.nodes p.hidden := by
  cases p with
  | ident => exact .one rfl
  | plain sp psp prop value =>
    exact .visit rfl ((WalkOk.one (n := .value (.ident psp prop)) rfl).andThen (walkValue_ok value))
  | range sp psp prop left op right =>
    refine .visit rfl ?_
    have h0 : WalkOk (some []) [WNode.value (.ident psp prop)] [.value (.ident psp prop)] := ⟨by simp, .refl _, by simp⟩
    have := (walkValue_ok left).andThen (h0.andThen (walkValue_ok right))
    have e : andThen (some []) (walkValue right) = walkValue right := by
      cases walkValue right <;> rfl
    rw [e] at this
    simpa [MQPart.hidden] using this
  | inParens sp parts => exact ⟨_, List.mem_cons_self .., rfl⟩

theorem walkMQ_ok (q : MQ) : WalkOk (walkMQ q) q.nodes q.hidden := .visit rfl (.each fun p _ => walkMQPart_ok p)

theorem walkAtPrelude_ok (p : AtPrelude) : WalkOk (walkAtPrelude p) p.nodes p.hidden := by
  cases p with
  | str => exact .one rfl
  | ident => exact .one rfl
  | mql l =>
    cases l with
    | none => exact ⟨_, List.mem_cons_self .., rfl⟩
    | some l =>
      refine .visit rfl ?_
      have := WalkOk.each (f := walkMQ) (g := MQ.nodes) (h := MQ.hidden) (xs := l.queries) fun q _ => walkMQ_ok q
      simpa [AtPrelude.hidden] using this
  | mq q => exact walkMQ_ok q

theorem walkBlock_ok (b : Block) : WalkOk (walkBlock b) b.nodes b.hidden := by
  cases b with
  | none => exact .nil
  | decls b => exact walkDecls_ok b
  | rules sp rs => exact .visit rfl (.each fun r _ => walkRule_ok r)

theorem walkNode_ok (n : Node) : WalkOk (walkNode n) n.nodes n.hidden := by
  cases n with
  | rule r => exact walkRule_ok r
  | «at» a => exact .visit rfl ((WalkOk.each fun p _ => walkAtPrelude_ok p).andThen (walkBlock_ok _))

theorem walk_ok (ss : Stylesheet) : WalkOk (walk ss) ss.allNodes ss.hidden :=
  .visit rfl (.each fun n _ => walkNode_ok n)

/-! ### C51 -/

/-- **C51, partial**: when `Walk` returns, it has visited nodes of the tree only, parents before children and
siblings in document order, and every node except those in the arguments of pseudo classes and the properties of
ranges, each exactly once. -/
theorem walk_visits_partial {ss : Stylesheet} {vis : List WNode} (h : walk ss = some vis) :
    vis.Sublist ss.allNodes ∧ (vis ++ ss.hidden).Perm ss.allNodes ∧ (ss.hidden = [] → vis = ss.allNodes) := by
  have := walk_ok ss
  rw [h] at this
  refine ⟨this.1, this.2.1, fun e => ?_⟩
  have hp := this.2.1
  rw [e, List.append_nil] at hp
  exact this.1.eq_of_length hp.length_eq

/-- **C51, partial**: `Walk` panics only if the tree contains a block in square brackets, parenthesised media
conditions, an empty media query list or a rule without block; and it does, if one is visible. -/
theorem walk_panics_partial (ss : Stylesheet) :
    (walk ss = none → ∃ n ∈ ss.allNodes, n.unknown = true) ∧
    ((∃ n ∈ ss.allNodes, n.unknown = true) → ss.hidden = [] → walk ss = none) := by
  have hok := walk_ok ss
  constructor
  · intro h
    rw [h] at hok
    exact hok
  · rintro ⟨n, hn, hu⟩ e
    cases hw : walk ss with
    | none => rfl
    | some vis =>
      rw [hw] at hok
      have hp := hok.2.1
      rw [e, List.append_nil] at hp
      have := hok.2.2 n (hp.mem_iff.2 hn)
      rw [this] at hu
      cases hu

/-- In a parsed tree, the only unknown nodes are blocks in square brackets and empty media query lists. -/
def Usual (n : WNode) : Prop :=
  n.unknown = true → (∃ sp vs, n = .value (.brackets sp vs)) ∨ n = .mql none

theorem Usual.known {n : WNode} (h : n.unknown = false) : Usual n := fun e => by rw [h] at e; cases e

mutual
theorem Value.usual : ∀ (v : Value), ∀ n ∈ v.nodes, Usual n
  | .nil => by rw [Value.nodes]; simp
  | .brackets sp vs => by
    rw [Value.nodes]
    intro n hn
    rw [List.mem_cons] at hn
    rcases hn with rfl | hn
    · exact fun _ => .inl ⟨_, _, rfl⟩
    · exact Value.usualL vs n hn
  | .func sp name args => by
    rw [Value.nodes]
    intro n hn
    rw [List.mem_cons] at hn
    rcases hn with rfl | hn
    · exact .known rfl
    · exact Value.usualL args n hn
  | .math sp op l r => by
    rw [Value.nodes]
    intro n hn
    rw [List.mem_cons, List.mem_append] at hn
    rcases hn with rfl | hn | hn
    · exact .known rfl
    · exact Value.usual l n hn
    · exact Value.usual r n hn
  | .paren sp v => by
    rw [Value.nodes]
    intro n hn
    rw [List.mem_cons] at hn
    rcases hn with rfl | hn
    · exact .known rfl
    · exact Value.usual v n hn
  | .str .. => by rw [Value.nodes]; simp only [List.mem_singleton, forall_eq]; exact .known rfl
  | .dim .. => by rw [Value.nodes]; simp only [List.mem_singleton, forall_eq]; exact .known rfl
  | .ident .. => by rw [Value.nodes]; simp only [List.mem_singleton, forall_eq]; exact .known rfl
  | .hex .. => by rw [Value.nodes]; simp only [List.mem_singleton, forall_eq]; exact .known rfl
  | .raw .. => by rw [Value.nodes]; simp only [List.mem_singleton, forall_eq]; exact .known rfl
  | .comma .. => by rw [Value.nodes]; simp only [List.mem_singleton, forall_eq]; exact .known rfl

theorem Value.usualL : ∀ (vs : List Value), ∀ n ∈ Value.nodesL vs, Usual n
  | [] => by rw [Value.nodesL]; simp
  | v :: vs => by
    rw [Value.nodesL]
    intro n hn
    rw [List.mem_append] at hn
    exact hn.elim (Value.usual v n) (Value.usualL vs n)
end

mutual
theorem SelPart.usual : ∀ (p : SelPart), ∀ n ∈ p.nodes, Usual n
  | .type .. => by rw [SelPart.nodes]; simp only [List.mem_singleton, forall_eq]; exact .known rfl
  | .cls .. => by rw [SelPart.nodes]; simp only [List.mem_singleton, forall_eq]; exact .known rfl
  | .id .. => by rw [SelPart.nodes]; simp only [List.mem_singleton, forall_eq]; exact .known rfl
  | .comb .. => by rw [SelPart.nodes]; simp only [List.mem_singleton, forall_eq]; exact .known rfl
  | .ws .. => by rw [SelPart.nodes]; simp only [List.mem_singleton, forall_eq]; exact .known rfl
  | .pclass sp name args => by
    rw [SelPart.nodes]
    intro n hn
    rw [List.mem_cons] at hn
    rcases hn with rfl | hn
    · exact .known rfl
    · exact PArgs.usual args n hn
  | .pelem sp isp name args => by
    rw [SelPart.nodes]
    intro n hn
    rw [List.mem_cons, List.mem_cons] at hn
    rcases hn with rfl | rfl | hn
    · exact .known rfl
    · exact .known rfl
    · exact PArgs.usual args n hn
  | .attr sp prop preOp value modifier => by
    rw [SelPart.nodes]
    intro n hn
    rw [List.mem_cons] at hn
    rcases hn with rfl | hn
    · exact .known rfl
    · exact Value.usual value n hn

theorem PArgs.usual : ∀ (a : PArgs), ∀ n ∈ a.nodes, Usual n
  | .nil => by rw [PArgs.nodes]; simp
  | .sels sp l => by
    rw [PArgs.nodes]
    intro n hn
    rw [List.mem_cons] at hn
    rcases hn with rfl | hn
    · exact .known rfl
    · exact Sel.usualL l n hn
  | .ident .. => by rw [PArgs.nodes]; simp only [List.mem_singleton, forall_eq]; exact .known rfl
  | .anb .. => by rw [PArgs.nodes]; simp only [List.mem_singleton, forall_eq]; exact .known rfl

theorem Sel.usual : ∀ (s : Sel), ∀ n ∈ s.nodes, Usual n
  | .mk sp parts => by
    rw [Sel.nodes]
    intro n hn
    rw [List.mem_cons] at hn
    rcases hn with rfl | hn
    · exact .known rfl
    · exact SelPart.usualL parts n hn

theorem Sel.usualL : ∀ (l : List Sel), ∀ n ∈ Sel.nodesL l, Usual n
  | [] => by rw [Sel.nodesL]; simp
  | s :: ss => by
    rw [Sel.nodesL]
    intro n hn
    rw [List.mem_append] at hn
    exact hn.elim (Sel.usual s n) (Sel.usualL ss n)

theorem SelPart.usualL : ∀ (l : List SelPart), ∀ n ∈ SelPart.nodesL l, Usual n
  | [] => by rw [SelPart.nodesL]; simp
  | s :: ss => by
    rw [SelPart.nodesL]
    intro n hn
    rw [List.mem_append] at hn
    exact hn.elim (SelPart.usual s n) (SelPart.usualL ss n)
end

theorem usual_cons {n : WNode} {l : List WNode} (hn : n.unknown = false) (hl : ∀ m ∈ l, Usual m) :
    ∀ m ∈ n :: l, Usual m := by
  intro m hm
  rw [List.mem_cons] at hm
  rcases hm with rfl | hm
  · exact .known hn
  · exact hl m hm

theorem usual_append {l k : List WNode} (hl : ∀ m ∈ l, Usual m) (hk : ∀ m ∈ k, Usual m) : ∀ m ∈ l ++ k, Usual m := by
  intro m hm
  rw [List.mem_append] at hm
  exact hm.elim (hl m) (hk m)

theorem usual_flatMap {xs : List α} {f : α → List WNode} (h : ∀ x ∈ xs, ∀ m ∈ f x, Usual m) :
    ∀ m ∈ xs.flatMap f, Usual m := by
  intro m hm
  rw [List.mem_flatMap] at hm
  obtain ⟨x, hx, hm⟩ := hm
  exact h x hx m hm

theorem usual_nil : ∀ m ∈ ([] : List WNode), Usual m := by simp

theorem Decl.usual (d : Decl) : ∀ n ∈ d.nodes, Usual n := by
  cases d with
  | raw => exact usual_cons rfl usual_nil
  | decl sp prop vals imp => exact usual_cons rfl (usual_flatMap fun v _ => v.usual)

theorem DeclBlock.usual (b : DeclBlock) : ∀ n ∈ b.nodes, Usual n := usual_cons rfl (usual_flatMap fun d _ => d.usual)

theorem RuleOk.usual {src : Bytes} {kf : Bool} {r : QRule} (h : RuleOk src kf r) : ∀ n ∈ r.nodes, Usual n := by
  obtain ⟨_, _, b, hb, _⟩ := h
  refine usual_cons (by simp [WNode.unknown, hb]) (usual_append ?_ (usual_flatMap fun b _ => b.usual))
  cases r.prelude with
  | nil => exact usual_nil
  | sels l => exact usual_cons rfl (usual_flatMap fun s _ => s.usual)
  | keyframes sp l =>
    refine usual_cons rfl (usual_flatMap fun k _ => ?_)
    cases k <;> exact usual_cons rfl usual_nil

theorem MQOk.usual {src : Bytes} {q : MQ} (h : MQOk src q) : ∀ n ∈ q.nodes, Usual n := by
  obtain ⟨_, _, _, hp⟩ := h
  refine usual_cons rfl (usual_flatMap fun p hm => ?_)
  have := hp p hm
  cases p with
  | ident => exact usual_cons rfl usual_nil
  | plain => exact usual_cons rfl (usual_cons rfl (Value.usual _))
  | range => exact usual_cons rfl (usual_append (Value.usual _) (usual_cons rfl (Value.usual _)))
  | inParens => exact absurd this (by simp [MQPartOk])

theorem SheetOk.usual {src : Bytes} {ss : Stylesheet} (h : SheetOk src ss) : ∀ n ∈ ss.allNodes, Usual n := by
  refine usual_cons rfl (usual_flatMap fun n hn => ?_)
  have hok := h.nodes n hn
  cases n with
  | rule r => exact RuleOk.usual hok
  | «at» a =>
    obtain ⟨_, _, hp, hb, _⟩ := show AtOk src a from hok
    refine usual_cons rfl (usual_append (usual_flatMap fun p hm => ?_) ?_)
    · have := hp p hm
      cases p with
      | str => exact usual_cons rfl usual_nil
      | ident => exact usual_cons rfl usual_nil
      | mq q => exact MQOk.usual this
      | mql l =>
        cases l with
        | none =>
          show ∀ n ∈ [WNode.mql none], Usual n
          simp only [List.mem_singleton, forall_eq]
          exact fun _ => .inr rfl
        | some l =>
          refine usual_cons rfl (usual_flatMap fun l' hl => usual_flatMap fun q hq => ?_)
          rw [Option.mem_toList, Option.some.injEq] at hl
          subst hl
          exact MQOk.usual (this.2.2.2 q hq)
    · cases hbl : a.block with
      | none => exact usual_nil
      | decls b => exact b.usual
      | rules sp rs =>
        rw [hbl] at hb
        exact usual_cons rfl (usual_flatMap fun r hr => RuleOk.usual (hb.2.2 r hr))

/-- **C51, partial**: on a stylesheet returned by `Parse` that contains no block in square brackets and no
`@media` without query, `Walk` returns. -/
theorem walk_parsed_partial {n : Nat} {src : Bytes} {id : Nat} {ss : Stylesheet} {lines : List Nat}
    (h : parse n src id = .ok ss lines) (h1 : ∀ sp vs, .value (.brackets sp vs) ∉ ss.allNodes)
    (h2 : .mql none ∉ ss.allNodes) : ∃ vis, walk ss = some vis := by
  cases hw : walk ss with
  | some vis => exact ⟨vis, rfl⟩
  | none =>
    obtain ⟨m, hm, hu⟩ := (walk_panics_partial ss).1 hw
    rcases (parse_sheetOk h).usual m hm hu with ⟨sp, vs, rfl⟩ | rfl
    · exact absurd hm (h1 sp vs)
    · exact absurd hm h2

/-- The number of visits, of all nodes, and of hidden nodes. -/
def walkCounts (src : Bytes) : Option (Option Nat × Nat × Nat) :=
  (parse 80 src).sheet?.map fun x => ((walk x.1).map List.length, x.1.allNodes.length, x.1.hidden.length)

/-- **C51, refuted as stated**: `Walk` panics on `a{b:[c]}` and does not visit the `b` in `:not(b)`. -/
theorem walk_refuted :
    (∃ n src ss lines, parse n src = .ok ss lines ∧ walk ss = none) ∧
    (∃ n src ss lines vis, parse n src = .ok ss lines ∧ walk ss = some vis ∧ vis ≠ ss.allNodes) := by
  constructor
  · have h : walkCounts b!"a{b:[c]}" = some (none, 9, 0) := by decide +kernel
    obtain ⟨ss, lines, h, e⟩ := parsed
      (f := fun ss _ => ((walk ss).map List.length, ss.allNodes.length, ss.hidden.length)) h
    refine ⟨80, _, ss, lines, h, ?_⟩
    have := (Prod.ext_iff.1 e).1
    cases hw : walk ss with
    | none => rfl
    | some vis => rw [hw] at this; cases this
  · have h : walkCounts b!":not(b){c:d}" = some (some 8, 11, 3) := by decide +kernel
    obtain ⟨ss, lines, h, e⟩ := parsed
      (f := fun ss _ => ((walk ss).map List.length, ss.allNodes.length, ss.hidden.length)) h
    obtain ⟨e1, e2⟩ := Prod.ext_iff.1 e
    cases hw : walk ss with
    | none => rw [hw] at e1; cases e1
    | some vis =>
      refine ⟨80, _, ss, lines, vis, h, hw, fun e => ?_⟩
      rw [hw] at e1
      have e1 : some vis.length = some 8 := e1
      have e2 := (Prod.ext_iff.1 e2).1
      rw [e] at e1
      dsimp only at e2
      rw [e2] at e1
      cases e1

example : walkCounts b!"@media (a:b){c::d{e:f(g,1px)!important}} h{i:calc(1 + (2*3))}" = some (some 33, 33, 0) := by
  decide +kernel

end Cssc
