import Verif.Proofs.CompileTab
import Verif.Proofs.HeapSim

/-!
# Transforming and printing do not depend on the numbers of the parses
-/

namespace Cssc

/-- The nodes without the numbers of their parses. -/
def plainIds (ns : List Node) : List Node := ns.map (Node.setId 0)

theorem plainIds_append (a b : List Node) : plainIds (a ++ b) = plainIds a ++ plainIds b := List.map_append

theorem setId_setId (i j : Nat) (x : Node) : (x.setId j).setId i = x.setId i := by cases x <;> rfl

theorem setId_rule {i : Nat} {r : QRule} {y : Node} (h : (Node.rule r).setId i = y.setId i) : y = .rule r := by
  cases y with
  | rule r' => exact h.symm
  | «at» b => cases h

theorem setId_at {a : AtRule} {y : Node} (h : (Node.at a).setId 0 = y.setId 0) : ∃ i, y = .at { a with src := i } := by
  cases y with
  | rule r' => cases h
  | «at» b =>
    obtain ⟨bsrc, bsp, bname, bpre, bblock⟩ := b
    obtain ⟨asrc, asp, aname, apre, ablock⟩ := a
    unfold Node.setId at h
    cases h
    exact ⟨bsrc, rfl⟩

/-- The result without the numbers. -/
def TRes.plainIds : TRes (List Node) → TRes (List Node)
  | .ok ns s => .ok (Cssc.plainIds ns) s
  | .crash => .crash
  | .timeout => .timeout

/-- Up to numbers the two computations do the same. -/
def SameIds (m m' : T (List Node)) : Prop := ∀ s, (m s).plainIds = (m' s).plainIds

theorem SameIds.bind {α : Type} {m : T α} {f f' : α → T (List Node)} (h : ∀ a, SameIds (f a) (f' a)) : SameIds (m >>= f) (m >>= f') := by
  intro s
  show (T.bind m f s).plainIds = (T.bind m f' s).plainIds
  unfold T.bind
  cases m s with
  | ok a s1 => exact h a s1
  | crash => rfl
  | timeout => rfl

theorem SameIds.mapConcat {f f' : Node → T (List Node)} {R : Node → Node → Prop} (h : ∀ {x y}, R x y → SameIds (f x) (f' y)) :
    ∀ {xs ys : List Node}, List.Forall₂ R xs ys → SameIds (mapConcat f xs) (mapConcat f' ys) := by
  intro xs ys hxy
  induction hxy with
  | nil => exact fun _ => rfl
  | @cons x y xs ys h1 _ ih =>
    intro s
    rw [Cssc.mapConcat, Cssc.mapConcat]
    have h2 := h h1 s
    show (T.bind (f x) _ s).plainIds = (T.bind (f' y) _ s).plainIds
    unfold T.bind
    cases ha : f x s with
    | crash =>
      rw [ha] at h2
      cases hb : f' y s with
      | crash => rfl
      | ok => rw [hb] at h2; cases h2
      | timeout => rw [hb] at h2; cases h2
    | timeout =>
      rw [ha] at h2
      cases hb : f' y s with
      | crash => rw [hb] at h2; cases h2
      | ok => rw [hb] at h2; cases h2
      | timeout => rfl
    | ok o1 s1 =>
      rw [ha] at h2
      cases hb : f' y s with
      | crash => rw [hb] at h2; cases h2
      | timeout => rw [hb] at h2; cases h2
      | ok o2 s2 =>
        rw [hb] at h2
        injection h2 with h3 h4
        subst h4
        dsimp only
        have h5 := ih s1
        show (T.bind (Cssc.mapConcat f xs) _ s1).plainIds = (T.bind (Cssc.mapConcat f' ys) _ s1).plainIds
        unfold T.bind
        cases hc : Cssc.mapConcat f xs s1 with
        | crash =>
          rw [hc] at h5
          cases hd : Cssc.mapConcat f' ys s1 with
          | crash => rfl
          | ok => rw [hd] at h5; cases h5
          | timeout => rw [hd] at h5; cases h5
        | timeout =>
          rw [hc] at h5
          cases hd : Cssc.mapConcat f' ys s1 with
          | crash => rw [hd] at h5; cases h5
          | ok => rw [hd] at h5; cases h5
          | timeout => rfl
        | ok o3 s3 =>
          rw [hc] at h5
          cases hd : Cssc.mapConcat f' ys s1 with
          | crash => rw [hd] at h5; cases h5
          | timeout => rw [hd] at h5; cases h5
          | ok o4 s4 =>
            rw [hd] at h5
            injection h5 with h6 h7
            subst h7
            show TRes.ok (Cssc.plainIds (o1 ++ o3)) s3 = TRes.ok (Cssc.plainIds (o2 ++ o4)) s3
            rw [plainIds_append, plainIds_append, h3, h6]

/-- Neither is replaced. -/
def Unreplaced (m m' : List (AtId × Stylesheet)) (x y : Node) : Prop :=
  x.setId 0 = y.setId 0 ∧ ∀ a b, x = .at a → y = .at b → lookupImport m a.id = none ∧ lookupImport m' b.id = none

/-- Neither is replaced, or both are by nodes that are not replaced. -/
def Replaced (m m' : List (AtId × Stylesheet)) (x y : Node) : Prop :=
  x.setId 0 = y.setId 0 ∧ ∀ a b, x = .at a → y = .at b → (lookupImport m a.id = none ∧ lookupImport m' b.id = none) ∨
    ∃ ss ss', lookupImport m a.id = some ss ∧ lookupImport m' b.id = some ss' ∧ List.Forall₂ (Unreplaced m m') ss.nodes ss'.nodes

theorem Unreplaced.replaced {m m' : List (AtId × Stylesheet)} {x y : Node} (h : Unreplaced m m' x y) : Replaced m m' x y :=
  ⟨h.1, fun a b ha hb => .inl (h.2 a b ha hb)⟩

/-- At-rules that are not imports. -/
theorem sameIds_at {fo : FloatOps} {o : TOpts} {repl repl' : Replacements} {rec rec' : List Node → T (List Node)} {a : AtRule} {i : Nat}
    (hi : a.name ≠ b!"import") : SameIds (transformAt fo o repl rec a) (transformAt fo o repl' rec' { a with src := i }) := by
  unfold transformAt
  rw [if_neg hi, if_neg hi]
  dsimp only
  split
  · exact fun _ => rfl
  · split
    · split
      · exact SameIds.bind fun qs s => rfl
      · exact fun _ => rfl
    · exact fun _ => rfl

theorem sameIds_node {fo : FloatOps} {o : TOpts} {m m' : List (AtId × Stylesheet)} : ∀ {k : Nat} {x y : Node}, Replaced m m' x y →
    SameIds (transformNode fo o (some m) k x) (transformNode fo o (some m') k y)
  | 0, _, _, _ => fun _ => rfl
  | k + 1, .rule r, y, h => by
    rw [setId_rule h.1]
    exact fun _ => rfl
  | k + 1, .at a, y, h => by
    obtain ⟨i, rfl⟩ := setId_at h.1
    rw [transformNode, transformNode]
    by_cases hi : a.name = b!"import"
    · unfold transformAt
      rw [if_pos hi, if_pos hi]
      dsimp only
      rcases h.2 a _ rfl rfl with ⟨h1, h2⟩ | ⟨ss, ss', h1, h2, h3⟩
      · rw [h1, h2]
        exact fun _ => rfl
      · rw [h1, h2]
        dsimp only
        exact SameIds.bind fun _ => SameIds.mapConcat (fun h4 => sameIds_node h4.replaced) h3
    · exact sameIds_at hi

theorem sameIds_none {fo : FloatOps} {o : TOpts} {k : Nat} {x y : Node} (h : x.setId 0 = y.setId 0) :
    SameIds (transformNode fo o none k x) (transformNode fo o none k y) := by
  cases k with
  | zero => exact fun _ => rfl
  | succ k =>
    cases x with
    | rule r => rw [setId_rule h]; exact fun _ => rfl
    | «at» a =>
      obtain ⟨i, rfl⟩ := setId_at h
      rw [transformNode, transformNode]
      by_cases hi : a.name = b!"import"
      · unfold transformAt
        rw [if_pos hi, if_pos hi]
        exact fun _ => rfl
      · exact sameIds_at hi

/-! ### Where at-rules come from -/

theorem lookupImport_key {m : List (AtId × Stylesheet)} {k : AtId} {ss : Stylesheet} (h : lookupImport m k = some ss) : (k, ss) ∈ m := by
  induction m with
  | nil => cases h
  | cons x m ih =>
    unfold lookupImport at h
    split at h
    · rename_i h1; cases h; subst h1; exact List.mem_cons_self
    · exact List.mem_cons_of_mem _ (ih h)

theorem mapConcat_from {f : Node → T (List Node)} {P : AtRule → Prop} : ∀ {xs : List Node} {s s' : TSt} {out : List Node},
    (∀ x ∈ xs, ∀ s s' out, f x s = .ok out s' → ∀ a, Node.at a ∈ out → P a) → mapConcat f xs s = .ok out s' →
    ∀ a, Node.at a ∈ out → P a := by
  intro xs
  induction xs with
  | nil => intro s s' out _ h a ha; obtain ⟨rfl, -⟩ := tpure_ok h; cases ha
  | cons x xs ih =>
    intro s s' out hf h a ha
    obtain ⟨o1, s1, o2, h1, h2, rfl⟩ := mapConcat_cons_ok h
    rcases List.mem_append.1 ha with h3 | h3
    · exact hf x List.mem_cons_self _ _ _ h1 a h3
    · exact ih (fun y hy => hf y (List.mem_cons_of_mem _ hy)) h2 a h3

theorem transformRule_from {fo : FloatOps} {o : TOpts} {k : Nat} {r : QRule} {s s' : TSt} {out : List Node}
    (h : transformRule fo o k r s = .ok out s') (a : AtRule) : Node.at a ∉ out := by
  intro ha
  obtain ⟨sp, pre, blk⟩ := r
  unfold transformRule at h
  dsimp only at h
  cases pre with
  | nil => cases h
  | keyframes ksp ks => cases h
  | sels l =>
    dsimp only at h
    cases hc : collectsRoot l.sels with
    | none => rw [hc] at h; cases h
    | some root =>
      rw [hc] at h
      cases blk with
      | none => cases h
      | some b =>
        dsimp only at h
        obtain ⟨d1, s1, -, h⟩ := tbind_ok h
        obtain ⟨d2, s2, -, h⟩ := tbind_ok h
        by_cases he : d2.isEmpty = true
        · rw [if_pos he] at h
          obtain ⟨rfl, -⟩ := tpure_ok h; cases ha
        · rw [if_neg he] at h
          obtain ⟨rfl, -⟩ := tpure_ok h
          simp at ha

/-- At-rules of the output have the numbers of at-rules of the input or of replacements. -/
theorem transformNode_from {fo : FloatOps} {o : TOpts} {repl : Replacements} {Q : Nat → Prop}
    (hm : ∀ m, repl = some m → ∀ kv ∈ m, ∀ a, Node.at a ∈ kv.2.nodes → Q a.src) : ∀ {k : Nat} {x : Node} {s s' : TSt} {out : List Node},
    (∀ a, x = .at a → Q a.src) → transformNode fo o repl k x s = .ok out s' → ∀ a, Node.at a ∈ out → Q a.src
  | 0, _, _, _, _, _, h => by cases h
  | k + 1, .rule r, s, s', out, _, h => fun a ha => (transformRule_from h a ha).elim
  | k + 1, .at b, s, s', out, hx, h => by
    intro a ha
    have hb := hx b rfl
    rw [transformNode] at h
    have one : ∀ {c : AtRule}, c.src = b.src → (pure [Node.at c] : T (List Node)) s = .ok out s' → Q a.src := by
      intro c hc h
      obtain ⟨rfl, -⟩ := tpure_ok h
      simp at ha
      subst ha
      rw [hc]
      exact hb
    unfold transformAt at h
    by_cases hi : b.name = b!"import"
    · rw [if_pos hi] at h
      cases repl with
      | none =>
        obtain ⟨rfl, -⟩ := tpure_ok h
        simp at ha
        subst ha
        exact hb
      | some m =>
        dsimp only at h
        cases hl : lookupImport m b.id with
        | none => rw [hl] at h; exact one rfl h
        | some ss =>
          rw [hl] at h
          obtain ⟨-, s1, -, h⟩ := tbind_ok h
          exact mapConcat_from (fun x hx s s' out h => transformNode_from hm (fun c hc => hm m rfl _ (lookupImport_key hl) c (hc ▸ hx)) h) h a ha
    · rw [if_neg hi] at h
      by_cases hc : b.name = b!"custom-media"
      · rw [if_pos hc] at h
        obtain ⟨-, s1, -, h⟩ := tbind_ok h
        obtain ⟨rfl, -⟩ := tpure_ok h
        cases ha
      · rw [if_neg hc] at h
        by_cases hd : b.name = b!"media"
        · rw [if_pos hd] at h
          obtain ⟨bsrc, bsp, bname, pres, bblock⟩ := b
          dsimp only at h
          match pres, h with
          | .mql (some l) :: rest, h =>
            obtain ⟨qs, s1, -, h⟩ := tbind_ok h
            obtain ⟨rfl, -⟩ := tpure_ok h
            simp at ha
            subst ha
            exact hb
          | [], h => cases h
          | .mql none :: _, h => cases h
          | .ident .. :: _, h => cases h
          | .mq .. :: _, h => cases h
          | .str .. :: _, h => cases h
        · rw [if_neg hd] at h
          exact one rfl h

/-! ### Printing -/

theorem print_plainIds (src : Option Source) {ss ss' : Stylesheet} (h : plainIds ss.nodes = plainIds ss'.nodes) :
    print src ss = print src ss' := by
  have hn : ∀ x : Node, printNode src (x.setId 0) = printNode src x := fun x => by cases x <;> rfl
  have hl : ∀ ns : List Node, printNodes src (plainIds ns) = printNodes src ns := by
    intro ns
    induction ns with
    | nil => rfl
    | cons x xs ih =>
      show (do printNode src (x.setId 0); printNodes src (plainIds xs)) = _
      rw [hn, ih]
      rfl
  unfold print
  rw [← hl ss.nodes, h, hl]

end Cssc
