import Verif.Proofs.TransformNodes

/-!
# Inlining imports
-/

namespace Cssc

/-- `m'` returns what `m` returns. -/
structure TLe (m m' : T α) : Prop where
  run : ∀ s a s', m s = .ok a s' → m' s = .ok a s'

theorem TLe.refl (m : T α) : TLe m m := ⟨fun _ _ _ h => h⟩

theorem TLe.timeout (m : T α) : TLe T.timeout m := ⟨fun _ _ _ h => by cases h⟩

theorem TLe.bind {m m' : T α} {f f' : α → T β} (hm : TLe m m') (hf : ∀ a, TLe (f a) (f' a)) :
    TLe (m >>= f) (m' >>= f') := ⟨fun s b s' h => by
  obtain ⟨a, s1, h1, h2⟩ := tbind_ok h
  rw [tbind_eq_ok (hm.run _ _ _ h1)]
  exact (hf a).run _ _ _ h2⟩

theorem TLe.ite {c : Prop} [Decidable c] {a b a' b' : T α} (ha : TLe a a') (hb : TLe b b') :
    TLe (if c then a else b) (if c then a' else b') := by split <;> assumption

theorem TLe.mapConcat {f f' : α → T (List β)} : ∀ {xs : List α}, (∀ x ∈ xs, TLe (f x) (f' x)) →
    TLe (mapConcat f xs) (mapConcat f' xs)
  | [], _ => .refl _
  | x :: xs, h => by
    rw [Cssc.mapConcat, Cssc.mapConcat]
    exact .bind (h x (List.mem_cons_self ..)) fun _ =>
      .bind (TLe.mapConcat fun y hy => h y (List.mem_cons_of_mem _ hy)) fun _ => .refl _

theorem TLe.reduceCalc {fo : FloatOps} {o : TOpts} {rec rec' : List Value → T (List Value)} {v : Value} {name : Bytes}
    {args cur : List Value} (h : ∀ vs, TLe (rec vs) (rec' vs)) :
    TLe (reduceCalc fo o rec v name args cur) (reduceCalc fo o rec' v name args cur) := by
  unfold Cssc.reduceCalc
  refine .ite (.refl _) (.ite (.refl _) ?_)
  split
  · refine .bind (h _) fun _ => ?_
    split
    · refine .bind (h _) fun _ => .bind (h _) fun _ => .refl _
    · exact .refl _
    · exact .refl _
  · exact .refl _

/-- More fuel. -/
theorem TLe.transformValue (fo : FloatOps) (o : TOpts) : ∀ (n : Nat) (v : Value),
    TLe (transformValue fo o n v) (transformValue fo o (n + 1) v)
  | 0, _ => .timeout _
  | n + 1, v => by
    cases v with
    | func sp name args =>
      rw [Cssc.transformValue, Cssc.transformValue]
      exact .bind (.refl _) fun _ => .reduceCalc fun vs => .mapConcat fun x _ => TLe.transformValue fo o n x
    | _ => exact .refl _

theorem TLe.transformDeclarations (fo : FloatOps) (o : TOpts) (n : Nat) (ds : List Decl) :
    TLe (transformDeclarations fo o n ds) (transformDeclarations fo o (n + 1) ds) := .mapConcat fun d _ => by
  cases d with
  | raw => exact .refl _
  | decl sp prop vals imp => exact .bind (.mapConcat fun v _ => .transformValue fo o n v) fun _ => .refl _

theorem TLe.transformRule (fo : FloatOps) (o : TOpts) (n : Nat) (r : QRule) :
    TLe (transformRule fo o n r) (transformRule fo o (n + 1) r) := by
  unfold Cssc.transformRule
  split
  · split
    · exact .refl _
    · split
      · exact .refl _
      · exact .bind (.refl _) fun _ => .bind (.transformDeclarations ..) fun _ => .refl _
  · exact .refl _
  · exact .refl _

theorem TLe.transformNode (fo : FloatOps) (o : TOpts) (repl : Replacements) : ∀ (n : Nat) (x : Node),
    TLe (transformNode fo o repl n x) (transformNode fo o repl (n + 1) x)
  | 0, _ => .timeout _
  | n + 1, .rule r => by
    rw [Cssc.transformNode, Cssc.transformNode]
    exact .transformRule ..
  | n + 1, .at a => by
    rw [Cssc.transformNode, Cssc.transformNode]
    unfold transformAt
    refine .ite ?_ (.refl _)
    split
    · exact .refl _
    · split
      · exact .refl _
      · exact .bind (.refl _) fun _ => .mapConcat fun x _ => TLe.transformNode fo o _ n x

theorem TLe.transformNodes (fo : FloatOps) (o : TOpts) (repl : Replacements) (n : Nat) (ns : List Node) :
    TLe (transformNodes fo o repl n ns) (transformNodes fo o repl (n + 1) ns) :=
  .mapConcat fun x _ => .transformNode fo o repl n x

/-- The nodes that are not imports do not look at the replacements. -/
theorem transformNode_repl {fo : FloatOps} {o : TOpts} {repl repl' : Replacements} {n : Nat} {x : Node}
    (h : ∀ a, x = .at a → a.name ≠ b!"import") : transformNode fo o repl n x = transformNode fo o repl' n x := by
  cases n with
  | zero => rfl
  | succ n =>
    cases x with
    | rule r => rw [transformNode, transformNode]
    | «at» a =>
      rw [transformNode, transformNode]
      unfold transformAt
      rw [if_neg (h a rfl), if_neg (h a rfl)]

theorem transformNode_import {fo : FloatOps} {o : TOpts} {n : Nat} {a : AtRule} {s : TSt} (h : a.name = b!"import") :
    transformNode fo o (some []) (n + 1) (.at a) s = .ok [.at a] s := by
  rw [transformNode]
  unfold transformAt
  rw [if_pos h]
  rfl

/-- Transforming with replacements is transforming the inlined nodes; only the warnings about conditional
imports are missing from the log. -/
theorem transformNodes_inlined {fo : FloatOps} {o : TOpts} {m : List (AtId × Stylesheet)} : ∀ {n : Nat} {ns out : List Node}
    {s s' : TSt}, transformNodes fo o (some m) n ns s = .ok out s' →
    ∃ flat d, Inlined m ns flat ∧ (s.log ++ d).Sublist s'.log ∧
      transformNodes fo o (some []) n flat s = .ok out { s' with log := s.log ++ d } := by
  intro n
  induction n with
  | zero =>
    intro ns out s s' h
    cases ns with
    | nil =>
      obtain ⟨rfl, rfl⟩ := tpure_ok h
      refine ⟨[], [], .nil, by simp, ?_⟩
      rw [List.append_nil]
      rfl
    | cons x xs =>
      obtain ⟨o1, s1, o2, h1, _⟩ := mapConcat_cons_ok h
      cases h1
  | succ n ihn =>
    intro ns
    induction ns with
    | nil =>
      intro out s s' h
      obtain ⟨rfl, rfl⟩ := tpure_ok h
      refine ⟨[], [], .nil, by simp, ?_⟩
      rw [List.append_nil]
      rfl
    | cons x xs ih =>
      intro out s s' h
      obtain ⟨o1, s1, o2, h1, h2, rfl⟩ := mapConcat_cons_ok h
      obtain ⟨flat2, d2, i2, l2, r2⟩ := ih h2
      -- the first node
      have first : ∃ flat1 d1, (Inlined m (x :: xs) (flat1 ++ flat2)) ∧ (s.log ++ d1).Sublist s1.log ∧
          transformNodes fo o (some []) (n + 1) flat1 s = .ok o1 { s1 with log := s.log ++ d1 } := by
        have same : transformNode fo o (some []) (n + 1) x s = .ok o1 s1 →
            ∃ d1, (s.log ++ d1).Sublist s1.log ∧
              transformNodes fo o (some []) (n + 1) [x] s = .ok o1 { s1 with log := s.log ++ d1 } := by
          intro h1
          obtain ⟨d1, e1, _⟩ := (LogIrr.transformNode fo o (some []) (n + 1) x).run _ _ _ h1
          refine ⟨d1, by rw [e1]; exact .refl _, ?_⟩
          rw [← e1]
          have := mapConcat_cons_eq h1 (show mapConcat (transformNode fo o (some []) (n + 1)) [] s1 = .ok [] s1 from rfl)
          rwa [List.append_nil] at this
        cases x with
        | rule r =>
          rw [transformNode_repl (repl' := some []) (fun a e => by cases e)] at h1
          obtain ⟨d1, e1, e2⟩ := same h1
          exact ⟨[.rule r], d1, .rule i2, e1, e2⟩
        | «at» a =>
          by_cases hname : a.name = b!"import"
          · rw [transformNode] at h1
            unfold transformAt at h1
            rw [if_pos hname] at h1
            dsimp only at h1
            rcases hl : lookupImport m a.id with _ | ss <;> rw [hl] at h1 <;> dsimp only at h1 <;>
              rw [← replacement_eq] at hl
            · obtain ⟨rfl, rfl⟩ := tpure_ok h1
              obtain ⟨d1, e1, e2⟩ := same (transformNode_import hname)
              exact ⟨[.at a], d1, .keep (fun _ => hl) i2, e1, e2⟩
            · obtain ⟨_, s0, h0, h1⟩ := tbind_ok h1
              obtain ⟨flat1, d1, i1, l1, r1⟩ := ihn h1
              have hlog : ∃ d0, s0 = { s with log := s.log ++ d0 } := by
                unfold whenT at h0
                split at h0
                · cases h0
                  exact ⟨_, rfl⟩
                · obtain ⟨_, rfl⟩ := tpure_ok h0
                  exact ⟨[], by simp⟩
              obtain ⟨d0, rfl⟩ := hlog
              refine ⟨flat1, d1, .replace hname hl i1 i2, ?_, ?_⟩
              · refine List.Sublist.trans ?_ l1
                dsimp only
                rw [List.append_assoc]
                exact (List.Sublist.refl _).append (List.sublist_append_right _ _)
              · have r1' := (TLe.transformNodes fo o (some []) n flat1).run _ _ _ r1
                obtain ⟨e, he, hk⟩ := (LogIrr.transformNodes fo o (some []) (n + 1) flat1).run _ _ _ r1'
                have := hk s.log
                dsimp only at this he
                rw [← List.append_cancel_left he] at this
                exact this
          · rw [transformNode_repl (repl' := some []) (fun b e => by cases e; exact hname)] at h1
            obtain ⟨d1, e1, e2⟩ := same h1
            exact ⟨[.at a], d1, .keep (fun e => absurd e hname) i2, e1, e2⟩
      obtain ⟨flat1, d1, i1, l1, r1⟩ := first
      refine ⟨flat1 ++ flat2, d1 ++ d2, i1, ?_, ?_⟩
      · rw [← List.append_assoc]
        exact (l1.append (List.Sublist.refl _)).trans l2
      · obtain ⟨e, he, hk⟩ := (LogIrr.transformNodes fo o (some []) (n + 1) flat2).run _ _ _ r2
        have := hk (s.log ++ d1)
        dsimp only at he this
        rw [← List.append_cancel_left he, List.append_assoc] at this
        exact mapConcat_append_eq r1 this

/-- Without a map of replacements, every import comes out twice. -/
theorem transformNodes_doubled {fo : FloatOps} {o : TOpts} {n : Nat} : ∀ {ns out : List Node} {s s' : TSt},
    transformNodes fo o none n ns s = .ok out s' → transformNodes fo o (some []) n (doubleImports ns) s = .ok out s'
  | [], out, s, s', h => h
  | x :: xs, out, s, s', h => by
    obtain ⟨o1, s1, o2, h1, h2, rfl⟩ := mapConcat_cons_ok h
    have ih := transformNodes_doubled h2
    unfold doubleImports at ih ⊢
    rw [List.flatMap_cons]
    refine mapConcat_append_eq ?_ ih
    have same : transformNode fo o (some []) n x s = .ok o1 s1 →
        mapConcat (transformNode fo o (some []) n) [x] s = .ok o1 s1 := by
      intro h1
      have := mapConcat_cons_eq h1 (show mapConcat (transformNode fo o (some []) n) [] s1 = .ok [] s1 from rfl)
      rwa [List.append_nil] at this
    cases x with
    | rule r =>
      rw [transformNode_repl (repl' := some []) (fun a e => by cases e)] at h1
      exact same h1
    | «at» a =>
      dsimp only
      split
      · rename_i hname
        cases n with
        | zero => cases h1
        | succ n =>
          rw [transformNode] at h1
          unfold transformAt at h1
          rw [if_pos hname] at h1
          obtain ⟨rfl, rfl⟩ := tpure_ok h1
          exact mapConcat_cons_eq (transformNode_import hname) (mapConcat_cons_eq (transformNode_import hname) rfl)
      · rename_i hname
        rw [transformNode_repl (repl' := some []) (fun b e => by cases e; exact hname)] at h1
        exact same h1

end Cssc
