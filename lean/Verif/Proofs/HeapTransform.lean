import Verif.CompileHeap
import Verif.Props.Again

/-!
# Transforming in place

What `hTransform` does to the memory is what `transform` does to values, provided the nodes of imported stylesheets
are no longer changed.
-/

namespace Cssc

/-! ### Nodes that are no longer changed -/

/-- No matter how often, and with which replacements of other imports, the node is transformed, it stays. -/
def Settled (fo : FloatOps) (o : TOpts) (nd : Node) : Prop :=
  ∀ m : List (AtId × Stylesheet), (∀ a, nd = .at a → a.name = b!"import" → lookupImport m a.id = none) →
    ∀ k t out s', t.vars = none → t.media = none → transformNode fo o (some m) k nd t = .ok out s' →
      out = [nd] ∧ s'.vars = none ∧ s'.media = none

/-- More fuel gives the same rule. -/
theorem rule_up {fo : FloatOps} {o : TOpts} {n k : Nat} (hk : n ≤ k) {r : QRule} {s s' : TSt} {out : List Node} (hv : s.vars = none)
    (e : transformRule fo o n r s = .ok out s') : transformRule fo o k r s = .ok out s' := by
  obtain ⟨sp, pre, blk⟩ := r
  unfold transformRule at e ⊢
  dsimp only at e ⊢
  cases pre with
  | nil => cases e
  | keyframes ksp ks => exact e
  | sels l =>
    dsimp only at e ⊢
    cases hc : collectsRoot l.sels with
    | none => rw [hc] at e; cases e
    | some root =>
      rw [hc] at e
      cases blk with
      | none => cases e
      | some b =>
        dsimp only at e ⊢
        have h0 : (if root = true then collectVars b.decls else pure b.decls : T (List Decl)) s = .ok b.decls s := by
          split
          · exact collectVars_none hv
          · rfl
        rw [tbind_eq_ok h0] at e ⊢
        obtain ⟨ds, s1, e1, e2⟩ := tbind_ok e
        have st : ∀ d, Steady (transformDecl fo o n d) (transformDecl fo o k d) := by
          intro d
          cases d with
          | raw => exact steady_pure _
          | decl sp prop vals imp =>
            unfold transformDecl transformValues
            exact steady_bind (steady_mapConcat (fun x => steady_transformValue hk x) vals) fun _ => steady_pure _
        obtain ⟨reps, rfl, h⟩ := steady_mapConcat st b.decls _ _ _ e1
        rw [tbind_eq_ok (show transformDeclarations fo o k b.decls s = _ from h s rfl)]
        exact e2

theorem settled_of {fo : FloatOps} {o : TOpts} {m : List (AtId × Stylesheet)} {n : Nat} {nd : Node} {s s' : TSt} {out : List Node}
    (ho : o.customMediaQueries = false) (hs : s.Still o) (e : transformNode fo o (some m) n nd s = .ok out s') :
    s'.Still o ∧ ∀ x ∈ out, Settled fo o x := by
  have calm : ∀ x, Reach (some m) [nd] x → x.calm o := fun x _ h => by rw [ho] at h; cases h
  refine ⟨(node_fixed (k := n) (by omega) hs calm e).1, fun x hx m' hm' k t out' s2 hv hm e' => ?_⟩
  have hf := (node_fixed (k := n + k) (by omega) hs calm e).2 x hx t hv (.inl hm)
  obtain ⟨reps, hf⟩ := hf
  suffices h : out' = [x] ∧ s2 = t.plus reps ∨ (out' = [x] ∧ s2 = t) by
    rcases h with ⟨h1, rfl⟩ | ⟨h1, rfl⟩
    · exact ⟨h1, hv, hm⟩
    · exact ⟨h1, hv, hm⟩
  cases k with
  | zero => cases x <;> cases e'
  | succ k =>
    cases x with
    | rule r =>
      rw [transformNode] at e' hf
      have := rule_up (k := n + (k + 1) + 1) (by omega) hv e'
      rw [hf] at this
      cases this
      exact .inl ⟨rfl, rfl⟩
    | «at» a =>
      rw [transformNode] at e' hf
      unfold transformAt at e' hf
      by_cases hi : a.name = b!"import"
      · rw [if_pos hi] at e'
        dsimp only at e'
        rw [hm' a rfl hi] at e'
        cases e'
        exact .inr ⟨rfl, rfl⟩
      · rw [if_neg hi] at e' hf
        rw [hf] at e'
        cases e'
        exact .inl ⟨rfl, rfl⟩

/-! ### Memory -/

/-- The stylesheets of a map, as values. -/
def hvals (mem : List Node) (l : List (κ × HSheet)) : List (κ × Stylesheet) := l.map fun x => (x.1, x.2.value mem)

theorem hvals_import (mem : List Node) (k : AtId) : ∀ l : List (AtId × HSheet),
    lookupImport (hvals mem l) k = (hLookupImport l k).map (HSheet.value mem)
  | [] => rfl
  | (k', h) :: l => by
    unfold hLookupImport
    show lookupImport ((k', h.value mem) :: hvals mem l) k = _
    unfold lookupImport
    split
    · rfl
    · exact hvals_import mem k l

theorem hvals_lookup [DecidableEq κ] (mem : List Node) (k : κ) : ∀ l : List (κ × HSheet),
    lookupMap (hvals mem l) k = (lookupMap l k).map (HSheet.value mem)
  | [] => rfl
  | (k', h) :: l => by
    show lookupMap ((k', h.value mem) :: hvals mem l) k = _
    unfold lookupMap
    split
    · rfl
    · exact hvals_lookup mem k l

theorem hLookupImport_mem {m : List (AtId × HSheet)} {k : AtId} {h : HSheet} (e : hLookupImport m k = some h) : (k, h) ∈ m := by
  induction m with
  | nil => cases e
  | cons x m ih =>
    unfold hLookupImport at e
    split at e
    · rename_i h1
      cases e
      subst h1
      simp
    · exact List.mem_cons_of_mem _ (ih e)

theorem cell_set_self {mem : List Node} {p : Nat} (hp : p < mem.length) (nd : Node) : cell (mem.set p nd) p = nd := by
  unfold cell
  rw [List.getD_eq_getElem?_getD, List.getElem?_set_self hp]
  rfl

theorem cell_set_ne {mem : List Node} {p q : Nat} (h : q ≠ p) (nd : Node) : cell (mem.set p nd) q = cell mem q := by
  unfold cell
  rw [List.getD_eq_getElem?_getD, List.getD_eq_getElem?_getD, List.getElem?_set_ne (Ne.symm h)]

theorem set_cell {mem : List Node} {p : Nat} (hp : p < mem.length) : mem.set p (cell mem p) = mem := by
  apply List.ext_getElem?
  intro i
  by_cases h : i = p
  · subst h
    rw [List.getElem?_set_self hp]
    unfold cell
    rw [List.getD_eq_getElem?_getD, List.getElem?_eq_getElem hp]
    rfl
  · rw [List.getElem?_set_ne (Ne.symm h)]

theorem map_cell_congr {mem mem' : List Node} {ps : List Nat} (h : ∀ p ∈ ps, cell mem' p = cell mem p) :
    ps.map (cell mem') = ps.map (cell mem) := List.map_congr_left h

theorem tbind_crash {m : T α} {f : α → T β} {s : TSt} (h : m s = .crash) : (m >>= f) s = .crash := by
  show T.bind m f s = _
  unfold T.bind
  rw [h]

theorem tbind_timeout {m : T α} {f : α → T β} {s : TSt} (h : m s = .timeout) : (m >>= f) s = .timeout := by
  show T.bind m f s = _
  unfold T.bind
  rw [h]

/-- Two runs agree: they end in the same way, and what is returned is related. -/
inductive Agree (Q : List Node → List Nat → List Node → TSt → Prop) : TRes (List Node) → TRes (List Nat × List Node) → Prop where
  | ok {out : List Node} {qs : List Nat} {mem : List Node} {s : TSt} : Q out qs mem s → Agree Q (.ok out s) (.ok (qs, mem) s)
  | crash : Agree Q .crash .crash
  | timeout : Agree Q .timeout .timeout

theorem Agree.mono {Q R : List Node → List Nat → List Node → TSt → Prop} {a : TRes (List Node)} {b : TRes (List Nat × List Node)}
    (h : Agree Q a b) (hq : ∀ out qs mem s, Q out qs mem s → R out qs mem s) : Agree R a b := by
  cases h with
  | ok h => exact .ok (hq _ _ _ _ h)
  | crash => exact .crash
  | timeout => exact .timeout

/-- The value level and the memory level, one after the other. -/
theorem agree_cons {f : Node → T (List Node)} {g : Nat → List Node → T (List Nat × List Node)} {Q R : List Node → List Nat → List Node → TSt → Prop}
    {x : Node} {xs : List Node} {p : Nat} {ps : List Nat} {mem : List Node} {s : TSt} (h1 : Agree Q (f x s) (g p mem s))
    (h2 : ∀ o1 q1 mem1 s1, f x s = .ok o1 s1 → Q o1 q1 mem1 s1 →
      Agree (fun o2 q2 mem2 s2 => R (o1 ++ o2) (q1 ++ q2) mem2 s2) (mapConcat f xs s1) (hList g ps mem1 s1)) :
    Agree R (mapConcat f (x :: xs) s) (hList g (p :: ps) mem s) := by
  rw [mapConcat, hList]
  rcases e1 : f x s with ⟨o1, s1⟩ | _ | _
  · rcases e2 : g p mem s with ⟨⟨q1, mem1⟩, s1'⟩ | _ | _
    · rw [e1, e2] at h1
      cases h1 with
      | ok hq =>
        have h3 := h2 o1 q1 mem1 s1 e1 hq
        rw [tbind_eq_ok e1, tbind_eq_ok e2]
        dsimp only
        rcases e3 : mapConcat f xs s1 with ⟨o2, s2⟩ | _ | _
        · rcases e4 : hList g ps mem1 s1 with ⟨⟨q2, mem2⟩, s2'⟩ | _ | _
          · rw [e3, e4] at h3
            cases h3 with
            | ok hr => rw [tbind_eq_ok e3, tbind_eq_ok e4]; exact .ok hr
          · rw [e3, e4] at h3; cases h3
          · rw [e3, e4] at h3; cases h3
        · rcases e4 : hList g ps mem1 s1 with ⟨⟨q2, mem2⟩, s2'⟩ | _ | _
          · rw [e3, e4] at h3; cases h3
          · rw [tbind_crash e3, tbind_crash e4]; exact .crash
          · rw [e3, e4] at h3; cases h3
        · rcases e4 : hList g ps mem1 s1 with ⟨⟨q2, mem2⟩, s2'⟩ | _ | _
          · rw [e3, e4] at h3; cases h3
          · rw [e3, e4] at h3; cases h3
          · rw [tbind_timeout e3, tbind_timeout e4]; exact .timeout
    · rw [e1, e2] at h1; cases h1
    · rw [e1, e2] at h1; cases h1
  · rcases e2 : g p mem s with ⟨⟨q1, mem1⟩, s1'⟩ | _ | _
    · rw [e1, e2] at h1; cases h1
    · rw [tbind_crash e1, tbind_crash e2]; exact .crash
    · rw [e1, e2] at h1; cases h1
  · rcases e2 : g p mem s with ⟨⟨q1, mem1⟩, s1'⟩ | _ | _
    · rw [e1, e2] at h1; cases h1
    · rw [e1, e2] at h1; cases h1
    · rw [tbind_timeout e1, tbind_timeout e2]; exact .timeout

/-! ### One node -/

/-- What happens to a rule. -/
theorem transformRule_out {fo : FloatOps} {o : TOpts} {n : Nat} {r : QRule} {s s' : TSt} {out : List Node}
    (e : transformRule fo o n r s = .ok out s') : out = [] ∨ ∃ r', out = [.rule r'] := by
  obtain ⟨sp, pre, blk⟩ := r
  unfold transformRule at e
  dsimp only at e
  cases pre with
  | nil => cases e
  | keyframes ksp ks =>
    obtain ⟨_, s1, _, e2⟩ := tbind_ok e
    cases e2
  | sels l =>
    dsimp only at e
    cases hc : collectsRoot l.sels with
    | none => rw [hc] at e; cases e
    | some root =>
      rw [hc] at e
      cases blk with
      | none => cases e
      | some b =>
        obtain ⟨ds, s1, _, e2⟩ := tbind_ok e
        obtain ⟨ds', s2, _, e3⟩ := tbind_ok e2
        clear e e2
        split at e3
        · cases e3; exact .inl rfl
        · cases e3; exact .inr ⟨_, rfl⟩

/-- What a run may do to the memory: only the cells `ps` change, at-rules keep their identity, and the result is the
values of the pointers, which lead to `ps` or to `D`. -/
structure InPlace (ps : List Nat) (D : Nat → Prop) (mem : List Node) (out : List Node) (qs : List Nat) (mem' : List Node) : Prop where
  out : out = qs.map (cell mem')
  len : mem'.length = mem.length
  same : ∀ p, p ∉ ps → cell mem' p = cell mem p
  ids : ∀ p a', cell mem' p = .at a' → ∃ a, cell mem p = .at a ∧ a.id = a'.id
  from' : ∀ q ∈ qs, q ∈ ps ∨ D q

theorem InPlace.keep {D : Nat → Prop} {mem : List Node} {qs : List Nat} {ps : List Nat} (h : ∀ q ∈ qs, q ∈ ps ∨ D q) :
    InPlace ps D mem (qs.map (cell mem)) qs mem :=
  ⟨rfl, rfl, fun _ _ => rfl, fun _ a' h => ⟨a', h, rfl⟩, h⟩

theorem InPlace.write {D : Nat → Prop} {mem : List Node} {p : Nat} (hp : p < mem.length) {nd : Node}
    (h : ∀ a', nd = .at a' → ∃ a, cell mem p = .at a ∧ a.id = a'.id) : InPlace [p] D mem [nd] [p] (mem.set p nd) := by
  refine ⟨by simp [cell_set_self hp], by simp, fun q hq => cell_set_ne (by simpa using hq) nd, fun q a' hq => ?_, by simp⟩
  by_cases hqp : q = p
  · subst hqp
    rw [cell_set_self hp] at hq
    exact h a' hq
  · rw [cell_set_ne hqp] at hq
    exact ⟨a', hq, rfl⟩

theorem InPlace.drop {D : Nat → Prop} {mem : List Node} {p : Nat} (hp : p < mem.length) (r : QRule) :
    InPlace [p] D mem [] [] (mem.set p (.rule r)) := by
  refine ⟨rfl, by simp, fun q hq => cell_set_ne (by simpa using hq) _, fun q a' hq => ?_, by simp⟩
  by_cases hqp : q = p
  · subst hqp
    rw [cell_set_self hp] at hq
    cases hq
  · rw [cell_set_ne hqp] at hq
    exact ⟨a', hq, rfl⟩

/-- The imported nodes: none of them is changed. -/
theorem settled_list {fo : FloatOps} {o : TOpts} {m : List (AtId × HSheet)} {m' : List (AtId × Stylesheet)} {k : Nat} {mem : List Node}
    (hm : ∀ i, hLookupImport m i = none → lookupImport m' i = none) : ∀ {ps : List Nat},
    (∀ p ∈ ps, p < mem.length ∧ Settled fo o (cell mem p) ∧ ∀ a, cell mem p = .at a → hLookupImport m a.id = none) →
    ∀ t : TSt, t.vars = none → t.media = none →
    Agree (fun out qs mem2 s => out = ps.map (cell mem) ∧ qs = ps ∧ mem2 = mem ∧ s.vars = none ∧ s.media = none)
      (mapConcat (transformNode fo o (some m') k) (ps.map (cell mem)) t) (hList (hNode fo o (some m) k) ps mem t)
  | [], _, t, hv, hmd => .ok ⟨rfl, rfl, rfl, hv, hmd⟩
  | p :: ps, h, t, hv, hmd => by
    have hp := h p (List.mem_cons_self ..)
    refine agree_cons (Q := fun out qs mem2 s => out = [cell mem p] ∧ qs = [p] ∧ mem2 = mem ∧ s.vars = none ∧ s.media = none) ?_ ?_
    · obtain ⟨h1, h2, h3⟩ := hp
      have h2 := h2 m' (fun a ha _ => hm _ (h3 a ha)) k t
      have h4 := set_cell h1
      revert h2 h4
      cases k with
      | zero => intro _ _; cases cell mem p <;> exact .timeout
      | succ k =>
        rw [hNode]
        cases hc : cell mem p with
        | rule r =>
          intro h2 h4
          rw [transformNode] at h2 ⊢
          dsimp only
          rcases e : transformRule fo o (k + 1) r t with ⟨out, s'⟩ | _ | _
          · obtain ⟨rfl, h6, h7⟩ := h2 out s' hv hmd e
            rw [tbind_eq_ok e]
            dsimp only
            rw [h4]
            exact .ok ⟨rfl, rfl, rfl, h6, h7⟩
          · rw [tbind_crash e]; exact .crash
          · rw [tbind_timeout e]; exact .timeout
        | «at» a =>
          intro h2 h4
          rw [transformNode] at h2 ⊢
          dsimp only
          unfold transformAt at h2 ⊢
          by_cases hi : a.name = b!"import"
          · rw [if_pos hi, if_pos hi]
            dsimp only
            rw [h3 a hc, hm _ (h3 a hc)]
            exact .ok ⟨rfl, rfl, rfl, hv, hmd⟩
          · rw [if_neg hi] at h2 ⊢
            rw [if_neg hi]
            by_cases hcm : a.name = b!"custom-media"
            · rw [if_pos hcm] at h2
              exfalso
              have e : (do collectMedia a.preludes; pure [] : T (List Node)) t = .ok [] t := by
                have : collectMedia a.preludes t = .ok () t := by unfold collectMedia; rw [hmd]
                rw [tbind_eq_ok this]
                rfl
              have := (h2 _ _ hv hmd e).1
              cases this
            · rw [if_neg hcm] at h2 ⊢
              rw [if_neg hcm]
              by_cases hmm : a.name = b!"media"
              · rw [if_pos hmm] at h2 ⊢
                rw [if_pos hmm]
                revert h2
                generalize a.preludes = pre
                cases pre with
                | nil => intro _; exact .crash
                | cons pr rest =>
                  cases pr with
                  | mql ol =>
                    cases ol with
                    | none => intro _; exact .crash
                    | some l =>
                      intro h2
                      dsimp only at h2 ⊢
                      rcases e : transformMediaQueries fo o l.queries t with ⟨qs, s'⟩ | _ | _
                      · rw [tbind_eq_ok e] at h2 ⊢
                        rw [tbind_eq_ok e]
                        obtain ⟨h5, h6, h7⟩ := h2 _ _ hv hmd rfl
                        have h5 := List.head_eq_of_cons_eq h5
                        rw [h5]
                        show Agree _ (.ok [_] s') (.ok ([p], mem.set p _) s')
                        rw [h4]
                        exact .ok ⟨rfl, rfl, rfl, h6, h7⟩
                      · rw [tbind_crash e, tbind_crash e]; exact .crash
                      · rw [tbind_timeout e, tbind_timeout e]; exact .timeout
                  | _ => intro _; exact .crash
              · rw [if_neg hmm, if_neg hmm]
                exact .ok ⟨rfl, rfl, rfl, hv, hmd⟩
    · rintro o1 q1 mem1 s1 _ ⟨rfl, rfl, rfl, hv1, hm1⟩
      refine (settled_list hm (fun q hq => h q (List.mem_cons_of_mem _ hq)) s1 hv1 hm1).mono ?_
      rintro out qs mem2 s ⟨rfl, rfl, rfl, h1, h2⟩
      exact ⟨rfl, rfl, rfl, h1, h2⟩

/-- What is known of the imported stylesheets: their nodes are in `D`, and settled. -/
structure Borrowed (fo : FloatOps) (o : TOpts) (D : Nat → Prop) (mem : List Node) (m : List (AtId × HSheet)) : Prop where
  off : o.customMediaQueries = false
  nodes : ∀ d ∈ m, ∀ p ∈ d.2.nodes, D p
  settled : ∀ p, D p → p < mem.length ∧ Settled fo o (cell mem p) ∧ ∀ a, cell mem p = .at a → hLookupImport m a.id = none

theorem TSt.Still.media_none {o : TOpts} {t : TSt} (h : t.Still o) (ho : o.customMediaQueries = false) : t.media = none := by
  by_cases h1 : t.media = none
  · exact h1
  · have := h.media h1
    rw [ho] at this
    cases this

/-- One node of the stylesheet itself. -/
theorem own_node {fo : FloatOps} {o : TOpts} {repl : Option (List (AtId × HSheet))} {mem0 mem : List Node} {D : Nat → Prop} {k p : Nat}
    (hr : ∀ m, repl = some m → Borrowed fo o D mem0 m) (hp : p < mem.length) (hl : mem.length = mem0.length)
    (hD : ∀ q, D q → cell mem q = cell mem0 q) {t : TSt} (ht : repl ≠ none → t.Still o) :
    Agree (fun out qs mem2 _ => InPlace [p] D mem out qs mem2)
      (transformNode fo o (repl.map (hvals mem0)) k (cell mem p) t) (hNode fo o repl k p mem t) := by
  cases k with
  | zero => cases cell mem p <;> exact .timeout
  | succ k =>
    rw [hNode]
    cases hc : cell mem p with
    | rule r =>
      rw [transformNode]
      dsimp only
      rcases e : transformRule fo o (k + 1) r t with ⟨out, s'⟩ | _ | _
      · rw [tbind_eq_ok e]
        rcases transformRule_out e with rfl | ⟨r', rfl⟩
        · exact .ok (InPlace.drop hp _)
        · exact .ok (InPlace.write hp fun _ h => by cases h)
      · rw [tbind_crash e]; exact .crash
      · rw [tbind_timeout e]; exact .timeout
    | «at» a =>
      rw [transformNode]
      dsimp only
      unfold transformAt
      have keep1 : Agree (fun out qs mem2 _ => InPlace [p] D mem out qs mem2) ((pure [.at a] : T (List Node)) t)
          ((pure ([p], mem) : T (List Nat × List Node)) t) := by
        have : InPlace [p] D mem ([p].map (cell mem)) [p] mem := InPlace.keep (by simp)
        rw [List.map_singleton, hc] at this
        exact .ok this
      by_cases hi : a.name = b!"import"
      · rw [if_pos hi, if_pos hi]
        cases repl with
        | none =>
          have : InPlace [p] D mem ([p, p].map (cell mem)) [p, p] mem := InPlace.keep (by simp)
          simp only [List.map_cons, List.map_nil, hc] at this
          exact .ok this
        | some m =>
          simp only [Option.map_some]
          rw [hvals_import]
          cases hlk : hLookupImport m a.id with
          | none => exact keep1
          | some imported =>
            simp only [Option.map_some]
            have hI := hr m rfl
            have hst := ht (by simp)
            rcases e : whenT (1 < a.preludes.length)
              (report true (some a.sp) "@import transform does not yet support @supports or media queries") t with ⟨⟨⟩, s1⟩ | _ | _
            · rw [tbind_eq_ok e, tbind_eq_ok e]
              obtain ⟨reps, rfl⟩ := (steady_when (steady_report _ _ _)).adds _ _ _ e
              have hn : ∀ q ∈ imported.nodes, D q := hI.nodes _ (hLookupImport_mem hlk)
              have h1 : (imported.value mem0).nodes = imported.nodes.map (cell mem) :=
                (map_cell_congr fun q hq => hD q (hn q hq)).symm
              rw [h1]
              refine (settled_list (fun i hi => by rw [hvals_import, hi]; rfl) (fun q hq => ?_) (t.plus reps) hst.vars
                (hst.media_none hI.off)).mono ?_
              · obtain ⟨h2, h3, h4⟩ := hI.settled q (hn q hq)
                rw [hD q (hn q hq), hl]
                exact ⟨h2, h3, h4⟩
              · rintro out qs mem2 s ⟨rfl, rfl, rfl, _, _⟩
                exact InPlace.keep fun q hq => .inr (hn q hq)
            · exfalso
              unfold whenT at e
              split at e <;> cases e
            · exfalso
              unfold whenT at e
              split at e <;> cases e
      · rw [if_neg hi, if_neg hi]
        by_cases hcm : a.name = b!"custom-media"
        · rw [if_pos hcm, if_pos hcm]
          rcases e : collectMedia a.preludes t with ⟨⟨⟩, s1⟩ | _ | _
          · rw [tbind_eq_ok e, tbind_eq_ok e]
            exact .ok (InPlace.keep (qs := []) (by simp))
          · rw [tbind_crash e, tbind_crash e]; exact .crash
          · rw [tbind_timeout e, tbind_timeout e]; exact .timeout
        · rw [if_neg hcm, if_neg hcm]
          by_cases hmm : a.name = b!"media"
          · rw [if_pos hmm, if_pos hmm]
            generalize a.preludes = pre
            cases pre with
            | nil => exact .crash
            | cons pr rest =>
              cases pr with
              | mql ol =>
                cases ol with
                | none => exact .crash
                | some l =>
                  dsimp only
                  rcases e : transformMediaQueries fo o l.queries t with ⟨qs, s'⟩ | _ | _
                  · rw [tbind_eq_ok e, tbind_eq_ok e]
                    exact .ok (InPlace.write hp fun a' h => by cases h; exact ⟨a, hc, rfl⟩)
                  · rw [tbind_crash e, tbind_crash e]; exact .crash
                  · rw [tbind_timeout e, tbind_timeout e]; exact .timeout
              | _ => exact .crash
          · rw [if_neg hmm, if_neg hmm]
            exact keep1

/-- The nodes of the stylesheet itself. -/
theorem own_list {fo : FloatOps} {o : TOpts} {repl : Option (List (AtId × HSheet))} {mem0 : List Node} {D : Nat → Prop} {k : Nat}
    (hr : ∀ m, repl = some m → Borrowed fo o D mem0 m) : ∀ {ps : List Nat} {mem : List Node}, ps.Nodup →
    (∀ p ∈ ps, p < mem.length ∧ ¬ D p) → mem.length = mem0.length → (∀ q, D q → cell mem q = cell mem0 q) →
    ∀ t : TSt, (repl ≠ none → t.Still o) →
    Agree (fun out qs mem2 _ => InPlace ps D mem out qs mem2 ∧ (repl ≠ none → ∀ x ∈ out, Settled fo o x))
      (mapConcat (transformNode fo o (repl.map (hvals mem0)) k) (ps.map (cell mem)) t) (hList (hNode fo o repl k) ps mem t)
  | [], mem, _, _, _, _, t, _ => .ok ⟨InPlace.keep (qs := []) (by simp), by simp⟩
  | p :: ps, mem, hnd, hps, hl, hD, t, ht => by
    obtain ⟨hpn, hnd⟩ := List.nodup_cons.1 hnd
    have hp := hps p (List.mem_cons_self ..)
    refine agree_cons (own_node hr hp.1 hl hD ht) fun o1 q1 mem1 s1 e1 h1 => ?_
    have hps' : ∀ q ∈ ps, q < mem1.length ∧ ¬ D q := fun q hq => by
      rw [h1.len]; exact hps q (List.mem_cons_of_mem _ hq)
    have hD1 : ∀ q, D q → cell mem1 q = cell mem q := fun q hq => h1.same q fun h => by
      rw [List.mem_singleton.1 h] at hq
      exact hp.2 hq
    have hst : repl ≠ none → s1.Still o ∧ ∀ x ∈ o1, Settled fo o x := by
      intro hn
      cases repl with
      | none => exact absurd rfl hn
      | some m => exact settled_of (hr m rfl).off (ht hn) e1
    have e2 : ps.map (cell mem) = ps.map (cell mem1) := (map_cell_congr fun q hq => h1.same q fun h => hpn (by
      rw [← List.mem_singleton.1 h]; exact hq)).symm
    rw [e2]
    refine (own_list hr hnd hps' (h1.len.trans hl) (fun q hq => (hD1 q hq).trans (hD q hq)) s1 fun hn => (hst hn).1).mono ?_
    rintro o2 q2 mem2 s2 ⟨h2, h3⟩
    refine ⟨⟨?_, h2.len.trans h1.len, fun q hq => ?_, fun q a' hq => ?_, fun q hq => ?_⟩, fun hn x hx => ?_⟩
    · rw [h2.out, List.map_append, h1.out]
      congr 1
      refine (map_cell_congr fun q hq => ?_).symm
      refine h2.same q fun hq' => ?_
      rcases h1.from' q hq with h | h
      · rw [List.mem_singleton.1 h] at hq'
        exact hpn hq'
      · exact (hps' q hq').2 h
    · rw [h2.same q fun h => hq (List.mem_cons_of_mem _ h), h1.same q fun h => hq (by
        rw [List.mem_singleton.1 h]; exact List.mem_cons_self ..)]
    · obtain ⟨a, ha, hid⟩ := h2.ids q a' hq
      obtain ⟨b, hb, hid'⟩ := h1.ids q a ha
      exact ⟨b, hb, hid'.trans hid⟩
    · rcases List.mem_append.1 hq with hq | hq
      · rcases h1.from' q hq with h | h
        · exact .inl (by rw [List.mem_singleton.1 h]; exact List.mem_cons_self ..)
        · exact .inr h
      · rcases h2.from' q hq with h | h
        · exact .inl (List.mem_cons_of_mem _ h)
        · exact .inr h
    · rcases List.mem_append.1 hx with hx | hx
      · exact (hst hn).2 x hx
      · exact h3 hn x hx

end Cssc
