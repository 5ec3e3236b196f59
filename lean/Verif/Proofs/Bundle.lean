import Verif.Proofs.TransformInline
import Verif.Proofs.CompileTab
import Verif.Props.TransformBasic
import Verif.Props.Parser
import Verif.Spec.Bundle

/-!
# Compiling without features puts the files together
-/

namespace Cssc

theorem Bundled.final {env : CEnv} {dir : Bytes} {ns flat : List Node} (h : Bundled env dir ns flat) :
    ∀ n ∈ flat, n.vain = false ∧ n.isImport = false := by
  induction h with
  | nil => simp
  | drop _ _ ih => exact ih
  | keep h1 h2 _ ih =>
    intro n hn
    rcases List.mem_cons.1 hn with rfl | hn
    · exact ⟨h1, h2⟩
    · exact ih n hn
  | imp _ _ _ _ _ _ _ _ ih1 ih2 =>
    intro n hn
    rcases List.mem_append.1 hn with hn | hn
    · exact ih1 n hn
    · exact ih2 n hn

/-- One node that is not an import, when no feature is transformed. -/
theorem transformNode_off {fo : FloatOps} {o : TOpts} {repl : Replacements} {n : Nat} {nd : Node} {out : List Node} {s s' : TSt}
    (ho : o.Off) (hv : s.vars = none) (hm : s.media = none) (hi : nd.isImport = false)
    (h : transformNode fo o repl (n + 1) nd s = .ok out s') : s' = s ∧ out = if nd.vain then [] else [nd] := by
  cases nd with
  | rule r =>
    obtain ⟨sp, pre, blk⟩ := r
    cases pre with
    | nil => cases h
    | keyframes sp ks => cases h
    | sels l =>
      cases blk with
      | none =>
        rw [transformNode] at h
        unfold transformRule at h
        dsimp only at h
        rcases hc : collectsRoot l.sels with _ | root <;> rw [hc] at h <;> cases h
      | some b =>
        rw [transformNode] at h
        unfold transformRule at h
        dsimp only at h
        rcases hc : collectsRoot l.sels with _ | root
        · rw [hc] at h; cases h
        · rw [hc] at h
          dsimp only at h
          have hc : (if root = true then collectVars b.decls else pure b.decls : T (List Decl)) s = .ok b.decls s := by
            split
            · exact collectVars_none hv
            · rfl
          rw [tbind_eq_ok hc, tbind_eq_ok (transformDeclarations_id ho.reduction hv),
            transformSelectors_id fun _ _ p _ => isAnyLink_off ho.anyLink p] at h
          show _ ∧ out = if b.decls.isEmpty then [] else _
          split at h
          · rename_i he
            obtain ⟨rfl, rfl⟩ := tpure_ok h
            rw [if_pos he]; exact ⟨rfl, rfl⟩
          · rename_i he
            obtain ⟨rfl, rfl⟩ := tpure_ok h
            rw [if_neg he]; exact ⟨rfl, rfl⟩
  | «at» a =>
    have hi : a.name ≠ b!"import" := by simpa [Node.isImport] using hi
    by_cases hc : a.name = b!"custom-media"
    · rw [transformNode] at h
      unfold transformAt collectMedia at h
      rw [if_neg hi, if_pos hc] at h
      obtain ⟨_, s1, h1, h2⟩ := tbind_ok h
      rw [hm] at h1
      cases h1
      obtain ⟨rfl, rfl⟩ := tpure_ok h2
      refine ⟨rfl, ?_⟩
      rw [if_pos (by simp [Node.vain, hc])]
    · have hvain : Node.vain (.at a) = false := by simp [Node.vain, hc]
      rw [hvain]
      have hk : KeptNode repl (.at a) := by
        unfold KeptNode
        dsimp only
        rw [if_neg hi, if_neg hc]
        split
        · rename_i hmed
          rw [transformNode] at h
          unfold transformAt at h
          rw [if_neg hi, if_neg hc, if_pos hmed] at h
          rcases hp : a.preludes with _ | ⟨p, ps⟩
          · rw [hp] at h; cases h
          · rw [hp] at h
            cases p with
            | mql l =>
              cases l with
              | none => cases h
              | some l => exact ⟨l, ps, rfl⟩
            | _ => cases h
        · trivial
      rw [transformNode_kept ho hk hv hm] at h
      cases h
      exact ⟨rfl, rfl⟩

/-- Nodes that stay. -/
theorem transformNodes_final {fo : FloatOps} {o : TOpts} {repl : Replacements} {n : Nat} : ∀ {ns out : List Node} {s s' : TSt},
    o.Off → s.vars = none → s.media = none → (∀ x ∈ ns, x.vain = false ∧ x.isImport = false) →
    mapConcat (transformNode fo o repl n) ns s = .ok out s' → s' = s ∧ out = ns
  | [], out, s, s', _, _, _, _, h => by
    obtain ⟨rfl, rfl⟩ := tpure_ok h
    exact ⟨rfl, rfl⟩
  | x :: xs, out, s, s', ho, hv, hm, hf, h => by
    obtain ⟨o1, s1, o2, h1, h2, rfl⟩ := mapConcat_cons_ok h
    cases n with
    | zero => cases h1
    | succ n =>
      obtain ⟨h3, h4⟩ := hf x (by simp)
      obtain ⟨rfl, rfl⟩ := transformNode_off ho hv hm h4 h1
      obtain ⟨rfl, rfl⟩ := transformNodes_final ho hv hm (fun y hy => hf y (by simp [hy])) h2
      rw [h3]
      exact ⟨rfl, rfl⟩

/-- What is known of the replacement of the import `r`. -/
def ReplOk (env : CEnv) (dir : Bytes) (m : List (AtId × Stylesheet)) (r : AtRule) : Prop :=
  ∃ sp v ps rel a c id ss lines ss', r.preludes = .str sp v :: ps ∧ env.resolve v dir = some rel ∧ env.abs rel = some a ∧
    env.read a = some c ∧ parse env.fuel c id = .ok ss lines ∧ lookupImport m r.id = some ss' ∧ Bundled env (dirOf a) ss.nodes ss'.nodes

theorem transformNodes_bundled {env : CEnv} {dir : Bytes} {fo : FloatOps} {o : TOpts} {m : List (AtId × Stylesheet)} {n : Nat}
    (ho : o.Off) : ∀ {ns out : List Node} {s s' : TSt},
    s.vars = none → s.media = none → (∀ r, .at r ∈ ns → r.name = b!"import" → ReplOk env dir m r) →
    transformNodes fo o (some m) n ns s = .ok out s' → s'.log = [] → Bundled env dir ns out
  | [], out, s, s', _, _, _, h, _ => by
    obtain ⟨rfl, rfl⟩ := tpure_ok h
    exact .nil
  | x :: xs, out, s, s', hv, hm, hr, h, hlog => by
    obtain ⟨o1, s1, o2, h1, h2, rfl⟩ := mapConcat_cons_ok h
    have hlog1 : s1.log = [] := by
      obtain ⟨d, e, -⟩ := (LogIrr.transformNodes fo o (some m) n xs).run _ _ _ h2
      rw [hlog] at e
      exact (List.append_eq_nil_iff.1 e.symm).1
    have hrx : ∀ r, .at r ∈ xs → r.name = b!"import" → ReplOk env dir m r := fun r hx => hr r (by simp [hx])
    cases n with
    | zero => cases h1
    | succ n =>
      by_cases hi : x.isImport = true
      · cases x with
        | rule r => cases hi
        | «at» a =>
          have hi : a.name = b!"import" := by simpa [Node.isImport] using hi
          obtain ⟨sp, v, ps, rel, b, c, id, ss, lines, ss', e1, e2, e3, e4, e5, e6, e7⟩ := hr a (by simp) hi
          rw [transformNode] at h1
          unfold transformAt at h1
          rw [if_pos hi] at h1
          dsimp only at h1
          rw [e6] at h1
          dsimp only at h1
          obtain ⟨_, s2, h3, h4⟩ := tbind_ok h1
          have hlen : ¬ 1 < a.preludes.length := by
            intro hlt
            unfold whenT at h3
            rw [if_pos hlt] at h3
            cases h3
            obtain ⟨d, e, -⟩ := (LogIrr.transformNodes fo o (some m) n ss'.nodes).run _ _ _ h4
            rw [hlog1] at e
            simp at e
          unfold whenT at h3
          rw [if_neg hlen] at h3
          obtain ⟨-, rfl⟩ := tpure_ok h3
          obtain ⟨rfl, rfl⟩ := transformNodes_final ho hv hm e7.final h4
          have hps : ps = [] := by
            rw [e1] at hlen
            cases ps with
            | nil => rfl
            | cons _ _ => simp at hlen
          subst hps
          exact .imp hi e1 e2 e3 e4 e5 e7 (transformNodes_bundled ho hv hm hrx h2 hlog)
      · have hi : x.isImport = false := by simpa using hi
        obtain ⟨rfl, rfl⟩ := transformNode_off ho hv hm hi h1
        have ih := transformNodes_bundled ho hv hm hrx h2 hlog
        split
        · exact .drop (by assumption) ih
        · rename_i hvain
          exact .keep (by simpa using hvain) hi ih

/-! ### Imports of one file are different -/

/-- The imports of a file are told apart by their positions. -/
theorem import_unique {src : Bytes} : ∀ {ns : List Node} {lo hi : Nat}, (∀ n ∈ ns, NodeOk src n) → Ordered lo hi (ns.map Node.loc) →
    ∀ {a b : AtRule}, .at a ∈ ns → .at b ∈ ns → a.name = b!"import" → b.name = b!"import" → a.id = b.id → a = b := by
  have wide : ∀ {a : AtRule}, AtOk src a → a.name = b!"import" → a.sp.start < a.sp.stop := by
    rintro a ⟨_, ⟨i, j, h1, h2, h3, h4⟩, _⟩ hn
    rw [hn] at h4
    have := congrArg List.length h4
    simp only [sub, List.length_take, List.length_drop] at this
    have h6 : (b!"import").length = 6 := by decide
    omega
  have after : ∀ {ns : List Node} {lo hi : Nat}, Ordered lo hi (ns.map Node.loc) → ∀ n ∈ ns, lo ≤ n.loc.start := by
    intro ns
    induction ns with
    | nil => simp
    | cons m ns ih =>
      intro lo hi h n hn
      obtain ⟨h1, h2, h3⟩ := h
      rcases List.mem_cons.1 hn with rfl | hn
      · exact h1
      · have := ih h3 n hn
        omega
  intro ns
  induction ns with
  | nil => simp
  | cons m ns ih =>
    intro lo hi hok ho a b ha hb hna hnb hid
    obtain ⟨h1, h2, h3⟩ := ho
    have hst : a.sp.start = b.sp.start := congrArg AtId.start hid
    have key : ∀ {a b : AtRule}, a.name = b!"import" → m = .at a → .at b ∈ ns → a.sp.start = b.sp.start → False := by
      rintro a b hna rfl hb hst
      have h4 := after h3 _ hb
      have h5 := wide (hok (.at a) (by simp)) hna
      dsimp only [Node.loc] at h4
      omega
    rcases List.mem_cons.1 ha with ha | ha
    · rcases List.mem_cons.1 hb with hb | hb
      · rw [← ha] at hb
        cases hb
        rfl
      · exact (key hna ha.symm hb hst).elim
    · rcases List.mem_cons.1 hb with hb | hb
      · exact (key hnb hb.symm ha hst.symm).elim
      · exact ih (fun n hn => hok n (by simp [hn])) h3 ha hb hna hnb hid

theorem lookupImport_mem {m : List (AtId × Stylesheet)} {k : AtId} {ss : Stylesheet} (h : lookupImport m k = some ss) : (k, ss) ∈ m := by
  induction m with
  | nil => cases h
  | cons x m ih =>
    unfold lookupImport at h
    split at h
    · rename_i h1
      cases h
      subst h1
      simp
    · exact List.mem_cons_of_mem _ (ih h)

theorem lookupImport_isSome {m : List (AtId × Stylesheet)} {k : AtId} {ss : Stylesheet} (h : (k, ss) ∈ m) :
    ∃ ss', lookupImport m k = some ss' := by
  induction m with
  | nil => cases h
  | cons x m ih =>
    unfold lookupImport
    split
    · exact ⟨_, rfl⟩
    · rename_i h1
      rcases List.mem_cons.1 h with h | h
      · rw [← h] at h1
        exact absurd rfl h1
      · exact ih h

/-- Which stylesheet replaces an import. -/
theorem replOf_lookup {env : CEnv} {tab : Bytes → Option Stylesheet} {n id : Nat} {src : Bytes} {dir : Bytes} {ss : Stylesheet}
    {lines : List Nat} (hp : parse n src id = .ok ss lines) {r : AtRule} (hr : .at r ∈ ss.nodes) (hn : r.name = b!"import")
    {sp : Span} {v : Bytes} {ps : List AtPrelude} (hv : r.preludes = .str sp v :: ps) {ss' : Stylesheet}
    (ht : ((env.resolve v dir).bind env.abs).bind tab = some ss') :
    lookupImport (replOf env tab dir ss.imports) r.id = some ss' := by
  have hs := parse_sheetOk hp
  have hmem : ∀ {x : AtId × Stylesheet}, x ∈ replOf env tab dir ss.imports ↔
      ∃ imp ∈ ss.imports, (((env.resolve imp.value dir).bind env.abs).bind tab).map (fun ss => (imp.rule, ss)) = some x := by
    intro x
    unfold replOf
    rw [List.mem_reverse, List.mem_filterMap]
  have himp : (⟨v, r.id⟩ : ImportSpec) ∈ ss.imports := by
    rw [hs.imports]
    unfold importsOf
    rw [List.mem_filterMap]
    refine ⟨_, hr, ?_⟩
    dsimp only
    rw [if_pos hn, hv]
  obtain ⟨ss2, h2⟩ := lookupImport_isSome (hmem.2 ⟨_, himp, by dsimp only; rw [ht]; rfl⟩)
  rw [h2]
  obtain ⟨imp, hi, h3⟩ := hmem.1 (lookupImport_mem h2)
  rw [hs.imports] at hi
  unfold importsOf at hi
  rw [List.mem_filterMap] at hi
  obtain ⟨nd, hnd, h4⟩ := hi
  cases nd with
  | rule _ => cases h4
  | «at» q =>
    dsimp only at h4
    split at h4
    · rename_i hq
      split at h4
      · rename_i sp2 v2 ps2 hv2
        cases h4
        obtain ⟨t, ht2, h5⟩ := Option.map_eq_some_iff.1 h3
        have h6 : q.id = r.id := congrArg Prod.fst h5
        have h7 : t = ss2 := congrArg Prod.snd h5
        subst h7
        have := import_unique hs.nodes hs.order hnd hr hq hn h6
        subst this
        rw [hv2] at hv
        cases hv
        rw [ht] at ht2
        exact ht2.symm
      · cases h4
    · cases h4

/-- A sequential compilation in which no feature is transformed, imports are inlined and nothing is reported: every
file that is compiled is put together from the files that it imports. -/
theorem compiled_bundled {env : CEnv} {rank : Bytes → Nat} (hac : Acyclic env rank) {n : Nat} {sh : Shared}
    (h : seqCompile env n = some sh) (ho : env.opts.Off) (hin : env.opts.importRules = .inline) (he : sh.errors = []) :
    ∀ (k : Nat) {p a : Bytes} {ss' : Stylesheet}, rank a < k → Asked env p → env.abs p = some a → sh.tab a = some ss' →
      ∃ c id ss lines, env.read a = some c ∧ parse env.fuel c id = .ok ss lines ∧ Bundled env (dirOf a) ss.nodes ss'.nodes ∧
        (ToPrint env a → Printed ⟨a, c, lines⟩ ss' sh) := by
  have hd := seqCompile_done hac h
  intro k
  induction k with
  | zero => intro p a ss' hk; omega
  | succ k ih =>
    intro p a ss' hk hp ha ht
    obtain ⟨c, lines, log, ⟨id, ss, s, h1, h2, h3, h4⟩, h5, h6⟩ := hd.compiled ht
    refine ⟨c, id, ss, lines, h1, h2, ?_, h6⟩
    have hlog : s.log = [] := by
      rw [h4]
      cases hl : log with
      | nil => rfl
      | cons r l =>
        have := h5 r (by simp [hl])
        rw [he] at this
        cases this
    rw [if_pos hin] at h3
    unfold transform at h3
    rcases h7 : transformNodes env.fo env.opts (some (replOf env sh.tab (dirOf a) ss.imports)) env.fuel ss.nodes
        (TSt.init env.opts (some (replOf env sh.tab (dirOf a) ss.imports))) with ⟨nodes, s1⟩ | _ | _ <;> rw [h7] at h3 <;> cases h3
    refine transformNodes_bundled ho (by simp [TSt.init, ho.vars]) (by simp [TSt.init, ho.media]) (fun r hr hn => ?_) h7 hlog
    obtain ⟨sp, v, ps, hv, -⟩ := (imports_exact h2).2.1 r hr hn
    have himp : (⟨v, r.id⟩ : ImportSpec) ∈ ss.imports := by
      rw [(imports_exact h2).1]
      unfold importsOf
      rw [List.mem_filterMap]
      refine ⟨_, hr, ?_⟩
      dsimp only
      rw [if_pos hn, hv]
    cases hres : env.resolve v (dirOf a) with
    | none =>
      have := hd.unresolved hp ha h1 h2 himp hres
      rw [he] at this
      cases this
    | some rel =>
      have hask : Asked env rel := .imp hp ha h1 h2 himp hres
      rcases hd.asked hask with ⟨e, h8, -⟩ | ⟨b, ss2, hb, htb⟩
      · rw [he] at h8; cases h8
      · have hrank : rank b < rank a := by
          obtain ⟨ss0, h9, h10⟩ := parse_ok_id h2
          obtain ⟨imp, hi, hi2⟩ : ∃ imp ∈ ss0.imports, imp.value = v := by
            rw [h10] at himp
            obtain ⟨imp, hi, hi2⟩ := List.mem_map.1 himp
            exact ⟨imp, hi, congrArg ImportSpec.value hi2⟩
          exact hac hp ha h1 h9 hi (by rw [hi2]; exact hres) hb
        obtain ⟨c2, id2, ss3, l2, h11, h12, h13, -⟩ := ih (by omega) hask hb htb
        exact ⟨sp, v, ps, rel, b, c2, id2, ss3, l2, ss2, hv, hres, hb, h11, h12,
          replOf_lookup h2 hr hn hv (by rw [hres]; show (env.abs rel).bind sh.tab = _; rw [hb]; exact htb), h13⟩

end Cssc
