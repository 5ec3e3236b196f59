import Verif.Proofs.Bundle
import Verif.Proofs.KeepsCheck
import Verif.Props.Comments
import Verif.Props.Compile

/-!
# Files put together

C64: what the output of a compilation that inlines imports means.
-/

namespace Cssc

/-! ### C64: bundles -/

/-- Every node of a bundle is a node of one of the files. -/
theorem Bundled.nodes {env : CEnv} {dir : Bytes} {ns flat : List Node} (h : Bundled env dir ns flat)
    (hn : ∀ n ∈ ns, ∃ src, NodeOk src n) : ∀ n ∈ flat, ∃ src, NodeOk src n := by
  induction h with
  | nil => simp
  | drop _ _ ih => exact ih fun n h => hn n (by simp [h])
  | keep _ _ _ ih =>
    intro n h
    rcases List.mem_cons.1 h with rfl | h
    · exact hn n (by simp)
    · exact ih (fun n h => hn n (by simp [h])) n h
  | imp _ _ _ _ _ hp _ _ ih1 ih2 =>
    intro n h
    rcases List.mem_append.1 h with h | h
    · exact ih1 (fun n h => ⟨_, (parse_sheetOk hp).nodes n h⟩) n h
    · exact ih2 (fun n h => hn n (by simp [h])) n h

/-- Nodes from several texts, none of which has a construct that printing loses. -/
theorem nodes_printable {ns : List Node} (hn : ∀ n ∈ ns, ∃ src, NodeOk src n) (hk : ∀ n ∈ ns, ∀ it ∈ n.items, it.Keeps) :
    Stylesheet.Printable ⟨ns, importsOf ns⟩ := by
  have h : ∀ n ∈ ns, n.Shape ∧ ∀ rest, LayR n.toks rest := by
    intro n h
    obtain ⟨src, h1⟩ := hn n h
    exact node_keeps h1.lit (hk n h)
  exact ⟨fun n hn => (h n hn).1, (nodes_lay (fun n hn => (h n hn).2) []).lay, importsOf_values ns⟩

theorem bareParts_ne {ps : List SelPart} (h : ∃ p ∈ ps, p.isWs = false) : bareParts ps ≠ [] := by
  obtain ⟨p, hp, hw⟩ := h
  cases ps with
  | nil => cases hp
  | cons q qs =>
    unfold bareParts
    split
    · rename_i h
      simp only [Bool.and_eq_true, List.isEmpty_iff] at h
      rw [h.1, List.mem_singleton] at hp
      subst hp
      rw [h.2] at hw
      cases hw
    · simp

theorem bareSels_mem : ∀ {l m : List Sel} {s : Sel}, bareSels l = bareSels m → s ∈ l → ∃ t ∈ m, s.bare = t.bare
  | [], _, _, _, h => by cases h
  | x :: l, [], _, e, _ => by cases e
  | x :: l, y :: m, s, e, h => by
    unfold bareSels at e
    obtain ⟨e1, e2⟩ := List.cons.inj e
    rcases List.mem_cons.1 h with rfl | h
    · exact ⟨y, by simp, e1⟩
    · obtain ⟨t, h1, h2⟩ := bareSels_mem e2 h
      exact ⟨t, by simp [h1], h2⟩

/-- A node that differs only in positions from one that can be written, and that stays, stays. -/
theorem kept_of_bare {repl : Replacements} {n n' : Node} (hs : n.Shape) (hv : n.vain = false) (hi : n.isImport = false)
    (hb : n'.bare = n.bare) : KeptNode repl n' := by
  cases n with
  | rule r =>
    cases n' with
    | «at» a => cases hb
    | rule r' =>
      have hb : r'.bare = r.bare := by injection hb
      obtain ⟨⟨l, h1, -, h2, -⟩, b, h3, -⟩ := hs
      have hp : r'.prelude.bare = r.prelude.bare := congrArg QRule.prelude hb
      have hk : r'.block.map DeclBlock.bare = r.block.map DeclBlock.bare := congrArg QRule.block hb
      rw [h1] at hp
      rw [h3] at hk
      constructor
      · rcases hp' : r'.prelude with _ | l' | _ <;> rw [hp'] at hp <;> try (cases hp; done)
        refine ⟨l', rfl, fun s h e => ?_⟩
        have hp : bareSels l'.sels = bareSels l.sels := by
          simp only [Prelude.bare, Prelude.sels.injEq, SelList.mk.injEq, true_and] at hp
          exact hp
        obtain ⟨t, h5, h6⟩ := bareSels_mem hp h
        obtain ⟨tsp, tps⟩ := t
        obtain ⟨ssp, sps⟩ := s
        have h6 : bareParts sps = bareParts tps := by
          simp only [Sel.bare, Sel.mk.injEq, true_and] at h6
          exact h6
        have e : sps = [] := e
        rw [e] at h6
        exact bareParts_ne (selsShape_mem h2 _ h5).2.2 h6.symm
      · rcases hb' : r'.block with _ | b' <;> rw [hb'] at hk
        · cases hk
        · refine ⟨b', rfl, fun e => ?_⟩
          have hk : b'.bare = b.bare := by injection hk
          have hk : b'.decls.map Decl.bare = b.decls.map Decl.bare := congrArg DeclBlock.decls hk
          rw [e] at hk
          have : b.decls = [] := List.map_eq_nil_iff.1 hk.symm
          simp [Node.vain, h3, this] at hv
  | «at» a =>
    cases n' with
    | rule r => cases hb
    | «at» a' =>
      have hb : a'.bare = a.bare := by injection hb
      have hn : a'.name = a.name := show a'.bare.name = a.bare.name by rw [hb]
      have hp : a'.preludes.map AtPrelude.bare = a.preludes.map AtPrelude.bare := show a'.bare.preludes = a.bare.preludes by rw [hb]
      have h1 : a.name ≠ b!"import" := by simpa [Node.isImport] using hi
      have h2 : a.name ≠ b!"custom-media" := by simpa [Node.vain] using hv
      unfold KeptNode
      dsimp only
      rw [hn, if_neg h1, if_neg h2]
      split
      · rename_i h3
        have hm : ∃ l, a.preludes = [.mql (some l)] := by
          have hs : a.Shape := hs
          clear hb hn hp hi hv h1 h2
          obtain ⟨src, sp, name, ps, blk⟩ := a
          replace h3 : name = b!"media" := h3
          subst h3
          show ∃ l, ps = _
          cases hs with
          | media => exact ⟨_, rfl⟩
          | generic _ h4 => exact absurd rfl h4
          | keyframes h4 => exact absurd h4 (by unfold isKeyframesName; decide)
          | keyframesStr h4 => exact absurd h4 (by unfold isKeyframesName; decide)
        obtain ⟨l, hl⟩ := hm
        rw [hl] at hp
        rcases e : a'.preludes with _ | ⟨p, ps⟩ <;> rw [e] at hp
        · cases hp
        · have h5 : p.bare = .mql (some l.bare) := (List.cons.inj hp).1
          cases p with
          | mql q =>
            cases q with
            | none => cases h5
            | some q => exact ⟨q, ps, rfl⟩
          | _ => cases h5
      · trivial

/-- What is written for a bundle is parsed as the bundle, and compiling it again gives the same text. -/
theorem bundle_parsed {env : CEnv} {o : TOpts} (ho : o.Off) {dir : Bytes} {ns : List Node} {ss' : Stylesheet}
    (h3 : Bundled env dir ns ss'.nodes) (hns : ∀ n ∈ ns, ∃ src, NodeOk src n) {source : Source} {css out : Bytes}
    (h5' : print (some source) ⟨ss'.nodes, importsOf ss'.nodes⟩ = .ok out) (h7 : print none ⟨ss'.nodes, []⟩ = .ok css)
    (hk : ∀ n ∈ ss'.nodes, ∀ it ∈ n.items, it.Keeps) (i : Nat) :
    ∃ k ss2 lines', (∀ m, k ≤ m → parse m out i = .ok ss2 lines') ∧
      ss2.nodes.map Node.bare = ss'.nodes.map Node.bare ∧ ss2.imports = [] ∧
      ∀ m fo repl, transform fo o repl (m + 1) ss2 = .ok ss2 (TSt.init o repl) ∧ print none ss2 = .ok css := by
  have hprint := nodes_printable (h3.nodes hns) hk
  obtain ⟨k, ss2, l2, h8, h9⟩ := print_map_parse hprint h5' i
  refine ⟨k, ss2, l2, h8, h9.nodes, ?_, fun m fo repl => ⟨?_, ?_⟩⟩
  · have : importsOf ss'.nodes = [] := by
      unfold importsOf
      rw [List.filterMap_eq_nil_iff]
      intro x hx
      cases x with
      | rule => rfl
      | «at» r =>
        have := (h3.final _ hx).2
        dsimp only
        rw [if_neg (by simpa [Node.isImport] using this)]
    have h10 := h9.imports
    dsimp only at h10
    rw [this] at h10
    exact List.map_eq_nil_iff.1 h10
  · have hkept : ∀ x ∈ ss2.nodes, KeptNode repl x := by
      intro x hx
      have : x.bare ∈ ss'.nodes.map Node.bare := h9.nodes ▸ List.mem_map_of_mem hx
      obtain ⟨y, hy, e⟩ := List.mem_map.1 this
      exact kept_of_bare (hprint.shape y hy) (h3.final y hy).1 (h3.final y hy).2 e.symm
    unfold transform transformNodes
    rw [mapConcat_map fun x hx => transformNode_kept ho (hkept x hx) (by simp [TSt.init, ho.vars]) (by simp [TSt.init, ho.media]),
      List.flatMap_singleton']
  · rw [print_positions h9]
    exact h7

/-- **C64**: take a sequential compilation in which no feature is transformed and imports are inlined, of files whose
imports have no cycles, and in which nothing is reported.  Then there is an output for every entry, and it is that of
the bundle: of the nodes of the entry, with the nodes of the imported files at the places of the imports.  If these
nodes have no construct that printing loses (`Spec/Keeps.lean`), then the output is parsed as the bundle, up to
positions, and compiling it again without features gives the same text. -/
theorem bundle_output {env : CEnv} {rank : Bytes → Nat} (hac : Acyclic env rank) {n : Nat} {sh : Shared}
    (h : seqCompile env n = some sh) (ho : env.opts.Off) (hin : env.opts.importRules = .inline) (he : sh.errors = [])
    {e a : Bytes} (hent : e ∈ env.entries) (ha : env.abs e = some a) :
    ∃ c id ss lines flat css b64, env.read a = some c ∧ parse env.fuel c id = .ok ss lines ∧ Bundled env (dirOf a) ss.nodes flat ∧
      print none ⟨flat, []⟩ = .ok css ∧
      lookupMap sh.files a = some (css ++ b!"\n/*# sourceMappingURL=data:application/json;base64," ++ b64 ++ b!" */\n") ∧
      ((∀ n ∈ flat, ∀ it ∈ n.items, it.Keeps) → ∀ i, ∃ k ss' lines', (∀ m, k ≤ m →
        parse m (css ++ b!"\n/*# sourceMappingURL=data:application/json;base64," ++ b64 ++ b!" */\n") i = .ok ss' lines') ∧
        ss'.nodes.map Node.bare = flat.map Node.bare ∧ ss'.imports = [] ∧
        ∀ m fo repl, transform fo env.opts repl (m + 1) ss' = .ok ss' (TSt.init env.opts repl) ∧ print none ss' = .ok css) := by
  have hd := seqCompile_done hac h
  rcases hd.asked (.entry hent) with ⟨x, h8, -⟩ | ⟨a', ss', ha', ht⟩
  · rw [he] at h8; cases h8
  rw [ha] at ha'
  cases ha'
  obtain ⟨c, id, ss, lines, h1, h2, h3, h4⟩ := compiled_bundled hac h ho hin he _ (Nat.lt_succ_self _) (.entry hent) ha ht
  rcases h4 (.inl ⟨e, hent, ha⟩) with ⟨out, h5, h6⟩ | ⟨-, -, h6⟩
  swap
  · rw [he] at h6; cases h6
  have hpr : ∀ (src : Option Source) (i j : List ImportSpec), print src ⟨ss'.nodes, i⟩ = print src ⟨ss'.nodes, j⟩ := fun _ _ _ => rfl
  have h5' : print (some ⟨a, c, lines⟩) ⟨ss'.nodes, importsOf ss'.nodes⟩ = .ok out := (hpr _ _ ss'.imports).trans h5
  obtain ⟨css, b64, h7, rfl, -, -⟩ := map_only_appends h5'
  refine ⟨c, id, ss, lines, ss'.nodes, css, b64, h1, h2, h3, (hpr none _ _).trans h7, h6, fun hk i => ?_⟩
  exact bundle_parsed ho h3 (fun n hn => ⟨_, (parse_sheetOk h2).nodes n hn⟩) h5' ((hpr none _ _).trans h7) hk i

/-- `/m` imports `/a` and `/b`, and `/b` imports `/a`.  One rule is empty. -/
def diamond : CEnv :=
  exEnv [b!"m"] .inline [(b!"/m", b!"@import 'a';\n@import 'b'; p { q : r }"), (b!"/a", b!"x{y:z} e{}"), (b!"/b", b!"@import \"a\"; u{v:w}")]

theorem diamond_acyclic : Acyclic diamond fun a => if a = b!"/m" then 2 else if a = b!"/b" then 1 else 0 :=
  acyclic_of_test (env := diamond) (rank := fun a => if a = b!"/m" then 2 else if a = b!"/b" then 1 else 0)
    (files := [(b!"/m", b!"@import 'a';\n@import 'b'; p { q : r }"), (b!"/a", b!"x{y:z} e{}"), (b!"/b", b!"@import \"a\"; u{v:w}")])
    rfl (by decide +kernel)

/-- The hypotheses of `bundle_output` are met, the nodes of the bundle have no construct that printing loses, and this is
the output. -/
example : diamond.opts.Off ∧ diamond.opts.importRules = .inline ∧ diamond.abs b!"m" = some b!"/m" ∧
    ((seqCompile diamond 10).map fun sh => (sh.errors, (sh.tab b!"/m").map fun ss => ss.keepsB,
      (lookupMap sh.files b!"/m").map cssLine)) = some ([], some true, some b!"x{y:z}x{y:z}u{v:w}p{q:r}") :=
  ⟨⟨rfl, rfl, rfl, rfl, rfl⟩, rfl, by decide +kernel, by decide +kernel⟩

/-! ### C65: imports that are left in place -/

/-- The nodes that are left when no feature is transformed and imports are left in place: not those that come to nothing,
and every import twice (this is what the code does, not what it is meant to do). -/
def leftNodes (ns : List Node) : List Node := (doubleImports ns).filter fun n => !n.vain

theorem transformNodes_left {fo : FloatOps} {o : TOpts} {n : Nat} (ho : o.Off) : ∀ {ns out : List Node} {s s' : TSt},
    s.vars = none → s.media = none → transformNodes fo o none n ns s = .ok out s' → out = leftNodes ns
  | [], out, s, s', _, _, h => by
    obtain ⟨rfl, rfl⟩ := tpure_ok h
    rfl
  | x :: xs, out, s, s', hv, hm, h => by
    obtain ⟨o1, s1, o2, h1, h2, rfl⟩ := mapConcat_cons_ok h
    have hcons : ∀ l, doubleImports [x] = l → leftNodes (x :: xs) = l.filter (fun n => !n.vain) ++ leftNodes xs := by
      rintro l rfl
      unfold leftNodes
      rw [← List.filter_append]
      unfold doubleImports
      rw [← List.flatMap_append]
      rfl
    cases n with
    | zero => cases h1
    | succ n =>
      by_cases hi : x.isImport = true
      · cases x with
        | rule r => cases hi
        | «at» a =>
          have hi : a.name = b!"import" := by simpa [Node.isImport] using hi
          rw [transformNode] at h1
          unfold transformAt at h1
          rw [if_pos hi] at h1
          obtain ⟨rfl, rfl⟩ := tpure_ok h1
          rw [transformNodes_left ho hv hm h2, hcons [.at a, .at a] (by simp [doubleImports, hi])]
          have hvain : Node.vain (.at a) = false := by simp [Node.vain, hi]
          simp [hvain]
      · have hi : x.isImport = false := by simpa using hi
        obtain ⟨rfl, rfl⟩ := transformNode_off ho hv hm hi h1
        rw [transformNodes_left ho hv hm h2, hcons [x] (by
          cases x with
          | rule => rfl
          | «at» a =>
            have hi : a.name ≠ b!"import" := by simpa [Node.isImport] using hi
            simp [doubleImports, hi])]
        cases hvain : x.vain <;> simp [hvain]

theorem leftNodes_mem {ns : List Node} {n : Node} (h : n ∈ leftNodes ns) : n ∈ ns := by
  obtain ⟨h, -⟩ := List.mem_filter.1 h
  obtain ⟨x, hx, h⟩ := List.mem_flatMap.1 h
  cases x with
  | rule r => rw [List.mem_singleton.1 h]; exact hx
  | «at» a =>
    dsimp only at h
    split at h
    · rw [List.mem_pair] at h
      rcases h with rfl | rfl <;> exact hx
    · rw [List.mem_singleton.1 h]; exact hx

/-- **C65, partial**: take a sequential compilation in which no feature is transformed and imports are not inlined, of
files whose imports have no cycles, and in which nothing is reported.  Then there is an output for every file that is
to be printed, which consists of the nodes of this file, but with every import twice.  If the nodes have no construct
that printing loses, then the output is parsed as these nodes.  Missing: that imports are not doubled (next theorem). -/
theorem left_output_partial {env : CEnv} {rank : Bytes → Nat} (hac : Acyclic env rank) {n : Nat} {sh : Shared}
    (h : seqCompile env n = some sh) (ho : env.opts.Off) (hin : env.opts.importRules ≠ .inline) (he : sh.errors = [])
    {a : Bytes} (hpr : ToPrint env a) :
    ∃ c id ss lines css b64, env.read a = some c ∧ parse env.fuel c id = .ok ss lines ∧
      print none ⟨leftNodes ss.nodes, []⟩ = .ok css ∧
      lookupMap sh.files a = some (css ++ b!"\n/*# sourceMappingURL=data:application/json;base64," ++ b64 ++ b!" */\n") ∧
      ((∀ n ∈ leftNodes ss.nodes, ∀ it ∈ n.items, it.Keeps) → ∀ i, ∃ k ss' lines', (∀ m, k ≤ m →
        parse m (css ++ b!"\n/*# sourceMappingURL=data:application/json;base64," ++ b64 ++ b!" */\n") i = .ok ss' lines') ∧
        ss'.nodes.map Node.bare = (leftNodes ss.nodes).map Node.bare ∧
        ss'.imports.map ImportSpec.value = importValues (leftNodes ss.nodes)) := by
  have hd := seqCompile_done hac h
  have hasked : ∃ p, Asked env p ∧ env.abs p = some a := by
    rcases hpr with ⟨e, h1, h2⟩ | ⟨-, p, h1, h2⟩
    · exact ⟨e, .entry h1, h2⟩
    · exact ⟨p, h1.asked, h2⟩
  obtain ⟨p, hp, ha⟩ := hasked
  rcases hd.asked hp with ⟨x, h8, -⟩ | ⟨a', ss', ha', ht⟩
  · rw [he] at h8; cases h8
  rw [ha] at ha'
  cases ha'
  obtain ⟨c, lines, log, ⟨id, ss, s, h1, h2, h3, -⟩, -, h4⟩ := hd.compiled ht
  rw [if_neg hin] at h3
  have hnodes : ss'.nodes = leftNodes ss.nodes := by
    unfold transform at h3
    rcases h7 : transformNodes env.fo env.opts none env.fuel ss.nodes (TSt.init env.opts none) with ⟨nodes, s1⟩ | _ | _ <;>
      rw [h7] at h3 <;> cases h3
    exact transformNodes_left ho (by simp [TSt.init, ho.vars]) (by simp [TSt.init, ho.media]) h7
  rcases h4 hpr with ⟨out, h5, h6⟩ | ⟨-, -, h6⟩
  swap
  · rw [he] at h6; cases h6
  have hpr : ∀ (src : Option Source) (ns : List Node) (i j : List ImportSpec), print src ⟨ns, i⟩ = print src ⟨ns, j⟩ :=
    fun _ _ _ _ => rfl
  have h5' : print (some ⟨a, c, lines⟩) ⟨leftNodes ss.nodes, importsOf (leftNodes ss.nodes)⟩ = .ok out := by
    rw [← hnodes]
    exact (hpr _ _ _ ss'.imports).trans h5
  obtain ⟨css, b64, h7, rfl, -, -⟩ := map_only_appends h5'
  refine ⟨c, id, ss, lines, css, b64, h1, h2, (hpr none _ _ _).trans h7, h6, fun hk i => ?_⟩
  have hprint := nodes_printable (fun n hn => ⟨_, (parse_sheetOk h2).nodes n (leftNodes_mem hn)⟩) hk
  obtain ⟨k, ss2, l2, h8, h9⟩ := print_map_parse hprint h5' i
  exact ⟨k, ss2, l2, h8, h9.nodes, h9.imports.trans (importsOf_values _)⟩

/-- An import that is left in place. -/
def leftImport : CEnv :=
  exEnv [b!"m"] .passthrough [(b!"/m", b!"@import 'a'; p { q : r }"), (b!"/a", b!"x{y:z}")]

theorem leftImport_acyclic : Acyclic leftImport fun a => if a = b!"/m" then 1 else 0 :=
  acyclic_of_test (env := leftImport) (rank := fun a => if a = b!"/m" then 1 else 0)
    (files := [(b!"/m", b!"@import 'a'; p { q : r }"), (b!"/a", b!"x{y:z}")]) rfl (by decide +kernel)

/-- **C65, refuted as stated**: the output has the import twice. -/
theorem left_output_refuted : leftImport.opts.Off ∧ leftImport.opts.importRules = .passthrough ∧
    ((seqCompile leftImport 10).map fun sh => (sh.errors, (sh.tab b!"/m").map fun ss => ss.keepsB,
      (lookupMap sh.files b!"/m").map cssLine)) = some ([], some true, some b!"@import \"a\";@import \"a\";p{q:r}") :=
  ⟨⟨rfl, rfl, rfl, rfl, rfl⟩, rfl, by decide +kernel⟩

end Cssc
