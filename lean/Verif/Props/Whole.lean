import Verif.Props.Live
import Verif.Props.Tidy
import Verif.Props.Bundle
import Verif.Spec.Whole

/-!
# C85: a project in which nothing goes wrong is put together
-/

namespace Cssc

theorem Node.Good.setId {n : Node} (h : n.Good) (i : Nat) : (n.setId i).Good := by
  cases n with
  | rule r => exact h
  | «at» r =>
    unfold Node.Good Node.setId at *
    dsimp only at *
    split
    · rename_i hn
      rw [if_pos hn] at h
      exact h
    · rename_i hn
      rw [if_neg hn] at h
      rcases h with h | h
      · exact .inl h
      · refine .inr fun it hi => ?_
        rcases List.mem_cons.1 hi with rfl | hi
        · have := h (.at r) (List.mem_cons_self ..)
          exact this
        · exact h it (List.mem_cons_of_mem _ hi)

/-- All the nodes are put together, without a report, if the imports have no conditions. -/
theorem transformNodes_whole {env : CEnv} {dir : Bytes} {fo : FloatOps} {o : TOpts} {m : List (AtId × Stylesheet)} {n : Nat}
    {P : Node → Prop} (ho : o.Off) : ∀ {ns out : List Node} {s s' : TSt},
    s.vars = none → s.media = none → (∀ r, .at r ∈ ns → r.name = b!"import" → ReplOk env dir m r ∧ r.preludes.length = 1 ∧
      ∀ ss, lookupImport m r.id = some ss → ∀ x ∈ ss.nodes, P x) →
    (∀ x ∈ ns, x.isImport = false → x.vain = false → P x) →
    transformNodes fo o (some m) n ns s = .ok out s' → s' = s ∧ Bundled env dir ns out ∧ ∀ x ∈ out, P x
  | [], out, s, s', _, _, _, _, h => by
    obtain ⟨rfl, rfl⟩ := tpure_ok h
    exact ⟨rfl, .nil, fun x hx => by cases hx⟩
  | x :: xs, out, s, s', hv, hm, hr, hP, h => by
    obtain ⟨o1, s1, o2, h1, h2, rfl⟩ := mapConcat_cons_ok h
    have hrx := fun r hx => hr r (List.mem_cons_of_mem x hx)
    have hPx := fun y hy => hP y (List.mem_cons_of_mem x hy)
    cases n with
    | zero => cases h1
    | succ n =>
      by_cases hi : x.isImport = true
      · cases x with
        | rule r => cases hi
        | «at» a =>
          have hi : a.name = b!"import" := by simpa [Node.isImport] using hi
          obtain ⟨⟨sp, v, ps, rel, b, c, id, ss, lines, ss', e1, e2, e3, e4, e5, e6, e7⟩, e8, e9⟩ := hr a (by simp) hi
          rw [transformNode] at h1
          unfold transformAt at h1
          rw [if_pos hi] at h1
          dsimp only at h1
          rw [e6] at h1
          dsimp only at h1
          obtain ⟨_, s2, h3, h4⟩ := tbind_ok h1
          unfold whenT at h3
          rw [if_neg (by omega)] at h3
          obtain ⟨-, rfl⟩ := tpure_ok h3
          obtain ⟨rfl, rfl⟩ := transformNodes_final ho hv hm e7.final h4
          have hps : ps = [] := by
            rw [e1] at e8
            cases ps with
            | nil => rfl
            | cons _ _ => simp at e8
          subst hps
          obtain ⟨g1, g2, g3⟩ := transformNodes_whole ho hv hm hrx hPx h2
          refine ⟨g1, .imp hi e1 e2 e3 e4 e5 e7 g2, fun y hy => ?_⟩
          rcases List.mem_append.1 hy with hy | hy
          · exact e9 _ e6 y hy
          · exact g3 y hy
      · have hi : x.isImport = false := by simpa using hi
        obtain ⟨rfl, rfl⟩ := transformNode_off ho hv hm hi h1
        obtain ⟨g1, g2, g3⟩ := transformNodes_whole ho hv hm hrx hPx h2
        refine ⟨g1, ?_⟩
        split
        · exact ⟨.drop (by assumption) g2, g3⟩
        · rename_i hvain
          have hvain : x.vain = false := by simpa using hvain
          refine ⟨.keep hvain hi g2, fun y hy => ?_⟩
          rcases List.mem_cons.1 hy with rfl | hy
          · exact hP _ (List.mem_cons_self ..) hi hvain
          · exact g3 y hy

theorem Node.Good.keeps {n : Node} (h : n.Good) (hi : n.isImport = false) (hv : n.vain = false) : ∀ it ∈ n.items, it.Keeps := by
  cases n with
  | rule r =>
    rcases h with h | h
    · rw [hv] at h; cases h
    · exact h
  | «at» r =>
    unfold Node.Good at h
    dsimp only at h
    rw [if_neg (by simpa [Node.isImport] using hi)] at h
    rcases h with h | h
    · rw [hv] at h; cases h
    · exact h

/-- The whole compilation of a file is its bundle. -/
theorem full_bundled {env : CEnv} (hw : Whole env) (ho : env.opts.Off) (hin : env.opts.importRules = .inline) {ps : List Bytes}
    {a : Bytes} {ss' : Stylesheet} {log : List Report} (h : Full env ps a ss' log) :
    log = [] ∧ (∃ c id ss lines, env.read a = some c ∧ parse env.fuel c id = .ok ss lines ∧ Bundled env (dirOf a) ss.nodes ss'.nodes) ∧
      ∀ x ∈ ss'.nodes, ∀ it ∈ x.items, it.Keeps := by
  induction h with
  | @mk p a c id ss ss' lines repl s fileOf logOf h1 h2 h3 h4 h5 h6 h7 h8 h9 ih =>
    obtain ⟨a', c', ss0, lines', b1, b2, b3, b4, b5⟩ := hw _ h1
    rw [h2] at b1; cases b1
    rw [h3] at b2; cases b2
    obtain ⟨ss1, b6, rfl⟩ := parse_ok_id h4
    rw [b3] at b6; cases b6
    have hgood : ∀ n ∈ (ss0.setId id).nodes, n.Good := by
      intro n hn
      obtain ⟨n0, h10, rfl⟩ := List.mem_map.1 hn
      exact (b5 n0 h10).setId id
    rw [if_pos hin] at h9
    unfold transform at h9
    rcases h10 : transformNodes env.fo env.opts (some repl) env.fuel (ss0.setId id).nodes (TSt.init env.opts (some repl)) with ⟨nodes, s1⟩ | _ | _ <;>
      rw [h10] at h9 <;> cases h9
    have key := transformNodes_whole (env := env) (dir := dirOf a) (P := fun x => ∀ it ∈ x.items, it.Keeps) ho
      (by simp [TSt.init, ho.vars]) (by simp [TSt.init, ho.media]) (fun r hr hn => ?_)
      (fun x hx hi hv => (hgood x hx).keeps hi hv) h10
    · obtain ⟨rfl, k2, k3⟩ := key
      refine ⟨by simp [TSt.init], ⟨c, id, _, lines, h3, h4, k2⟩, k3⟩
    · have hg := hgood _ hr
      unfold Node.Good at hg
      dsimp only at hg
      rw [if_pos hn] at hg
      obtain ⟨sp, v, hv⟩ := hg
      have hs := parse_sheetOk h4
      have himp : (⟨v, r.id⟩ : ImportSpec) ∈ (ss0.setId id).imports := by
        rw [hs.imports]
        unfold importsOf
        rw [List.mem_filterMap]
        refine ⟨_, hr, ?_⟩
        dsimp only
        rw [if_pos hn, hv]
      have hfound : ∃ ss2, lookupImport repl r.id = some ss2 := by
        rcases h8 hin _ himp with ⟨kv, h11, h12⟩ | hno
        · obtain ⟨k, ss2⟩ := kv
          dsimp only at h12
          subst h12
          exact lookupImport_isSome h11
        · exfalso
          rcases hno with hno | ⟨rel, e, h11, h12⟩
          · obtain ⟨imp0, h13, h14⟩ := List.mem_map.1 himp
            have := b4 imp0 h13
            have h15 : imp0.value = v := congrArg ImportSpec.value h14
            rw [h15, hno] at this
            cases this
          · obtain ⟨a2, c2, ss2, l2, d1, d2, d3, -⟩ := hw _ (.imp h1 h2 h3 h4 himp h11)
            exact failsWith_ok h12 d1 ⟨_, _, _, d2, d3⟩
      obtain ⟨ss2, hl⟩ := hfound
      have hmem := lookupImport_mem hl
      obtain ⟨imp, i1, i2, rel, i3, i4⟩ := h6 hin _ hmem
      obtain ⟨-, ⟨c2, id2, ss3, l2, j1, j2, j3⟩, j4⟩ := ih hin _ hmem
      have hval : imp.value = v := by
        rw [hs.imports] at i1
        unfold importsOf at i1
        rw [List.mem_filterMap] at i1
        obtain ⟨nd, hnd, h14⟩ := i1
        cases nd with
        | rule _ => cases h14
        | «at» q =>
          dsimp only at h14
          split at h14
          · rename_i hq
            split at h14
            · rename_i sp2 v2 ps2 hv2
              cases h14
              have := import_unique hs.nodes hs.order hnd hr hq hn i2
              subst this
              rw [hv2] at hv
              cases hv
              rfl
            · cases h14
          · cases h14
      rw [hval] at i3
      refine ⟨⟨sp, v, [], rel, _, c2, id2, ss3, l2, ss2, hv, i3, i4, j1, j2, hl, j3⟩, by rw [hv]; rfl, fun ss4 h15 => ?_⟩
      rw [hl] at h15
      cases h15
      exact j4

/-- **C85**: take a project without import cycles in which nothing goes wrong (`Whole`), no feature is transformed and imports
are inlined.  Every schedule in which the loop variables are read in time and no number is given twice, when it ends, has
reported nothing, and has written for every entry a text that is parsed as the bundle of the entry, up to positions; and
compiling that text gives the same text again. -/
theorem bundle_whole_partial {env : CEnv} {rank : Bytes → Nat} (hac : Acyclic env rank) (hw : Whole env) (ho : env.opts.Off)
    (hin : env.opts.importRules = .inline) {st : CSt} (h : ReachedTidy env st) (hD : Distinct st.sh) (hd : st.main = .done) :
    st.sh.errors = [] ∧ ∀ {e a}, e ∈ env.entries → env.abs e = some a →
      ∃ c id ss lines flat css out, env.read a = some c ∧ parse env.fuel c id = .ok ss lines ∧ Bundled env (dirOf a) ss.nodes flat ∧
        print none ⟨flat, []⟩ = .ok css ∧ (a, out) ∈ st.sh.files ∧ Output css out ∧
        ∀ i, ∃ k ss' lines', (∀ m, k ≤ m → parse m out i = .ok ss' lines') ∧
          ss'.nodes.map Node.bare = flat.map Node.bare ∧ ss'.imports = [] ∧
          ∀ m fo repl, transform fo env.opts repl (m + 1) ss' = .ok ss' (TSt.init env.opts repl) ∧ print none ss' = .ok css := by
  have hprint : ∀ {b ss log}, Full env st.sh.parses b ss log → ∃ css, print none ss = .ok css := by
    intro b ss log hf
    obtain ⟨-, ⟨c, id, s0, l, g1, g2, g3⟩, g4⟩ := full_bundled hw ho hin hf
    have hp := nodes_printable (g3.nodes fun n hn => ⟨_, (parse_sheetOk g2).nodes n hn⟩) g4
    exact ⟨_, print_texts (ss := ss) hp.shape⟩
  have herr : st.sh.errors = [] := by
    cases he : st.sh.errors with
    | nil => rfl
    | cons x xs =>
      exfalso
      have hx := (tidy_errors hac h hD hd x).1 (by rw [he]; exact List.mem_cons_self ..)
      cases hx with
      | fails h1 h2 =>
        obtain ⟨a, c, ss, l, d1, d2, d3, -⟩ := hw _ h1
        exact failsWith_ok h2 d1 ⟨_, _, _, d2, d3⟩
      | resolve h1 h2 h3 h4 h5 h6 =>
        obtain ⟨a, c, ss, l, d1, d2, d3, d4, -⟩ := hw _ h1
        rw [h2] at d1; cases d1
        rw [h3] at d2; cases d2
        obtain ⟨ss1, b6, rfl⟩ := parse_ok_id h4
        rw [d3] at b6; cases b6
        obtain ⟨imp0, h13, rfl⟩ := List.mem_map.1 h5
        have := d4 imp0 h13
        rw [show env.resolve imp0.value _ = none from h6] at this
        cases this
      | transform h1 h2 => rw [(full_bundled hw ho hin h1).1] at h2; cases h2
      | print h1 h2 h3 =>
        obtain ⟨css, h4⟩ := hprint h2
        rw [h3] at h4; cases h4
  refine ⟨herr, fun {e a} he ha => ?_⟩
  obtain ⟨a', c, ss0, lines, b1, b2, b3, -⟩ := hw _ (.entry he)
  rw [ha] at b1; cases b1
  have ht : ToPrint env a := .inl ⟨e, he, ha⟩
  rcases printed_whole (h.inv hD) hD hd ht b2 b3 with ⟨out, h1⟩ | h1
  swap
  · rw [herr] at h1; cases h1
  obtain ⟨-, c', ss', log, k, k1, k2, -, -, k3⟩ := (h.inv hD).files _ _ h1
  obtain ⟨-, ⟨c2, id, ss, l2, g1, g2, g3⟩, g4⟩ := full_bundled hw ho hin k2
  obtain ⟨css, h2, h3⟩ := print_output k3
  refine ⟨c2, id, ss, l2, ss'.nodes, css, out, g1, g2, g3, h2, h1, h3, ?_⟩
  exact bundle_parsed ho g3 (fun n hn => ⟨_, (parse_sheetOk g2).nodes n hn⟩) k3 h2 g4

/-- C85 for the sequential compilation, which returns. -/
theorem bundle_whole_seq {env : CEnv} {rank : Bytes → Nat} (hac : Acyclic env rank) (hrd : Legible env) (hw : Whole env)
    (ho : env.opts.Off) (hin : env.opts.importRules = .inline) : ∃ n sh, seqCompile env n = some sh ∧ sh.errors = [] ∧
      ∀ {e a}, e ∈ env.entries → env.abs e = some a →
      ∃ c id ss lines flat css out, env.read a = some c ∧ parse env.fuel c id = .ok ss lines ∧ Bundled env (dirOf a) ss.nodes flat ∧
        print none ⟨flat, []⟩ = .ok css ∧ (a, out) ∈ sh.files ∧ Output css out ∧
        ∀ i, ∃ k ss' lines', (∀ m, k ≤ m → parse m out i = .ok ss' lines') ∧
          ss'.nodes.map Node.bare = flat.map Node.bare ∧ ss'.imports = [] := by
  obtain ⟨n, sh, h1⟩ := seqCompile_ends hac hrd.tame
  obtain ⟨st, h2, h3, rfl⟩ := seqCompile_tidy h1
  obtain ⟨h4, h5⟩ := bundle_whole_partial hac hw ho hin h2 (seqCompile_distinct h1) h3
  refine ⟨n, _, h1, h4, fun he ha => ?_⟩
  obtain ⟨c, id, ss, l, flat, css, out, g1, g2, g3, g4, g5, g6, g7⟩ := h5 he ha
  refine ⟨c, id, ss, l, flat, css, out, g1, g2, g3, g4, g5, g6, fun i => ?_⟩
  obtain ⟨k, s2, l2, d1, d2, d3, -⟩ := g7 i
  exact ⟨k, s2, l2, d1, d2, d3⟩

/-! ### Such projects -/

/-- A test for `Node.Good`. -/
def goodTest : Node → Bool
  | .at r => if r.name = b!"import" then (match r.preludes with | [.str _ _] => true | _ => false)
      else Node.vain (.at r) || (Node.items (.at r)).all Item.keepsB
  | .rule r => Node.vain (.rule r) || (Node.items (.rule r)).all Item.keepsB

theorem good_of_test {n : Node} (h : goodTest n = true) : n.Good := by
  have hk : ∀ {l : List Item}, l.all Item.keepsB = true → ∀ it ∈ l, it.Keeps :=
    fun h it hi => Item.keepsB_sound (List.all_eq_true.1 h it hi)
  cases n with
  | rule r =>
    unfold goodTest at h
    rcases Bool.or_eq_true_iff.1 h with h | h
    · exact .inl h
    · exact .inr (hk h)
  | «at» r =>
    unfold Node.Good
    unfold goodTest at h
    dsimp only at h ⊢
    split
    · rename_i hn
      rw [if_pos hn] at h
      split at h
      · exact ⟨_, _, by assumption⟩
      · cases h
    · rename_i hn
      rw [if_neg hn] at h
      rcases Bool.or_eq_true_iff.1 h with h | h
      · exact .inl h
      · exact .inr (hk h)

/-- The path is that of one of the files. -/
def foundTest (env : CEnv) (files : List (Bytes × Bytes)) (p : Bytes) : Bool :=
  match env.abs p with
  | some a => (lookupMap files a).isSome
  | none => false

/-- A test for `Whole`. -/
def wholeTest (env : CEnv) (files : List (Bytes × Bytes)) : Bool :=
  env.entries.all (foundTest env files) && files.all fun f => match parse env.fuel f.2 with
    | .ok ss _ => (ss.imports.all fun imp => match env.resolve imp.value (dirOf f.1) with
        | some rel => foundTest env files rel
        | none => false) && ss.nodes.all goodTest
    | _ => false

theorem whole_of_test {env : CEnv} {files : List (Bytes × Bytes)} (hr : env.read = lookupMap files) (h : wholeTest env files = true) :
    Whole env := by
  obtain ⟨h1, h2⟩ := Bool.and_eq_true_iff.1 h
  have hf : ∀ {p}, foundTest env files p = true → ∃ a c, env.abs p = some a ∧ env.read a = some c := by
    intro p hp
    unfold foundTest at hp
    cases ha : env.abs p with
    | none => rw [ha] at hp; cases hp
    | some a =>
      rw [ha] at hp
      obtain ⟨c, hc⟩ := Option.isSome_iff_exists.1 hp
      exact ⟨a, c, rfl, by rw [hr]; exact hc⟩
  have hfile : ∀ {a c}, env.read a = some c → ∃ ss lines, parse env.fuel c = .ok ss lines ∧
      (∀ imp ∈ ss.imports, ∃ rel, env.resolve imp.value (dirOf a) = some rel ∧ foundTest env files rel = true) ∧ ∀ n ∈ ss.nodes, n.Good := by
    intro a c hc
    rw [hr] at hc
    have := List.all_eq_true.1 h2 (a, c) (lookupMap_mem hc)
    dsimp only at this
    cases hp : parse env.fuel c with
    | ok ss l =>
      rw [hp] at this
      obtain ⟨h3, h4⟩ := Bool.and_eq_true_iff.1 this
      refine ⟨ss, l, rfl, fun imp hi => ?_, fun n hn => good_of_test (List.all_eq_true.1 h4 n hn)⟩
      have h5 := List.all_eq_true.1 h3 imp hi
      cases hres : env.resolve imp.value (dirOf a) with
      | none => rw [hres] at h5; cases h5
      | some rel => rw [hres] at h5; exact ⟨rel, rfl, h5⟩
    | _ => rw [hp] at this; cases this
  intro p hp
  have hthere : ∃ a c, env.abs p = some a ∧ env.read a = some c := by
    cases hp with
    | entry he => exact hf (List.all_eq_true.1 h1 _ he)
    | imp _ _ h5 h6 h7 h8 =>
      obtain ⟨ss, l, g1, g2, -⟩ := hfile h5
      obtain ⟨ss1, g3, rfl⟩ := parse_ok_id h6
      rw [g1] at g3; cases g3
      obtain ⟨imp0, g4, rfl⟩ := List.mem_map.1 h7
      obtain ⟨rel, g5, g6⟩ := g2 imp0 g4
      have h8 : env.resolve imp0.value _ = _ := h8
      rw [h8] at g5
      cases g5
      exact hf g6
  obtain ⟨a, c, g1, g2⟩ := hthere
  obtain ⟨ss, l, g3, g4, g5⟩ := hfile g2
  refine ⟨a, c, ss, l, g1, g2, g3, fun imp hi => ?_, g5⟩
  obtain ⟨rel, g6, -⟩ := g4 imp hi
  rw [g6]; rfl

/-- The hypotheses are met by a schedule of three entries that run side by side. -/
example : ∃ st, ReachedTidy threeEntries st ∧ Distinct st.sh ∧ st.main = .done ∧ Whole threeEntries ∧
    (∃ rank, Acyclic threeEntries rank) ∧ threeEntries.opts.Off ∧ threeEntries.opts.importRules = .inline ∧
    st.sh.parses = [b!"/a", b!"/b", b!"/m"] := by
  obtain ⟨st, h1, h2, h3, h4, -⟩ := threeEntries_tidy
  exact ⟨st, h1, h2, h3, whole_of_test (env := threeEntries) (files := threeFiles) rfl (by decide +kernel),
    ⟨_, acyclic_of_test (env := threeEntries) (files := threeFiles) (rank := fun a => if a = b!"/a" then 0 else 1) rfl (by decide +kernel)⟩,
    ⟨rfl, rfl, rfl, rfl, rfl⟩, rfl, h4⟩

/-- And by the sequential compilation of files that import each other in a diamond. -/
example : Legible diamond ∧ Whole diamond ∧ diamond.opts.Off ∧ diamond.opts.importRules = .inline :=
  ⟨legible_of_test (env := diamond) (files := [(b!"/m", b!"@import 'a';\n@import 'b'; p { q : r }"), (b!"/a", b!"x{y:z} e{}"), (b!"/b", b!"@import \"a\"; u{v:w}")])
    rfl (by decide) (by decide +kernel),
   whole_of_test (env := diamond) (files := [(b!"/m", b!"@import 'a';\n@import 'b'; p { q : r }"), (b!"/a", b!"x{y:z} e{}"), (b!"/b", b!"@import \"a\"; u{v:w}")])
    rfl (by decide +kernel), ⟨rfl, rfl, rfl, rfl, rfl⟩, rfl⟩

/-- The order of the schedule matters: without tidiness an import stays in the output although nothing is reported. -/
theorem bundle_whole_refuted : ∃ (env : CEnv) (st : CSt), (∃ rank, Acyclic env rank) ∧ Whole env ∧ env.opts.Off ∧
    env.opts.importRules = .inline ∧ Reached env st ∧ Distinct st.sh ∧ st.main = .done ∧ st.sh.errors = [] ∧
    (lookupMap st.sh.files b!"/m").map cssLine = some b!"@import \"a\";u{v:w}" := by
  obtain ⟨st, h1, h2⟩ := reach_of_check (env := twoImports)
    (cs := [.main] ++ steps 0 16 ++ steps 1 40 ++ steps 2 40 ++ steps 0 10 ++ [.main, .main, .print 0, .main])
    (f := fun st => decide ((st.sh.sources.map Prod.snd).Nodup ∧ st.main = .done ∧ st.sh.errors = [] ∧
      (lookupMap st.sh.files b!"/m").map cssLine = some b!"@import \"a\";u{v:w}"))
    (by decide +kernel)
  obtain ⟨h3, h4, h5, h6⟩ := of_decide_eq_true h2
  exact ⟨twoImports, st, ⟨_, acyclic_of_test (env := twoImports) (files := [(b!"/m", b!"@import \"a\";@import \"b\";"), (b!"/a", b!"x{y:z}"), (b!"/b", b!"u{v:w}")]) (rank := fun a => if a = b!"/m" then 1 else 0) rfl (by decide +kernel)⟩,
    whole_of_test (env := twoImports) (files := [(b!"/m", b!"@import \"a\";@import \"b\";"), (b!"/a", b!"x{y:z}"), (b!"/b", b!"u{v:w}")]) rfl (by decide +kernel), ⟨rfl, rfl, rfl, rfl, rfl⟩, rfl, h1, h3, h4, h5, h6⟩

end Cssc
