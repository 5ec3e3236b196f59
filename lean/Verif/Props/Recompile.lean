import Verif.Props.Whole

/-!
# C87: compiling what was written gives it again
-/

namespace Cssc

/-- There is a number above all of a list. -/
theorem exists_bound {α : Type} {P : α → Nat → Prop} : ∀ (l : List α), (∀ x ∈ l, ∃ k, ∀ m, k ≤ m → P x m) →
    ∃ K, ∀ m, K ≤ m → ∀ x ∈ l, P x m
  | [], _ => ⟨0, fun _ _ x hx => by cases hx⟩
  | x :: l, h => by
    obtain ⟨k, hk⟩ := h x (List.mem_cons_self ..)
    obtain ⟨K, hK⟩ := exists_bound l fun y hy => h y (List.mem_cons_of_mem _ hy)
    refine ⟨k + K, fun m hm y hy => ?_⟩
    rcases List.mem_cons.1 hy with rfl | hy
    · exact hk m (by omega)
    · exact hK m (by omega) y hy

/-- The text `out`, parsed with `m` steps, is a stylesheet without imports that transforming leaves as it is, and that is printed
as `css`. -/
def Final (o : TOpts) (m : Nat) (out css : Bytes) : Prop :=
  ∀ i, ∃ ss lines, parse m out i = .ok ss lines ∧ ss.imports = [] ∧
    (∀ fo repl n, transform fo o repl (n + 1) ss = .ok ss (TSt.init o repl)) ∧ print none ss = .ok css

/-- A stylesheet that is transformed has the parts that the transformer needs. -/
theorem complete_of_transform {fo : FloatOps} {o : TOpts} {repl : Replacements} {n : Nat} {ss ss' : Stylesheet} {s : TSt}
    (h : transform fo o repl n ss = .ok ss' s) : ∀ x ∈ ss.nodes, x.complete := by
  have hmap : ∀ {ns out : List Node} {s s' : TSt}, mapConcat (transformNode fo o repl n) ns s = .ok out s' →
      ∀ x ∈ ns, x.complete := by
    intro ns
    induction ns with
    | nil => exact fun _ x hx => by cases hx
    | cons z zs ih =>
      intro out s s' h x hx
      obtain ⟨o1, s1, o2, h1, h2, rfl⟩ := mapConcat_cons_ok h
      rcases List.mem_cons.1 hx with rfl | hx
      · cases n with
        | zero => cases h1
        | succ n =>
          cases x with
          | rule r =>
            intro e
            obtain ⟨sp, pre, blk⟩ := r
            cases (show pre = .nil from e)
            cases h1
          | «at» a =>
            intro hn e
            rw [transformNode] at h1
            unfold transformAt at h1
            rw [if_neg (by rw [hn]; decide), if_neg (by rw [hn]; decide), if_pos hn, e] at h1
            cases h1
      · exact ih h2 x hx
  unfold transform transformNodes at h
  split at h
  · rename_i hn; exact hmap hn
  · cases h
  · cases h

theorem written_final {env : CEnv} (hw : Whole env) (ho : env.opts.Off)
    (hin : env.opts.importRules = .inline) {st : CSt} (h : ReachedTidy env st) (hD : Distinct st.sh) {a out : Bytes}
    (hf : (a, out) ∈ st.sh.files) : ∃ css, Output css out ∧ ∃ k, ∀ m, k ≤ m → Final env.opts m out css := by
  obtain ⟨-, c', ss', log, k, k1, k2, -, -, k3⟩ := (h.inv hD).files _ _ hf
  obtain ⟨-, ⟨c2, id, ss, l2, g1, g2, g3⟩, g4⟩ := full_bundled hw ho hin k2
  obtain ⟨css, h2, h3⟩ := print_output k3
  have key := bundle_parsed ho g3 (fun n hn => ⟨_, (parse_sheetOk g2).nodes n hn⟩) k3 h2 g4
  obtain ⟨k0, ss0, l0, p1, -⟩ := key 0
  refine ⟨css, h3, k0, fun m hm i => ?_⟩
  obtain ⟨ki, ssi, li, q1, -, q2, q3⟩ := key i
  refine ⟨ssi, li, ?_, q2, fun fo repl n => (q3 n fo repl).1, (q3 0 env.fo none).2⟩
  have e1 : ∀ n, k0 ≤ n → parse n out i = .ok (ss0.setId i) l0 := fun n hn => by rw [parse_id, p1 n hn]
  rw [e1 m hm, ← e1 (k0 + ki) (by omega)]
  exact q1 _ (by omega)

/-- **C87**: as in C85, let a project in which nothing goes wrong be compiled without features and with imports inlined.  Take
a second project whose entries are among the files written by the first.  It is compiled with the same options, by any
resolver, and with enough steps for parsing.  Its files are legible, so that it returns (C82).  Every schedule of this second compilation in which the loop variables are read in
time and no number is given twice, when it ends, has reported nothing, and has written the same CSS for its entries. -/
theorem recompile_partial {env : CEnv} (hw : Whole env) (ho : env.opts.Off)
    (hin : env.opts.importRules = .inline) {st : CSt} (h : ReachedTidy env st) (hD : Distinct st.sh) :
    ∃ K, ∀ {env' : CEnv}, env'.opts = env.opts → K ≤ env'.fuel →
      (∀ e ∈ env'.entries, ∃ a out, (a, out) ∈ st.sh.files ∧ env'.abs e = some a ∧ env'.read a = some out) →
      Acyclic env' (fun _ => 0) ∧ Single env' ∧ ((∀ {a out}, env'.read a = some out → (a, out) ∈ st.sh.files) → Legible env') ∧
        ∀ {st' : CSt}, ReachedTidy env' st' → Distinct st'.sh → st'.main = .done →
        st'.sh.errors = [] ∧ ∀ {e a out}, e ∈ env'.entries → env'.abs e = some a → env'.read a = some out →
          (∃ out', (a, out') ∈ st'.sh.files) ∧ ∀ {out'}, (a, out') ∈ st'.sh.files → ∃ css, Output css out ∧ Output css out' := by
  obtain ⟨K, hK⟩ := exists_bound (P := fun (f : Bytes × Bytes) m => ∃ css, Output css f.2 ∧ Final env.opts m f.2 css) st.sh.files
    (fun f hf => by
      obtain ⟨css, h1, k, h2⟩ := written_final hw ho hin h hD (a := f.1) (out := f.2) hf
      exact ⟨k, fun m hm => ⟨css, h1, h2 m hm⟩⟩)
  refine ⟨K + 2, fun {env'} hopts hfuel hent => ?_⟩
  have hent' : ∀ e ∈ env'.entries, ∃ a out css, env'.abs e = some a ∧ env'.read a = some out ∧ Output css out ∧
      Final env'.opts env'.fuel out css := by
    intro e he
    obtain ⟨a, out, h1, h2, h3⟩ := hent e he
    obtain ⟨css, h4, h5⟩ := hK env'.fuel (by omega) _ h1
    exact ⟨a, out, css, h2, h3, h4, hopts ▸ h5⟩
  have hasked : ∀ {p}, Asked env' p → p ∈ env'.entries := by
    intro p hp
    induction hp with
    | entry he => exact he
    | imp _ h2 h3 h4 h5 _ ih =>
      obtain ⟨a, out, css, g1, g2, -, g3⟩ := hent' _ ih
      rw [h2] at g1; cases g1
      rw [h3] at g2; cases g2
      obtain ⟨ss, l, g4, g5, -⟩ := g3 _
      rw [h4] at g4; cases g4
      rw [g5] at h5; cases h5
  have hac : Acyclic env' (fun _ => 0) := by
    intro p a c ss l imp rel b h1 h2 h3 h4 h5
    obtain ⟨a, out, css, g1, g2, -, g3⟩ := hent' _ (hasked h1)
    rw [h2] at g1; cases g1
    rw [h3] at g2; cases g2
    obtain ⟨ss, l, g4, g5, -⟩ := g3 0
    rw [h4] at g4; cases g4
    rw [g5] at h5; cases h5
  have hleg : (∀ {a out}, env'.read a = some out → (a, out) ∈ st.sh.files) → Legible env' := by
    intro hread
    have hfin : ∀ {a c}, env'.read a = some c → ∃ ss l, parse env'.fuel c = .ok ss l ∧ ∀ x ∈ ss.nodes, x.complete := by
      intro a c hc
      obtain ⟨css, -, h5⟩ := hK env'.fuel (by omega) _ (hread hc)
      obtain ⟨ss, l, g1, -, g2, -⟩ := h5 0
      exact ⟨ss, l, g1, complete_of_transform (g2 env.fo none 0)⟩
    refine ⟨by omega, fun hc => .inl ?_, fun hc hp => ?_⟩
    · obtain ⟨ss, l, g1, -⟩ := hfin hc
      exact ⟨ss, l, g1⟩
    · obtain ⟨ss, l, g1, g2⟩ := hfin hc
      rw [hp] at g1; cases g1
      exact g2
  have hsingle : Single env' := by
    intro p b c id ss l h1 h2 h3 h4
    obtain ⟨a, out, css, g1, g2, -, g3⟩ := hent' _ (hasked h1)
    rw [h2] at g1; cases g1
    rw [h3] at g2; cases g2
    obtain ⟨ss, l, g4, g5, -⟩ := g3 _
    rw [h4] at g4; cases g4
    rw [g5]
    exact Nat.zero_le _
  refine ⟨hac, hsingle, hleg, fun {st'} h' hD' hd' => ?_⟩
  have hfull : ∀ {b ss log}, Full env' st'.sh.parses b ss log → log = [] ∧ ∃ e out css, e ∈ env'.entries ∧ env'.abs e = some b ∧
      env'.read b = some out ∧ Output css out ∧ print none ss = .ok css := by
    intro b ss log hf
    cases hf with
    | mk fileOf logOf h1 h2 h3 h4 h5 h6 h7 h8 h9 =>
      obtain ⟨a, out, css, g1, g2, g3, g4⟩ := hent' _ (hasked h1)
      rw [h2] at g1; cases g1
      rw [h3] at g2; cases g2
      obtain ⟨ss, l, g5, -, g6, g7⟩ := g4 _
      rw [h4] at g5; cases g5
      rw [if_pos (hopts ▸ hin)] at h9
      obtain ⟨n, hn⟩ : ∃ n, env'.fuel = n + 1 := ⟨env'.fuel - 1, by omega⟩
      rw [hn, g6] at h9
      cases h9
      exact ⟨by simp [TSt.init], _, _, css, hasked h1, h2, h3, g3, g7⟩
  refine ⟨?_, fun {e a out} he ha hr => ?_⟩
  · cases hx : st'.sh.errors with
    | nil => rfl
    | cons x xs =>
      exfalso
      have hx := (tidy_errors hac h' hD' hd' x).1 (by rw [hx]; exact List.mem_cons_self ..)
      cases hx with
      | fails h1 h2 =>
        obtain ⟨a, out, css, g1, g2, -, g3⟩ := hent' _ (hasked h1)
        obtain ⟨ss, l, g4, -⟩ := g3 0
        exact failsWith_ok h2 g1 ⟨_, _, _, g2, g4⟩
      | resolve h1 h2 h3 h4 h5 _ =>
        obtain ⟨a, out, css, g1, g2, -, g3⟩ := hent' _ (hasked h1)
        rw [h2] at g1; cases g1
        rw [h3] at g2; cases g2
        obtain ⟨ss, l, g4, g5, -⟩ := g3 _
        rw [h4] at g4; cases g4
        rw [g5] at h5; cases h5
      | transform h1 h2 => rw [(hfull h1).1] at h2; cases h2
      | print h1 h2 h3 =>
        obtain ⟨-, _, _, _, -, -, -, -, h4⟩ := hfull h2
        rw [h3] at h4; cases h4
  · obtain ⟨a', out', css, g1, g2, g3, g4⟩ := hent' _ he
    rw [ha] at g1; cases g1
    rw [hr] at g2; cases g2
    obtain ⟨ss, l, g5, -⟩ := g4 0
    obtain ⟨ss', log, h1, -⟩ := compiled_whole (h'.inv hD') hD' hd' (.entry he) ha hr g5
    obtain ⟨-, e2, out2, css2, -, -, h5, h6, h7⟩ := hfull h1
    rw [hr] at h5; cases h5
    obtain ⟨out'', h8, h9⟩ := (tidy_files hac h' hD' hd' a css2).2 ⟨.inl ⟨e, he, ha⟩, ss', log, h1, h7⟩
    refine ⟨⟨out'', h8⟩, fun {out'} h10 => ?_⟩
    obtain ⟨-, c3, ss3, log3, k, -, k2, -, -, k3⟩ := (h'.inv hD').files _ _ h10
    obtain ⟨css3, k4, k5⟩ := print_output k3
    obtain ⟨-, e4, out4, css4, -, -, q1, q2, q3⟩ := hfull k2
    rw [hr] at q1; cases q1
    rw [k4] at q3; cases q3
    exact ⟨css3, q2, k5⟩

/-- C87 for one entry: then the schedule of the second compilation does not matter. -/
theorem recompile_one_partial {env : CEnv} (hw : Whole env) (ho : env.opts.Off)
    (hin : env.opts.importRules = .inline) {st : CSt} (h : ReachedTidy env st) (hD : Distinct st.sh) :
    ∃ K, ∀ {env' : CEnv} {e a out : Bytes}, env'.opts = env.opts → K ≤ env'.fuel → env'.entries = [e] → env'.abs e = some a →
      (a, out) ∈ st.sh.files → env'.read a = some out → (∀ {b out}, env'.read b = some out → (b, out) ∈ st.sh.files) →
      ∃ N, ∀ {k : Nat} {st' : CSt}, Steps env' k CSt.init st' → k ≤ N ∧ (∀ c, cstep env' st' c ≠ some .crash) ∧
        (st'.main ≠ .done → ∃ c st'', cstep env' st' c = some (.ok st'')) ∧
        (st'.main = .done → st'.sh.errors = [] ∧ ∃ css out', lookupMap st'.sh.files a = some out' ∧ Output css out ∧ Output css out') := by
  obtain ⟨K, hK⟩ := recompile_partial hw ho hin h hD
  refine ⟨K, fun {env' e a out} hopts hfuel hent ha hf hr hread => ?_⟩
  obtain ⟨hac, hs, hleg, hall⟩ := hK hopts hfuel (fun e' he' => by
    rw [hent] at he'
    cases List.mem_singleton.1 he'
    exact ⟨a, out, hf, ha, hr⟩)
  obtain ⟨n, sh', h6⟩ := seqCompile_ends hac (hleg hread).tame
  obtain ⟨N, hN⟩ := schedule_partial hent hs hac h6
  refine ⟨N, fun hk => ?_⟩
  obtain ⟨g1, g2, g3, g4⟩ := hN hk
  refine ⟨g1, g2, g3, fun hd => ?_⟩
  obtain ⟨g5, g6⟩ := g4 hd
  obtain ⟨st0, h7, h8, rfl⟩ := seqCompile_tidy h6
  obtain ⟨h9, h10⟩ := hall h7 (seqCompile_distinct h6) h8
  obtain ⟨⟨out', h11⟩, h12⟩ := h10 (by rw [hent]; exact List.mem_singleton_self e) ha hr
  refine ⟨List.Perm.eq_nil (g5.errors.trans (by rw [h9])), ?_⟩
  rw [g6]
  cases hl : lookupMap st0.sh.files a with
  | none => exact absurd hl (mem_lookupMap h11)
  | some out2 =>
    obtain ⟨css, h13, h14⟩ := h12 (mem_of_lookupMap hl)
    exact ⟨css, out2, rfl, h13, h14⟩

/-- The hypotheses are met: the output of `diamond` is compiled again.  The second compilation returns. -/
example : ∃ st, ReachedTidy diamond st ∧ Distinct st.sh ∧ (lookupMap st.sh.files b!"/m").map cssLine = some b!"x{y:z}x{y:z}u{v:w}p{q:r}" ∧
    ∃ env' n sh', env'.entries = [b!"m"] ∧ env'.read = lookupMap st.sh.files ∧ seqCompile env' n = some sh' ∧ sh'.errors = [] ∧
      (lookupMap sh'.files b!"/m").isSome := by
  have h : ((seqCompile diamond 10).map fun sh => (lookupMap sh.files b!"/m").map cssLine) = some (some b!"x{y:z}x{y:z}u{v:w}p{q:r}") := by
    decide +kernel
  obtain ⟨sh, h1, h2⟩ := Option.map_eq_some_iff.1 h
  obtain ⟨st, h3, h4, rfl⟩ := seqCompile_tidy h1
  have hD := seqCompile_distinct h1
  obtain ⟨out, h5, -⟩ := Option.map_eq_some_iff.1 h2
  have habs : diamond.abs b!"m" = some b!"/m" := by decide +kernel
  have hw : Whole diamond := whole_of_test (env := diamond) (files := [(b!"/m", b!"@import 'a';\n@import 'b'; p { q : r }"), (b!"/a", b!"x{y:z} e{}"), (b!"/b", b!"@import \"a\"; u{v:w}")])
    rfl (by decide +kernel)
  obtain ⟨K, hK⟩ := recompile_partial hw ⟨rfl, rfl, rfl, rfl, rfl⟩ rfl h3 hD
  obtain ⟨hac, hs, hleg, hall⟩ := hK (env' := { diamond with fuel := K, read := lookupMap st.sh.files }) rfl (Nat.le_refl _)
    (fun e he => by
      cases List.mem_singleton.1 he
      exact ⟨b!"/m", out, mem_of_lookupMap h5, habs, h5⟩)
  obtain ⟨n, sh', h6⟩ := seqCompile_ends hac (hleg fun h => mem_of_lookupMap h).tame
  obtain ⟨st', h7, h8, rfl⟩ := seqCompile_tidy h6
  obtain ⟨h9, h10⟩ := hall h7 (seqCompile_distinct h6) h8
  obtain ⟨⟨out', h11⟩, -⟩ := h10 (e := b!"m") (a := b!"/m") (out := out) (List.mem_singleton_self _) habs h5
  exact ⟨st, h3, hD, h2, _, n, _, rfl, rfl, h6, h9, Option.isSome_iff_ne_none.2 (mem_lookupMap h11)⟩

/-- What is written for two entries. -/
def pairEnv : CEnv := exEnv [b!"a", b!"b"] .inline [(b!"/a", b!"x{y:z}"), (b!"/b", b!"u{v:w}")]

/-- The second compilation of `pairEnv`. -/
def pairAgain : CEnv := exEnv [b!"a", b!"b"] .inline (((seqCompile pairEnv 10).map Shared.files).getD [])

/-- C87 is false for some schedules: in the second compilation one of the entries is compiled twice, the other never. -/
theorem recompile_refuted : ∃ sh, Whole pairEnv ∧ seqCompile pairEnv 10 = some sh ∧ pairAgain.read = lookupMap sh.files ∧
    ∃ st', Reached pairAgain st' ∧ st'.main = .done ∧ (lookupMap sh.files b!"/a").isSome ∧ lookupMap st'.sh.files b!"/a" = none ∧
      st'.sh.errors = [] := by
  have h : ((seqCompile pairEnv 10).map fun sh => (lookupMap sh.files b!"/a").isSome) = some true := by decide +kernel
  obtain ⟨sh, h1, h2⟩ := Option.map_eq_some_iff.1 h
  obtain ⟨st', h3, h4⟩ := reach_of_check (env := pairAgain)
    (cs := [.main, .main, .main] ++ steps 0 40 ++ steps 1 40 ++ [.main, .print 0, .print 1, .main])
    (f := fun st => decide (st.main = .done ∧ lookupMap st.sh.files b!"/a" = none ∧ st.sh.errors = []))
    (by decide +kernel)
  obtain ⟨h5, h6, h7⟩ := of_decide_eq_true h4
  refine ⟨sh, whole_of_test (env := pairEnv) (files := [(b!"/a", b!"x{y:z}"), (b!"/b", b!"u{v:w}")]) rfl (by decide +kernel), h1, ?_,
    st', h3, h5, h2, h6, h7⟩
  unfold pairAgain
  rw [h1]
  rfl

end Cssc
