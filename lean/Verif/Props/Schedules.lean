import Verif.Proofs.CompileDiamond
import Verif.Props.Output
import Verif.Props.Bundle

/-!
# Property C69: the schedule does not matter

It does in general (`twoImports`, `twoEntries`).  With one entry and at most one import in each file it does not, and what is
proved of sequential compilations holds under every schedule.
-/

namespace Cssc

/-- If one schedule ends, then every schedule ends, after the same number of steps and with the same memory but for the order
of the files and the errors; no schedule gets stuck or crashes. -/
theorem schedules_agree_partial {env : CEnv} {e : Bytes} (he : env.entries = [e]) (hs : Single env) {N : Nat} {f : CSt}
    (h : Steps env N CSt.init f) (hf : f.main = .done) {k : Nat} {st : CSt} (hk : Steps env k CSt.init st) :
    k ≤ N ∧ (∀ c, cstep env st c ≠ some .crash) ∧ (st.main ≠ .done → ∃ c st', cstep env st c = some (.ok st')) ∧
      (st.main = .done → k = N ∧ SameSh f.sh st.sh) := by
  obtain ⟨m, g, h1, h2, h3⟩ := hk.all he hs .init h hf
  have hg : g.main = .done := by rw [h3.same.2.1]; exact hf
  have hr := hk.reached .init
  refine ⟨by omega, fun c hc => ?_, fun hne => ?_, fun hd => ?_⟩
  · obtain ⟨y, _, _, h4, _⟩ := h2.other he hs hr hg hc
    cases h4
  · cases h2 with
    | refl => exact absurd hg hne
    | step h4 _ => exact ⟨_, _, h4⟩
  · cases h2 with
    | refl => exact ⟨by omega, h3.same.1⟩
    | step h4 _ => rw [(hr.line he hs).stop hd] at h4; cases h4

theorem lookupMap_perm {α β : Type} [DecidableEq α] {l m : List (α × β)} (h : l.Perm m) (hn : (l.map Prod.fst).Nodup) (k : α) :
    lookupMap m k = lookupMap l k := by
  induction h with
  | nil => rfl
  | cons x _ ih =>
    obtain ⟨a, b⟩ := x
    unfold lookupMap
    rw [ih (List.nodup_cons.1 hn).2]
  | swap x y l =>
    obtain ⟨a, b⟩ := x
    obtain ⟨c, d⟩ := y
    have hne : c ≠ a := by
      intro e
      subst e
      exact (List.nodup_cons.1 hn).1 List.mem_cons_self
    unfold lookupMap
    by_cases h1 : a = k
    · have h2 : c ≠ k := fun e => hne (e.trans h1.symm)
      simp [h1, h2, lookupMap]
    · by_cases h2 : c = k <;> simp [h1, h2, lookupMap]
  | trans h1 _ ih1 ih2 =>
    rw [ih2 ((h1.map _).nodup hn), ih1 hn]

/-- Every schedule does what the sequential one does. -/
theorem schedule_partial {env : CEnv} {e : Bytes} (he : env.entries = [e]) (hs : Single env) {rank : Bytes → Nat} (hac : Acyclic env rank)
    {n : Nat} {sh : Shared} (h : seqCompile env n = some sh) : ∃ N, ∀ {k : Nat} {st : CSt}, Steps env k CSt.init st →
      k ≤ N ∧ (∀ c, cstep env st c ≠ some .crash) ∧ (st.main ≠ .done → ∃ c st', cstep env st c = some (.ok st')) ∧
      (st.main = .done → SameSh sh st.sh ∧ ∀ a, lookupMap st.sh.files a = lookupMap sh.files a) := by
  obtain ⟨f, h1, h2, rfl⟩ := seqCompile_reach h
  obtain ⟨N, hN⟩ := h1.steps
  refine ⟨N, fun {k st} hk => ?_⟩
  obtain ⟨h3, h4, h5, h6⟩ := schedules_agree_partial he hs hN h2 hk
  exact ⟨h3, h4, h5, fun hd => ⟨(h6 hd).2, fun a => lookupMap_perm (h6 hd).2.files.symm (seqCompile_keys hac h) a⟩⟩

/-- A test for `Single`. -/
def singleTest (env : CEnv) (files : List (Bytes × Bytes)) : Bool :=
  files.all fun f =>
    match parse env.fuel f.2 with
    | .ok ss _ => decide (ss.imports.length ≤ 1)
    | _ => true

theorem single_of_test {env : CEnv} {files : List (Bytes × Bytes)} (hr : env.read = lookupMap files)
    (h : singleTest env files = true) : Single env := by
  intro p a c id ss lines _ _ hc hp
  rw [hr] at hc
  obtain ⟨ss0, h1, h2⟩ := parse_ok_id hp
  have := List.all_eq_true.1 h (a, c) (lookupMap_mem hc)
  dsimp only at this
  rw [h1] at this
  rw [h2]
  simpa [Stylesheet.setId] using of_decide_eq_true this

/-- Three files, each of which but the last imports the next one. -/
def chainFiles : List (Bytes × Bytes) :=
  [(b!"/m", b!"@import \"a\";x{y:z}"), (b!"/a", b!"@import \"b\";u{v:w}"), (b!"/b", b!"p{q:r}")]

def chainEnv : CEnv := exEnv [b!"m"] .inline chainFiles

/-- The hypotheses are met by `chainEnv`, and the output is that of the three files. -/
theorem chainEnv_ok : chainEnv.entries = [b!"m"] ∧ Single chainEnv ∧
    Acyclic chainEnv (fun a => if a = b!"/m" then 2 else if a = b!"/a" then 1 else 0) ∧
    ∃ sh, seqCompile chainEnv 10 = some sh ∧ (lookupMap sh.files b!"/m").map cssLine = some b!"p{q:r}u{v:w}x{y:z}" := by
  refine ⟨rfl, single_of_test (env := chainEnv) (files := chainFiles) rfl (by decide +kernel),
    acyclic_of_test (env := chainEnv) (rank := fun a => if a = b!"/m" then 2 else if a = b!"/a" then 1 else 0) (files := chainFiles) rfl (by decide +kernel), ?_⟩
  have : (match seqCompile chainEnv 10 with
      | some sh => decide ((lookupMap sh.files b!"/m").map cssLine = some b!"p{q:r}u{v:w}x{y:z}")
      | none => false) = true := by decide +kernel
  cases h : seqCompile chainEnv 10 with
  | none => rw [h] at this; cases this
  | some sh => rw [h] at this; exact ⟨sh, rfl, of_decide_eq_true this⟩

/-- So every schedule of `chainEnv` that ends, ends with that output. -/
example {k : Nat} {st : CSt} (hk : Steps chainEnv k CSt.init st) (hd : st.main = .done) :
    (lookupMap st.sh.files b!"/m").map cssLine = some b!"p{q:r}u{v:w}x{y:z}" := by
  obtain ⟨h1, h2, h3, sh, h4, h5⟩ := chainEnv_ok
  obtain ⟨N, hN⟩ := schedule_partial h1 h2 h3 h4
  rw [((hN hk).2.2.2 hd).2]
  exact h5

/-- The schedule does matter when a file has two imports: with the same files one schedule leaves the first import unprocessed. -/
theorem schedule_refuted : ∃ st st', Reached twoImports st ∧ Reached twoImports st' ∧ st.main = .done ∧ st'.main = .done ∧
    (lookupMap st.sh.files b!"/m").map cssLine ≠ (lookupMap st'.sh.files b!"/m").map cssLine := by
  obtain ⟨st, h1, h2, h3, -⟩ := imports_processed_refuted
  have : (match seqCompile twoImports 10 with
      | some sh => decide ((lookupMap sh.files b!"/m").map cssLine = some b!"x{y:z}u{v:w}")
      | none => false) = true := by decide +kernel
  cases h : seqCompile twoImports 10 with
  | none => rw [h] at this; cases this
  | some sh =>
    rw [h] at this
    obtain ⟨st', h4, h5, h6⟩ := seqCompile_reach h
    refine ⟨st, st', h1, h4, h2, h5, ?_⟩
    rw [h3, h6, of_decide_eq_true this]
    decide

/-! ### What this gives for the other properties of compilations -/

/-- C48 and C56 with one entry and at most one import in each file: no schedule crashes, gets stuck or goes on for ever, if
there are no cycles and no file makes the parser, the transformer or the printer panic or loop. -/
theorem compile_returns_chain_partial {env : CEnv} {e : Bytes} (he : env.entries = [e]) (hs : Single env) {rank : Bytes → Nat}
    (hac : Acyclic env rank) (hrd : Legible env) : ∃ N, ∀ {k : Nat} {st : CSt}, Steps env k CSt.init st →
      k ≤ N ∧ (∀ c, cstep env st c ≠ some .crash) ∧ (st.main ≠ .done → ∃ c st', cstep env st c = some (.ok st')) := by
  obtain ⟨n, sh, h⟩ := seqCompile_ends hac hrd.tame
  obtain ⟨N, hN⟩ := schedule_partial he hs hac h
  exact ⟨N, fun hk => ⟨(hN hk).1, (hN hk).2.1, (hN hk).2.2.1⟩⟩

/-- The hypotheses are met by the files of `plainFiles` with one of them as the entry. -/
example : ∃ env : CEnv, env.entries = [b!"a"] ∧ Single env ∧ Acyclic env (fun _ => 0) ∧ Legible env := by
  refine ⟨exEnv [b!"a"] .passthrough [(b!"/a", b!"x{y:z} u>v{w:1px}"), (b!"/b", b!"@import;")], rfl, ?_, ?_, ?_⟩
  · exact single_of_test (env := exEnv [b!"a"] .passthrough [(b!"/a", b!"x{y:z} u>v{w:1px}"), (b!"/b", b!"@import;")])
      (files := [(b!"/a", b!"x{y:z} u>v{w:1px}"), (b!"/b", b!"@import;")]) rfl (by decide +kernel)
  · exact acyclic_of_test (env := exEnv [b!"a"] .passthrough [(b!"/a", b!"x{y:z} u>v{w:1px}"), (b!"/b", b!"@import;")])
      (rank := fun _ => 0) (files := [(b!"/a", b!"x{y:z} u>v{w:1px}"), (b!"/b", b!"@import;")]) rfl (by decide +kernel)
  · exact ⟨plainFiles_legible.2.fuel, plainFiles_legible.2.parse, plainFiles_legible.2.complete⟩

/-- What every schedule leaves in memory. -/
theorem schedule_end {env : CEnv} {e : Bytes} (he : env.entries = [e]) (hs : Single env) {rank : Bytes → Nat} (hac : Acyclic env rank)
    {n : Nat} {sh : Shared} (h : seqCompile env n = some sh) {st : CSt} (hr : Reached env st) (hd : st.main = .done) :
    SameSh sh st.sh ∧ ∀ a, lookupMap st.sh.files a = lookupMap sh.files a := by
  obtain ⟨k, hk⟩ := hr.steps
  obtain ⟨N, hN⟩ := schedule_partial he hs hac h
  exact (hN hk).2.2.2 hd

/-- C46 with one entry and at most one import in each file, under every schedule, also in follow mode: every file to be printed
that can be parsed has the output of its own compilation. -/
theorem entries_output_chain_partial {env : CEnv} {e : Bytes} (he : env.entries = [e]) (hs : Single env) {rank : Bytes → Nat}
    (hac : Acyclic env rank) {n : Nat} {sh : Shared} (h : seqCompile env n = some sh) {st : CSt} (hr : Reached env st)
    (hd : st.main = .done) : ∃ tab : Bytes → Option Stylesheet,
    ∀ {a c ss lines}, ToPrint env a → env.read a = some c → parse env.fuel c = .ok ss lines →
      ∃ ss' log, CompiledBy env tab a c lines ss' log ∧ tab a = some ss' ∧ Printed ⟨a, c, lines⟩ ss' st.sh := by
  obtain ⟨h1, h2⟩ := schedule_end he hs hac h hr hd
  obtain ⟨tab, ht⟩ := entries_output_partial hac h
  refine ⟨tab, fun hp hc hps => ?_⟩
  obtain ⟨ss', log, h3, h4, h5⟩ := ht hp hc hps
  refine ⟨ss', log, h3, h4, ?_⟩
  rcases h5 with ⟨out, h5, h6⟩ | ⟨h5, h6, h7⟩
  · exact .inl ⟨out, h5, by rw [h2]; exact h6⟩
  · exact .inr ⟨h5, by rw [h2]; exact h6, h1.errors.mem_iff.2 h7⟩

/-- C47 with one entry and at most one import in each file, under every schedule. -/
theorem imports_processed_chain_partial {env : CEnv} {e : Bytes} (he : env.entries = [e]) (hs : Single env) {rank : Bytes → Nat}
    (hac : Acyclic env rank) {n : Nat} {sh : Shared} (h : seqCompile env n = some sh) {st : CSt} (hr : Reached env st)
    (hd : st.main = .done) : ∃ tab : Bytes → Option Stylesheet,
    (∀ {p}, Asked env p → (∃ e ∈ st.sh.errors, FailsWith env p e) ∨ ∃ a ss', env.abs p = some a ∧ tab a = some ss') ∧
    (∀ {a ss'}, tab a = some ss' → ∃ c lines log, CompiledBy env tab a c lines ss' log) ∧
    ∀ {p a c ss lines imp}, Asked env p → env.abs p = some a → env.read a = some c → parse env.fuel c = .ok ss lines →
      imp ∈ ss.imports → env.resolve imp.value (dirOf a) = none → .resolve imp.value (dirOf a) ∈ st.sh.errors := by
  obtain ⟨h1, -⟩ := schedule_end he hs hac h hr hd
  obtain ⟨tab, ht1, ht2, ht3⟩ := imports_processed_partial hac h
  refine ⟨tab, fun hp => ?_, ht2, fun hp ha hc hps hi hres => h1.errors.mem_iff.2 (ht3 hp ha hc hps hi hres)⟩
  rcases ht1 hp with ⟨x, h2, h3⟩ | h2
  · exact .inl ⟨x, h1.errors.mem_iff.2 h2, h3⟩
  · exact .inr h2

/-- C64 with at most one import in each file, under every schedule. -/
theorem bundle_output_chain {env : CEnv} {e a : Bytes} (hent : env.entries = [e]) (hs : Single env) {rank : Bytes → Nat}
    (hac : Acyclic env rank) {n : Nat} {sh : Shared} (h : seqCompile env n = some sh) {st : CSt} (hr : Reached env st)
    (hd : st.main = .done) (ho : env.opts.Off) (hin : env.opts.importRules = .inline) (he : st.sh.errors = [])
    (ha : env.abs e = some a) :
    ∃ c id ss lines flat css b64, env.read a = some c ∧ parse env.fuel c id = .ok ss lines ∧ Bundled env (dirOf a) ss.nodes flat ∧
      print none ⟨flat, []⟩ = .ok css ∧
      lookupMap st.sh.files a = some (css ++ b!"\n/*# sourceMappingURL=data:application/json;base64," ++ b64 ++ b!" */\n") ∧
      ((∀ n ∈ flat, ∀ it ∈ n.items, it.Keeps) → ∀ i, ∃ k ss' lines', (∀ m, k ≤ m →
        parse m (css ++ b!"\n/*# sourceMappingURL=data:application/json;base64," ++ b64 ++ b!" */\n") i = .ok ss' lines') ∧
        ss'.nodes.map Node.bare = flat.map Node.bare ∧ ss'.imports = [] ∧
        ∀ m fo repl, transform fo env.opts repl (m + 1) ss' = .ok ss' (TSt.init env.opts repl) ∧ print none ss' = .ok css) := by
  obtain ⟨h1, h2⟩ := schedule_end hent hs hac h hr hd
  rw [h2]
  exact bundle_output hac h ho hin (h1.errors.symm.trans (by rw [he])).eq_nil (by rw [hent]; exact List.mem_singleton_self e) ha

end Cssc
