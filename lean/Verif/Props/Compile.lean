import Verif.Proofs.CompileOne
import Verif.Proofs.CompileSeq
import Verif.Proofs.CompileEnds
import Verif.Proofs.CompileLoop
import Verif.Proofs.CompileTame
import Verif.Props.Printer
import Verif.Props.TransformBasic

/-!
# C45–C50: Compile

A state is reached under some schedule if `Reached env st`; `Compile` has returned in it if `st.main = .done`.
The properties are false under some schedules because of the data races in `api.go`, and on import graphs with
cycles.  Each refutation is a schedule of the machine, or a proof about all of them.  What holds is proved for all
schedules where possible, and for the schedule in which every goroutine runs to its end as soon as it is started
(`seqCompile`, which is a schedule by `seqCompile_is_schedule`) otherwise.
-/

namespace Cssc

theorem runSched_reach {env : CEnv} : ∀ {cs : List Choice} {st st' : CSt}, Reached env st → runSched env st cs = .ok st' →
    Reached env st'
  | [], st, st', h, hr => by cases hr; exact h
  | c :: cs, st, st', h, hr => by
    unfold runSched at hr
    split at hr
    · exact runSched_reach h hr
    · cases hr
    · exact runSched_reach (.step h (by assumption)) hr

/-- A test of the state that a schedule leads to. -/
def SRes.check (f : CSt → Bool) : SRes → Bool
  | .ok st => f st
  | .crash => false

theorem reach_of_check {env : CEnv} {cs : List Choice} {f : CSt → Bool} (h : (runSched env CSt.init cs).check f = true) :
    ∃ st, Reached env st ∧ f st = true := by
  cases hr : runSched env CSt.init cs with
  | crash => rw [hr] at h; cases h
  | ok st => rw [hr] at h; exact ⟨st, runSched_reach .init hr, h⟩

/-- The schedule ends in a crash. -/
theorem crash_of_check {env : CEnv} : ∀ {cs : List Choice} {st : CSt}, Reached env st →
    (match runSched env st cs with | .crash => true | .ok _ => false) = true →
    ∃ st' c, Reached env st' ∧ cstep env st' c = some .crash
  | [], st, h, hr => by cases hr
  | c :: cs, st, h, hr => by
    unfold runSched at hr
    rcases hc : cstep env st c with _ | r
    · rw [hc] at hr; exact crash_of_check h hr
    · rcases r with st' | _
      · rw [hc] at hr; exact crash_of_check (.step h hc) hr
      · exact ⟨st, c, h, hc⟩

/-- The sequential compilation is a schedule. -/
theorem seqCompile_is_schedule {env : CEnv} {n : Nat} {sh : Shared} (h : seqCompile env n = some sh) :
    ∃ st, Reached env st ∧ st.main = .done ∧ st.sh = sh := seqCompile_reach h

/-! ### For examples -/

def unitOps : FloatOps :=
  ⟨Unit, fun _ => none, fun _ => [], fun _ _ => (), fun _ _ => (), fun _ _ => (), fun _ _ => (), fun _ => true, (), ()⟩

/-- A compilation in the directory `/`, where specifiers are relative paths. -/
def exEnv (entries : List Bytes) (rules : ImportRules) (files : List (Bytes × Bytes)) : CEnv :=
  ⟨entries, { TOpts.default with importRules := rules }, some b!"/", lookupMap files,
    fun spec dir => some (joinPath [dir, spec]), unitOps, 100⟩

/-- `n` steps of goroutine `t`. -/
def steps (t n : Nat) : List Choice := List.replicate n (.thread t)

def twoEntries : CEnv := exEnv [b!"a", b!"b"] .passthrough [(b!"/a", b!"x{}"), (b!"/b", b!"y{}")]

def twoImports : CEnv :=
  exEnv [b!"m"] .inline [(b!"/m", b!"@import \"a\";@import \"b\";"), (b!"/a", b!"x{y:z}"), (b!"/b", b!"u{v:w}")]

def entryAndImport : CEnv :=
  exEnv [b!"a", b!"b"] .passthrough [(b!"/a", b!"@import \"x\";"), (b!"/b", b!"y{}"), (b!"/x", b!"u{v:w}")]

/-- The first line of a text: the output without its source map. -/
def cssLine (b : Bytes) : Bytes := b.takeWhile (· ≠ 10)

/-- A test for `Acyclic`. -/
def acyclicTest (env : CEnv) (files : List (Bytes × Bytes)) (rank : Bytes → Nat) : Bool :=
  files.all fun f =>
    match parse env.fuel f.2 with
    | .ok ss _ => ss.imports.all fun imp =>
      match (env.resolve imp.value (dirOf f.1)).bind env.abs with
      | some b => decide (rank b < rank f.1)
      | none => true
    | _ => true

theorem acyclic_of_test {env : CEnv} {files : List (Bytes × Bytes)} {rank : Bytes → Nat}
    (hr : env.read = lookupMap files) (h : acyclicTest env files rank = true) : Acyclic env rank := by
  intro p a c ss lines imp rel b _ _ hc hp hi hres hb
  rw [hr] at hc
  have := List.all_eq_true.1 h (a, c) (lookupMap_mem hc)
  dsimp only at this
  rw [hp] at this
  have := List.all_eq_true.1 this imp hi
  rw [hres, show (some rel).bind env.abs = env.abs rel from rfl, hb] at this
  exact of_decide_eq_true this

/-- Without cycles, the only entry is not imported. -/
theorem acyclic_not_self {env : CEnv} {rank : Bytes → Nat} (hac : Acyclic env rank) {e : Bytes} (he : env.entries = [e]) :
    ∀ r a, env.abs e = some a → Imported env r → env.abs r ≠ some a := by
  intro r a ha hi hr
  have hle : ∀ {p b}, Asked env p → env.abs p = some b → rank b ≤ rank a := by
    intro p b hp
    induction hp generalizing b with
    | entry h =>
      intro hb
      rw [he] at h
      cases List.mem_singleton.1 h
      rw [ha] at hb
      cases hb
      exact Nat.le_refl _
    | @imp p a' c id ss lines imp r hp hab hread hpar him hres ih =>
      intro hb
      obtain ⟨ss0, h1, h2⟩ := parse_ok_id hpar
      rw [h2] at him
      obtain ⟨imp0, h3, h4⟩ := List.mem_map.1 him
      have := hac hp hab hread h1 h3 (rel := r) (by rw [← hres, ← h4]; rfl) hb
      exact Nat.le_trans (Nat.le_of_lt this) (ih hab)
  obtain ⟨hp, hab, hread, hpar, him, hres⟩ := hi
  obtain ⟨ss0, h1, h2⟩ := parse_ok_id hpar
  rw [h2] at him
  obtain ⟨imp0, h3, h4⟩ := List.mem_map.1 him
  have := hac hp hab hread h1 h3 (rel := r) (by rw [← hres, ← h4]; rfl) hr
  exact Nat.lt_irrefl _ (Nat.lt_of_lt_of_le this (hle hp hab))

/-- The hypotheses of the theorems on sequential compilations and on single entries are met by `twoImports`. -/
theorem twoImports_acyclic : Acyclic twoImports fun a => if a = b!"/m" then 1 else 0 :=
  acyclic_of_test (env := twoImports) (rank := fun a => if a = b!"/m" then 1 else 0)
    (files := [(b!"/m", b!"@import \"a\";@import \"b\";"), (b!"/a", b!"x{y:z}"), (b!"/b", b!"u{v:w}")])
    rfl (by decide +kernel)

example : twoImports.entries = [b!"m"] ∧ (∀ r a, twoImports.abs b!"m" = some a → Imported twoImports r → twoImports.abs r ≠ some a) ∧
    twoImports.opts.importRules ≠ .follow ∧ (seqCompile twoImports 10).isSome ∧
    ∃ st, Reached twoImports st ∧ st.main = .done ∧ st.sh.files ≠ [] := by
  refine ⟨rfl, acyclic_not_self twoImports_acyclic rfl, by decide, by decide +kernel, ?_⟩
  obtain ⟨st, h1, h2⟩ := reach_of_check (env := twoImports)
    (cs := [.main] ++ steps 0 13 ++ steps 1 40 ++ steps 0 1 ++ steps 2 40 ++ steps 0 10 ++ [.main, .main, .print 0, .main])
    (f := fun st => decide (st.main = .done ∧ st.sh.files ≠ [])) (by decide +kernel)
  exact ⟨st, h1, of_decide_eq_true h2⟩

/-! ### C45 -/

/-- C45, in part.  Under every schedule, in every state, every output is that of a file that is an entry or that is
imported, directly or not, and that can be read.  Missing: that it is an entry if imports are not followed. -/
theorem files_asked_partial {env : CEnv} {st : CSt} (h : Reached env st) :
    ∀ kv ∈ st.sh.files, (∃ c, env.read kv.1 = some c) ∧
      ((∃ e ∈ env.entries, env.abs e = some kv.1) ∨ ∃ p, Imported env p ∧ env.abs p = some kv.1) := by
  intro kv hkv
  obtain ⟨s, hs, hp⟩ := h.inv1.files kv hkv
  obtain ⟨p, h1, h2, h3⟩ := h.inv1.heap s hs
  rw [hp] at h2 h3
  refine ⟨⟨_, h3⟩, ?_⟩
  cases h1 with
  | entry he => exact .inl ⟨p, he, h2⟩
  | imp h4 h5 h6 h7 h8 h9 => exact .inr ⟨p, .imp h4 h5 h6 h7 h8 h9, h2⟩

/-- C45 in follow mode, under every schedule. -/
theorem files_follow_partial {env : CEnv} {st : CSt} (hf : env.opts.importRules = .follow) (h : Reached env st) :
    ∀ kv ∈ st.sh.files, ToPrint env kv.1 ∧ ∃ c, env.read kv.1 = some c := by
  intro kv hkv
  obtain ⟨h1, h2⟩ := files_asked_partial h kv hkv
  exact ⟨h2.imp id fun h => ⟨hf, h⟩, h1⟩

/-- C45 for one entry that does not import itself, under every schedule: the only output is that of the entry. -/
theorem files_one_partial {env : CEnv} {e : Bytes} {st : CSt} (he : env.entries = [e])
    (hself : ∀ r a, env.abs e = some a → Imported env r → env.abs r ≠ some a)
    (hf : env.opts.importRules ≠ .follow) (h : Reached env st) : ∀ kv ∈ st.sh.files, env.abs e = some kv.1 := by
  intro kv hkv
  rcases h.one he hself with h1 | h1 | ⟨a, c, ss, lines, h1, h2, h3, h4⟩
  · cases h1 with
    | init hi => rw [hi] at hkv; cases hkv
    | one _ _ _ hpre =>
      have : st.sh.files = [] := by
        generalize st.sh = sh at hpre
        cases hpre <;> rfl
      rw [this] at hkv
      cases hkv
  · rw [h1.files] at hkv; cases hkv
  · rw [h4.keys hf kv hkv]; exact h1

/-- C45 for a sequential compilation. -/
theorem files_seq_partial {env : CEnv} {rank : Bytes → Nat} (hac : Acyclic env rank) {n : Nat} {sh : Shared}
    (h : seqCompile env n = some sh) {a out : Bytes} (hf : lookupMap sh.files a = some out) :
    ToPrint env a ∧ ∃ c, env.read a = some c := by
  have hd := seqCompile_done hac h
  obtain ⟨h1, ss, h2⟩ := hd.files hf
  obtain ⟨c, lines, log, ⟨_, _, _, h3, _⟩, _⟩ := hd.compiled h2
  exact ⟨h1, c, h3⟩

/-- C45 is false.  The entries `/a` and `/b` are compiled and the import of `/x` in `/a` is not followed.  The
goroutines for `/b` and `/x` take the same index, and the output is that of `/x`. -/
theorem files_refuted : ∃ env st, Reached env st ∧ st.main = .done ∧ env.opts.importRules = .passthrough ∧
    ∃ kv ∈ st.sh.files, ∀ e ∈ env.entries, env.abs e ≠ some kv.1 := by
  obtain ⟨st, h1, h2⟩ := reach_of_check (env := entryAndImport)
    (cs := [.main] ++ steps 0 16 ++ [.main] ++ steps 1 4 ++ steps 2 60 ++ steps 1 60 ++ steps 0 60 ++
      [.main, .main, .print 0, .print 1, .main])
    (f := fun st => decide (st.main = .done) && st.sh.files.any fun kv =>
      entryAndImport.entries.all fun e => decide (entryAndImport.abs e ≠ some kv.1)) (by decide +kernel)
  obtain ⟨h2, h3⟩ := Bool.and_eq_true_iff.1 h2
  obtain ⟨kv, h4, h5⟩ := List.any_eq_true.1 h3
  exact ⟨_, st, h1, of_decide_eq_true h2, rfl, kv, h4, fun e he => of_decide_eq_true (List.all_eq_true.1 h5 e he)⟩

/-! ### C46 -/

/-- C46 for one entry that does not import itself, under every schedule.  If it can be read and parsed, there is its
output, which is the printed form of the transformed stylesheet of that very file; or it could not be printed, and this
was reported.  The replacements for imports are not said here (see C47). -/
theorem entry_output_partial {env : CEnv} {e a c : Bytes} {ss : Stylesheet} {lines : List Nat} {st : CSt}
    (he : env.entries = [e]) (hself : ∀ r a, env.abs e = some a → Imported env r → env.abs r ≠ some a)
    (ha : env.abs e = some a) (hc : env.read a = some c) (hp : parse env.fuel c = .ok ss lines)
    (h : Reached env st) (hd : st.main = .done) :
    ∃ repl ss' s, (ss.imports = [] → repl = []) ∧
      transform env.fo env.opts (if env.opts.importRules = .inline then some repl else none) env.fuel ss = .ok ss' s ∧
      ((∃ out, print (some ⟨a, c, lines⟩) ss' = .ok out ∧ lookupMap st.sh.files a = some out) ∨
        (print (some ⟨a, c, lines⟩) ss' = .error ∧ (∀ kv ∈ st.sh.files, kv.1 ≠ a) ∧ .print a ∈ st.sh.errors)) := by
  rcases h.one he hself with h1 | h1 | ⟨a', c', ss', lines', h1, h2, h3, h4⟩
  · cases h1 with
    | init hi => rw [hi] at hd; cases hd
    | one _ hm _ _ => rcases hm with hm | hm <;> rw [hm] at hd <;> cases hd
  · rcases h1.why with h2 | ⟨a', h2, h3 | ⟨c', err, l, h3, h4⟩⟩
    · rw [ha] at h2; cases h2
    · rw [ha] at h2; cases h2; rw [hc] at h3; cases h3
    · rw [ha] at h2; cases h2; rw [hc] at h3; cases h3; rw [hp] at h4; cases h4
  · rw [ha] at h1; cases h1
    rw [hc] at h2; cases h2
    rw [hp] at h3; cases h3
    have := h4.out
    rw [hd] at this
    obtain ⟨ss2, ⟨repl, s, h5, h6⟩, h7⟩ := this
    exact ⟨repl, ss2, s, h5, h6, h7⟩

/-- C46 for a sequential compilation: every entry (and, in follow mode, every imported file) that can be read and parsed
has been compiled, from its own text and the compilations of the files that it imports; its output is the printed
form, unless printing failed, which was reported. -/
theorem entries_output_partial {env : CEnv} {rank : Bytes → Nat} (hac : Acyclic env rank) {n : Nat} {sh : Shared}
    (h : seqCompile env n = some sh) : ∃ tab : Bytes → Option Stylesheet,
    ∀ {a c ss lines}, ToPrint env a → env.read a = some c → parse env.fuel c = .ok ss lines →
      ∃ ss' log, CompiledBy env tab a c lines ss' log ∧ tab a = some ss' ∧ Printed ⟨a, c, lines⟩ ss' sh := by
  have hd := seqCompile_done hac h
  refine ⟨sh.tab, fun {a c ss lines} ht hc hp => ?_⟩
  have hasked : ∃ p, Asked env p ∧ env.abs p = some a := by
    rcases ht with ⟨e, h1, h2⟩ | ⟨-, p, h1, h2⟩
    · exact ⟨e, .entry h1, h2⟩
    · exact ⟨p, h1.asked, h2⟩
  obtain ⟨p, h1, h2⟩ := hasked
  rcases hd.asked h1 with ⟨e, -, hf⟩ | ⟨b, ss', h3, h4⟩
  · cases hf with
    | abs h => rw [h2] at h; cases h
    | read h h' => rw [h2] at h; cases h; rw [hc] at h'; cases h'
    | parse h h' h'' => rw [h2] at h; cases h; rw [hc] at h'; cases h'; rw [hp] at h''; cases h''
  · rw [h2] at h3
    cases h3
    obtain ⟨c', lines', log, h5, -, h6⟩ := hd.compiled h4
    have h7 := h5
    obtain ⟨id, ss2, s, h8, h9, -⟩ := h7
    rw [hc] at h8
    cases h8
    obtain ⟨ss3, h10, -⟩ := parse_ok_id h9
    rw [hp] at h10
    cases h10
    exact ⟨ss', log, h5, h4, h6 ht⟩

/-- C46 is false.  Both goroutines read the loop variable `e` after the loop: `/b` is compiled twice, `/a` never. -/
theorem entries_output_refuted : ∃ st, Reached twoEntries st ∧ st.main = .done ∧
    lookupMap st.sh.files b!"/a" = none ∧ st.sh.errors = [] := by
  obtain ⟨st, h1, h2⟩ := reach_of_check (env := twoEntries)
    (cs := [.main, .main, .main] ++ steps 0 40 ++ steps 1 40 ++ [.main, .print 0, .print 1, .main])
    (f := fun st => decide (st.main = .done ∧ lookupMap st.sh.files b!"/a" = none ∧ st.sh.errors = []))
    (by decide +kernel)
  exact ⟨st, h1, of_decide_eq_true h2⟩

/-- … although `/a` can be compiled: other schedules do. -/
example : ∃ st, Reached twoEntries st ∧ st.main = .done ∧
    (lookupMap st.sh.files b!"/a").isSome ∧ (lookupMap st.sh.files b!"/b").isSome ∧ st.sh.errors = [] := by
  obtain ⟨st, h1, h2⟩ := reach_of_check (env := twoEntries)
    (cs := [.main] ++ steps 0 40 ++ [.main] ++ steps 1 40 ++ [.main, .main, .print 0, .print 1, .main])
    (f := fun st => decide (st.main = .done ∧ (lookupMap st.sh.files b!"/a").isSome ∧
      (lookupMap st.sh.files b!"/b").isSome ∧ st.sh.errors = []))
    (by decide +kernel)
  exact ⟨st, h1, of_decide_eq_true h2⟩

/-! ### C47 -/

/-- C47 for a sequential compilation: when a file is compiled, each of its imports is replaced by the compilation of
the file that this very import is resolved to, if there is one.  If there is none, because the import cannot be
resolved or the file cannot be compiled, it was reported why. -/
theorem imports_processed_partial {env : CEnv} {rank : Bytes → Nat} (hac : Acyclic env rank) {n : Nat} {sh : Shared}
    (h : seqCompile env n = some sh) : ∃ tab : Bytes → Option Stylesheet,
    (∀ {p}, Asked env p → (∃ e ∈ sh.errors, FailsWith env p e) ∨ ∃ a ss', env.abs p = some a ∧ tab a = some ss') ∧
    (∀ {a ss'}, tab a = some ss' → ∃ c lines log, CompiledBy env tab a c lines ss' log) ∧
    ∀ {p a c ss lines imp}, Asked env p → env.abs p = some a → env.read a = some c → parse env.fuel c = .ok ss lines →
      imp ∈ ss.imports → env.resolve imp.value (dirOf a) = none → .resolve imp.value (dirOf a) ∈ sh.errors := by
  have hd := seqCompile_done hac h
  refine ⟨sh.tab, hd.asked, fun ha => ?_, hd.unresolved⟩
  obtain ⟨c, lines, log, h1, -⟩ := hd.compiled ha
  exact ⟨c, lines, log, h1⟩

/-- C47 is false.  The goroutines of both imports read the loop variable `imp` after the loop: the second import is
compiled twice and the first one stays as it is. -/
theorem imports_processed_refuted : ∃ st, Reached twoImports st ∧ st.main = .done ∧
    (lookupMap st.sh.files b!"/m").map cssLine = some b!"@import \"a\";u{v:w}" ∧ st.sh.errors = [] := by
  obtain ⟨st, h1, h2⟩ := reach_of_check (env := twoImports)
    (cs := [.main] ++ steps 0 16 ++ steps 1 40 ++ steps 2 40 ++ steps 0 10 ++ [.main, .main, .print 0, .main])
    (f := fun st => decide (st.main = .done ∧
      (lookupMap st.sh.files b!"/m").map cssLine = some b!"@import \"a\";u{v:w}" ∧ st.sh.errors = []))
    (by decide +kernel)
  exact ⟨st, h1, of_decide_eq_true h2⟩

/-- … although the sequential compilation has both. -/
example : ((seqCompile twoImports 10).bind fun sh => (lookupMap sh.files b!"/m").map cssLine) =
    some b!"x{y:z}u{v:w}" := by decide +kernel

/-! ### C48 -/

/-- C48 is false.  If every file that is looked at imports another one, then `Compile` does not return, under any
schedule. -/
theorem endless_never_returns {env : CEnv} (he : Endless env) {st : CSt} (h : Reached env st) : st.main ≠ .done := by
  intro hd
  rcases (h.loop he).main with ⟨k, h1, -⟩ | ⟨h1, -⟩ <;> rw [hd] at h1 <;> cases h1

def selfImport : CEnv := exEnv [b!"a"] .inline [(b!"/a", b!"@import \"a\";")]

theorem selfImport_asked {p : Bytes} (h : Asked selfImport p) : selfImport.abs p = some b!"/a" := by
  induction h with
  | entry he => cases List.mem_singleton.1 he; decide +kernel
  | @imp p a c id ss lines imp r hp ha hr hpar him hres ih =>
    rw [ih] at ha
    cases ha
    have hc : selfImport.read b!"/a" = some b!"@import \"a\";" := by decide +kernel
    rw [hc] at hr
    cases hr
    obtain ⟨ss0, h1, h2⟩ := parse_ok_id hpar
    have h3 : (match parse selfImport.fuel b!"@import \"a\";" with
      | .ok ss _ => ss.imports.all fun imp => decide (imp.value = b!"a")
      | _ => false) = true := by decide +kernel
    rw [h1] at h3
    rw [h2] at him
    obtain ⟨imp0, h4, h5⟩ := List.mem_map.1 him
    have h6 : imp.value = b!"a" := by
      rw [← h5]
      exact of_decide_eq_true (List.all_eq_true.1 h3 imp0 h4)
    rw [h6] at hres
    have h7 : (selfImport.resolve b!"a" (dirOf b!"/a")).bind selfImport.abs = some b!"/a" := by decide +kernel
    rw [hres] at h7
    exact h7

theorem selfImport_endless : Endless selfImport := by
  refine ⟨by decide, fun {p} hp => ?_⟩
  refine ⟨b!"/a", b!"@import \"a\";", ?_⟩
  have h3 : (match parse selfImport.fuel b!"@import \"a\";" with
      | .ok ss _ => !ss.imports.isEmpty
      | _ => false) = true := by decide +kernel
  cases h1 : parse selfImport.fuel b!"@import \"a\";" with
  | ok ss l =>
    rw [h1] at h3
    refine ⟨ss, l, selfImport_asked hp, by decide +kernel, rfl, ?_, fun imp _ => ⟨_, rfl⟩⟩
    intro h
    dsimp only at h3
    rw [h] at h3
    cases h3
  | error _ _ => rw [h1] at h3; cases h3
  | panic => rw [h1] at h3; cases h3
  | timeout => rw [h1] at h3; cases h3

/-- C48 is false: with a single file, `/a`, that imports itself. -/
theorem compile_returns_refuted : ∃ env : CEnv, (∀ a, a ≠ b!"/a" → env.read a = none) ∧
    ∀ st, Reached env st → st.main ≠ .done := by
  refine ⟨selfImport, fun a ha => ?_, fun st h => endless_never_returns selfImport_endless h⟩
  show lookupMap [(b!"/a", b!"@import \"a\";")] a = none
  rw [lookupMap_cons_ne ha.symm]
  rfl

/-- C48 without cycles: the sequential compilation returns, if the files can be parsed (or not, but with an error),
transformed and printed without a panic.  Missing: other schedules, which may run into a cycle that is not there,
because two files can have the same index (C82, `compile_ends_refuted`). -/
theorem compile_returns_partial {env : CEnv} {rank : Bytes → Nat} (hac : Acyclic env rank) (hrd : Legible env) :
    ∃ st, Reached env st ∧ st.main = .done := by
  obtain ⟨n, sh, h⟩ := seqCompile_ends hac hrd.tame
  obtain ⟨st, h1, h2, -⟩ := seqCompile_reach h
  exact ⟨st, h1, h2⟩

/-- A rule with selectors and declarations. -/
def plainRule : Node → Bool
  | .rule r => (match r.prelude with | .sels l => l.sels.all (fun s => !s.parts.isEmpty) | _ => false) &&
    (match r.block with | some b => !b.decls.isEmpty | none => false)
  | _ => false

theorem plainRule_kept {n : Node} (h : plainRule n = true) (i : Nat) : KeptNode none (n.setId i) := by
  cases n with
  | rule r =>
    show KeptNode none (.rule r)
    unfold KeptNode
    unfold plainRule at h
    obtain ⟨h1, h2⟩ := Bool.and_eq_true_iff.1 h
    constructor
    · cases hp : r.prelude with
      | sels l =>
        rw [hp] at h1
        refine ⟨l, rfl, fun s hs => ?_⟩
        have := List.all_eq_true.1 h1 s hs
        intro h; rw [h] at this; cases this
      | _ => rw [hp] at h1; cases h1
    · cases hb : r.block with
      | some b =>
        rw [hb] at h2
        refine ⟨b, rfl, fun h => ?_⟩
        dsimp only at h2
        rw [h] at h2
        cases h2
      | none => rw [hb] at h2; cases h2
  | _ => cases h

/-- One file has rules, one does not parse. -/
def plainFiles : CEnv := exEnv [b!"a", b!"b"] .passthrough [(b!"/a", b!"x{y:z} u>v{w:1px}"), (b!"/b", b!"@import;")]

/-- The hypotheses are met by `plainFiles`. -/
theorem plainFiles_legible : Acyclic plainFiles (fun _ => 0) ∧ Legible plainFiles :=
  ⟨acyclic_of_test (env := plainFiles) (rank := fun _ => 0) (files := [(b!"/a", b!"x{y:z} u>v{w:1px}"), (b!"/b", b!"@import;")])
    rfl (by decide +kernel),
    legible_of_test (files := [(b!"/a", b!"x{y:z} u>v{w:1px}"), (b!"/b", b!"@import;")]) rfl (by decide) (by decide +kernel)⟩

/-! ### C49 -/

/-- C49: in a sequential compilation, a file that is asked for and that cannot be read or parsed is reported, and there
is no output for it.  The other files are compiled as `entries_output_partial` says. -/
theorem failed_reported {env : CEnv} {rank : Bytes → Nat} (hac : Acyclic env rank) {n : Nat} {sh : Shared}
    (h : seqCompile env n = some sh) {p : Bytes} (hp : Asked env p)
    (hf : ∀ {a c ss lines}, env.abs p = some a → env.read a = some c → parse env.fuel c ≠ .ok ss lines) :
    (∃ e ∈ sh.errors, FailsWith env p e) ∧ ∀ {a}, env.abs p = some a → lookupMap sh.files a = none := by
  have hd := seqCompile_done hac h
  have hno : ∀ {a ss'}, env.abs p = some a → sh.tab a ≠ some ss' := by
    intro a ss' ha ht
    obtain ⟨c, lines, log, ⟨id, ss, s, h1, h2, -⟩, -⟩ := hd.compiled ht
    obtain ⟨ss0, h3, -⟩ := parse_ok_id h2
    exact hf ha h1 h3
  constructor
  · rcases hd.asked hp with h1 | ⟨a, ss', h1, h2⟩
    · exact h1
    · exact (hno h1 h2).elim
  · intro a ha
    cases ho : lookupMap sh.files a with
    | none => rfl
    | some out =>
      obtain ⟨-, ss', h1⟩ := hd.files ho
      exact (hno ha h1).elim

/-- C49 for one entry, under every schedule. -/
theorem failed_reported_one {env : CEnv} {e : Bytes} {st : CSt} (he : env.entries = [e])
    (hself : ∀ r a, env.abs e = some a → Imported env r → env.abs r ≠ some a) (h : Reached env st) (hd : st.main = .done)
    (hf : ∀ {a c ss lines}, env.abs e = some a → env.read a = some c → parse env.fuel c ≠ .ok ss lines) :
    st.sh.errors ≠ [] ∧ st.sh.files = [] := by
  rcases h.one he hself with h1 | h1 | ⟨a, c, ss, lines, h1, h2, h3, -⟩
  · cases h1 with
    | init hi => rw [hi] at hd; cases hd
    | one _ hm _ _ => rcases hm with hm | hm <;> rw [hm] at hd <;> cases hd
  · exact ⟨h1.errors, h1.files⟩
  · exact (hf h1 h2 h3).elim

/-- One entry is missing, one does not parse, and one is compiled. -/
example : (seqCompile (exEnv [b!"a", b!"b", b!"c"] .inline [(b!"/b", b!"@import;"), (b!"/c", b!"x{y:z}")]) 10).map
    (fun sh => (sh.errors.length, sh.files.map (·.1))) = some (2, [b!"/c"]) := by decide +kernel

/-! ### C50 -/

/-- C50: in a sequential compilation, no file is parsed twice, unless it fails to parse; and all who ask for the same
file see the same stylesheet (`tab`), the one whose printed form is the output. -/
theorem parsed_once {env : CEnv} {rank : Bytes → Nat} (hac : Acyclic env rank) {n : Nat} {sh : Shared}
    (h : seqCompile env n = some sh) :
    (∀ {a c ss lines}, env.read a = some c → parse env.fuel c = .ok ss lines → sh.parses.count a ≤ 1) ∧
    (∀ {p a c ss lines}, Asked env p → env.abs p = some a → env.read a = some c → parse env.fuel c = .ok ss lines →
      sh.parses.count a = 1) := by
  have hd := seqCompile_done hac h
  have h1 : ∀ {a c ss lines}, env.read a = some c → parse env.fuel c = .ok ss lines → sh.parses.count a ≤ 1 := by
    intro a c ss lines hc hp
    refine Nat.le_of_not_lt fun hlt => ?_
    obtain ⟨c', e, l, h2, h3⟩ := hd.once hlt
    rw [hc] at h2
    cases h2
    rw [hp] at h3
    cases h3
  refine ⟨h1, fun {p a c ss lines} hask ha hc hp => Nat.le_antisymm (h1 hc hp) ?_⟩
  rcases hd.asked hask with ⟨e, -, hf⟩ | ⟨b, ss', h3, h4⟩
  · cases hf with
    | abs h => rw [ha] at h; cases h
    | read h h' => rw [ha] at h; cases h; rw [hc] at h'; cases h'
    | parse h h' h'' => rw [ha] at h; cases h; rw [hc] at h'; cases h'; rw [hp] at h''; cases h''
  · rw [ha] at h3
    cases h3
    exact List.one_le_count_iff.2 (hd.parsed h4)

/-- Two entries that share an import: three files, three parses. -/
example : (seqCompile (exEnv [b!"a", b!"b"] .inline [(b!"/a", b!"@import \"x\";"), (b!"/b", b!"@import \"x\";"),
    (b!"/x", b!"u{v:w}")]) 10).map
    (fun sh => (sh.parses, sh.files.map fun kv => (kv.1, cssLine kv.2))) =
    some ([b!"/b", b!"/x", b!"/a"], [(b!"/a", b!"u{v:w}"), (b!"/b", b!"u{v:w}")]) := by decide +kernel

/-! ### Panics -/

/-- `Compile` can crash because of its data races alone: while one goroutine has a new index but not yet stored the
source, another one is given the same source and finds nothing. -/
theorem compile_crash_refuted : ∃ st c, Reached twoEntries st ∧ cstep twoEntries st c = some .crash :=
  crash_of_check (cs := [.main, .main, .main] ++ steps 0 4 ++ steps 1 10) .init (by decide +kernel)

/-- … or because two goroutines write to the map `outputsByIndex`. -/
theorem compile_crash_refuted' : ∃ st c, Reached twoEntries st ∧ st.sh.writing = true ∧
    cstep twoEntries st c = some .crash := by
  obtain ⟨st, h1, h2⟩ := reach_of_check (env := twoEntries) (cs := [.main] ++ steps 0 8 ++ [.main] ++ steps 1 7)
    (f := fun st => st.sh.writing && match cstep twoEntries st (.thread 1) with | some .crash => true | _ => false)
    (by decide +kernel)
  obtain ⟨h2, h3⟩ := Bool.and_eq_true_iff.1 h2
  refine ⟨st, .thread 1, h1, h2, ?_⟩
  split at h3
  · assumption
  · cases h3

end Cssc
