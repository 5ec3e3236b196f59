import Verif.Proofs.HeapSim
import Verif.Props.Compile

/-!
# C75: sharing trees between stylesheets

`CompileHeap.lean` has the compilation with trees in memory, `Compile.lean` the compilation where every stylesheet is a
value of its own.  Does it matter?
-/

namespace Cssc

/-- What can be seen of a compilation is the same: where `Compile` is, the files written, the reports in their order, the
sources with their line tables, what is still to be printed, and what is in the cache of stylesheets. -/
structure SameView (st : CSt) (hs : HSt) : Prop where
  main : hs.main = st.main
  files : hs.sh.files = st.sh.files
  errors : hs.sh.errors = st.sh.errors
  heap : hs.sh.heap = st.sh.heap
  sources : hs.sh.sources = st.sh.sources
  outputs : hs.sh.outputs = st.sh.outputs
  parses : hs.sh.parses = st.sh.parses
  asts : ∀ i, (lookupMap hs.asts i).map (HSheet.value hs.mem) = lookupMap st.sh.asts i

/-- Both end by a crash, or both end and look the same. -/
inductive SameRes : SRes → HRes → Prop where
  | crash : SameRes .crash .crash
  | ok {st : CSt} {hs : HSt} : SameView st hs → SameRes (.ok st) (.ok hs)

theorem HSim.view {hs : HSt} {st : CSt} (h : HSim hs st) : SameView st hs := by
  refine ⟨h.main.symm, ?_, ?_, ?_, ?_, ?_, ?_, fun i => ?_⟩
  all_goals rw [h.sh]
  dsimp only
  rw [hvals_lookup]

/-- **C75**, for options where no tree is transformed into another one a second time: whatever the schedule, the
compilation where stylesheets share their nodes does what the compilation with copies does.  Missing: with inlined
imports, the options for custom properties and custom media queries; there it is false, see `sharing_refuted`. -/
theorem sharing_partial {env : CEnv} (hopt : env.Steady) (cs : List Choice) :
    SameRes (runSched env CSt.init cs) (hRunSched env HSt.init cs) := by
  have := agree_run hopt cs (init_inv env) init_sim
  revert this
  generalize runSched env CSt.init cs = a
  generalize hRunSched env HSt.init cs = b
  intro this
  cases this with
  | crash => exact .crash
  | ok _ hS => exact .ok hS.view

/-- The states that some schedule leads to. -/
inductive HReached (env : CEnv) : HSt → Prop where
  | init : HReached env HSt.init
  | step {hs hs' : HSt} {c : Choice} : HReached env hs → hStep env hs c = some (.ok hs') → HReached env hs'

theorem HReached.sim {env : CEnv} (hopt : env.Steady) {hs : HSt} (h : HReached env hs) :
    ∃ st, Reached env st ∧ HInv env hs ∧ HSim hs st := by
  induction h with
  | init => exact ⟨_, .init, init_inv env, init_sim⟩
  | @step hs hs' c _ he ih =>
    obtain ⟨st, h1, hI, hS⟩ := ih
    have := agree_step hopt hI hS c
    rw [he] at this
    cases hc : cstep env st c with
    | none => rw [hc] at this; cases this
    | some r =>
      rw [hc] at this
      cases this with
      | ok hI' hS' => exact ⟨_, .step h1 hc, hI', hS'⟩

/-- So what has been shown of the states of `Compile.lean` holds for the states with trees in memory. -/
theorem shared_reached {env : CEnv} (hopt : env.Steady) {hs : HSt} (h : HReached env hs) : ∃ st, Reached env st ∧ SameView st hs := by
  obtain ⟨st, h1, _, h2⟩ := h.sim hopt
  exact ⟨st, h1, h2.view⟩

/-! ### What is in the cache stays -/

/-- The cache has grown at most. -/
def Grown (st : CSt) : Option SRes → Prop
  | some (.ok st') => st.sh.asts <:+ st'.sh.asts
  | _ => True

def HGrown (hs : HSt) : Option HRes → Prop
  | some (.ok hs') => hs.asts <:+ hs'.asts
  | _ => True

theorem grown_goto {st : CSt} {t : Nat} {th : Thread} {sh : Shared} {pc : PC} (h : sh.asts = st.sh.asts) : Grown st (st.goto t th sh pc) := by
  show st.sh.asts <:+ sh.asts
  rw [h]
  exact List.suffix_rfl

theorem hgrown_goto {hs : HSt} {t : Nat} {th : HThread} {sh : Shared} {pc : HPC} : HGrown hs (hs.goto t th sh pc) := List.suffix_rfl

theorem grown_bind {st : CSt} {x : Option α} {f : α → Option SRes} (h : ∀ a, Grown st (f a)) : Grown st (x.bind f) := by
  cases x with
  | none => trivial
  | some a => exact h a

theorem hgrown_bind {hs : HSt} {x : Option α} {f : α → Option HRes} (h : ∀ a, HGrown hs (f a)) : HGrown hs (x.bind f) := by
  cases x with
  | none => trivial
  | some a => exact h a

theorem cstep_grown (env : CEnv) (st : CSt) (c : Choice) : Grown st (cstep env st c) := by
  cases c with
  | main =>
    unfold cstep stepMain
    repeat' split
    all_goals first | trivial | exact List.suffix_rfl
  | print i =>
    unfold cstep stepPrint
    dsimp only
    repeat' split
    all_goals first | trivial | exact List.suffix_rfl
  | thread t =>
    unfold cstep stepThread
    refine grown_bind fun th => ?_
    dsimp only
    split
    all_goals first
      | trivial
      | exact grown_goto rfl
      | exact List.suffix_cons ..
      | (repeat' split
         all_goals first | trivial | exact grown_goto rfl | exact List.suffix_rfl)
      | (unfold stepParse; refine grown_bind fun _ => ?_; dsimp only; split <;> first | trivial | exact List.suffix_rfl)
      | (unfold stepStart
         split
         · exact grown_bind fun _ => grown_goto rfl
         · refine grown_bind fun _ => grown_bind fun _ => grown_bind fun _ => ?_
           split <;> exact grown_goto rfl)
      | (unfold stepWait
         split
         · refine grown_bind fun _ => ?_
           split <;> first | trivial | exact grown_goto rfl
         · trivial)
      | (unfold stepDeliver
         split
         · exact grown_bind fun _ => grown_bind fun _ => List.suffix_rfl
         · exact grown_goto rfl)

theorem hStep_grown (env : CEnv) (hs : HSt) (c : Choice) : HGrown hs (hStep env hs c) := by
  cases c with
  | main =>
    unfold hStep hStepMain
    repeat' split
    all_goals first | trivial | exact List.suffix_rfl
  | print i =>
    unfold hStep hStepPrint
    dsimp only
    repeat' split
    all_goals first | trivial | exact List.suffix_rfl
  | thread t =>
    unfold hStep hStepThread
    refine hgrown_bind fun th => ?_
    dsimp only
    split
    all_goals first
      | trivial
      | exact hgrown_goto
      | exact List.suffix_cons ..
      | (repeat' split
         all_goals first | trivial | exact hgrown_goto | exact List.suffix_rfl)
      | (unfold hStepParse; refine hgrown_bind fun _ => ?_; dsimp only; split <;> first | trivial | exact List.suffix_rfl)
      | (unfold hStepStart
         split
         · exact hgrown_bind fun _ => hgrown_goto
         · refine hgrown_bind fun _ => hgrown_bind fun _ => hgrown_bind fun _ => ?_
           split <;> exact hgrown_goto)
      | (unfold hStepWait
         split
         · refine hgrown_bind fun _ => ?_
           split <;> first | trivial | exact List.suffix_rfl
         · trivial)
      | (unfold hStepDeliver
         split
         · exact hgrown_bind fun _ => hgrown_bind fun _ => List.suffix_rfl
         · exact hgrown_goto)

/-- A stylesheet in the cache is the same value from then on, though its nodes may be in other stylesheets that are
transformed. -/
theorem cached_kept {env : CEnv} (hopt : env.Steady) {hs hs' : HSt} {c : Choice} (h : HReached env hs)
    (hstep : hStep env hs c = some (.ok hs')) :
    ∀ d ∈ hs.asts, d ∈ hs'.asts ∧ d.2.value hs'.mem = d.2.value hs.mem := by
  obtain ⟨st, _, hI, hS⟩ := h.sim hopt
  have ha := agree_step hopt hI hS c
  have hg := hStep_grown env hs c
  have hg' := cstep_grown env st c
  rw [hstep] at ha hg
  cases hc : cstep env st c with
  | none => rw [hc] at ha; cases ha
  | some r =>
    rw [hc] at ha hg'
    cases ha with
    | @ok st' _ hI' hS' =>
      obtain ⟨l, hl⟩ := (hg : hs.asts <:+ hs'.asts)
      obtain ⟨m, hm⟩ := (hg' : st.sh.asts <:+ st'.sh.asts)
      rw [hS.sh, hS'.sh] at hm
      dsimp only at hm
      rw [← hl] at hm
      unfold hvals at hm
      rw [List.map_append] at hm
      have := (List.append_inj' hm (by simp)).2
      intro d hd
      refine ⟨by rw [← hl]; exact List.mem_append_right _ hd, ?_⟩
      have := List.map_inj_left.1 this d hd
      exact (congrArg Prod.snd this).symm

/-- The two entries define `--x` as 1 and as 2, and both import a file that uses it. -/
def lentTree : CEnv :=
  { exEnv [b!"p", b!"q"] .inline
      [(b!"/p", b!":root .a{--x:1}@import \"b\";"), (b!"/q", b!":root .a{--x:2}@import \"b\";"), (b!"/b", b!"a{b:var(--x)}")] with
    opts := { TOpts.default with importRules := .inline, customProperties := true } }

/-- One goroutine after the other. -/
def lentRun : List Choice :=
  [.main] ++ steps 0 13 ++ steps 1 40 ++ steps 0 40 ++ [.main] ++ steps 2 13 ++ steps 3 40 ++ steps 2 40 ++
    [.main, .main, .print 0, .print 2, .main]

/-- A test of the state that a schedule leads to. -/
def HRes.check (f : HSt → Bool) : HRes → Bool
  | .ok hs => f hs
  | .crash => false

/-- **C75, refuted as stated**: `/p` writes its value of `--x` into the nodes of `/b`, which `/q` shares. -/
theorem sharing_refuted : ∃ env cs, ¬ SameRes (runSched env CSt.init cs) (hRunSched env HSt.init cs) := by
  refine ⟨lentTree, lentRun, fun h => ?_⟩
  have h1 : (runSched lentTree CSt.init lentRun).check (fun st => decide (st.main = .done ∧
      st.sh.files.map (fun f => (f.1, cssLine f.2)) = [(b!"/q", b!"a{b:2}"), (b!"/p", b!"a{b:1}")])) = true := by decide +kernel
  have h2 : (hRunSched lentTree HSt.init lentRun).check (fun st => decide (st.main = .done ∧
      st.sh.files.map (fun f => (f.1, cssLine f.2)) = [(b!"/q", b!"a{b:1}"), (b!"/p", b!"a{b:1}")])) = true := by decide +kernel
  revert h h1 h2
  generalize runSched lentTree CSt.init lentRun = a
  generalize hRunSched lentTree HSt.init lentRun = b
  intro h h1 h2
  cases h with
  | crash => cases h1
  | @ok st hs h =>
    have h1 := (of_decide_eq_true h1).2
    have h2 := (of_decide_eq_true h2).2
    rw [h.files, h1] at h2
    exact absurd h2 (by decide)

/-! ### Examples -/

/-- Two entries that inline the same file, with the other features on. -/
def lentSteady : CEnv :=
  { exEnv [b!"p", b!"q"] .inline
      [(b!"/p", b!"@import \"b\";c{d:e}"), (b!"/q", b!"f{g:h}@import \"b\";"), (b!"/b", b!":any-link{b:calc(1px + 2px)}")] with
    opts := { TOpts.default with importRules := .inline, anyLink := true, mediaFeatureRanges := true } }

theorem hRunSched_reach {env : CEnv} : ∀ {cs : List Choice} {hs hs' : HSt}, HReached env hs → hRunSched env hs cs = .ok hs' →
    HReached env hs'
  | [], hs, hs', h, hr => by cases hr; exact h
  | c :: cs, hs, hs', h, hr => by
    unfold hRunSched at hr
    split at hr
    · exact hRunSched_reach h hr
    · cases hr
    · exact hRunSched_reach (.step h (by assumption)) hr

/-- The hypotheses of `sharing_partial` and `shared_reached` hold for a compilation that writes two files, whose
stylesheets in the cache have a node in common. -/
example : lentSteady.Steady ∧ ∃ hs, HReached lentSteady hs ∧ hs.main = .done ∧
    hs.sh.files.map (fun f => (f.1, cssLine f.2)) =
      [(b!"/q", b!"f{g:h}:visited,:link{b:calc(1px+2px)}"), (b!"/p", b!":visited,:link{b:calc(1px+2px)}c{d:e}")] ∧
    hs.asts.map (fun d => d.2.nodes) = [[3, 2], [2, 1], [2]] := by
  refine ⟨fun _ => ⟨rfl, rfl⟩, ?_⟩
  have h : (hRunSched lentSteady HSt.init lentRun).check (fun hs => decide (hs.main = .done ∧
      hs.sh.files.map (fun f => (f.1, cssLine f.2)) =
        [(b!"/q", b!"f{g:h}:visited,:link{b:calc(1px+2px)}"), (b!"/p", b!":visited,:link{b:calc(1px+2px)}c{d:e}")] ∧
      hs.asts.map (fun d => d.2.nodes) = [[3, 2], [2, 1], [2]])) = true := by decide +kernel
  cases hr : hRunSched lentSteady HSt.init lentRun with
  | crash => rw [hr] at h; cases h
  | ok hs =>
    rw [hr] at h
    exact ⟨hs, hRunSched_reach .init hr, of_decide_eq_true h⟩

/-- The hypotheses of `cached_kept` hold for the step in which `/p` transforms the nodes of `/b`, which is in the
cache: a cell of the memory is assigned, and `/b` is what it was. -/
example : ∃ hs hs', HReached lentSteady hs ∧ hStep lentSteady hs (.thread 0) = some (.ok hs') ∧
    hs.asts.map (fun d => d.2.nodes) = [[2]] ∧ (match hs'.threads.head?.map (·.pc) with | some (.cache _ x) => x.nodes | _ => []) = [2, 1] := by
  have h : (hRunSched lentSteady HSt.init ([.main] ++ steps 0 13 ++ steps 1 40 ++ steps 0 1)).check (fun hs =>
      match hStep lentSteady hs (.thread 0) with
      | some (.ok hs') => decide (hs.asts.map (fun d => d.2.nodes) = [[2]] ∧
        (match hs'.threads.head?.map (·.pc) with | some (.cache _ x) => x.nodes | _ => []) = [2, 1])
      | _ => false) = true := by decide +kernel
  cases hr : hRunSched lentSteady HSt.init ([.main] ++ steps 0 13 ++ steps 1 40 ++ steps 0 1) with
  | crash => rw [hr] at h; cases h
  | ok hs =>
    rw [hr] at h
    have h' : (match hStep lentSteady hs (.thread 0) with
      | some (.ok hs') => decide (hs.asts.map (fun d => d.2.nodes) = [[2]] ∧
        (match hs'.threads.head?.map (·.pc) with | some (.cache _ x) => x.nodes | _ => []) = [2, 1])
      | _ => false) = true := h
    cases hc : hStep lentSteady hs (.thread 0) with
    | none => rw [hc] at h'; cases h'
    | some r =>
      rw [hc] at h'
      cases r with
      | crash => cases h'
      | ok hs' => exact ⟨hs, hs', hRunSched_reach .init hr, hc, of_decide_eq_true h'⟩

end Cssc
