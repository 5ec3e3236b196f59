import Verif.Proofs.CompileCrash
import Verif.Props.Live
import Verif.Props.Tidy

/-!
# C83: what can crash a compilation

If no file makes the parser, the transformer or the printer panic, then there are two ways for `Compile` to crash, both of
which take two goroutines: one writes to the map `outputsByIndex` while another one does, or it uses a source that another one
has yet to store.  The first takes two outputs.  The second takes a file that is asked for twice, or a goroutine that reads its
loop variable too late, or a number that is given to two files.
-/

namespace Cssc

/-- C83: the two ways to crash. -/
theorem crash_two_ways {env : CEnv} (hrd : Legible env) {st : CSt} (hr : Reached env st) {c : Choice} :
    cstep env st c = some .crash ↔ ∃ t, c = .thread t ∧ (MapClash st t ∨ NoSource st t) := hr.crash_iff hrd.tame

/-- `Compile` has as many goroutines of its own as it has gone through iterations. -/
theorem Reached.entryCount {env : CEnv} {st : CSt} (h : Reached env st) :
    st.parents.count none ≤ env.entries.length ∧ ∀ k, st.main = .spawn k → st.parents.count none = k := by
  induction h with
  | init => exact ⟨by simp [CSt.init, CSt.parents], fun k hk => by cases hk; rfl⟩
  | step hr hs ih =>
    rcases cstep_act hs with h | ⟨t, th, hth, h⟩
    · rcases h.parents with ⟨e, hm⟩ | ⟨k, h1, h2, h3, e⟩
      · refine ⟨by unfold CSt.parents; rw [e]; exact ih.1, fun k hk => ?_⟩
        cases h with
        | spawn hm1 hk1 =>
          have := congrArg List.length e
          simp at this
        | _ => cases hk
      · have := ih.2 k h1
        refine ⟨?_, fun j hj => ?_⟩
        · unfold CSt.parents at this ⊢
          rw [e, List.map_append, List.count_append, this]
          exact h3
        · rw [h2] at hj; cases hj
          unfold CSt.parents at this ⊢
          rw [e, List.map_append, List.count_append, this]
          rfl
    · have hmain : ∀ {a b : CSt}, Act env a t th b → b.main = a.main := fun h => by cases h <;> rfl
      have hcnt : ∀ {a b : CSt}, b.parents = a.parents ∨ (∃ i k, th.pc = .spawn i k ∧ k < th.ss.imports.length ∧ b.parents = a.parents ++ [some t]) →
          b.parents.count none = a.parents.count none := by
        rintro a b (e | ⟨_, _, _, _, e⟩) <;> rw [e]
        rw [List.count_append]
        rfl
      rw [hcnt (h.parents hth), hmain h]
      exact ih

/-- With one entry, and imports that are not followed, the first way is out: there is one goroutine that writes to the map. -/
theorem no_map_clash {env : CEnv} (he : env.entries.length ≤ 1) (hf : env.opts.importRules ≠ .follow) {st : CSt} (hr : Reached env st)
    (t : Nat) : ¬ MapClash st t := by
  rintro ⟨u, th, x, i, j, hne, h1, h2, h3, h4⟩
  have hO := hr.out
  have top : ∀ {y : Thread}, y ∈ st.threads → (∃ i, y.pc = .outBegin i ∨ y.pc = .outEnd i) → y.parent = none := by
    rintro y hy ⟨i, hi⟩
    have := hO.out y hy i hi
    unfold hasOutput at this
    cases hp : y.parent with
    | none => rfl
    | some q =>
      rw [hp] at this
      exact absurd (of_decide_eq_true this) hf
  have p1 := parents_get h1
  rw [top (List.mem_of_getElem? h1) ⟨i, .inl h3⟩] at p1
  have p2 := parents_get h2
  rw [top (List.mem_of_getElem? h2) ⟨j, .inr h4⟩] at p2
  have hc := hr.entryCount.1
  have two : ∀ {a b : Nat}, st.parents[a]? = some none → st.parents[b]? = some none → a < b → False := by
    intro a b ha hb hab
    have l1 := ordinal_lt ha hab
    have l2 := ordinal_lt (u := b + 1) hb (by omega)
    have l3 := (List.take_sublist (b + 1) st.parents).count_le none
    omega
  rcases Nat.lt_trichotomy t u with h | h | h
  · exact two p1 p2 h
  · exact hne h.symm
  · exact two p2 p1 h

/-- If no file is asked for twice, the second way is out, in schedules in which no goroutine starts after its loop has gone on,
and no number is given to two files. -/
theorem no_missing_source {env : CEnv} (hU : Unshared env) {st : CSt} (hr : ReachedStarts env st) (hD : Distinct st.sh) (t : Nat) :
    ¬ NoSource st t := hr.hasSource hD hU t

/-- The two together: such schedules do not crash. -/
theorem unshared_no_crash {env : CEnv} (hrd : Legible env) (he : env.entries.length ≤ 1)
    (hf : env.opts.importRules ≠ .follow) (hU : Unshared env) {st : CSt} (hr : ReachedStarts env st) (hD : Distinct st.sh) (c : Choice) :
    cstep env st c ≠ some .crash := by
  intro h
  obtain ⟨t, -, h | h⟩ := (crash_two_ways hrd hr.reached).1 h
  · exact no_map_clash he hf hr.reached t h
  · exact no_missing_source hU hr hD t h

/-- With C82: if there are no cycles either, such schedules come to an end, without a crash. -/
theorem unshared_returns {env : CEnv} {rank : Bytes → Nat} (hac : Acyclic env rank) (hrd : Legible env)
    (he : env.entries.length ≤ 1) (hf : env.opts.importRules ≠ .follow) (hU : Unshared env) :
    ∃ N, ∀ {k : Nat} {st : CSt}, Steps env k CSt.init st → ReachedStarts env st → Distinct st.sh →
      k ≤ N ∧ (st.main = .done ∨ ∃ c st', cstep env st c = some (.ok st')) ∧ ∀ c, cstep env st c ≠ some .crash := by
  obtain ⟨N, hN⟩ := compile_returns_all_partial hac hrd
  exact ⟨N, fun hs hr hD => ⟨(hN hs hD).1, (hN hs hD).2, unshared_no_crash hrd he hf hU hr hD⟩⟩

/-! ### A test for `Unshared` -/

/-- Who asks for what, of the files listed. -/
def requests (env : CEnv) (paths : List Bytes) : List ((Option Bytes × Nat) × Bytes) :=
  (env.entries.zipIdx.filterMap fun x => (env.abs x.1).map fun a => ((none, x.2), a)) ++
  paths.flatMap fun a =>
    match env.read a with
    | none => []
    | some c =>
      match parse env.fuel c with
      | .ok ss _ => ss.imports.zipIdx.filterMap fun x => ((env.resolve x.1.value (dirOf a)).bind env.abs).map fun b => ((some a, x.2), b)
      | _ => []

theorem request_listed {env : CEnv} {paths : List Bytes} (h : askedTest env paths = true) {o : Option Bytes} {k : Nat} {p a : Bytes}
    (hr : Request env o k p) (ha : env.abs p = some a) : ((o, k), a) ∈ requests env paths := by
  unfold requests
  rw [List.mem_append]
  cases hr with
  | entry he =>
    refine .inl (List.mem_filterMap.2 ⟨(p, k), ?_, by dsimp only; rw [ha]; rfl⟩)
    exact List.mem_zipIdx_iff_getElem?.2 he
  | @imp _ q b c id ss lines imp _ hq hb hread hpar him hres =>
    refine .inr (List.mem_flatMap.2 ⟨b, asked_of_test h hq hb, ?_⟩)
    rw [hread]
    dsimp only
    obtain ⟨ss0, h2, h3⟩ := parse_ok_id hpar
    rw [h2]
    rw [h3] at him
    have him' : (ss0.imports.map (ImportSpec.setId id))[k]? = some imp := him
    rw [List.getElem?_map] at him'
    obtain ⟨imp0, h4, h5⟩ := Option.map_eq_some_iff.1 him'
    have h7 : imp.value = imp0.value := by rw [← h5]; rfl
    refine List.mem_filterMap.2 ⟨(imp0, k), List.mem_zipIdx_iff_getElem?.2 h4, ?_⟩
    dsimp only
    rw [← h7, hres, show (some p).bind env.abs = env.abs p from rfl, ha]
    rfl

theorem fst_eq_of_nodup {α β : Type} : ∀ {l : List (α × β)}, (l.map Prod.snd).Nodup → ∀ {x y : α} {b : β}, (x, b) ∈ l → (y, b) ∈ l → x = y
  | z :: l, h, x, y, b, hx, hy => by
    obtain ⟨h1, h2⟩ := List.nodup_cons.1 h
    rcases List.mem_cons.1 hx with e | hx
    · rcases List.mem_cons.1 hy with e' | hy
      · rw [← e'] at e; cases e; rfl
      · exact absurd (List.mem_map.2 ⟨_, hy, by rw [← e]⟩) h1
    · rcases List.mem_cons.1 hy with e' | hy
      · exact absurd (List.mem_map.2 ⟨_, hx, by rw [← e']⟩) h1
      · exact fst_eq_of_nodup h2 hx hy

theorem unshared_of_test {env : CEnv} {paths : List Bytes} (h : askedTest env paths = true)
    (hn : ((requests env paths).map Prod.snd).Nodup) : Unshared env := by
  intro o o' k k' p p' a h1 h2 h3 h4
  cases fst_eq_of_nodup hn (request_listed h h1 h3) (request_listed h h2 h4)
  exact ⟨rfl, rfl⟩

/-! ### The hypotheses are met, and needed -/

/-- A test for the steps of `ReachedStarts`. -/
def startTest (st : CSt) : Choice → Bool
  | .thread t =>
    match st.threads[t]? with
    | none => true
    | some th => (match th.pc with | .start => false | _ => true) || decide (st.loopVar th.parent = some (st.ordinal th.parent t))
  | _ => true

def runStarts (env : CEnv) : CSt → List Choice → Option CSt
  | st, [] => some st
  | st, c :: cs =>
    if startTest st c then
      match cstep env st c with
      | some (.ok st') => runStarts env st' cs
      | _ => none
    else none

theorem runStarts_reach {env : CEnv} {cs : List Choice} : ∀ {st st' : CSt}, ReachedStarts env st → runStarts env st cs = some st' →
    ReachedStarts env st' := by
  induction cs with
  | nil => intro st st' h e; cases e; exact h
  | cons c cs ih =>
    intro st st' h e
    unfold runStarts at e
    split at e
    · rename_i ht
      split at e
      · rename_i hs
        refine ih (.step h (fun t th ec hth hpc => ?_) hs) e
        subst ec
        unfold startTest at ht
        dsimp only at ht
        rw [hth] at ht
        dsimp only at ht
        rw [hpc] at ht
        simpa using ht
      · cases e
    · cases e

theorem starts_of_check {env : CEnv} {cs : List Choice} {f : CSt → Bool} (h : ((runStarts env CSt.init cs).map f) = some true) :
    ∃ st, ReachedStarts env st ∧ f st = true := by
  obtain ⟨st, h1, h2⟩ := Option.map_eq_some_iff.1 h
  exact ⟨st, runStarts_reach .init h1, h2⟩

def crashTest (env : CEnv) (c : Choice) (st : CSt) : Bool :=
  match cstep env st c with
  | some .crash => true
  | _ => false

theorem crash_of_test {env : CEnv} {c : Choice} {st : CSt} (h : crashTest env c st = true) : cstep env st c = some .crash := by
  unfold crashTest at h
  split at h
  · assumption
  · cases h

/-- An entry with two imports, the second of which has an import of its own. -/
def treeEnv : CEnv := exEnv [b!"a"] .inline [(b!"/a", b!"@import \"x\";@import \"y\";"), (b!"/x", b!"u{v:w}"), (b!"/y", b!"@import \"z\";"),
  (b!"/z", b!"p{q:r}")]

def treeFiles : List (Bytes × Bytes) := [(b!"/a", b!"@import \"x\";@import \"y\";"), (b!"/x", b!"u{v:w}"), (b!"/y", b!"@import \"z\";"),
  (b!"/z", b!"p{q:r}")]

theorem tree_legible : Legible treeEnv := legible_of_test (files := treeFiles) rfl (by decide) (by decide +kernel)

theorem tree_unshared : Unshared treeEnv :=
  unshared_of_test (paths := [b!"/a", b!"/x", b!"/y", b!"/z"]) (by decide +kernel) (by decide +kernel)

/-- The entry has been parsed, and has started goroutine 1, which has started; the entry has started goroutine 2. -/
def treeStart : List Choice := [.main] ++ steps 0 13 ++ steps 1 1 ++ steps 0 1

/-- The goroutines for `/x` and `/y` have both been given a number, and take turns until all files have been parsed. -/
example : ∃ st, ReachedStarts treeEnv st ∧ Distinct st.sh ∧ st.sh.parses = [b!"/z", b!"/y", b!"/x", b!"/a"] ∧
    st.threads.map Thread.parent = [none, some 0, some 0, some 2] ∧ st.main = .wait ∧ ∀ c, cstep treeEnv st c ≠ some .crash := by
  obtain ⟨st, h1, h2⟩ := starts_of_check (env := treeEnv)
    (cs := treeStart ++ steps 2 1 ++ steps 1 6 ++ steps 2 6 ++ steps 1 3 ++ steps 2 4 ++ steps 3 10 ++ [.main])
    (f := fun st => decide ((st.sh.sources.map Prod.snd).Nodup ∧ st.sh.parses = [b!"/z", b!"/y", b!"/x", b!"/a"] ∧
      st.threads.map Thread.parent = [none, some 0, some 0, some 2] ∧ st.main = .wait)) (by decide +kernel)
  obtain ⟨h3, h4, h5, h6⟩ := of_decide_eq_true h2
  exact ⟨st, h1, h3, h4, h5, h6, unshared_no_crash tree_legible (by decide) (by decide) tree_unshared h1 h3⟩

/-- Without the condition on the loop variable `unshared_no_crash` is false: both goroutines of the entry are there for `/y`. -/
theorem late_start_refuted : ∃ env : CEnv, Legible env ∧ env.entries.length ≤ 1 ∧ env.opts.importRules ≠ .follow ∧ Unshared env ∧
    ∃ st c, Reached env st ∧ Distinct st.sh ∧ cstep env st c = some .crash := by
  obtain ⟨st, h1, h2⟩ := reach_of_check (env := treeEnv) (cs := [.main] ++ steps 0 14 ++ steps 1 4 ++ steps 2 3)
    (f := fun st => decide ((st.sh.sources.map Prod.snd).Nodup) && crashTest treeEnv (.thread 2) st) (by decide +kernel)
  obtain ⟨h2, h3⟩ := Bool.and_eq_true_iff.1 h2
  have h4 : (st.sh.sources.map Prod.snd).Nodup := of_decide_eq_true h2
  exact ⟨treeEnv, tree_legible, by decide, by decide, tree_unshared, st, .thread 2, h1, h4, crash_of_test h3⟩

/-- … and without the condition on the numbers: both goroutines of the entry parse `/y`, and ask for `/z`. -/
theorem same_number_refuted : ∃ env : CEnv, Legible env ∧ env.entries.length ≤ 1 ∧ env.opts.importRules ≠ .follow ∧ Unshared env ∧
    ∃ st c, ReachedStarts env st ∧ cstep env st c = some .crash := by
  obtain ⟨st, h1, h2⟩ := starts_of_check (env := treeEnv)
    (cs := treeStart ++ steps 2 1 ++ steps 1 3 ++ steps 2 3 ++ steps 1 1 ++ steps 2 1 ++ steps 1 6 ++ steps 2 6 ++ steps 3 4 ++ steps 4 3)
    (f := crashTest treeEnv (.thread 4)) (by decide +kernel)
  exact ⟨treeEnv, tree_legible, by decide, by decide, tree_unshared, st, .thread 4, h1, crash_of_test h2⟩

end Cssc
