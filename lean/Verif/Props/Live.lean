import Verif.Proofs.CompileLive
import Verif.Proofs.CompileBound
import Verif.Proofs.CompileTrap
import Verif.Props.Compile
import Verif.Props.Frame
import Verif.Props.TransformSafe
import Verif.Props.Printer
import Verif.Props.Transform

/-!
# C82: without import cycles every schedule ends

Whatever the schedule, `Compile` is never stuck: as long as it has not returned, some goroutine can go on, and without a
crash.  And the number of steps is bounded, whatever the schedule, as long as no number is given to two files.  If one is,
`Compile` can be made to go on for ever, although there are no cycles.
-/

namespace Cssc

/-! ### C82 -/

/-- C82, one half: whatever has happened, `Compile` is not stuck, if no file makes the parser, the transformer or the printer
panic or loop: some goroutine can take a step, and does not crash.  This holds with cycles, too, and if a number has been
given to two files. -/
theorem never_stuck {env : CEnv} (hrd : Legible env) {st : CSt} (hr : Reached env st) (hd : st.main ≠ .done) :
    ∃ c st', cstep env st c = some (.ok st') := hr.goesOn hrd.tame hd

/-- C82, the other half: without import cycles there is a bound for the number of steps of all schedules that give no number
to two files.  Missing: schedules that do, of which some go on for ever (`compile_ends_refuted`). -/
theorem compile_ends_partial {env : CEnv} {rank : Bytes → Nat} (hac : Acyclic env rank) :
    ∃ N, ∀ {k : Nat} {st : CSt}, Steps env k CSt.init st → Distinct st.sh → k ≤ N := by
  obtain ⟨C, M, E, hC⟩ := hac.costs
  refine ⟨CSt.init.total env M E, fun {k st} hs hd => ?_⟩
  have := hs.total hC .init hd
  omega

/-- The two together: however it is scheduled, `Compile` returns after a bounded number of steps, or gives a number to two
files, or crashes. -/
theorem compile_returns_all_partial {env : CEnv} {rank : Bytes → Nat} (hac : Acyclic env rank) (hrd : Legible env) :
    ∃ N, ∀ {k : Nat} {st : CSt}, Steps env k CSt.init st → Distinct st.sh →
      k ≤ N ∧ (st.main = .done ∨ ∃ c st', cstep env st c = some (.ok st')) := by
  obtain ⟨N, hN⟩ := compile_ends_partial hac
  refine ⟨N, fun {k st} hs hd => ⟨hN hs hd, ?_⟩⟩
  by_cases h : st.main = .done
  · exact .inl h
  · exact .inr (never_stuck hrd (hs.reached .init) h)

/-- In other words, there are no infinite schedules that give no number to two files. -/
theorem no_endless_schedule_partial {env : CEnv} {rank : Bytes → Nat} (hac : Acyclic env rank) (f : Nat → CSt) (h0 : f 0 = CSt.init)
    (hf : ∀ n, ∃ c, cstep env (f n) c = some (.ok (f (n + 1)))) : ∃ n, ¬ Distinct (f n).sh := by
  obtain ⟨N, hN⟩ := compile_ends_partial hac
  refine Classical.byContradiction fun hn => ?_
  have hall : ∀ n, Distinct (f n).sh := fun n => Classical.byContradiction fun h => hn ⟨n, h⟩
  have hfrom : ∀ k n, Steps env k (f n) (f (n + k)) := by
    intro k
    induction k with
    | zero => intro n; exact .refl
    | succ k ih =>
      intro n
      obtain ⟨c, hc⟩ := hf n
      refine .step hc ?_
      have := ih (n + 1)
      rw [Nat.add_right_comm] at this
      exact this
  have := hfrom (N + 1) 0
  rw [h0] at this
  have := hN this (hall _)
  omega

/-! ### The hypotheses are met -/

/-- Two entries, both of which import a third file, which is inlined.  All features are transformed. -/
def diamondEnv : CEnv :=
  { exEnv [b!"a", b!"b"] .inline [(b!"/a", b!"@import \"x\";@import \"b\";u:any-link{v:calc(1px + var(--k));w:var(--k)}"), (b!"/b", b!"@import \"x\";@media (c){d{e:f}}"),
    (b!"/x", b!"@custom-media --m (w);a:root{--k:f(g(1px))}p{q:r}s{}")] with opts := allOn }

def diamondFiles : List (Bytes × Bytes) :=
  [(b!"/a", b!"@import \"x\";@import \"b\";u:any-link{v:calc(1px + var(--k));w:var(--k)}"), (b!"/b", b!"@import \"x\";@media (c){d{e:f}}"),
    (b!"/x", b!"@custom-media --m (w);a:root{--k:f(g(1px))}p{q:r}s{}")]

theorem diamond_ok : (∃ rank, Acyclic diamondEnv rank) ∧ Legible diamondEnv :=
  ⟨⟨fun a => if a = b!"/a" then 2 else if a = b!"/b" then 1 else 0, acyclic_of_test (env := diamondEnv) (rank := fun a => if a = b!"/a" then 2 else if a = b!"/b" then 1 else 0) (files := diamondFiles) rfl (by decide +kernel)⟩,
    legible_of_test (files := diamondFiles) rfl (by decide) (by decide +kernel)⟩

/-- So `diamondEnv` can be compiled, and however it is begun, it comes to an end, unless a number is given twice or it crashes. -/
example : (∃ st, Reached diamondEnv st ∧ st.main = .done) ∧
    ∃ N, ∀ {k : Nat} {st : CSt}, Steps diamondEnv k CSt.init st → Distinct st.sh →
      k ≤ N ∧ (st.main = .done ∨ ∃ c st', cstep diamondEnv st c = some (.ok st')) := by
  obtain ⟨⟨rank, h1⟩, h2⟩ := diamond_ok
  exact ⟨compile_returns_partial h1 h2, compile_returns_all_partial h1 h2⟩

/-! ### The restriction is needed -/

/-- Two entries, the first of which imports the second. -/
def trapEnv : CEnv := exEnv [b!"b", b!"a"] .inline [(b!"/b", b!"@import \"a\";"), (b!"/a", b!"x{y:z}")]

def trapFiles : List (Bytes × Bytes) := [(b!"/b", b!"@import \"a\";"), (b!"/a", b!"x{y:z}")]

/-- Both goroutines take number 0, and `/b` is stored last. -/
def trapSched : List Choice :=
  [.main] ++ steps 0 1 ++ [.main] ++ steps 1 1 ++ [.main] ++ steps 0 2 ++ steps 1 2 ++ steps 0 1 ++ steps 1 1 ++ steps 1 1 ++ steps 0 1

def trapTest (st : CSt) : Bool :=
  decide (st.sh.sources = [(b!"/a", 0), (b!"/b", 0)] ∧ st.sh.byIndex = [(0, 1), (0, 0)] ∧
    st.sh.heap.map (fun s => (s.path, s.content)) = [(b!"/a", b!"x{y:z}"), (b!"/b", b!"@import \"a\";")]) &&
  st.sh.asts.isEmpty && (match st.main with | .wait => true | _ => false) &&
  decide (st.threads.map (fun th => th.parent) = [none, none]) &&
  st.threads.all fun th => match th.pc with | .incRead 0 => true | _ => false

theorem trapTest_inv {st : CSt} (h : trapTest st = true) :
    TrapInv trapEnv [(b!"/a", 0), (b!"/b", 0)] [(0, 1), (0, 0)] [(b!"/a", b!"x{y:z}"), (b!"/b", b!"@import \"a\";")] st := by
  unfold trapTest at h
  rw [Bool.and_eq_true, Bool.and_eq_true, Bool.and_eq_true, Bool.and_eq_true] at h
  obtain ⟨⟨⟨⟨h1, h2⟩, h3⟩, h4⟩, h5⟩ := h
  obtain ⟨h6, h7, h8⟩ := of_decide_eq_true h1
  refine ⟨h6, h7, h8, by simpa using h2, .inr ⟨?_, ?_⟩, ?_⟩
  · cases hm : st.main with
    | wait => rfl
    | _ => rw [hm] at h3; cases h3
  · have h9 := of_decide_eq_true h4
    have : none ∈ st.threads.map fun th => th.parent := by rw [h9]; simp
    obtain ⟨x, hx, e⟩ := List.mem_map.1 this
    exact ⟨x, hx, e⟩
  · intro t th hth
    have := List.all_eq_true.1 h5 th (List.mem_of_getElem? hth)
    split at this
    · rename_i e
      rw [e]
      refine ⟨1, rfl, b!"/b", b!"@import \"a\";", ?_⟩
      have hp : (match parse trapEnv.fuel b!"@import \"a\";" with | .ok ss _ => !ss.imports.isEmpty | _ => false) = true := by decide +kernel
      cases e : parse trapEnv.fuel b!"@import \"a\";" with
      | ok ss l =>
        rw [e] at hp
        refine ⟨ss, l, rfl, rfl, fun he => ?_⟩
        dsimp only at hp
        rw [he] at hp
        cases hp
      | _ => rw [e] at hp; cases hp
    · cases this

theorem trapEnv_trap : Trap trapEnv [(b!"/a", 0), (b!"/b", 0)] [(0, 1), (0, 0)] [(b!"/a", b!"x{y:z}"), (b!"/b", b!"@import \"a\";")] := by
  have hnum : NumImports trapEnv [(0, 1), (0, 0)] [(b!"/a", b!"x{y:z}"), (b!"/b", b!"@import \"a\";")] 0 := by
    have hp : (match parse trapEnv.fuel b!"@import \"a\";" with | .ok ss _ => !ss.imports.isEmpty | _ => false) = true := by decide +kernel
    refine ⟨1, rfl, b!"/b", b!"@import \"a\";", ?_⟩
    cases e : parse trapEnv.fuel b!"@import \"a\";" with
    | ok ss l =>
      rw [e] at hp
      refine ⟨ss, l, rfl, rfl, fun he => ?_⟩
      dsimp only at hp
      rw [he] at hp
      cases hp
    | _ => rw [e] at hp; cases hp
  constructor
  · intro p hp
    obtain ⟨a, ha⟩ : ∃ a, trapEnv.abs p = some a := by
      unfold CEnv.abs
      split <;> exact ⟨_, rfl⟩
    have hm := asked_of_test (env := trapEnv) (paths := [b!"/a", b!"/b"]) (by decide +kernel) hp ha
    refine ⟨a, 0, ha, ?_, hnum⟩
    simp only [List.mem_cons, List.not_mem_nil, or_false] at hm
    rcases hm with rfl | rfl
    · decide
    · decide
  · intro path c ss l _ _ imp _
    exact ⟨_, rfl⟩

/-- C82 is false: there are no cycles, no file makes anything panic or loop, and yet there is a state from which `Compile`
does not return, however it is scheduled, and is never stuck either. -/
theorem compile_ends_refuted : ∃ env : CEnv, (∃ rank, Acyclic env rank) ∧ Legible env ∧ ∃ st, Reached env st ∧
    ∀ n st', Steps env n st st' → st'.main ≠ .done ∧ ∃ c st'', cstep env st' c = some (.ok st'') := by
  have hread : Legible trapEnv := legible_of_test (files := trapFiles) rfl (by decide) (by decide +kernel)
  obtain ⟨st, h1, h2⟩ := reach_of_check (env := trapEnv) (cs := trapSched) (f := trapTest) (by decide +kernel)
  refine ⟨trapEnv, ⟨fun a => if a = b!"/b" then 1 else 0, acyclic_of_test (env := trapEnv) (rank := fun a => if a = b!"/b" then 1 else 0) (files := trapFiles) rfl (by decide +kernel)⟩, hread, st, h1,
    fun n st' hs => ?_⟩
  have hd : st'.main ≠ .done := by
    have hi := trap_stays trapEnv_trap h1 (trapTest_inv h2) hs
    intro hd
    rcases hi.main with ⟨k, h3, -⟩ | ⟨h3, -⟩ <;> rw [hd] at h3 <;> cases h3
  exact ⟨hd, never_stuck hread (hs.reached h1) hd⟩

end Cssc
