import Verif.Proofs.CompileChain

/-!
# Steps that can be taken in either order

In a line of goroutines two different steps are possible only if one of them merely notices that there is nothing more to
start, or both print.  Such steps can be taken in either order, so that all schedules take the same number of steps and
end in the same memory.
-/

namespace Cssc

/-! ### A goroutine notices that it has started all its imports -/

/-- Goroutine `t` goes on to wait. -/
def CSt.nudge (st : CSt) (t i : Nat) : CSt := { st with threads := st.threads.modify t fun th => { th with pc := .wait i } }

def SRes.map (f : CSt → CSt) : SRes → SRes
  | .ok st => .ok (f st)
  | .crash => .crash

/-- It is about to do so. -/
def AllStarted (st : CSt) (t i : Nat) : Prop := ∃ th k, st.threads[t]? = some th ∧ th.pc = .spawn i k ∧ ¬ k < th.ss.imports.length

theorem AllStarted.step {env : CEnv} {st : CSt} {t i : Nat} (h : AllStarted st t i) : cstep env st (.thread t) = some (.ok (st.nudge t i)) := by
  obtain ⟨th, k, hth, hpc, hk⟩ := h
  show stepThread env st t = _
  unfold stepThread
  rw [hth]
  dsimp only [Option.bind]
  rw [hpc]
  dsimp only
  rw [if_neg hk]
  unfold CSt.goto CSt.nudge
  congr 3
  apply List.ext_getElem?
  intro j
  rw [List.getElem?_modify, List.getElem?_set]
  by_cases hj : t = j
  · subst hj
    have := (List.getElem?_eq_some_iff.1 hth).1
    rw [hth, if_pos this]
    simp
  · simp [hj]

theorem nudge_get {st : CSt} {t i j : Nat} (h : t ≠ j) : (st.nudge t i).threads[j]? = st.threads[j]? := by
  unfold CSt.nudge
  dsimp only
  rw [List.getElem?_modify]
  simp [h]

/-- What other goroutines see of a goroutine is the same as before. -/
theorem nudge_get' {st : CSt} {t i j : Nat} {th : Thread} (h : st.threads[j]? = some th) :
    ∃ th', (st.nudge t i).threads[j]? = some th' ∧ th' = (if t = j then { th with pc := .wait i } else th) := by
  refine ⟨_, ?_, rfl⟩
  unfold CSt.nudge
  dsimp only
  rw [List.getElem?_modify, h]
  by_cases hj : t = j <;> simp [hj]

theorem nudge_get_none {st : CSt} {t i j : Nat} (h : st.threads[j]? = none) : (st.nudge t i).threads[j]? = none := by
  unfold CSt.nudge
  dsimp only
  rw [List.getElem?_modify, h]
  rfl

theorem nudge_joined {st : CSt} {t i : Nat} (h : AllStarted st t i) (p : Option Nat) : (st.nudge t i).joined p = st.joined p := by
  obtain ⟨th, k, hth, hpc, hk⟩ := h
  unfold CSt.joined
  rw [Bool.eq_iff_iff, List.all_eq_true, List.all_eq_true]
  have hg : ∀ x, x ∈ st.threads ↔ ∃ j : Nat, st.threads[j]? = some x := fun x => List.mem_iff_getElem?
  have hg' : ∀ x, x ∈ (st.nudge t i).threads ↔ ∃ j : Nat, (st.nudge t i).threads[j]? = some x := fun x => List.mem_iff_getElem?
  constructor
  · intro hall x hx
    obtain ⟨j, hj⟩ := (hg x).1 hx
    by_cases htj : t = j
    · subst htj
      obtain ⟨th', h1, h2⟩ := nudge_get' (t := t) (i := i) hj
      have := hall th' ((hg' _).2 ⟨_, h1⟩)
      rw [hth] at hj
      cases hj
      rw [h2, if_pos rfl] at this
      simpa [hpc] using this
    · exact hall x ((hg' _).2 ⟨j, by rw [nudge_get htj]; exact hj⟩)
  · intro hall x hx
    obtain ⟨j, hj⟩ := (hg' x).1 hx
    by_cases htj : t = j
    · subst htj
      obtain ⟨th', h1, h2⟩ := nudge_get' (t := t) (i := i) hth
      rw [h1] at hj
      cases hj
      have := hall th ((hg _).2 ⟨_, hth⟩)
      rw [h2, if_pos rfl]
      simpa [hpc] using this
    · rw [nudge_get htj] at hj
      exact hall x ((hg _).2 ⟨j, hj⟩)

theorem nudge_set {st : CSt} {t i j : Nat} {sh : Shared} {th : Thread} (h : t ≠ j) :
    ({ st.nudge t i with sh := sh, threads := (st.nudge t i).threads.set j th } : CSt) =
      ({ st with sh := sh, threads := st.threads.set j th } : CSt).nudge t i := by
  unfold CSt.nudge
  dsimp only
  congr 1
  apply List.ext_getElem?
  intro k
  simp only [List.getElem?_modify, List.getElem?_set, List.length_modify]
  by_cases hk : j = k <;> by_cases hk' : t = k
  · omega
  all_goals simp [hk, hk']

theorem nudge_goto {st : CSt} {t i j : Nat} {sh : Shared} {th : Thread} {pc : PC} (h : t ≠ j) :
    (st.nudge t i).goto j th sh pc = (st.goto j th sh pc).map (SRes.map (·.nudge t i)) := by
  unfold CSt.goto
  rw [nudge_set h]
  rfl

theorem nudge_start {env : CEnv} {st : CSt} {t i j : Nat} {th : Thread} (h : t ≠ j) :
    stepStart env (st.nudge t i) j th = (stepStart env st j th).map (SRes.map (·.nudge t i)) := by
  unfold stepStart
  split
  · show (env.entries[st.e]?).bind _ = _
    cases env.entries[st.e]? with
    | none => rfl
    | some path => exact nudge_goto h
  · rename_i p _
    cases hp : st.threads[p]? with
    | none => rw [nudge_get_none hp]; rfl
    | some par =>
      obtain ⟨par', h1, h2⟩ := nudge_get' (t := t) (i := i) hp
      have e1 : par'.ss = par.ss := by rw [h2]; split <;> rfl
      have e2 : par'.imp = par.imp := by rw [h2]; split <;> rfl
      have e3 : par'.addr = par.addr := by rw [h2]; split <;> rfl
      rw [h1]
      dsimp only [Option.bind]
      rw [e1, e2, e3]
      cases par.ss.imports[par.imp]? with
      | none => rfl
      | some imp =>
        dsimp only
        have hsh : (st.nudge t i).sh = st.sh := rfl
        rw [hsh]
        cases st.sh.heap[par.addr]? with
        | none => rfl
        | some source =>
          dsimp only
          cases env.resolve imp.value (dirOf source.path) with
          | none => exact nudge_goto h
          | some rel => exact nudge_goto h

theorem nudge_parse {env : CEnv} {st : CSt} {t i j : Nat} {th : Thread} {k addr : Nat} (h : t ≠ j) :
    stepParse env (st.nudge t i) j th k addr = (stepParse env st j th k addr).map (SRes.map (·.nudge t i)) := by
  unfold stepParse
  show (st.sh.heap[addr]?).bind _ = _
  cases st.sh.heap[addr]? with
  | none => rfl
  | some source =>
    dsimp only [Option.bind]
    show (match parse env.fuel source.content st.sh.parses.length with | .ok ss lines => _ | .error e lines => _ | .panic => _ | .timeout => _) = _
    cases parse env.fuel source.content st.sh.parses.length with
    | ok ss lines =>
      dsimp only
      show some (SRes.ok _) = some (SRes.ok _)
      exact congrArg (fun x => some (SRes.ok x)) (nudge_set h)
    | error e lines => exact nudge_goto h
    | panic => rfl
    | timeout => rfl

theorem nudge_wait {env : CEnv} {st : CSt} {t i j : Nat} {th : Thread} {k : Nat} (hr : AllStarted st t i) (h : t ≠ j) :
    stepWait env (st.nudge t i) j th k = (stepWait env st j th k).map (SRes.map (·.nudge t i)) := by
  unfold stepWait
  rw [nudge_joined hr]
  split
  · show (st.sh.heap[th.addr]?).bind _ = _
    cases st.sh.heap[th.addr]? with
    | none => rfl
    | some source =>
      dsimp only [Option.bind]
      split
      · exact nudge_goto h
      · rfl
      · rfl
  · rfl

theorem nudge_deliver {st : CSt} {t i j : Nat} {th : Thread} {res : Option Stylesheet} (h : t ≠ j) :
    stepDeliver (st.nudge t i) j th res = (stepDeliver st j th res).map (SRes.map (·.nudge t i)) := by
  unfold stepDeliver
  split
  · rename_i p ss _
    cases hp : st.threads[p]? with
    | none => rw [nudge_get_none hp]; rfl
    | some par =>
      obtain ⟨par', h1, h2⟩ := nudge_get' (t := t) (i := i) hp
      have e1 : par'.ss = par.ss := by rw [h2]; split <;> rfl
      have e2 : par'.imp = par.imp := by rw [h2]; split <;> rfl
      rw [h1]
      dsimp only [Option.bind]
      rw [e1, e2]
      cases par.ss.imports[par.imp]? with
      | none => rfl
      | some imp =>
        show some (SRes.ok _) = some (SRes.ok _)
        congr 2
        unfold CSt.nudge
        dsimp only
        congr 1
        apply List.ext_getElem?
        intro k
        have hl := (List.getElem?_eq_some_iff.1 hp).1
        rw [h2]
        simp only [List.getElem?_modify, List.getElem?_set, List.length_modify, List.length_set]
        by_cases hjk : j = k <;> by_cases htk : t = k <;> by_cases hpk : p = k <;> by_cases htp : t = p <;>
          first | omega | (simp_all <;> (subst_vars; simp_all))
  · exact nudge_goto h

theorem nudge_append {st : CSt} {t i : Nat} {l : List Thread} (h : t < st.threads.length) :
    (st.threads.modify t fun th => { th with pc := .wait i }) ++ l = (st.threads ++ l).modify t fun th => { th with pc := .wait i } := by
  apply List.ext_getElem?
  intro k
  simp only [List.getElem?_modify, List.getElem?_append, List.length_modify]
  by_cases hk : k < st.threads.length
  · simp [hk]
  · have : t ≠ k := by omega
    simp [hk, this]

/-- The other goroutines do not notice. -/
theorem nudge_thread {env : CEnv} {st : CSt} {t i j : Nat} (hr : AllStarted st t i) (h : t ≠ j) :
    stepThread env (st.nudge t i) j = (stepThread env st j).map (SRes.map (·.nudge t i)) := by
  have hlt : t < st.threads.length := by
    obtain ⟨th, k, hth, _⟩ := hr
    exact (List.getElem?_eq_some_iff.1 hth).1
  unfold stepThread
  rw [nudge_get h]
  cases st.threads[j]? with
  | none => rfl
  | some th =>
    dsimp only [Option.bind]
    have hsh : (st.nudge t i).sh = st.sh := rfl
    rw [hsh]
    cases th.pc with
    | start => exact nudge_start h
    | lookup path =>
      dsimp only
      split
      · exact nudge_goto h
      · split <;> exact nudge_goto h
    | read path abs => dsimp only; split <;> exact nudge_goto h
    | alloc abs content => exact nudge_goto h
    | store abs content k => exact nudge_goto h
    | incRead k => exact nudge_goto h
    | incWrite k v => exact nudge_goto h
    | outBegin k =>
      dsimp only
      split
      · rfl
      · exact nudge_goto h
    | outEnd k => exact nudge_goto h
    | cached k => dsimp only; split <;> exact nudge_goto h
    | source k =>
      dsimp only
      split
      · exact nudge_goto h
      · rfl
    | parse k addr => exact nudge_parse h
    | spawn k n =>
      dsimp only
      split
      · show some (SRes.ok _) = some (SRes.ok _)
        congr 2
        have := nudge_set (st := st) (t := t) (i := i) (j := j) (sh := st.sh) (th := { th with pc := .spawn k (n + 1), imp := n }) h
        have h2 := congrArg CSt.threads this
        dsimp only at h2
        show (⟨_, _ ++ _, _, _⟩ : CSt) = _
        rw [h2]
        unfold CSt.nudge
        dsimp only
        rw [nudge_append (st := { st with threads := st.threads.set j { th with pc := .spawn k (n + 1), imp := n } }) (by simpa using hlt)]
      · exact nudge_goto h
    | wait k => exact nudge_wait hr h
    | cache k ss => exact nudge_goto h
    | deliver res => exact nudge_deliver h
    | done => rfl

theorem nudge_main {env : CEnv} {st : CSt} {t i : Nat} (hr : AllStarted st t i) :
    stepMain env (st.nudge t i) = (stepMain env st).map (SRes.map (·.nudge t i)) := by
  have hlt : t < st.threads.length := by
    obtain ⟨th, k, hth, _⟩ := hr
    exact (List.getElem?_eq_some_iff.1 hth).1
  unfold stepMain
  have hm : (st.nudge t i).main = st.main := rfl
  rw [hm, nudge_joined hr]
  cases st.main with
  | spawn k =>
    dsimp only
    split
    · show some (SRes.ok _) = some (SRes.ok _)
      congr 2
      unfold CSt.nudge
      dsimp only
      rw [nudge_append hlt]
    · rfl
  | wait => dsimp only; split <;> rfl
  | print rest => dsimp only; split <;> rfl
  | done => rfl

theorem nudge_print {st : CSt} {t i k : Nat} :
    stepPrint (st.nudge t i) k = (stepPrint st k).map (SRes.map (·.nudge t i)) := by
  unfold stepPrint
  have hm : (st.nudge t i).main = st.main := rfl
  have hsh : (st.nudge t i).sh = st.sh := rfl
  rw [hm, hsh]
  cases st.main with
  | print rest =>
    dsimp only
    split
    · split
      · split <;> rfl
      · rfl
    · rfl
  | _ => rfl

theorem AllStarted.commute {env : CEnv} {st : CSt} {t i : Nat} (hr : AllStarted st t i) {c : Choice} (hc : c ≠ .thread t) :
    cstep env (st.nudge t i) c = (cstep env st c).map (SRes.map (·.nudge t i)) := by
  cases c with
  | main => exact nudge_main hr
  | thread j => exact nudge_thread hr (fun h => hc (by rw [h]))
  | print k => exact nudge_print

/-- Nobody else changes where a goroutine is, or its stylesheet. -/
theorem Act.others {env : CEnv} {st st' : CSt} {j t : Nat} {th x : Thread} (h : Act env st j th st') (hne : t ≠ j)
    (hx : st.threads[t]? = some x) : ∃ x', st'.threads[t]? = some x' ∧ x'.pc = x.pc ∧ x'.ss = x.ss := by
  have hne' : j ≠ t := fun h => hne h.symm
  cases h with
  | loc _ => exact ⟨x, by dsimp only; rw [List.getElem?_set_ne hne']; exact hx, rfl, rfl⟩
  | parse _ _ _ => exact ⟨x, by dsimp only; rw [List.getElem?_set_ne hne']; exact hx, rfl, rfl⟩
  | spawn _ _ =>
    refine ⟨x, ?_, rfl, rfl⟩
    have := (List.getElem?_eq_some_iff.1 hx).1
    dsimp only
    rw [List.getElem?_append_left (by simpa using this), List.getElem?_set_ne hne']
    exact hx
  | deliver g1 g2 hpar g4 =>
    rename_i p par imp ss
    by_cases hp : p = t
    · subst hp
      rw [hx] at hpar
      cases hpar
      refine ⟨{ x with repl := (imp.rule, ss) :: x.repl }, ?_, rfl, rfl⟩
      dsimp only
      rw [List.getElem?_set_ne hne', List.getElem?_set_self (List.getElem?_eq_some_iff.1 hx).1]
    · exact ⟨x, by dsimp only; rw [List.getElem?_set_ne hne', List.getElem?_set_ne hp]; exact hx, rfl, rfl⟩

theorem MainAct.others {env : CEnv} {st st' : CSt} {t : Nat} {x : Thread} (h : MainAct env st st')
    (hx : st.threads[t]? = some x) : st'.threads[t]? = some x := by
  cases h with
  | spawn _ _ => dsimp only; rw [List.getElem?_append_left (List.getElem?_eq_some_iff.1 hx).1]; exact hx
  | _ => exact hx

theorem AllStarted.keep {env : CEnv} {st st' : CSt} {t i : Nat} (hr : AllStarted st t i) {c : Choice} (hc : c ≠ .thread t)
    (h : cstep env st c = some (.ok st')) : AllStarted st' t i := by
  obtain ⟨th, k, hth, hpc, hk⟩ := hr
  cases c with
  | main => exact ⟨th, k, (stepMain_act h).others hth, hpc, hk⟩
  | print j => exact ⟨th, k, (stepPrint_act (env := env) h).others hth, hpc, hk⟩
  | thread j =>
    obtain ⟨y, hy, ha⟩ := stepThread_act h
    obtain ⟨x', h1, h2, h3⟩ := ha.others (fun e => hc (by rw [e])) hth
    exact ⟨x', k, h1, h2.trans hpc, by rw [h3]; exact hk⟩

/-! ### `Compile` notices that it has started all entries -/

theorem goto_main {st : CSt} {m : MainPC} {j : Nat} {th : Thread} {sh : Shared} {pc : PC} :
    ({ st with main := m } : CSt).goto j th sh pc = (st.goto j th sh pc).map (SRes.map fun st => { st with main := m }) := rfl

/-- The goroutines do not see where `Compile` is. -/
theorem thread_main {env : CEnv} {st : CSt} {m : MainPC} {j : Nat} :
    stepThread env { st with main := m } j = (stepThread env st j).map (SRes.map fun st => { st with main := m }) := by
  unfold stepThread
  dsimp only
  cases st.threads[j]? with
  | none => rfl
  | some th =>
    dsimp only [Option.bind]
    cases th.pc with
    | start =>
      dsimp only
      unfold stepStart
      split
      · dsimp only
        cases env.entries[st.e]? <;> rfl
      · rename_i p _
        dsimp only
        cases st.threads[p]? with
        | none => rfl
        | some par =>
          dsimp only [Option.bind]
          cases par.ss.imports[par.imp]? with
          | none => rfl
          | some imp =>
            dsimp only
            cases st.sh.heap[par.addr]? with
            | none => rfl
            | some source =>
              dsimp only
              cases env.resolve imp.value (dirOf source.path) <;> rfl
    | lookup path =>
      dsimp only
      split
      · rfl
      · split <;> rfl
    | read path abs => dsimp only; split <;> rfl
    | outBegin k => dsimp only; split <;> rfl
    | cached k => dsimp only; split <;> rfl
    | source k => dsimp only; split <;> rfl
    | parse k addr =>
      dsimp only
      unfold stepParse
      dsimp only
      cases st.sh.heap[addr]? with
      | none => rfl
      | some source =>
        dsimp only [Option.bind]
        split <;> rfl
    | spawn k n => dsimp only; split <;> rfl
    | wait k =>
      dsimp only
      unfold stepWait
      have : ({ st with main := m } : CSt).joined (some j) = st.joined (some j) := rfl
      rw [this]
      split
      · dsimp only
        cases st.sh.heap[th.addr]? with
        | none => rfl
        | some source =>
          dsimp only [Option.bind]
          split <;> rfl
      · rfl
    | deliver res =>
      dsimp only
      unfold stepDeliver
      split
      · rename_i p ss _
        dsimp only
        cases st.threads[p]? with
        | none => rfl
        | some par =>
          dsimp only [Option.bind]
          cases par.ss.imports[par.imp]? <;> rfl
      · rfl
    | _ => rfl

/-! ### At most one other step is possible -/

/-- The step merely notices that there is nothing more to start. -/
inductive Admin (env : CEnv) (st : CSt) : Choice → Prop where
  | thread {t i} : AllStarted st t i → Admin env st (.thread t)
  | main {k} : st.main = .spawn k → ¬ k < env.entries.length → Admin env st .main

/-- A step of the kind that merely notices can be taken after any other step, with the same result. -/
theorem Admin.commute {env : CEnv} {st : CSt} {c d : Choice} (h : Admin env st c) (hne : d ≠ c) :
    ∃ f : CSt → CSt, cstep env st c = some (.ok (f st)) ∧
      cstep env (f st) d = (cstep env st d).map (SRes.map f) ∧
      ∀ st', cstep env st d = some (.ok st') → cstep env st' c = some (.ok (f st')) := by
  cases h with
  | thread hr =>
    rename_i t i
    exact ⟨(·.nudge t i), hr.step, hr.commute hne, fun st' h => (hr.keep hne h).step⟩
  | main hm hk =>
    have hstep : ∀ {st : CSt} {k : Nat}, st.main = .spawn k → ¬ k < env.entries.length →
        cstep env st .main = some (.ok { st with main := .wait }) := by
      intro st k hm hk
      show stepMain env st = _
      unfold stepMain
      rw [hm]
      dsimp only
      rw [if_neg hk]
    refine ⟨fun st => { st with main := .wait }, hstep hm hk, ?_, fun st' h => ?_⟩
    · cases d with
      | main => exact absurd rfl hne
      | thread j => exact thread_main
      | print j =>
        show stepPrint { st with main := .wait } j = (stepPrint st j).map _
        unfold stepPrint
        rw [hm]
        rfl
    · cases d with
      | main => exact absurd rfl hne
      | thread j =>
        have hm' : st'.main = st.main := by
          obtain ⟨y, hy, ha⟩ := stepThread_act h
          cases ha <;> rfl
        exact hstep (hm'.trans hm) hk
      | print j =>
        exfalso
        have : stepPrint st j = some (.ok st') := h
        unfold stepPrint at this
        rw [hm] at this
        cases this

theorem stepThread_live {env : CEnv} {st : CSt} {t : Nat} {r : SRes} (h : stepThread env st t = some r) :
    ∃ th, st.threads[t]? = some th ∧ th.pc ≠ .done := by
  unfold stepThread at h
  cases hth : st.threads[t]? with
  | none => rw [hth] at h; cases h
  | some th =>
    refine ⟨th, rfl, fun hd => ?_⟩
    rw [hth] at h
    dsimp only [Option.bind] at h
    rw [hd] at h
    cases h

theorem Line.lower {env : CEnv} {st : CSt} (h : Line st) (hf : ∀ th ∈ st.threads, th.ss.imports.length ≤ 1) {t u : Nat} {r r' : SRes}
    (ht : stepThread env st t = some r) (hu : stepThread env st u = some r') (hlt : t < u) : Admin env st (.thread t) := by
  obtain ⟨th, hth, _⟩ := stepThread_live ht
  obtain ⟨x, hx, hxd⟩ := stepThread_live hu
  have hlen := (List.getElem?_eq_some_iff.1 hx).1
  have hy := List.getElem?_eq_getElem (l := st.threads) (i := t + 1) (by omega)
  have hyd : (st.threads[t + 1]'(by omega)).pc ≠ .done := by
    intro hd
    refine hxd (h.done_rest hy hd (u - (t + 1)) x ?_)
    rw [show t + 1 + (u - (t + 1)) = u by omega]
    exact hx
  rcases h.link _ _ _ hth hy with hw | ⟨_, hd⟩
  · unfold stepThread at ht
    rw [hth] at ht
    dsimp only [Option.bind] at ht
    unfold PC.waiting at hw
    split at hw
    · rename_i i hpc
      exact .thread ⟨th, 1, hth, hpc, by have := hf th (List.mem_of_getElem? hth); omega⟩
    · rename_i i hpc
      rw [hpc] at ht
      dsimp only at ht
      unfold stepWait at ht
      split at ht
      · rename_i hj
        exact absurd (joined_child hj (List.mem_of_getElem? hy) (h.parents _ _ hy)) hyd
      · cases ht
    · cases hw
  · exact absurd hd hyd

theorem Line.quiet {env : CEnv} {e : Bytes} (he : env.entries = [e]) {st : CSt} (h : Line st) {r : SRes}
    (hm : stepMain env st = some r) : Admin env st .main ∨ ∀ t, stepThread env st t = none := by
  have hlen : env.entries.length = 1 := by rw [he]; rfl
  have hd : (∀ th ∈ st.threads, th.pc = .done) → ∀ t, stepThread env st t = none := by
    intro hall t
    cases hs : stepThread env st t with
    | none => rfl
    | some r =>
      obtain ⟨th, h1, h2⟩ := stepThread_live hs
      exact absurd (hall th (List.mem_of_getElem? h1)) h2
  rcases h.main with ⟨_, h2⟩ | ⟨_, h2 | h2 | ⟨_, h2⟩⟩
  · refine .inr (hd ?_)
    rw [h2]
    intro th hth
    cases hth
  · exact .inl (.main h2 (by omega))
  · unfold stepMain at hm
    rw [h2] at hm
    dsimp only at hm
    split at hm
    · rename_i hj
      exact .inr (hd (h.all_done hj))
    · cases hm
  · exact .inr (hd h2)

/-- Two steps that are possible in the same state: they are the same, one of them merely notices, or both print. -/
theorem Line.two {env : CEnv} {e : Bytes} (he : env.entries = [e]) {st : CSt} (h : Line st)
    (hf : ∀ th ∈ st.threads, th.ss.imports.length ≤ 1) {c d : Choice} {r r' : SRes}
    (hc : cstep env st c = some r) (hd : cstep env st d = some r') :
    c = d ∨ Admin env st c ∨ Admin env st d ∨ ∃ i j, c = .print i ∧ d = .print j := by
  have hpd : ∀ {i t : Nat} {r r' : SRes}, stepPrint st i = some r → stepThread env st t = some r' → False := by
    intro i t r r' hp ht
    obtain ⟨th, h1, h2⟩ := stepThread_live ht
    unfold stepPrint at hp
    split at hp
    · rename_i rest hm
      rcases h.main with ⟨h3, _⟩ | ⟨_, h3 | h3 | ⟨_, h3⟩⟩
      · rw [hm] at h3; cases h3
      · rw [hm] at h3; cases h3
      · rw [hm] at h3; cases h3
      · exact h2 (h3 th (List.mem_of_getElem? h1))
    · cases hp
  have hpm : ∀ {i : Nat} {r r' : SRes}, stepPrint st i = some r → stepMain env st = some r' → False := by
    intro i r r' hp hm
    unfold stepPrint at hp
    split at hp
    · rename_i rest hmain
      split at hp
      · rename_i hi
        unfold stepMain at hm
        rw [hmain] at hm
        dsimp only at hm
        split at hm
        · rename_i hr
          rw [hr] at hi
          cases hi
        · cases hm
      · cases hp
    · cases hp
  cases c with
  | main =>
    cases d with
    | main => exact .inl rfl
    | thread t =>
      rcases h.quiet he hc with h1 | h1
      · exact .inr (.inl h1)
      · rw [show cstep env st (.thread t) = none from h1 t] at hd; cases hd
    | print i => exact (hpm hd hc).elim
  | thread t =>
    cases d with
    | main =>
      rcases h.quiet he hd with h1 | h1
      · exact .inr (.inr (.inl h1))
      · rw [show cstep env st (.thread t) = none from h1 t] at hc; cases hc
    | thread u =>
      rcases Nat.lt_trichotomy t u with hlt | heq | hlt
      · exact .inr (.inl (h.lower hf hc hd hlt))
      · exact .inl (by rw [heq])
      · exact .inr (.inr (.inl (h.lower hf hd hc hlt)))
    | print i => exact (hpd hd hc).elim
  | print i =>
    cases d with
    | main => exact (hpm hc hd).elim
    | thread t => exact (hpd hc hd).elim
    | print j => exact .inr (.inr (.inr ⟨i, j, rfl, rfl⟩))

/-! ### Printing in any order -/

/-- What the goroutine that prints output `i` adds to the files and to the errors, if it does not panic. -/
def printAdds (sh : Shared) (i : Nat) : Option (List (Bytes × Bytes) × List CompErr) :=
  match (lookupMap sh.byIndex i).bind (sh.heap[·]?), lookupMap sh.asts i with
  | some source, some ss =>
    match print (some source) ss with
    | .ok out => some ([(source.path, out)], [])
    | .error => some ([], [.print source.path])
    | .panic => none
  | _, _ => some ([], [])

theorem stepPrint_eq {st : CSt} {rest : List Nat} (hm : st.main = .print rest) (i : Nat) : stepPrint st i =
    if i ∈ rest then
      match printAdds st.sh i with
      | none => some .crash
      | some (fs, es) => some (.ok { st with main := .print (rest.erase i), sh := { st.sh with files := fs ++ st.sh.files, errors := st.sh.errors ++ es } })
    else none := by
  unfold stepPrint printAdds
  rw [hm]
  dsimp only
  split
  · cases (lookupMap st.sh.byIndex i).bind (st.sh.heap[·]?) with
    | none => simp
    | some source =>
      cases lookupMap st.sh.asts i with
      | none => simp
      | some ss =>
        dsimp only
        cases print (some source) ss <;> simp [Shared.addError]
  · rfl

theorem printAdds_upd {sh : Shared} {fs : List (Bytes × Bytes)} {es : List CompErr} {i : Nat} :
    printAdds { sh with files := fs, errors := es } i = printAdds sh i := rfl

theorem SameSh.refl (a : Shared) : SameSh a a := ⟨rfl, rfl, rfl, rfl, rfl, rfl, rfl, .refl _, .refl _, rfl⟩

theorem SameSh.symm {a b : Shared} (h : SameSh a b) : SameSh b a :=
  ⟨h.1.symm, h.2.symm, h.3.symm, h.4.symm, h.5.symm, h.6.symm, h.7.symm, h.8.symm, h.9.symm, h.10.symm⟩

theorem SameSh.trans {a b c : Shared} (h : SameSh a b) (g : SameSh b c) : SameSh a c :=
  ⟨g.1.trans h.1, g.2.trans h.2, g.3.trans h.3, g.4.trans h.4, g.5.trans h.5, g.6.trans h.6, g.7.trans h.7, g.8.trans h.8,
    g.9.trans h.9, g.10.trans h.10⟩

theorem SameSh.adds {a b : Shared} (h : SameSh a b) (i : Nat) : printAdds b i = printAdds a i := by
  unfold printAdds
  rw [h.byIndex, h.heap, h.asts]

/-- The same state, or two states of the printing phase with the same memory but for the order of the files and errors. -/
def SameSt (x y : CSt) : Prop :=
  x = y ∨ (((∃ r, x.main = .print r) ∨ x.main = .done) ∧ y.main = x.main ∧ y.threads = x.threads ∧
    (∀ th ∈ x.threads, th.pc = .done) ∧ SameSh x.sh y.sh)

theorem SameSt.symm {x y : CSt} (h : SameSt x y) : SameSt y x := by
  rcases h with rfl | ⟨h1, h2, h3, h4, h5⟩
  · exact .inl rfl
  · exact .inr ⟨by rw [h2]; exact h1, h2.symm, h3.symm, by rw [h3]; exact h4, h5.symm⟩

theorem SameSt.trans {x y z : CSt} (h : SameSt x y) (g : SameSt y z) : SameSt x z := by
  rcases h with rfl | ⟨h1, h2, h3, h4, h5⟩
  · exact g
  · rcases g with rfl | ⟨g1, g2, g3, g4, g5⟩
    · exact .inr ⟨h1, h2, h3, h4, h5⟩
    · exact .inr ⟨h1, g2.trans h2, g3.trans h3, h4, h5.trans g5⟩

theorem SameSt.same {x y : CSt} (h : SameSt x y) : SameSh x.sh y.sh ∧ y.main = x.main ∧ y.threads = x.threads := by
  rcases h with rfl | ⟨_, h2, h3, _, h5⟩
  · exact ⟨SameSh.refl _, rfl, rfl⟩
  · exact ⟨h5, h2, h3⟩

theorem SameSt.step {env : CEnv} {x y x' : CSt} (h : SameSt x y) {c : Choice} (hs : cstep env x c = some (.ok x')) :
    ∃ y', cstep env y c = some (.ok y') ∧ SameSt x' y' := by
  rcases h with rfl | ⟨h1, h2, h3, h4, h5⟩
  · exact ⟨x', hs, .inl rfl⟩
  · cases c with
    | thread t =>
      obtain ⟨th, g1, g2⟩ := stepThread_live hs
      exact absurd (h4 th (List.mem_of_getElem? g1)) g2
    | main =>
      have hs : stepMain env x = _ := hs
      unfold stepMain at hs
      rcases h1 with ⟨r, h1⟩ | h1
      · rw [h1] at hs
        dsimp only at hs
        split at hs
        · rename_i hr
          cases hs
          refine ⟨{ y with main := .done }, ?_, .inr ⟨.inr rfl, rfl, h3, h4, h5⟩⟩
          show stepMain env y = _
          unfold stepMain
          rw [h2, h1]
          dsimp only
          rw [if_pos hr]
        · cases hs
      · rw [h1] at hs; cases hs
    | print i =>
      have hs : stepPrint x i = _ := hs
      rcases h1 with ⟨r, h1⟩ | h1
      · rw [stepPrint_eq h1] at hs
        split at hs
        · rename_i hi
          split at hs
          · cases hs
          · rename_i fs es hadd
            cases hs
            refine ⟨{ y with main := .print (r.erase i), sh := { y.sh with files := fs ++ y.sh.files, errors := y.sh.errors ++ es } }, ?_, ?_⟩
            · show stepPrint y i = _
              rw [stepPrint_eq (h2.trans h1), if_pos hi, h5.adds, hadd]
            · exact .inr ⟨.inl ⟨_, rfl⟩, rfl, h3, h4, ⟨h5.1, h5.2, h5.3, h5.4, h5.5, h5.6, h5.7,
                h5.8.append_right es, h5.9.append_left fs, h5.10⟩⟩
        · cases hs
      · unfold stepPrint at hs
        rw [h1] at hs
        cases hs

theorem two_prints {st : CSt} (hl : Line st) {i j : Nat} (hne : i ≠ j) {a : CSt} {r : SRes}
    (hi : stepPrint st i = some (.ok a)) (hj : stepPrint st j = some r) :
    match r with
    | .crash => stepPrint a j = some .crash
    | .ok b => ∃ d d', stepPrint a j = some (.ok d) ∧ stepPrint b i = some (.ok d') ∧ SameSt d d' := by
  cases hm : st.main with
  | print rest =>
    rw [stepPrint_eq hm] at hi hj
    split at hi
    · rename_i hir
      split at hi
      · cases hi
      · rename_i fs es hadd
        cases hi
        split at hj
        · rename_i hjr
          have hjr' : j ∈ rest.erase i := (List.mem_erase_of_ne (fun h => hne h.symm)).2 hjr
          have hir' : i ∈ rest.erase j := (List.mem_erase_of_ne hne).2 hir
          split at hj
          · rename_i haddj
            cases hj
            dsimp only
            rw [stepPrint_eq (rest := rest.erase i) rfl, if_pos hjr']
            dsimp only
            rw [printAdds_upd, haddj]
          · rename_i fs' es' haddj
            cases hj
            dsimp only
            refine ⟨_, _, by
              rw [stepPrint_eq (rest := rest.erase i) rfl, if_pos hjr']
              dsimp only
              rw [printAdds_upd, haddj], by
              rw [stepPrint_eq (rest := rest.erase j) rfl, if_pos hir']
              dsimp only
              rw [printAdds_upd, hadd], ?_⟩
            have hd : ∀ th ∈ st.threads, th.pc = .done := by
              rcases hl.main with ⟨h3, _⟩ | ⟨_, h3 | h3 | ⟨_, h3⟩⟩
              · rw [hm] at h3; cases h3
              · rw [hm] at h3; cases h3
              · rw [hm] at h3; cases h3
              · exact h3
            refine .inr ⟨.inl ⟨_, rfl⟩, ?_, rfl, hd, ⟨rfl, rfl, rfl, rfl, rfl, rfl, rfl, ?_, ?_, rfl⟩⟩
            · dsimp only
              rw [List.erase_comm]
            · dsimp only
              rw [List.append_assoc, List.append_assoc]
              exact List.Perm.append_left _ List.perm_append_comm
            · dsimp only
              rw [← List.append_assoc, ← List.append_assoc]
              exact List.Perm.append_right _ List.perm_append_comm
        · cases hj
    · cases hi
  | _ =>
    unfold stepPrint at hi
    rw [hm] at hi
    cases hi

/-! ### All schedules are alike -/

/-- Two different steps that are possible in the same state can be taken in either order. -/
theorem either_order {env : CEnv} {e : Bytes} (he : env.entries = [e]) (hs : Single env) {st a : CSt} (hr : Reached env st)
    {c d : Choice} (hne : c ≠ d) {r : SRes} (hc : cstep env st c = some (.ok a)) (hd : cstep env st d = some r) :
    match r with
    | .crash => cstep env a d = some .crash
    | .ok b => ∃ x y, cstep env a d = some (.ok x) ∧ cstep env b c = some (.ok y) ∧ SameSt x y := by
  have hl := hr.line he hs
  rcases hl.two he (fun th hth => hr.inv1.few hs hth) hc hd with h | h | h | ⟨i, j, rfl, rfl⟩
  · exact absurd h hne
  · obtain ⟨f, h1, h2, h3⟩ := h.commute (fun h => hne h.symm)
    rw [hc] at h1
    cases h1
    rw [hd] at h2
    cases r with
    | crash => exact h2
    | ok b => exact ⟨_, _, h2, h3 b hd, .inl rfl⟩
  · obtain ⟨f, h1, h2, h3⟩ := h.commute hne
    rw [hd] at h1
    cases h1
    rw [hc] at h2
    exact ⟨_, _, h3 a hc, h2, .inl rfl⟩
  · have := two_prints hl (fun h => hne (by rw [h])) hc hd
    cases r with
    | crash => exact this
    | ok b => exact this

theorem Steps.sim {env : CEnv} {n : Nat} {x f : CSt} (h : Steps env n x f) : ∀ {y : CSt}, SameSt x y → ∃ g, Steps env n y g ∧ SameSt f g := by
  induction h with
  | refl => exact fun hs => ⟨_, .refl, hs⟩
  | step hc _ ih =>
    intro y hs
    obtain ⟨y', h1, h2⟩ := hs.step hc
    obtain ⟨g, h3, h4⟩ := ih h2
    exact ⟨g, .step h1 h3, h4⟩

theorem Steps.snoc {env : CEnv} {n : Nat} {x f g : CSt} (h : Steps env n x f) {c : Choice} (hc : cstep env f c = some (.ok g)) :
    Steps env (n + 1) x g := by
  induction h with
  | refl => exact .step hc .refl
  | step h1 _ ih => exact .step h1 (ih hc)

theorem Steps.reached {env : CEnv} {n : Nat} {x f : CSt} (h : Steps env n x f) (hr : Reached env x) : Reached env f := by
  induction h with
  | refl => exact hr
  | step h1 _ ih => exact ih (hr.step h1)

theorem Reached.steps {env : CEnv} {st : CSt} (h : Reached env st) : ∃ n, Steps env n CSt.init st := by
  induction h with
  | init => exact ⟨0, .refl⟩
  | step _ hc ih =>
    obtain ⟨n, hn⟩ := ih
    exact ⟨n + 1, hn.snoc hc⟩

theorem Line.stop {env : CEnv} {st : CSt} (h : Line st) (hm : st.main = .done) (c : Choice) : cstep env st c = none := by
  cases c with
  | main => show stepMain env st = none; unfold stepMain; rw [hm]
  | print i => show stepPrint st i = none; unfold stepPrint; rw [hm]
  | thread t =>
    cases hs : stepThread env st t with
    | none => exact hs
    | some r =>
      obtain ⟨th, g1, g2⟩ := stepThread_live hs
      rcases h.main with ⟨h3, _⟩ | ⟨_, h3 | h3 | ⟨_, h3⟩⟩
      · rw [hm] at h3; cases h3
      · rw [hm] at h3; cases h3
      · rw [hm] at h3; cases h3
      · exact absurd (h3 th (List.mem_of_getElem? g1)) g2

/-- If one schedule ends, then so does every other one, after as many steps and in the same memory. -/
theorem Steps.other {env : CEnv} {e : Bytes} (he : env.entries = [e]) (hs : Single env) : ∀ {n : Nat} {x f : CSt}, Reached env x →
    Steps env n x f → f.main = .done → ∀ {c : Choice} {r : SRes}, cstep env x c = some r →
      ∃ y m g, r = .ok y ∧ n = m + 1 ∧ Steps env m y g ∧ SameSt f g
  | 0, x, f, hr, h, hf, c, r, hc => by
    cases h
    rw [(hr.line he hs).stop hf c] at hc
    cases hc
  | n + 1, x, f, hr, h, hf, c, r, hc => by
    cases h with
    | step h1 h2 =>
      rename_i x1 c1
      by_cases hcc : c1 = c
      · subst hcc
        rw [h1] at hc
        cases hc
        exact ⟨x1, n, f, rfl, rfl, h2, .inl rfl⟩
      · have hd := either_order he hs hr hcc h1 hc
        cases r with
        | crash =>
          obtain ⟨y, _, _, h3, _⟩ := Steps.other he hs (hr.step h1) h2 hf hd
          cases h3
        | ok y =>
          obtain ⟨p, q, h3, h4, h5⟩ := hd
          obtain ⟨z, m, g, h6, h7, h8, h9⟩ := Steps.other he hs (hr.step h1) h2 hf h3
          cases h6
          obtain ⟨g', h10, h11⟩ := h8.sim h5
          exact ⟨y, n, g', rfl, rfl, by rw [h7]; exact .step h4 h10, h9.trans h11⟩

theorem Steps.all {env : CEnv} {e : Bytes} (he : env.entries = [e]) (hs : Single env) {k : Nat} {x y : CSt} (h : Steps env k x y) :
    ∀ {n : Nat} {f : CSt}, Reached env x → Steps env n x f → f.main = .done →
      ∃ m g, n = k + m ∧ Steps env m y g ∧ SameSt f g := by
  induction h with
  | refl => exact fun {n f} _ h2 _ => ⟨n, f, by omega, h2, .inl rfl⟩
  | step h1 _ ih =>
    intro n f hr h2 hf
    obtain ⟨y', m, g, h3, h4, h5, h6⟩ := Steps.other he hs hr h2 hf h1
    cases h3
    obtain ⟨m', g', h7, h8, h9⟩ := ih (hr.step h1) h5 (by rw [h6.same.2.1]; exact hf)
    exact ⟨m', g', by omega, h8, h6.trans h9⟩

end Cssc
