import Verif.Proofs.CompileMade
import Verif.Proofs.CompileOwn
import Verif.Proofs.CompileTidy

/-!
# Compile: no schedule gets stuck
-/

namespace Cssc

/-- What a goroutine hands over satisfies `T`. -/
def PC.AllT (T : Stylesheet → Prop) : PC → Prop
  | .cache _ ss | .deliver (some ss) => T ss
  | _ => True

/-- The loop variable of `parent` has the value of one of its iterations. -/
def InLoop (env : CEnv) (st : CSt) : Option Nat → Prop
  | none => st.e < env.entries.length
  | some p => ∃ par : Thread, st.threads[p]? = some par ∧ par.pc.After ∧ par.imp < par.ss.imports.length

/-- The source of number `i` has been stored, or a goroutine is about to. -/
def Stored (st : CSt) (i : Nat) : Prop :=
  (∃ addr, (i, addr) ∈ st.sh.byIndex) ∨ ∃ th ∈ st.threads, ∃ a c, th.pc = .store a c i

structure InvLive (env : CEnv) (T : Stylesheet → Prop) (st : CSt) : Prop where
  loop : ∀ th ∈ st.threads, InLoop env st th.parent
  writing : st.sh.writing = true → ∃ th ∈ st.threads, ∃ i, th.pc = .outEnd i
  stored : ∀ a i, (a, i) ∈ st.sh.sources → Stored st i
  asts : ∀ i ss, (i, ss) ∈ st.sh.asts → T ss
  pcs : ∀ th ∈ st.threads, th.pc.AllT T
  repls : ∀ th ∈ st.threads, ∀ kv ∈ th.repl, T kv.2

theorem mem_set_of_ne {l : List Thread} {t : Nat} {th th1 x : Thread} (hth : l[t]? = some th) (hx : x ∈ l) (hne : x ≠ th) :
    x ∈ l.set t th1 := by
  obtain ⟨i, hi, rfl⟩ := List.getElem_of_mem hx
  have : t ≠ i := by
    rintro rfl
    rw [List.getElem?_eq_getElem hi] at hth
    cases hth
    exact hne rfl
  exact List.mem_of_getElem? (by rw [List.getElem?_set_ne this, List.getElem?_eq_getElem hi])

theorem mem_set_self {l : List Thread} {t : Nat} {th th1 : Thread} (hth : l[t]? = some th) : th1 ∈ l.set t th1 :=
  List.mem_of_getElem? (List.getElem?_set_self (List.getElem?_eq_some_iff.1 hth).1)

/-- Goroutines that are past their parse keep their loop variable in the loop. -/
structure LoopLe (env : CEnv) (st st' : CSt) : Prop where
  e : st.e < env.entries.length → st'.e < env.entries.length
  imp : ∀ (p : Nat) (par : Thread), st.threads[p]? = some par → par.pc.After → par.imp < par.ss.imports.length →
    ∃ par' : Thread, st'.threads[p]? = some par' ∧ par'.pc.After ∧ par'.imp < par'.ss.imports.length

theorem InLoop.mono {env : CEnv} {st st' : CSt} (h : LoopLe env st st') {q : Option Nat} (hq : InLoop env st q) : InLoop env st' q := by
  cases q with
  | none => exact h.e hq
  | some p =>
    obtain ⟨par, h1, h2, h3⟩ := hq
    exact h.imp p par h1 h2 h3

theorem set_loop {l : List Thread} {t : Nat} {th th1 : Thread} (hth : l[t]? = some th)
    (h1 : th.pc.After → th.imp < th.ss.imports.length → th1.pc.After ∧ th1.imp < th1.ss.imports.length) (p : Nat) (par : Thread)
    (hp : l[p]? = some par) (ha : par.pc.After) (hi : par.imp < par.ss.imports.length) :
    ∃ par' : Thread, (l.set t th1)[p]? = some par' ∧ par'.pc.After ∧ par'.imp < par'.ss.imports.length := by
  by_cases htp : t = p
  · subst htp
    rw [hth] at hp; cases hp
    exact ⟨th1, List.getElem?_set_self (List.getElem?_eq_some_iff.1 hth).1, h1 ha hi⟩
  · exact ⟨par, by rw [List.getElem?_set_ne htp]; exact hp, ha, hi⟩

theorem Act.loopLe {env : CEnv} {st st' : CSt} {t : Nat} {th : Thread} (hth : st.threads[t]? = some th)
    (h : Act env st t th st') : LoopLe env st st' := by
  cases h with
  | loc h => exact ⟨id, set_loop hth fun ha hi => ⟨h.after ha, hi⟩⟩
  | parse hpc => exact ⟨id, set_loop hth fun ha _ => by rw [hpc] at ha; exact ha.elim⟩
  | @spawn i k hpc hk =>
    refine ⟨id, fun p par hp ha hi => ?_⟩
    obtain ⟨x, h1, h2⟩ := set_loop (th1 := { th with pc := .spawn i (k + 1), imp := k }) hth (fun _ _ => ⟨trivial, hk⟩) p par hp ha hi
    exact ⟨x, append_keeps h1, h2⟩
  | @deliver p par imp ss hpc hp hpar hi =>
    refine ⟨id, fun q y hq ha hi => ?_⟩
    obtain ⟨x, h1, h2, h3⟩ := set_loop (th1 := { par with repl := (imp.rule, ss) :: par.repl }) hpar (fun h1 h2 => ⟨h1, h2⟩) q y hq ha hi
    by_cases hpt : p = t
    · subst hpt
      refine set_loop (t := p) (th := { par with repl := (imp.rule, ss) :: par.repl }) (th1 := { th with pc := .done }) ?_ ?_ q x h1 h2 h3
      · exact List.getElem?_set_self (List.getElem?_eq_some_iff.1 hpar).1
      · rw [hpar] at hth; cases hth
        exact fun _ h => ⟨trivial, h⟩
    · refine set_loop (t := t) (th := th) (th1 := { th with pc := .done }) ?_ ?_ q x h1 h2 h3
      · rw [List.getElem?_set_ne hpt]; exact hth
      · exact fun _ h => ⟨trivial, h⟩

theorem Loc.live {env : CEnv} {T : Stylesheet → Prop} (htm : Tame env T) {st : CSt} {t : Nat} {th : Thread} {sh : Shared} {pc : PC}
    (hr : Reached env st) (hI1 : Inv1 env st) (hI2 : Inv2 env False st) (hL : InvLive env T st) (hth : st.threads[t]? = some th) (h : Loc env st t th sh pc) :
    InvLive env T { st with sh := sh, threads := st.threads.set t { th with pc := pc } } := by
  have hmem := List.mem_of_getElem? hth
  have hle := Act.loopLe hth (.loc h)
  have hloop : ∀ x ∈ st.threads.set t { th with pc := pc }, InLoop env { st with sh := sh, threads := st.threads.set t { th with pc := pc } } x.parent := by
    intro x hx
    rcases mem_set hx with hx | rfl
    · exact (hL.loop x hx).mono hle
    · exact (hL.loop th hmem).mono hle
  have hrep : ∀ x ∈ st.threads.set t { th with pc := pc }, ∀ kv ∈ x.repl, T kv.2 := by
    intro x hx
    rcases mem_set hx with hx | rfl
    · exact hL.repls x hx
    · exact hL.repls th hmem
  have hpcs : pc.AllT T → ∀ x ∈ st.threads.set t { th with pc := pc }, x.pc.AllT T := by
    intro hp x hx
    rcases mem_set hx with hx | rfl
    · exact hL.pcs x hx
    · exact hp
  have hwr : sh.writing = st.sh.writing → (∀ i, th.pc ≠ .outEnd i) → sh.writing = true →
      ∃ x ∈ st.threads.set t { th with pc := pc }, ∃ i, x.pc = .outEnd i := by
    intro e hne hw
    rw [e] at hw
    obtain ⟨x, hx, i, hi⟩ := hL.writing hw
    exact ⟨x, mem_set_of_ne hth hx fun e => hne i (e ▸ hi), i, hi⟩
  have hst : sh.sources = st.sh.sources → sh.byIndex = st.sh.byIndex → (∀ a c i, th.pc ≠ .store a c i) →
      ∀ a i, (a, i) ∈ sh.sources → Stored { st with sh := sh, threads := st.threads.set t { th with pc := pc } } i := by
    intro e1 e2 hne a i ha
    rw [e1] at ha
    rcases hL.stored a i ha with ⟨addr, h1⟩ | ⟨x, hx, b, c, h1⟩
    · exact .inl ⟨addr, by show _ ∈ sh.byIndex; rw [e2]; exact h1⟩
    · exact .inr ⟨x, mem_set_of_ne hth hx fun e => hne b c i (e ▸ h1), b, c, h1⟩
  have hite : ∀ {b : Bool} {i : Nat}, PC.AllT T (if b = true then .outBegin i else .cached i) := by
    intro b i; cases b <;> trivial
  cases h with
  | startEntry hpc => exact ⟨hloop, hwr rfl (by rw [hpc]; simp), hst rfl rfl (by rw [hpc]; simp), hL.asts, hpcs trivial, hrep⟩
  | startFail hpc => exact ⟨hloop, hwr rfl (by rw [hpc]; simp), hst rfl rfl (by rw [hpc]; simp), hL.asts, hpcs trivial, hrep⟩
  | startImport hpc => exact ⟨hloop, hwr rfl (by rw [hpc]; simp), hst rfl rfl (by rw [hpc]; simp), hL.asts, hpcs trivial, hrep⟩
  | noAbs hpc => exact ⟨hloop, hwr rfl (by rw [hpc]; simp), hst rfl rfl (by rw [hpc]; simp), hL.asts, hpcs trivial, hrep⟩
  | known hpc => exact ⟨hloop, hwr rfl (by rw [hpc]; simp), hst rfl rfl (by rw [hpc]; simp), hL.asts, hpcs hite, hrep⟩
  | unknown hpc => exact ⟨hloop, hwr rfl (by rw [hpc]; simp), hst rfl rfl (by rw [hpc]; simp), hL.asts, hpcs trivial, hrep⟩
  | noRead hpc => exact ⟨hloop, hwr rfl (by rw [hpc]; simp), hst rfl rfl (by rw [hpc]; simp), hL.asts, hpcs trivial, hrep⟩
  | read hpc => exact ⟨hloop, hwr rfl (by rw [hpc]; simp), hst rfl rfl (by rw [hpc]; simp), hL.asts, hpcs trivial, hrep⟩
  | @alloc abs content hpc =>
    refine ⟨hloop, hwr rfl (by rw [hpc]; simp), ?_, hL.asts, hpcs trivial, hrep⟩
    intro a i ha
    rcases List.mem_cons.1 ha with e | ha
    · cases e
      exact .inr ⟨_, mem_set_self hth, abs, content, rfl⟩
    · rcases hL.stored a i ha with ⟨addr, h1⟩ | ⟨x, hx, b, c, h1⟩
      · exact .inl ⟨addr, h1⟩
      · exact .inr ⟨x, mem_set_of_ne hth hx (fun e => by rw [e, hpc] at h1; cases h1), b, c, h1⟩
  | @store abs content j hpc =>
    refine ⟨hloop, hwr rfl (by rw [hpc]; simp), ?_, hL.asts, hpcs trivial, hrep⟩
    intro a i ha
    rcases hL.stored a i ha with ⟨addr, h1⟩ | ⟨x, hx, b, c, h1⟩
    · exact .inl ⟨addr, List.mem_cons_of_mem _ h1⟩
    · by_cases e : x = th
      · rw [e, hpc] at h1
        cases h1
        exact .inl ⟨_, List.mem_cons_self⟩
      · exact .inr ⟨x, mem_set_of_ne hth hx e, b, c, h1⟩
  | incRead hpc => exact ⟨hloop, hwr rfl (by rw [hpc]; simp), hst rfl rfl (by rw [hpc]; simp), hL.asts, hpcs trivial, hrep⟩
  | incWrite hpc => exact ⟨hloop, hwr rfl (by rw [hpc]; simp), hst rfl rfl (by rw [hpc]; simp), hL.asts, hpcs hite, hrep⟩
  | @outBegin i hpc hw =>
    refine ⟨hloop, fun _ => ⟨_, mem_set_self hth, i, rfl⟩, hst rfl rfl (by rw [hpc]; simp), hL.asts, hpcs trivial, hrep⟩
  | outEnd hpc =>
    refine ⟨hloop, fun h => (by cases h), hst rfl rfl (by rw [hpc]; simp), hL.asts, hpcs trivial, hrep⟩
  | hit hpc hl =>
    exact ⟨hloop, hwr rfl (by rw [hpc]; simp), hst rfl rfl (by rw [hpc]; simp), hL.asts, hpcs (hL.asts _ _ (mem_of_lookupMap hl)), hrep⟩
  | miss hpc => exact ⟨hloop, hwr rfl (by rw [hpc]; simp), hst rfl rfl (by rw [hpc]; simp), hL.asts, hpcs trivial, hrep⟩
  | source hpc => exact ⟨hloop, hwr rfl (by rw [hpc]; simp), hst rfl rfl (by rw [hpc]; simp), hL.asts, hpcs trivial, hrep⟩
  | parseFail hpc => exact ⟨hloop, hwr rfl (by rw [hpc]; simp), hst rfl rfl (by rw [hpc]; simp), hL.asts, hpcs trivial, hrep⟩
  | spawned hpc => exact ⟨hloop, hwr rfl (by rw [hpc]; simp), hst rfl rfl (by rw [hpc]; simp), hL.asts, hpcs trivial, hrep⟩
  | transform hpc hj hs ht =>
    refine ⟨hloop, hwr rfl (by rw [hpc]; simp), hst rfl rfl (by rw [hpc]; simp), hL.asts, hpcs ?_, hrep⟩
    have hp := hI2.pcs th hmem
    rw [hpc] at hp
    obtain ⟨-, -, s, id, lines, h1, h2, -⟩ := hp
    obtain ⟨q, -, -, h5⟩ := hI1.heap _ (List.mem_of_getElem? h1)
    obtain ⟨ss', u, h6, h7⟩ := htm.transform h5 h2 fun x hx =>
      ⟨hL.repls th hmem x hx, hr.apart hmem (by rw [hpc]; exact trivial) h2 x hx⟩
    rw [ht] at h6
    cases h6
    exact h7
  | cache hpc =>
    have hp := hL.pcs th hmem
    rw [hpc] at hp
    refine ⟨hloop, hwr rfl (by rw [hpc]; simp), hst rfl rfl (by rw [hpc]; simp), ?_, hpcs hp, hrep⟩
    intro i ss hm
    rcases List.mem_cons.1 hm with e | hm
    · cases e; exact hp
    · exact hL.asts i ss hm
  | finish hpc => exact ⟨hloop, hwr rfl (by rw [hpc]; simp), hst rfl rfl (by rw [hpc]; simp), hL.asts, hpcs trivial, hrep⟩

/-- Steps that change the goroutines only, none of which is at an interesting place. -/
theorem InvLive.threads {env : CEnv} {T : Stylesheet → Prop} {st st' : CSt} (hL : InvLive env T st)
    (h1 : st'.sh.writing = st.sh.writing) (h2 : st'.sh.sources = st.sh.sources) (h3 : st'.sh.byIndex = st.sh.byIndex)
    (h4 : st'.sh.asts = st.sh.asts)
    (hold : ∀ x ∈ st.threads, (∃ i, x.pc = .outEnd i) ∨ (∃ a c i, x.pc = .store a c i) → ∃ y ∈ st'.threads, y.pc = x.pc)
    (hnew : ∀ y ∈ st'.threads, InLoop env st' y.parent ∧ y.pc.AllT T ∧ ∀ kv ∈ y.repl, T kv.2) : InvLive env T st' := by
  refine ⟨fun y hy => (hnew y hy).1, ?_, ?_, by rw [h4]; exact hL.asts, fun y hy => (hnew y hy).2.1, fun y hy => (hnew y hy).2.2⟩
  · intro hw
    rw [h1] at hw
    obtain ⟨x, hx, i, hi⟩ := hL.writing hw
    obtain ⟨y, hy, e⟩ := hold x hx (.inl ⟨i, hi⟩)
    exact ⟨y, hy, i, by rw [e, hi]⟩
  · intro a i ha
    rw [h2] at ha
    rcases hL.stored a i ha with ⟨addr, h⟩ | ⟨x, hx, b, c, h⟩
    · exact .inl ⟨addr, by rw [h3]; exact h⟩
    · obtain ⟨y, hy, e⟩ := hold x hx (.inr ⟨b, c, i, h⟩)
      exact .inr ⟨y, hy, b, c, by rw [e, h]⟩

theorem Act.live {env : CEnv} {T : Stylesheet → Prop} (htm : Tame env T) {st st' : CSt} {t : Nat} {th : Thread}
    (hr : Reached env st) (hI1 : Inv1 env st) (hI2 : Inv2 env False st) (hL : InvLive env T st) (hth : st.threads[t]? = some th) (h : Act env st t th st') :
    InvLive env T st' := by
  have hmem := List.mem_of_getElem? hth
  have hle := h.loopLe hth
  have hlp : ∀ x ∈ st.threads, InLoop env st' x.parent := fun x hx => (hL.loop x hx).mono hle
  cases h with
  | loc h => exact h.live htm hr hI1 hI2 hL hth
  | parse hpc =>
    refine hL.threads rfl rfl rfl rfl ?_ ?_
    · intro x hx hp
      refine ⟨x, mem_set_of_ne hth hx fun e => ?_, rfl⟩
      rw [e, hpc] at hp
      rcases hp with ⟨_, h⟩ | ⟨_, _, _, h⟩ <;> cases h
    · intro y hy
      rcases mem_set hy with hy | rfl
      · exact ⟨hlp y hy, hL.pcs y hy, hL.repls y hy⟩
      · exact ⟨hlp th hmem, trivial, hL.repls th hmem⟩
  | @spawn i k hpc hk =>
    refine hL.threads rfl rfl rfl rfl ?_ ?_
    · intro x hx hp
      refine ⟨x, List.mem_append_left _ (mem_set_of_ne hth hx fun e => ?_), rfl⟩
      rw [e, hpc] at hp
      rcases hp with ⟨_, h⟩ | ⟨_, _, _, h⟩ <;> cases h
    · intro y hy
      rcases List.mem_append.1 hy with hy | hy
      · rcases mem_set hy with hy | rfl
        · exact ⟨hlp y hy, hL.pcs y hy, hL.repls y hy⟩
        · exact ⟨hlp th hmem, trivial, hL.repls th hmem⟩
      · rw [List.mem_singleton.1 hy]
        refine ⟨?_, trivial, fun _ h => by cases h⟩
        refine ⟨{ th with pc := .spawn i (k + 1), imp := k }, ?_, trivial, hk⟩
        exact append_keeps (List.getElem?_set_self (List.getElem?_eq_some_iff.1 hth).1)
  | @deliver p par imp ss hpc hp hpar hi =>
    have hpT : T ss := by have := hL.pcs th hmem; rw [hpc] at this; exact this
    refine hL.threads rfl rfl rfl rfl ?_ ?_
    · intro x hx hpx
      have hxt : x ≠ th := fun e => by
        rw [e, hpc] at hpx
        rcases hpx with ⟨_, h⟩ | ⟨_, _, _, h⟩ <;> cases h
      have hget : ∃ j, st.threads[j]? = some x ∧ t ≠ j := by
        obtain ⟨j, hj, rfl⟩ := List.getElem_of_mem hx
        refine ⟨j, List.getElem?_eq_getElem hj, ?_⟩
        rintro rfl
        rw [List.getElem?_eq_getElem hj] at hth
        cases hth
        exact hxt rfl
      obtain ⟨j, hj, htj⟩ := hget
      by_cases hpj : p = j
      · subst hpj
        rw [hpar] at hj; cases hj
        refine ⟨{ par with repl := (imp.rule, ss) :: par.repl }, List.mem_of_getElem? (i := p) ?_, rfl⟩
        rw [List.getElem?_set_ne htj, List.getElem?_set_self (List.getElem?_eq_some_iff.1 hpar).1]
      · refine ⟨x, List.mem_of_getElem? (i := j) ?_, rfl⟩
        rw [List.getElem?_set_ne htj, List.getElem?_set_ne hpj, hj]
    · intro y hy
      rcases mem_set hy with hy | rfl
      · rcases mem_set hy with hy | rfl
        · exact ⟨hlp y hy, hL.pcs y hy, hL.repls y hy⟩
        · have hpm := List.mem_of_getElem? hpar
          refine ⟨hlp par hpm, (hL.pcs par hpm :), fun kv hkv => ?_⟩
          rcases List.mem_cons.1 hkv with rfl | hkv
          · exact hpT
          · exact hL.repls par hpm kv hkv
      · exact ⟨hlp th hmem, trivial, hL.repls th hmem⟩

theorem MainAct.live {env : CEnv} {T : Stylesheet → Prop} {st st' : CSt} (hL : InvLive env T st) (h : MainAct env st st') :
    InvLive env T st' := by
  cases h with
  | @spawn k hm hk =>
    have hle : LoopLe env st { st with main := .spawn (k + 1), e := k, threads := st.threads ++ [Thread.new none] } :=
      ⟨fun _ => hk, fun p par hp ha hi => ⟨par, append_keeps hp, ha, hi⟩⟩
    refine hL.threads rfl rfl rfl rfl (fun x hx _ => ⟨x, List.mem_append_left _ hx, rfl⟩) ?_
    intro y hy
    rcases List.mem_append.1 hy with hy | hy
    · exact ⟨(hL.loop y hy).mono hle, hL.pcs y hy, hL.repls y hy⟩
    · rw [List.mem_singleton.1 hy]
      exact ⟨hk, trivial, fun _ h => by cases h⟩
  | _ =>
    refine hL.threads rfl rfl rfl rfl (fun x hx _ => ⟨x, hx, rfl⟩) ?_
    intro y hy
    exact ⟨(hL.loop y hy).mono ⟨id, fun p par hp ha hi => ⟨par, hp, ha, hi⟩⟩, hL.pcs y hy, hL.repls y hy⟩

theorem Reached.live {env : CEnv} {T : Stylesheet → Prop} (htm : Tame env T) {st : CSt} (h : Reached env st) : InvLive env T st := by
  induction h with
  | init => exact ⟨by simp [CSt.init], by simp [CSt.init, Shared.init], by simp [CSt.init, Shared.init], by simp [CSt.init, Shared.init],
      by simp [CSt.init], by simp [CSt.init]⟩
  | step hr hs ih =>
    rcases cstep_act hs with h | ⟨t, th, hth, h⟩
    · exact h.live ih
    · exact h.live htm hr hr.inv1 (hr.inv2 False.elim) ih hth

/-- The goroutine has nothing to wait for. -/
theorem live_thread {env : CEnv} {T : Stylesheet → Prop} (htm : Tame env T) {st : CSt} (hr : Reached env st) {t : Nat} {th : Thread}
    (hth : st.threads[t]? = some th) (hd : th.pc ≠ .done) (hj : st.joined (some t) = true) :
    ∃ u st', cstep env st (.thread u) = some (.ok st') := by
  have hmem := List.mem_of_getElem? hth
  have hL := hr.live htm
  have hI1 := hr.inv1
  have hI2 : Inv2 env False st := hr.inv2 False.elim
  have hloop := hL.loop th hmem
  have hpcg := hI2.pcs th hmem
  suffices h : (∃ st', stepThread env st t = some (.ok st')) ∨ ∃ u st', cstep env st (.thread u) = some (.ok st') by
    rcases h with ⟨st', h⟩ | h
    · exact ⟨t, st', h⟩
    · exact h
  rcases hpc : th.pc with _ | path | ⟨path, abs⟩ | ⟨abs, content⟩ | ⟨abs, content, i⟩ | i | ⟨i, v⟩ | i | i | i | i |
    ⟨i, addr⟩ | ⟨i, k⟩ | i | ⟨i, ss⟩ | res | _ <;> rw [hpc] at hpcg
  · left
    unfold stepThread
    rw [hth]; dsimp only [Option.bind]; rw [hpc]; dsimp only
    unfold stepStart
    cases hp : th.parent with
    | none =>
      rw [hp] at hloop
      dsimp only
      rw [List.getElem?_eq_getElem hloop]
      exact ⟨_, rfl⟩
    | some p =>
      rw [hp] at hloop
      obtain ⟨par, h1, h2, h3⟩ := hloop
      obtain ⟨par', source, h4, h5, h6, -⟩ := hI2.parents th hmem p hp
      rw [h1] at h4; cases h4
      dsimp only
      rw [h1]; dsimp only [Option.bind]
      rw [List.getElem?_eq_getElem h3]; dsimp only [Option.bind]
      rw [h6]; dsimp only [Option.bind]
      cases env.resolve par.ss.imports[par.imp].value (dirOf source.path) <;> exact ⟨_, rfl⟩
  · left
    unfold stepThread
    rw [hth]; dsimp only [Option.bind]; rw [hpc]; dsimp only
    cases env.abs path with
    | none => exact ⟨_, rfl⟩
    | some abs => dsimp only; cases lookupMap st.sh.sources abs <;> exact ⟨_, rfl⟩
  · left
    unfold stepThread
    rw [hth]; dsimp only [Option.bind]; rw [hpc]; dsimp only
    cases env.read abs <;> exact ⟨_, rfl⟩
  · left
    unfold stepThread
    rw [hth]; dsimp only [Option.bind]; rw [hpc]
    exact ⟨_, rfl⟩
  · left
    unfold stepThread
    rw [hth]; dsimp only [Option.bind]; rw [hpc]
    exact ⟨_, rfl⟩
  · left
    unfold stepThread
    rw [hth]; dsimp only [Option.bind]; rw [hpc]
    exact ⟨_, rfl⟩
  · left
    unfold stepThread
    rw [hth]; dsimp only [Option.bind]; rw [hpc]
    exact ⟨_, rfl⟩
  · cases hw : st.sh.writing with
    | false =>
      left
      unfold stepThread
      rw [hth]; dsimp only [Option.bind]; rw [hpc]; dsimp only
      rw [hw, if_neg (by decide)]
      exact ⟨_, rfl⟩
    | true =>
      right
      obtain ⟨x, hx, j, h1⟩ := hL.writing hw
      obtain ⟨u, hu, rfl⟩ := List.getElem_of_mem hx
      refine ⟨u, ?_⟩
      show ∃ st', stepThread env st u = some (.ok st')
      unfold stepThread
      rw [List.getElem?_eq_getElem hu]; dsimp only [Option.bind]; rw [h1]
      exact ⟨_, rfl⟩
  · left
    unfold stepThread
    rw [hth]; dsimp only [Option.bind]; rw [hpc]
    exact ⟨_, rfl⟩
  · left
    unfold stepThread
    rw [hth]; dsimp only [Option.bind]; rw [hpc]; dsimp only
    cases lookupMap st.sh.asts i <;> exact ⟨_, rfl⟩
  · cases hl : lookupMap st.sh.byIndex i with
    | some addr =>
      left
      unfold stepThread
      rw [hth]; dsimp only [Option.bind]; rw [hpc]; dsimp only
      rw [hl]
      exact ⟨_, rfl⟩
    | none =>
      right
      obtain ⟨a, -, h1⟩ := hpcg
      rcases hL.stored a i h1 with ⟨addr, h2⟩ | ⟨x, hx, b, c, h2⟩
      · exact absurd hl (mem_lookupMap h2)
      · obtain ⟨u, hu, rfl⟩ := List.getElem_of_mem hx
        refine ⟨u, ?_⟩
        show ∃ st', stepThread env st u = some (.ok st')
        unfold stepThread
        rw [List.getElem?_eq_getElem hu]; dsimp only [Option.bind]; rw [h2]
        exact ⟨_, rfl⟩
  · left
    obtain ⟨-, h1⟩ := hpcg
    obtain ⟨s, h2, -⟩ := hI2.byIndex _ _ h1
    obtain ⟨q, -, -, h5⟩ := hI1.heap _ (List.mem_of_getElem? h2)
    unfold stepThread
    rw [hth]; dsimp only [Option.bind]; rw [hpc]; dsimp only
    unfold stepParse
    rw [h2]; dsimp only [Option.bind]
    rcases parse_all_id st.sh.parses.length (htm.parse h5) with ⟨ss, lines, hp⟩ | ⟨e, lines, hp⟩ <;> rw [hp] <;> exact ⟨_, rfl⟩
  · left
    unfold stepThread
    rw [hth]; dsimp only [Option.bind]; rw [hpc]; dsimp only
    split <;> exact ⟨_, rfl⟩
  · left
    obtain ⟨-, -, s, id, lines, h1, h2, -⟩ := hpcg
    obtain ⟨q, -, -, h5⟩ := hI1.heap _ (List.mem_of_getElem? h1)
    obtain ⟨ss', u, h6, h7⟩ := htm.transform h5 h2 fun x hx =>
      ⟨hL.repls th hmem x hx, hr.apart hmem (by rw [hpc]; exact trivial) h2 x hx⟩
    unfold stepThread
    rw [hth]; dsimp only [Option.bind]; rw [hpc]; dsimp only
    unfold stepWait
    rw [if_pos hj, h1]; dsimp only [Option.bind]
    rw [h6]
    exact ⟨_, rfl⟩
  · left
    unfold stepThread
    rw [hth]; dsimp only [Option.bind]; rw [hpc]
    exact ⟨_, rfl⟩
  · left
    unfold stepThread
    rw [hth]; dsimp only [Option.bind]; rw [hpc]; dsimp only
    unfold stepDeliver
    cases hp : th.parent with
    | none => exact ⟨_, rfl⟩
    | some p =>
      cases res with
      | none => exact ⟨_, rfl⟩
      | some ss =>
        rw [hp] at hloop
        obtain ⟨par, h1, h2, h3⟩ := hloop
        dsimp only
        rw [h1]; dsimp only [Option.bind]
        rw [List.getElem?_eq_getElem h3]
        exact ⟨_, rfl⟩
  · exact absurd hpc hd

/-- The last goroutine that has not ended. -/
theorem last_busy {l : List Thread} (h : ∃ th ∈ l, th.pc ≠ .done) : ∃ (t : Nat) (th : Thread), l[t]? = some th ∧ th.pc ≠ .done ∧
    ∀ (u : Nat) (x : Thread), t < u → l[u]? = some x → x.pc = .done := by
  induction l with
  | nil => obtain ⟨_, h, _⟩ := h; cases h
  | cons y l ih =>
    by_cases hl : ∃ th ∈ l, th.pc ≠ .done
    · obtain ⟨t, th, h1, h2, h3⟩ := ih hl
      refine ⟨t + 1, th, h1, h2, fun u x hu hx => ?_⟩
      cases u with
      | zero => omega
      | succ u => exact h3 u x (by omega) hx
    · obtain ⟨th, hm, hd⟩ := h
      have hall : ∀ x ∈ l, x.pc = .done := fun x hx => Classical.byContradiction fun hn => hl ⟨x, hx, hn⟩
      rcases List.mem_cons.1 hm with rfl | hm
      · refine ⟨0, th, rfl, hd, fun u x hu hx => ?_⟩
        cases u with
        | zero => omega
        | succ u => exact hall x (List.mem_of_getElem? hx)
      · exact absurd (hall th hm) hd

theorem joined_of {st : CSt} {p : Option Nat} (h : ∀ x ∈ st.threads, x.parent = p → x.pc = .done) : st.joined p = true := by
  unfold CSt.joined
  rw [List.all_eq_true]
  intro x hx
  split
  · rename_i hp
    rw [h x hx hp]
  · rfl

/-- In every state that can be reached, something can be done, and without a crash. -/
theorem Reached.goesOn {env : CEnv} {T : Stylesheet → Prop} (htm : Tame env T) {st : CSt} (hr : Reached env st)
    (hd : st.main ≠ .done) : ∃ c st', cstep env st c = some (.ok st') := by
  by_cases hb : ∃ th ∈ st.threads, th.pc ≠ .done
  · obtain ⟨t, th, h1, h2, h3⟩ := last_busy hb
    have hj : st.joined (some t) = true := by
      refine joined_of fun x hx hp => ?_
      obtain ⟨u, hu, rfl⟩ := List.getElem_of_mem hx
      have h4 := List.getElem?_eq_getElem hu
      have := hr.earlier u t (by rw [parents_get h4, hp])
      exact h3 u _ this h4
    obtain ⟨u, st', h4⟩ := live_thread htm hr h1 h2 hj
    exact ⟨_, st', h4⟩
  · have hall : ∀ x ∈ st.threads, x.pc = .done := fun x hx => Classical.byContradiction fun hn => hb ⟨x, hx, hn⟩
    cases hm : st.main with
    | spawn k =>
      refine ⟨.main, ?_⟩
      show ∃ st', stepMain env st = some (.ok st')
      unfold stepMain
      rw [hm]; dsimp only
      split <;> exact ⟨_, rfl⟩
    | wait =>
      refine ⟨.main, ?_⟩
      show ∃ st', stepMain env st = some (.ok st')
      unfold stepMain
      rw [hm]; dsimp only
      rw [if_pos (joined_of fun x hx _ => hall x hx)]
      exact ⟨_, rfl⟩
    | print rest =>
      cases rest with
      | nil =>
        refine ⟨.main, ?_⟩
        show ∃ st', stepMain env st = some (.ok st')
        unfold stepMain
        rw [hm]
        exact ⟨_, rfl⟩
      | cons i rest =>
        refine ⟨.print i, ?_⟩
        show ∃ st', stepPrint st i = some (.ok st')
        unfold stepPrint
        rw [hm]; dsimp only
        rw [if_pos List.mem_cons_self]
        split
        · rename_i source ss h1 h2
          have := (hr.live htm).asts _ _ (mem_of_lookupMap h2)
          cases hp : print (some source) ss with
          | ok out => exact ⟨_, rfl⟩
          | error => exact ⟨_, rfl⟩
          | panic => exact (htm.print this hp).elim
        · exact ⟨_, rfl⟩
    | done => exact absurd hm hd

end Cssc
