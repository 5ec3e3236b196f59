import Verif.Proofs.CompileLive
import Verif.Spec.Crash

/-!
# Compile: what can crash it
-/

namespace Cssc

/-- Who writes to the map of the outputs. -/
structure InvOut (env : CEnv) (st : CSt) : Prop where
  out : ∀ th ∈ st.threads, ∀ i, th.pc = .outBegin i ∨ th.pc = .outEnd i → hasOutput env th = true
  writing : ∀ th ∈ st.threads, ∀ i, th.pc = .outEnd i → st.sh.writing = true
  one : ∀ (t u : Nat) (th x : Thread) (i j : Nat), st.threads[t]? = some th → st.threads[u]? = some x → th.pc = .outEnd i →
    x.pc = .outEnd j → t = u

/-- Every goroutine at the map has been there before, at the same place in the list. -/
theorem InvOut.keep {env : CEnv} {st st' : CSt} (h : InvOut env st) (hw : st'.sh.writing = st.sh.writing)
    (hold : ∀ (t : Nat) (th : Thread), st'.threads[t]? = some th → (∃ i, th.pc = .outBegin i ∨ th.pc = .outEnd i) →
      (∃ x : Thread, st.threads[t]? = some x ∧ x.pc = th.pc ∧ x.parent = th.parent) ∨ (∃ i, th.pc = .outBegin i) ∧ hasOutput env th = true) :
    InvOut env st' := by
  have hend : ∀ (t : Nat) (th : Thread) (i : Nat), st'.threads[t]? = some th → th.pc = .outEnd i →
      ∃ x : Thread, st.threads[t]? = some x ∧ x.pc = .outEnd i := by
    intro t th i h1 h2
    rcases hold t th h1 ⟨i, .inr h2⟩ with ⟨x, h3, h4, -⟩ | ⟨⟨j, h3⟩, -⟩
    · exact ⟨x, h3, by rw [h4, h2]⟩
    · rw [h2] at h3; cases h3
  refine ⟨?_, ?_, ?_⟩
  · intro th hth i hi
    obtain ⟨t, ht, rfl⟩ := List.getElem_of_mem hth
    rcases hold t _ (List.getElem?_eq_getElem ht) ⟨i, hi⟩ with ⟨x, h3, h4, h5⟩ | ⟨-, h⟩
    · have := h.out x (List.mem_of_getElem? h3) i (by rw [h4]; exact hi)
      unfold hasOutput at this ⊢
      rw [← h5]; exact this
    · exact h
  · intro th hth i hi
    obtain ⟨t, ht, rfl⟩ := List.getElem_of_mem hth
    obtain ⟨x, h1, h2⟩ := hend t _ i (List.getElem?_eq_getElem ht) hi
    rw [hw]
    exact h.writing x (List.mem_of_getElem? h1) i h2
  · intro t u th x i j h1 h2 h3 h4
    obtain ⟨y, h5, h6⟩ := hend t th i h1 h3
    obtain ⟨z, h7, h8⟩ := hend u x j h2 h4
    exact h.one t u y z i j h5 h7 h6 h8

theorem got_set {l : List Thread} {t u : Nat} {th1 x : Thread} (h : (l.set t th1)[u]? = some x) :
    (u = t ∧ x = th1) ∨ (u ≠ t ∧ l[u]? = some x) := by
  by_cases hu : t = u
  · subst hu
    have hlt := (List.getElem?_eq_some_iff.1 h).1
    rw [List.length_set] at hlt
    rw [List.getElem?_set_self hlt] at h
    cases h
    exact .inl ⟨rfl, rfl⟩
  · rw [List.getElem?_set_ne hu] at h
    exact .inr ⟨fun e => hu e.symm, h⟩

theorem got_append {l : List Thread} {y x : Thread} {u : Nat} (h : (l ++ [y])[u]? = some x) : l[u]? = some x ∨ x = y := by
  by_cases hu : u < l.length
  · rw [List.getElem?_append_left hu] at h; exact .inl h
  · have := List.mem_of_getElem? h
    rw [List.getElem?_append_right (by omega)] at h
    exact .inr (List.mem_singleton.1 (List.mem_of_getElem? h))

theorem Loc.out {env : CEnv} {st : CSt} {t : Nat} {th : Thread} {sh : Shared} {pc : PC} (hI : InvOut env st)
    (hth : st.threads[t]? = some th) (h : Loc env st t th sh pc) :
    InvOut env { st with sh := sh, threads := st.threads.set t { th with pc := pc } } := by
  have hmem := List.mem_of_getElem? hth
  have plain : sh.writing = st.sh.writing → (∀ i, pc ≠ .outBegin i) → (∀ i, pc ≠ .outEnd i) →
      InvOut env { st with sh := sh, threads := st.threads.set t { th with pc := pc } } := by
    intro hw h1 h2
    refine hI.keep hw fun u x hx hi => ?_
    rcases got_set hx with ⟨-, rfl⟩ | ⟨-, hx⟩
    · obtain ⟨i, hi | hi⟩ := hi
      · exact absurd hi (h1 i)
      · exact absurd hi (h2 i)
    · exact .inl ⟨x, hx, rfl, rfl⟩
  have branch : ∀ {i : Nat}, pc = (if hasOutput env th then .outBegin i else .cached i) → sh.writing = st.sh.writing →
      InvOut env { st with sh := sh, threads := st.threads.set t { th with pc := pc } } := by
    intro i hpc hw
    cases ho : hasOutput env th with
    | false => rw [ho] at hpc; exact plain hw (by rw [hpc]; simp) (by rw [hpc]; simp)
    | true =>
      rw [ho] at hpc
      refine hI.keep hw fun u x hx hi => ?_
      rcases got_set hx with ⟨-, rfl⟩ | ⟨-, hx⟩
      · exact .inr ⟨⟨i, hpc⟩, ho⟩
      · exact .inl ⟨x, hx, rfl, rfl⟩
  cases h with
  | known => exact branch rfl rfl
  | incWrite => exact branch rfl rfl
  | @outBegin i hpc hw =>
    have none_there : ∀ x ∈ st.threads, ∀ j, x.pc ≠ .outEnd j := fun x hx j hj => by
      have := hI.writing x hx j hj
      rw [hw] at this; cases this
    refine ⟨?_, fun _ _ _ _ => rfl, ?_⟩
    · intro x hx j hj
      rcases mem_set hx with hx | rfl
      · exact hI.out x hx j hj
      · exact hI.out th hmem i (.inl hpc)
    · intro u v y z j k hy hz ej ek
      rcases got_set hy with ⟨rfl, rfl⟩ | ⟨-, hy⟩
      · rcases got_set hz with ⟨rfl, rfl⟩ | ⟨-, hz⟩
        · rfl
        · exact absurd ek (none_there z (List.mem_of_getElem? hz) k)
      · exact absurd ej (none_there y (List.mem_of_getElem? hy) j)
  | @outEnd i hpc =>
    have none_left : ∀ (u : Nat) (x : Thread) (j : Nat), (st.threads.set t { th with pc := .cached i })[u]? = some x → x.pc ≠ .outEnd j := by
      intro u x j hx hj
      rcases got_set hx with ⟨rfl, rfl⟩ | ⟨hu, hx⟩
      · cases hj
      · exact hu (hI.one u t x th j i hx hth hj hpc)
    refine ⟨?_, ?_, ?_⟩
    · intro x hx j hj
      rcases mem_set hx with hx | rfl
      · exact hI.out x hx j hj
      · rcases hj with hj | hj <;> cases hj
    · intro x hx j hj
      obtain ⟨u, hu, rfl⟩ := List.getElem_of_mem hx
      exact absurd hj (none_left u _ j (List.getElem?_eq_getElem hu))
    · intro u v y z j k hy _ ej _
      exact absurd ej (none_left u y j hy)
  | _ => exact plain rfl (by simp) (by simp)

theorem Act.out {env : CEnv} {st st' : CSt} {t : Nat} {th : Thread} (hI : InvOut env st)
    (hth : st.threads[t]? = some th) (h : Act env st t th st') : InvOut env st' := by
  cases h with
  | loc h => exact h.out hI hth
  | parse =>
    refine hI.keep rfl fun u x hx hi => ?_
    rcases got_set hx with ⟨-, rfl⟩ | ⟨-, hx⟩
    · obtain ⟨i, hi | hi⟩ := hi <;> cases hi
    · exact .inl ⟨x, hx, rfl, rfl⟩
  | spawn =>
    refine hI.keep rfl fun u x hx hi => ?_
    rcases got_append hx with hx | rfl
    · rcases got_set hx with ⟨-, rfl⟩ | ⟨-, hx⟩
      · obtain ⟨i, hi | hi⟩ := hi <;> cases hi
      · exact .inl ⟨x, hx, rfl, rfl⟩
    · obtain ⟨i, hi | hi⟩ := hi <;> cases hi
  | @deliver p par imp ss hpc hp hpar =>
    refine hI.keep rfl fun u x hx hi => ?_
    rcases got_set hx with ⟨-, rfl⟩ | ⟨-, hx⟩
    · obtain ⟨i, hi | hi⟩ := hi <;> cases hi
    · rcases got_set hx with ⟨rfl, rfl⟩ | ⟨-, hx⟩
      · exact .inl ⟨par, hpar, rfl, rfl⟩
      · exact .inl ⟨x, hx, rfl, rfl⟩

theorem MainAct.out {env : CEnv} {st st' : CSt} (hI : InvOut env st) (h : MainAct env st st') : InvOut env st' := by
  cases h with
  | spawn =>
    refine hI.keep rfl fun u x hx hi => ?_
    rcases got_append hx with hx | rfl
    · exact .inl ⟨x, hx, rfl, rfl⟩
    · obtain ⟨i, hi | hi⟩ := hi <;> cases hi
  | _ => exact hI.keep rfl fun u x hx _ => .inl ⟨x, hx, rfl, rfl⟩

theorem Reached.out {env : CEnv} {st : CSt} (h : Reached env st) : InvOut env st := by
  induction h with
  | init => exact ⟨by simp [CSt.init], by simp [CSt.init], by simp [CSt.init]⟩
  | step hr hs ih =>
    rcases cstep_act hs with h | ⟨t, th, hth, h⟩
    · exact h.out ih
    · exact h.out ih hth

/-- The two ways to crash. -/
theorem Reached.crash_iff {env : CEnv} {T : Stylesheet → Prop} (htm : Tame env T) {st : CSt} (hr : Reached env st) {c : Choice} :
    cstep env st c = some .crash ↔ ∃ t, c = .thread t ∧ (MapClash st t ∨ NoSource st t) := by
  have hL := hr.live htm
  have hI1 := hr.inv1
  have hI2 : Inv2 env False st := hr.inv2 False.elim
  have hO := hr.out
  constructor
  · intro h
    cases c with
    | main =>
      exfalso
      change stepMain env st = _ at h
      unfold stepMain at h
      cases hm : st.main <;> rw [hm] at h <;> dsimp only at h
      · split at h <;> cases h
      · split at h <;> cases h
      · split at h <;> cases h
      · cases h
    | print i =>
      exfalso
      change stepPrint st i = _ at h
      unfold stepPrint at h
      cases hm : st.main with
      | print rest =>
        rw [hm] at h
        dsimp only at h
        split at h
        · split at h
          · rename_i source ss h1 h2
            cases hp : print (some source) ss with
            | ok out => rw [hp] at h; cases h
            | error => rw [hp] at h; cases h
            | panic => exact htm.print (hL.asts _ _ (mem_of_lookupMap h2)) hp
          · cases h
        · cases h
      | _ => rw [hm] at h; cases h
    | thread t =>
      refine ⟨t, rfl, ?_⟩
      change stepThread env st t = _ at h
      unfold stepThread at h
      obtain ⟨th, hth, h⟩ := Option.bind_eq_some_iff.1 h
      have hmem := List.mem_of_getElem? hth
      have hpcg := hI2.pcs th hmem
      dsimp only at h
      rcases hpc : th.pc with _ | path | ⟨path, abs⟩ | ⟨abs, content⟩ | ⟨abs, content, i⟩ | i | ⟨i, v⟩ | i | i | i | i |
        ⟨i, addr⟩ | ⟨i, k⟩ | i | ⟨i, ss⟩ | res | _ <;> rw [hpc] at h hpcg <;> dsimp only at h
      · exfalso
        unfold stepStart at h
        rcases hp : th.parent with _ | p <;> rw [hp] at h <;> dsimp only at h
        · obtain ⟨path, -, h⟩ := Option.bind_eq_some_iff.1 h
          cases h
        · obtain ⟨par, -, h⟩ := Option.bind_eq_some_iff.1 h
          obtain ⟨imp, -, h⟩ := Option.bind_eq_some_iff.1 h
          obtain ⟨source, -, h⟩ := Option.bind_eq_some_iff.1 h
          split at h <;> cases h
      · exfalso
        split at h
        · cases h
        · split at h <;> cases h
      · exfalso; split at h <;> cases h
      · cases h
      · cases h
      · cases h
      · cases h
      · split at h
        · rename_i hw
          obtain ⟨x, hx, j, hj⟩ := hL.writing hw
          obtain ⟨u, hu, rfl⟩ := List.getElem_of_mem hx
          have hu' := List.getElem?_eq_getElem hu
          refine .inl ⟨u, th, _, i, j, ?_, hth, hu', hpc, hj⟩
          rintro rfl
          rw [hth] at hu'
          rw [← Option.some.inj hu', hpc] at hj
          cases hj
        · cases h
      · cases h
      · exfalso; split at h <;> cases h
      · split at h
        · cases h
        · rename_i hl
          have hno : ∀ addr, (i, addr) ∉ st.sh.byIndex := fun addr hm => mem_lookupMap hm hl
          obtain ⟨a, -, h1⟩ := hpcg
          rcases hL.stored a i h1 with ⟨addr, h2⟩ | ⟨x, hx, b, c, h2⟩
          · exact absurd h2 (hno addr)
          · obtain ⟨u, hu, rfl⟩ := List.getElem_of_mem hx
            have hu' := List.getElem?_eq_getElem hu
            refine .inr ⟨u, th, _, i, b, c, ?_, hth, hu', hpc, h2, hno⟩
            rintro rfl
            rw [hth] at hu'
            rw [← Option.some.inj hu', hpc] at h2
            cases h2
      · exfalso
        obtain ⟨-, h1⟩ := hpcg
        obtain ⟨s, h2, -⟩ := hI2.byIndex _ _ h1
        obtain ⟨q, -, -, h5⟩ := hI1.heap _ (List.mem_of_getElem? h2)
        unfold stepParse at h
        rw [h2] at h; dsimp only [Option.bind] at h
        rcases parse_all_id st.sh.parses.length (htm.parse h5) with ⟨ss, lines, hp⟩ | ⟨e, lines, hp⟩ <;> rw [hp] at h <;> cases h
      · exfalso; split at h <;> cases h
      · exfalso
        obtain ⟨-, -, s, id, lines, h1, h2, -⟩ := hpcg
        obtain ⟨q, -, -, h5⟩ := hI1.heap _ (List.mem_of_getElem? h1)
        obtain ⟨ss', u, h6, h7⟩ := htm.transform h5 h2 fun x hx =>
          ⟨hL.repls th hmem x hx, hr.apart hmem (by rw [hpc]; exact trivial) h2 x hx⟩
        unfold stepWait at h
        split at h
        · rw [h1] at h; dsimp only [Option.bind] at h
          rw [h6] at h
          cases h
        · cases h
      · cases h
      · exfalso
        unfold stepDeliver at h
        rcases hp : th.parent with _ | p <;> rw [hp] at h <;> (try dsimp only at h)
        · cases h
        · rcases res with _ | ss <;> dsimp only at h
          · cases h
          · obtain ⟨par, hpar, h⟩ := Option.bind_eq_some_iff.1 h
            obtain ⟨imp, hi, h⟩ := Option.bind_eq_some_iff.1 h
            cases h
      · cases h
  · rintro ⟨t, rfl, ⟨u, th, x, i, j, -, h1, h2, h3, h4⟩ | ⟨u, th, x, i, a, c, -, h1, h2, h3, h4, h5⟩⟩
    · show stepThread env st t = _
      unfold stepThread
      rw [h1]; dsimp only [Option.bind]; rw [h3]; dsimp only
      rw [if_pos (hO.writing x (List.mem_of_getElem? h2) j h4)]
    · show stepThread env st t = _
      unfold stepThread
      rw [h1]; dsimp only [Option.bind]; rw [h3]; dsimp only
      cases hl : lookupMap st.sh.byIndex i with
      | none => rfl
      | some addr => exact absurd (mem_of_lookupMap hl) (h5 addr)

/-! ### Goroutines that start in time -/

theorem ordinal_lt {l : List (Option Nat)} {q : Option Nat} {t u : Nat} (ht : l[t]? = some q) (h : t < u) :
    (l.take t).count q < (l.take u).count q := by
  have h1 : (l.take (t + 1)).count q = (l.take t).count q + 1 := by
    rw [List.take_add_one, ht, List.count_append]
    simp
  have h2 : List.Sublist (l.take (t + 1)) (l.take u) := (List.take_prefix_take_left (by omega)).sublist
  have := h2.count_le q
  omega

theorem ordinal_inj {st : CSt} {q : Option Nat} {t u : Nat} (ht : st.parents[t]? = some q) (hu : st.parents[u]? = some q)
    (h : st.ordinal q t = st.ordinal q u) : t = u := by
  rcases Nat.lt_trichotomy t u with hlt | e | hlt
  · have := ordinal_lt ht hlt
    unfold CSt.ordinal at h
    unfold CSt.parents at this
    omega
  · exact e
  · have := ordinal_lt hu hlt
    unfold CSt.ordinal at h
    unfold CSt.parents at this
    omega

theorem Own.request {env : CEnv} {st : CSt} (hI1 : Inv1 env st) {t : Nat} {parent : Option Nat} {p : Bytes}
    (h : Own env st t parent p) : ∃ o, Request env o (st.ordinal parent t) p ∧ ((parent = none ∧ o = none) ∨
      ∃ q par source, parent = some q ∧ o = some source.path ∧ ParsedBy env st q par source) := by
  cases parent with
  | none => exact ⟨none, .entry h, .inl ⟨rfl, rfl⟩⟩
  | some q =>
    obtain ⟨par, source, h1, imp, h5, h6⟩ := h
    obtain ⟨_, _, h3, id, lines, h4⟩ := id h1
    obtain ⟨p', p1, p2, p3⟩ := hI1.heap _ (List.mem_of_getElem? h3)
    exact ⟨some source.path, .imp p1 p2 p3 h4 h5 h6, .inr ⟨q, par, source, rfl, rfl, h1⟩⟩

/-- It has started goroutines, and may have to wait for them. -/
def PC.Loops : PC → Prop
  | .spawn _ _ | .wait _ => True
  | _ => False

/-- The goroutine is there for the file of its own iteration. -/
def PcOwn (env : CEnv) (st : CSt) (t : Nat) (parent : Option Nat) : PC → Prop
  | .lookup p => Own env st t parent p
  | .read p a => Own env st t parent p ∧ env.abs p = some a
  | .alloc a _ => ∃ p, Own env st t parent p ∧ env.abs p = some a
  | .store a _ i => ∃ p, Own env st t parent p ∧ env.abs p = some a ∧ (a, i) ∈ st.sh.sources
  | .incRead i | .incWrite i _ | .outBegin i | .outEnd i | .cached i | .source i | .parse i _ | .spawn i _ | .wait i =>
    OwnNum env st t parent i
  | .start | .cache _ _ | .deliver _ | .done => True

theorem PcOwn.mono {env : CEnv} {st st' : CSt} (hg : Grows st st') {t : Nat} {th : Thread} (hth : st.threads[t]? = some th)
    {parent : Option Nat} {pc : PC} (h : PcOwn env st t parent pc) : PcOwn env st' t parent pc := by
  cases pc with
  | start => trivial
  | cache => trivial
  | deliver => trivial
  | done => trivial
  | lookup => exact Own.mono hg hth h
  | read => exact ⟨h.1.mono hg hth, h.2⟩
  | alloc => obtain ⟨p, h1, h2⟩ := h; exact ⟨p, h1.mono hg hth, h2⟩
  | store => obtain ⟨p, h1, h2, h3⟩ := h; exact ⟨p, h1.mono hg hth, h2, hg.sh.sources _ h3⟩
  | incRead => exact OwnNum.mono hg hth h
  | incWrite => exact OwnNum.mono hg hth h
  | outBegin => exact OwnNum.mono hg hth h
  | outEnd => exact OwnNum.mono hg hth h
  | cached => exact OwnNum.mono hg hth h
  | source => exact OwnNum.mono hg hth h
  | parse => exact OwnNum.mono hg hth h
  | spawn => exact OwnNum.mono hg hth h
  | wait => exact OwnNum.mono hg hth h

structure InvStart (env : CEnv) (st : CSt) : Prop where
  pcs : ∀ (t : Nat) (th : Thread), st.threads[t]? = some th → PcOwn env st t th.parent th.pc
  kids : ∀ (q : Nat) (par : Thread), st.threads[q]? = some par → ¬ par.pc.Loops → ∀ x ∈ st.threads, x.parent = some q → x.pc = .done

theorem InvStart.local {env : CEnv} {st : CSt} (hI : InvStart env st) {t : Nat} {th th1 : Thread} {sh : Shared}
    (hth : st.threads[t]? = some th) (hb : th.pc ≠ .done) (hg : Grows st { st with sh := sh, threads := st.threads.set t th1 })
    (hpar : th1.parent = th.parent) (hpc : PcOwn env { st with sh := sh, threads := st.threads.set t th1 } t th1.parent th1.pc)
    (hk : ¬ th1.pc.Loops → ∀ x ∈ st.threads, x.parent = some t → x.pc = .done) :
    InvStart env { st with sh := sh, threads := st.threads.set t th1 } := by
  have hmem := List.mem_of_getElem? hth
  refine ⟨fun u x hx => ?_, fun q par hq hl x hx hp => ?_⟩
  · rcases got_set hx with ⟨rfl, rfl⟩ | ⟨-, hx⟩
    · exact hpc
    · exact (hI.pcs u x hx).mono hg hx
  · have hall : ∀ y ∈ st.threads, y.parent = some q → y.pc = .done := by
      rcases got_set hq with ⟨rfl, rfl⟩ | ⟨-, hq⟩
      · exact hk hl
      · exact hI.kids q par hq hl
    rcases mem_set hx with hx | rfl
    · exact hall x hx hp
    · exact absurd (hall th hmem (by rw [← hpar]; exact hp)) hb

theorem Loc.starts {env : CEnv} {st : CSt} {t : Nat} {th : Thread} {sh : Shared} {pc : PC}
    (hI2 : Inv2 env False st) (hI : InvStart env st) (hth : st.threads[t]? = some th) (hne : ∀ p, th.parent = some p → p ≠ t)
    (hti : th.pc = .start → st.loopVar th.parent = some (st.ordinal th.parent t)) (h : Loc env st t th sh pc) :
    InvStart env { st with sh := sh, threads := st.threads.set t { th with pc := pc } } := by
  have hact : Act env st t th { st with sh := sh, threads := st.threads.set t { th with pc := pc } } := .loc h
  have hg : Grows st { st with sh := sh, threads := st.threads.set t { th with pc := pc } } :=
    ⟨hact.stLe hth, hact.grows, hact.thGrows hth hne⟩
  have hb := hact.busy
  have hmem := List.mem_of_getElem? hth
  have hpcth := hI.pcs t th hth
  have key : ∀ {pc' : PC}, PcOwn env st t th.parent pc' → PcOwn env
      { st with sh := sh, threads := st.threads.set t { th with pc := pc } } t th.parent pc' := fun h => h.mono hg hth
  have k : ¬ th.pc.Loops → ¬ pc.Loops → ∀ x ∈ st.threads, x.parent = some t → x.pc = .done := fun h _ => hI.kids t th hth h
  have branch : ∀ {b : Bool} {i : Nat}, OwnNum env st t th.parent i → PcOwn env st t th.parent (if b = true then .outBegin i else .cached i) :=
    fun {b _} h => by cases b <;> exact h
  cases h with
  | startEntry hpc hp he =>
    rw [hpc] at k
    refine hI.local hth hb hg rfl (key ?_) (k id)
    have := hti hpc
    rw [hp] at this ⊢
    unfold PcOwn
    dsimp only
    unfold Own
    unfold CSt.loopVar at this
    injection this with h
    dsimp only
    rw [← h]; exact he
  | startFail hpc => rw [hpc] at k; exact hI.local hth hb hg rfl trivial (k id)
  | @startImport p par imp source rel hpc hp hpar hi hs hr' =>
    rw [hpc] at k
    refine hI.local hth hb hg rfl (key ?_) (k id)
    have hv := hti hpc
    rw [hp] at hv ⊢
    unfold CSt.loopVar at hv
    dsimp only at hv
    rw [hpar] at hv
    injection hv with hv
    obtain ⟨par', source', ha⟩ := hI2.parents th hmem _ hp
    obtain ⟨a1, _, a3, _⟩ := _root_.id ha
    rw [hpar] at a1; cases a1
    rw [hs] at a3; cases a3
    exact ⟨par, source, ha, imp, by rw [← hv]; exact hi, hr'⟩
  | noAbs hpc => rw [hpc] at k; exact hI.local hth hb hg rfl trivial (k id)
  | known hpc ha hl =>
    rw [hpc] at k hpcth
    exact hI.local hth hb hg rfl (key (branch ⟨_, _, hpcth, ha, mem_of_lookupMap hl⟩)) (k id)
  | unknown hpc ha =>
    rw [hpc] at k hpcth
    exact hI.local hth hb hg rfl (key ⟨hpcth, ha⟩) (k id)
  | noRead hpc => rw [hpc] at k; exact hI.local hth hb hg rfl trivial (k id)
  | read hpc =>
    rw [hpc] at k hpcth
    exact hI.local hth hb hg rfl (key ⟨_, hpcth⟩) (k id)
  | alloc hpc =>
    rw [hpc] at k hpcth
    obtain ⟨p, h1, h2⟩ := hpcth
    exact hI.local hth hb hg rfl ⟨p, h1.mono hg hth, h2, List.mem_cons_self⟩ (k id)
  | store hpc =>
    rw [hpc] at k hpcth
    obtain ⟨p, h1, h2, h3⟩ := hpcth
    exact hI.local hth hb hg rfl (key (pc' := .incRead _) ⟨p, _, h1, h2, h3⟩) (k id)
  | incRead hpc => rw [hpc] at k hpcth; exact hI.local hth hb hg rfl (key (pc' := .incRead _) hpcth) (k id)
  | incWrite hpc => rw [hpc] at k hpcth; exact hI.local hth hb hg rfl (key (branch hpcth)) (k id)
  | outBegin hpc => rw [hpc] at k hpcth; exact hI.local hth hb hg rfl (key (pc' := .outBegin _) hpcth) (k id)
  | outEnd hpc => rw [hpc] at k hpcth; exact hI.local hth hb hg rfl (key (pc' := .outBegin _) hpcth) (k id)
  | hit hpc => rw [hpc] at k; exact hI.local hth hb hg rfl trivial (k id)
  | miss hpc => rw [hpc] at k hpcth; exact hI.local hth hb hg rfl (key (pc' := .cached _) hpcth) (k id)
  | source hpc => rw [hpc] at k hpcth; exact hI.local hth hb hg rfl (key (pc' := .cached _) hpcth) (k id)
  | parseFail hpc => rw [hpc] at k; exact hI.local hth hb hg rfl trivial (k id)
  | spawned hpc => rw [hpc] at hpcth; exact hI.local hth hb hg rfl (key (pc' := .wait _) hpcth) (fun h => absurd trivial h)
  | transform hpc hj => exact hI.local hth hb hg rfl trivial fun _ => joined_done hj
  | cache hpc => rw [hpc] at k; exact hI.local hth hb hg rfl trivial (k id)
  | finish hpc => rw [hpc] at k; exact hI.local hth hb hg rfl trivial (k id)

theorem Act.starts {env : CEnv} {st st' : CSt} {t : Nat} {th : Thread} (hr : Reached env st)
    (hI : InvStart env st) (hth : st.threads[t]? = some th)
    (hti : th.pc = .start → st.loopVar th.parent = some (st.ordinal th.parent t)) (h : Act env st t th st') : InvStart env st' := by
  have hne : ∀ p, th.parent = some p → p ≠ t := fun p hp => Nat.ne_of_lt (hr.earlier t p (by rw [parents_get hth, hp]))
  have hg : Grows st st' := ⟨h.stLe hth, h.grows, h.thGrows hth hne⟩
  have hb := h.busy
  have hmem := List.mem_of_getElem? hth
  have hpcth := hI.pcs t th hth
  cases h with
  | loc h => exact h.starts (hr.inv2 False.elim) hI hth hne hti
  | parse hpc =>
    rw [hpc] at hpcth
    exact hI.local hth hb hg rfl (PcOwn.mono (pc := .spawn _ _) hg hth hpcth) fun h => absurd trivial h
  | @spawn i k hpc hk =>
    rw [hpc] at hpcth
    refine ⟨fun u x hx => ?_, fun q par hq hl x hx hp => ?_⟩
    · rcases got_append hx with hx | rfl
      · rcases got_set hx with ⟨rfl, rfl⟩ | ⟨-, hx⟩
        · exact PcOwn.mono (pc := .spawn _ _) hg hth hpcth
        · exact (hI.pcs u x hx).mono hg hx
      · trivial
    · have hlt := (List.getElem?_eq_some_iff.1 hth).1
      by_cases hql : q < st.threads.length
      · have hq' : (st.threads.set t { th with pc := .spawn i (k + 1), imp := k })[q]? = some par := by
          rw [← hq]
          exact (List.getElem?_append_left (by simpa using hql)).symm
        rcases got_set hq' with ⟨rfl, rfl⟩ | ⟨hqt, hq'⟩
        · exact absurd trivial hl
        · have hall := hI.kids q par hq' hl
          rcases List.mem_append.1 hx with hx | hx
          · rcases mem_set hx with hx | rfl
            · exact hall x hx hp
            · exact absurd (hall th hmem hp) hb
          · rw [List.mem_singleton.1 hx] at hp
            exact absurd (Option.some.inj hp).symm hqt
      · -- the new goroutine has started none
        exfalso
        rcases List.mem_append.1 hx with hx | hx
        · have : ∃ y ∈ st.threads, y.parent = some q := by
            rcases mem_set hx with hx | rfl
            · exact ⟨x, hx, hp⟩
            · exact ⟨th, hmem, hp⟩
          obtain ⟨y, hy, hyp⟩ := this
          obtain ⟨j, hj, rfl⟩ := List.getElem_of_mem hy
          have := hr.earlier j q (by rw [parents_get (List.getElem?_eq_getElem hj), hyp])
          omega
        · rw [List.mem_singleton.1 hx] at hp
          have := Option.some.inj hp
          omega
  | @deliver p par imp ss hpc hp hpar =>
    refine ⟨fun u x hx => ?_, fun q y hq hl x hx hxp => ?_⟩
    · rcases got_set hx with ⟨rfl, rfl⟩ | ⟨-, hx⟩
      · trivial
      · rcases got_set hx with ⟨rfl, rfl⟩ | ⟨-, hx⟩
        · exact (hI.pcs _ par hpar).mono hg hpar
        · exact (hI.pcs u x hx).mono hg hx
    · have hall : ∀ x ∈ st.threads, x.parent = some q → x.pc = .done := by
        rcases got_set hq with ⟨rfl, rfl⟩ | ⟨-, hq⟩
        · exact hI.kids _ th hth (by rw [hpc]; exact id)
        · rcases got_set hq with ⟨rfl, rfl⟩ | ⟨-, hq⟩
          · exact hI.kids _ par hpar hl
          · exact hI.kids q y hq hl
      rcases mem_set hx with hx | rfl
      · rcases mem_set hx with hx | rfl
        · exact hall x hx hxp
        · exact hall par (List.mem_of_getElem? hpar) hxp
      · rfl

theorem MainAct.starts {env : CEnv} {st st' : CSt} (hr : Reached env st) (hI : InvStart env st) (h : MainAct env st st') :
    InvStart env st' := by
  have hg : Grows st st' := ⟨h.stLe, h.grows, h.thGrows⟩
  rcases h.parents with ⟨e, -⟩ | ⟨k, -, -, -, e⟩
  · refine ⟨fun u x hx => ?_, fun q par hq hl => ?_⟩
    · rw [e] at hx
      exact (hI.pcs u x hx).mono hg hx
    · rw [e] at hq ⊢
      exact hI.kids q par hq hl
  · refine ⟨fun u x hx => ?_, fun q par hq hl x hx hp => ?_⟩
    · rw [e] at hx
      rcases got_append hx with hx | rfl
      · exact (hI.pcs u x hx).mono hg hx
      · trivial
    · rw [e] at hq hx
      have hx : x ∈ st.threads := by
        rcases List.mem_append.1 hx with hx | hx
        · exact hx
        · rw [List.mem_singleton.1 hx] at hp; cases hp
      obtain ⟨j, hj, rfl⟩ := List.getElem_of_mem hx
      have := hr.earlier j q (by rw [parents_get (List.getElem?_eq_getElem hj), hp])
      rw [List.getElem?_append_left (by omega)] at hq
      exact hI.kids q par hq hl _ hx hp

theorem ReachedStarts.reached {env : CEnv} {st : CSt} (h : ReachedStarts env st) : Reached env st := by
  induction h with
  | init => exact .init
  | step _ _ hs ih => exact .step ih hs

theorem ReachedTidy.starts {env : CEnv} {st : CSt} (h : ReachedTidy env st) : ReachedStarts env st := by
  induction h with
  | init => exact .init
  | step _ ht hs ih =>
    refine .step ih (fun t th e hth hpc => ?_) hs
    subst e
    exact ht th hth (by unfold Thread.ReadsLoop; rw [hpc]; trivial)

theorem ReachedStarts.inv {env : CEnv} {st : CSt} (h : ReachedStarts env st) : InvStart env st := by
  induction h with
  | init => exact ⟨by simp [CSt.init], by simp [CSt.init]⟩
  | @step st st' c hr hti hs ih =>
    have hact : MainAct env st st' ∨ ∃ t th, c = .thread t ∧ st.threads[t]? = some th ∧ Act env st t th st' := by
      cases c with
      | main => exact .inl (stepMain_act hs)
      | print i => exact .inl (stepPrint_act hs)
      | thread t =>
        obtain ⟨th, h1, h2⟩ := stepThread_act hs
        exact .inr ⟨t, th, rfl, h1, h2⟩
    rcases hact with h | ⟨t, th, rfl, hth, h⟩
    · exact h.starts hr.reached ih
    · exact h.starts hr.reached ih hth (hti t th rfl hth)

/-- The parent of a goroutine that has not ended has not ended either, and is there for the file that it has parsed. -/
theorem parent_own {env : CEnv} {st : CSt} (hI2 : Inv2 env False st) (hI : InvStart env st) (hD : Distinct st.sh) {q : Nat} {th : Thread}
    (hth : th ∈ st.threads) (hb : th.pc ≠ .done) (hq : th.parent = some q) {par : Thread} {source : Source}
    (hp : ParsedBy env st q par source) : par.pc ≠ .done ∧ ∃ p, Own env st q par.parent p ∧ env.abs p = some source.path := by
  obtain ⟨h1, h2, h3, -⟩ := hp
  have hl : par.pc.Loops := Classical.byContradiction fun hn => hb (hI.kids q par h1 hn th hth hq)
  have hpc := hI.pcs q par h1
  have hok := hI2.pcs par (List.mem_of_getElem? h1)
  have key : ∀ i, OwnNum env st q par.parent i → (i, par.addr) ∈ st.sh.byIndex → ∃ p, Own env st q par.parent p ∧ env.abs p = some source.path := by
    rintro i ⟨p, a, g1, g2, g3⟩ g4
    obtain ⟨s, g5, g6⟩ := hI2.byIndex _ _ g4
    rw [h3] at g5
    cases g5
    cases hD.eq g3 g6
    exact ⟨p, g1, g2⟩
  cases e : par.pc with
  | spawn i k => rw [e] at hpc hok; exact ⟨by simp, key i hpc hok.2.1⟩
  | wait i => rw [e] at hpc hok; exact ⟨by simp, key i hpc hok.2.1⟩
  | _ => rw [e] at hl; exact hl.elim

/-- If no file is asked for twice, no two goroutines are there for the same file. -/
theorem own_apart {env : CEnv} {st : CSt} (hr : Reached env st) (hI : InvStart env st) (hD : Distinct st.sh) (hU : Unshared env) :
    ∀ (t u : Nat) (th x : Thread) (p p' a : Bytes), st.threads[t]? = some th → st.threads[u]? = some x → th.pc ≠ .done → x.pc ≠ .done →
      Own env st t th.parent p → Own env st u x.parent p' → env.abs p = some a → env.abs p' = some a → t = u := by
  intro t
  induction t using Nat.strongRecOn with
  | _ t ih =>
    intro u th x p p' a hth hx hb hb' ho ho' ha ha'
    have hI2 : Inv2 env False st := hr.inv2 False.elim
    obtain ⟨o, r1, h1⟩ := ho.request hr.inv1
    obtain ⟨o', r2, h2⟩ := ho'.request hr.inv1
    obtain ⟨e1, e2⟩ := hU r1 r2 ha ha'
    subst e1
    have hpar : th.parent = x.parent := by
      rcases h1 with ⟨h1, rfl⟩ | ⟨q, par, source, h1, rfl, h3⟩
      · rcases h2 with ⟨h2, -⟩ | ⟨_, _, _, _, h2, -⟩
        · rw [h1, h2]
        · cases h2
      · rcases h2 with ⟨-, h2⟩ | ⟨q', par', source', h2, e, h4⟩
        · cases h2
        · have e := Option.some.inj e
          obtain ⟨b1, p1, o1, a1⟩ := parent_own hI2 hI hD (List.mem_of_getElem? hth) hb h1 h3
          obtain ⟨b2, p2, o2, a2⟩ := parent_own hI2 hI hD (List.mem_of_getElem? hx) hb' h2 h4
          have hlt := hr.earlier t q (by rw [parents_get hth, h1])
          have := ih q hlt q' par par' p1 p2 source.path h3.1 h4.1 b1 b2 o1 o2 a1 (by rw [a2, e])
          rw [h1, h2, this]
    rw [← hpar] at e2
    exact ordinal_inj (parents_get hth) (by rw [parents_get hx, hpar]) e2

/-- … so none uses a source before it is stored. -/
theorem ReachedStarts.hasSource {env : CEnv} {st : CSt} (hr : ReachedStarts env st) (hD : Distinct st.sh) (hU : Unshared env) (t : Nat) :
    ¬ NoSource st t := by
  rintro ⟨u, th, x, i, a, c, hne, h1, h2, h3, h4, -⟩
  have hI := hr.inv
  have p1 := hI.pcs t th h1
  rw [h3] at p1
  have p2 := hI.pcs u x h2
  rw [h4] at p2
  obtain ⟨p, a1, o1, a2, a3⟩ := p1
  obtain ⟨p', o2, a4, a5⟩ := p2
  cases hD.eq a3 a5
  exact hne (own_apart hr.reached hI hD hU t u th x p p' _ h1 h2 (by rw [h3]; simp) (by rw [h4]; simp) o1 o2 a2 a4).symm

end Cssc
