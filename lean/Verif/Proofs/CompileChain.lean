import Verif.Proofs.CompileSeq

/-!
# One entry, and at most one import in each file

Then every goroutine but one waits, so that the schedules differ only in when a waiting goroutine notices that it has
nothing more to start.
-/

namespace Cssc

/-! ### The goroutines form a line -/

/-- It has started its import. -/
def PC.waiting : PC → Bool
  | .spawn _ 1 => true
  | .wait _ => true
  | _ => false

/-- Its import has ended. -/
def PC.after : PC → Bool
  | .cache _ _ => true
  | .deliver _ => true
  | .done => true
  | _ => false

structure Line (st : CSt) : Prop where
  parents : ∀ (k : Nat) (th : Thread), st.threads[k]? = some th → th.parent = (match k with | 0 => none | k + 1 => some k)
  link : ∀ (k : Nat) (th x : Thread), st.threads[k]? = some th → st.threads[k + 1]? = some x →
    th.pc.waiting = true ∨ th.pc.after = true ∧ x.pc = .done
  main : (st.main = .spawn 0 ∧ st.threads = []) ∨
    (st.threads ≠ [] ∧ (st.main = .spawn 1 ∨ st.main = .wait ∨
      (((∃ r, st.main = .print r) ∨ st.main = .done) ∧ ∀ th ∈ st.threads, th.pc = .done)))

/-- Goroutine `t` changes. -/
theorem Line.set {st : CSt} (h : Line st) {t : Nat} {th y : Thread} (hth : st.threads[t]? = some th) (hp : y.parent = th.parent)
    (hd : y.pc = th.pc ∨ th.pc ≠ .done) (hl : ∀ x, st.threads[t + 1]? = some x → y.pc.waiting = true ∨ y.pc.after = true ∧ x.pc = .done)
    (sh : Shared) : Line { st with sh := sh, threads := st.threads.set t y } := by
  have hlt := (List.getElem?_eq_some_iff.1 hth).1
  refine ⟨fun k x hx => ?_, fun k x z hx hz => ?_, ?_⟩
  · dsimp only at hx
    by_cases hk : t = k
    · subst hk
      rw [List.getElem?_set_self hlt] at hx
      cases hx
      rw [hp]
      exact h.parents _ _ hth
    · rw [List.getElem?_set_ne hk] at hx
      exact h.parents _ _ hx
  · dsimp only at hx hz
    by_cases hk : t = k
    · subst hk
      rw [List.getElem?_set_self hlt] at hx
      cases hx
      rw [List.getElem?_set_ne (by omega)] at hz
      exact hl z hz
    · rw [List.getElem?_set_ne hk] at hx
      by_cases hk1 : t = k + 1
      · subst hk1
        rw [List.getElem?_set_self hlt] at hz
        cases hz
        rcases h.link _ _ _ hx hth with h1 | ⟨h1, h2⟩
        · exact .inl h1
        · rcases hd with hd | hd
          · exact .inr ⟨h1, hd ▸ h2⟩
          · exact absurd h2 hd
      · rw [List.getElem?_set_ne hk1] at hz
        exact h.link _ _ _ hx hz
  · rcases h.main with ⟨h1, h2⟩ | ⟨h1, h2⟩
    · rw [h2] at hth; cases hth
    · refine .inr ⟨fun e => h1 (by simpa using congrArg List.length e), ?_⟩
      rcases h2 with h2 | h2 | ⟨h2, h3⟩
      · exact .inl h2
      · exact .inr (.inl h2)
      · refine .inr (.inr ⟨h2, fun x hx => ?_⟩)
        rcases mem_set hx with hx | rfl
        · exact h3 x hx
        · have := h3 th (List.mem_of_getElem? hth)
          rcases hd with hd | hd
          · rw [hd, this]
          · exact absurd this hd

theorem joined_child {st : CSt} {p : Option Nat} (hj : st.joined p = true) {x : Thread} (hx : x ∈ st.threads) (hp : x.parent = p) :
    x.pc = .done := by
  unfold CSt.joined at hj
  have := List.all_eq_true.1 hj x hx
  rw [if_pos hp] at this
  revert this
  cases x.pc <;> simp

theorem Loc.phase {env : CEnv} {st : CSt} {t : Nat} {th : Thread} {sh : Shared} {pc : PC} (h : Loc env st t th sh pc) :
    th.pc ≠ .done ∧ (th.pc.waiting = true → pc.waiting = true ∨ pc.after = true ∧ st.joined (some t) = true) ∧
      (th.pc.after = true → pc.after = true) := by
  cases h <;> simp_all [PC.waiting, PC.after]

theorem Line.loc {env : CEnv} {st : CSt} {t : Nat} {th : Thread} {sh : Shared} {pc : PC} (h : Line st)
    (hth : st.threads[t]? = some th) (hl : Loc env st t th sh pc) : Line { st with sh := sh, threads := st.threads.set t { th with pc := pc } } := by
  obtain ⟨h1, h2, h3⟩ := hl.phase
  refine h.set (y := { th with pc := pc }) hth rfl (.inr h1) (fun x hx => ?_) sh
  rcases h.link _ _ _ hth hx with hw | ⟨ha, hx'⟩
  · rcases h2 hw with h2 | ⟨h2, hj⟩
    · exact .inl h2
    · exact .inr ⟨h2, joined_child hj (List.mem_of_getElem? hx) (h.parents _ _ hx)⟩
  · exact .inr ⟨h3 ha, hx'⟩

theorem Line.act {env : CEnv} {st st' : CSt} {t : Nat} {th : Thread} (h : Line st) (hth : st.threads[t]? = some th)
    (hf : th.ss.imports.length ≤ 1) (ha : Act env st t th st') : Line st' := by
  cases ha with
  | loc hl => exact h.loc hth hl
  | parse hpc hs hp =>
    rename_i i addr source ss lines
    refine h.set (y := { th with pc := .spawn i 0, addr := addr, ss := ss }) hth rfl (.inr (by rw [hpc]; simp)) (fun x hx => ?_) _
    rcases h.link _ _ _ hth hx with hw | ⟨ha, _⟩
    · rw [hpc] at hw; cases hw
    · rw [hpc] at ha; cases ha
  | spawn hpc hk =>
    rename_i i k
    obtain rfl : k = 0 := by omega
    have hno : ∀ x, st.threads[t + 1]? ≠ some x := by
      intro x hx
      rcases h.link _ _ _ hth hx with hw | ⟨ha, _⟩
      · rw [hpc] at hw; cases hw
      · rw [hpc] at ha; cases ha
    have hlt := (List.getElem?_eq_some_iff.1 hth).1
    have hlen : st.threads.length = t + 1 := by
      rcases Nat.lt_or_ge (t + 1) st.threads.length with hc | hc
      · exact absurd (List.getElem?_eq_getElem hc) (hno _)
      · omega
    have h' := h.set (y := { th with pc := .spawn i (0 + 1), imp := 0 }) hth rfl (.inr (by rw [hpc]; simp)) (fun x hx => absurd hx (hno x)) st.sh
    have hl' : (st.threads.set t { th with pc := .spawn i (0 + 1), imp := 0 }).length = t + 1 := by simpa using hlen
    refine ⟨fun k x hx => ?_, fun k x z hx hz => ?_, ?_⟩
    · dsimp only at hx
      by_cases hkt : k < t + 1
      · rw [List.getElem?_append_left (by omega)] at hx
        exact h'.parents k x hx
      · rw [List.getElem?_append_right (by omega), hl'] at hx
        have : k = t + 1 := by
          have := (List.getElem?_eq_some_iff.1 hx).1
          simp at this
          omega
        subst this
        simp at hx
        subst hx
        rfl
    · dsimp only at hx hz
      have hk1 : k + 1 < t + 2 := by
        have := (List.getElem?_eq_some_iff.1 hz).1
        simp [hlen] at this
        omega
      rw [List.getElem?_append_left (by omega)] at hx
      by_cases hkt : k = t
      · subst hkt
        rw [List.getElem?_set_self hlt] at hx
        cases hx
        exact .inl rfl
      · rw [List.getElem?_append_left (by omega)] at hz
        exact h'.link k x z hx hz
    · rcases h'.main with ⟨_, h2⟩ | ⟨_, h2⟩
      · exact absurd (congrArg List.length h2) (by simp [hlen])
      · refine .inr ⟨by simp, ?_⟩
        rcases h2 with h2 | h2 | ⟨_, h3⟩
        · exact .inl h2
        · exact .inr (.inl h2)
        · have := h3 _ (List.mem_of_getElem? (List.getElem?_set_self hlt))
          cases this
  | deliver hpc hp hpar hi =>
    rename_i p par imp ss
    have hpt : p + 1 = t := by
      have := h.parents _ _ hth
      rw [hp] at this
      cases t with
      | zero => cases this
      | succ t => cases this; rfl
    have h1 := h.set (y := { par with repl := (imp.rule, ss) :: par.repl }) hpar rfl (.inl rfl) (fun x hx => h.link p par x hpar hx) st.sh
    have hth' : (st.threads.set p { par with repl := (imp.rule, ss) :: par.repl })[t]? = some th := by
      rw [List.getElem?_set_ne (by omega)]; exact hth
    refine h1.set (y := { th with pc := .done }) hth' rfl (.inr (by rw [hpc]; simp)) (fun x hx => ?_) st.sh
    rcases h1.link _ _ _ hth' hx with hw | ⟨_, hx⟩
    · rw [hpc] at hw; cases hw
    · exact .inr ⟨rfl, hx⟩

theorem Line.done_rest {st : CSt} (h : Line st) {k : Nat} {th : Thread} (hth : st.threads[k]? = some th) (hd : th.pc = .done) :
    ∀ j x, st.threads[k + j]? = some x → x.pc = .done
  | 0, x, hx => by rw [Nat.add_zero, hth] at hx; cases hx; exact hd
  | j + 1, x, hx => by
    have hlt := (List.getElem?_eq_some_iff.1 hx).1
    have hj := List.getElem?_eq_getElem (l := st.threads) (i := k + j) (by omega)
    have := h.done_rest hth hd j _ hj
    rcases h.link _ _ _ hj hx with hw | ⟨_, hx⟩
    · rw [this] at hw; cases hw
    · exact hx

theorem Line.all_done {st : CSt} (h : Line st) (hj : st.joined none = true) : ∀ th ∈ st.threads, th.pc = .done := by
  intro th hth
  obtain ⟨i, hi, rfl⟩ := List.getElem_of_mem hth
  have h0 := List.getElem?_eq_getElem (l := st.threads) (i := 0) (by omega)
  refine h.done_rest h0 (joined_child hj (List.mem_of_getElem? h0) (h.parents _ _ h0)) i _ ?_
  rw [Nat.zero_add]
  exact List.getElem?_eq_getElem hi

theorem Line.mainAct {env : CEnv} {e : Bytes} (he : env.entries = [e]) {st st' : CSt} (h : Line st) (ha : MainAct env st st') : Line st' := by
  have hlen : env.entries.length = 1 := by rw [he]; rfl
  have keep : ∀ {m : MainPC} {sh : Shared}, st.threads ≠ [] → (m = .spawn 1 ∨ m = .wait ∨
      (((∃ r, m = .print r) ∨ m = .done) ∧ ∀ th ∈ st.threads, th.pc = .done)) → Line { st with sh := sh, main := m } :=
    fun h1 h2 => ⟨h.parents, h.link, .inr ⟨h1, h2⟩⟩
  have late : (∃ r, st.main = .print r) → st.threads ≠ [] ∧ ∀ th ∈ st.threads, th.pc = .done := by
    rintro ⟨r, hr⟩
    rcases h.main with ⟨h1, _⟩ | ⟨h1, h2 | h2 | ⟨_, h2⟩⟩
    · rw [hr] at h1; cases h1
    · rw [hr] at h2; cases h2
    · rw [hr] at h2; cases h2
    · exact ⟨h1, h2⟩
  cases ha with
  | spawn hm hk =>
    rename_i k
    obtain rfl : k = 0 := by omega
    rcases h.main with ⟨_, h1⟩ | ⟨_, h1 | h1 | ⟨⟨r, h1⟩ | h1, _⟩⟩
    · refine ⟨fun k x hx => ?_, fun k x z hx hz => ?_, .inr ⟨by simp, .inl rfl⟩⟩
      · dsimp only at hx
        rw [h1] at hx
        cases k with
        | zero => cases hx; rfl
        | succ k => cases hx
      · dsimp only at hz
        rw [h1] at hz
        cases hz
    all_goals (rw [hm] at h1; cases h1)
  | spawned hm hk =>
    rcases h.main with ⟨h1, _⟩ | ⟨h1, _⟩
    · rw [hm] at h1; cases h1; omega
    · exact keep (sh := st.sh) h1 (.inr (.inl rfl))
  | wait hm hj =>
    rcases h.main with ⟨h1, _⟩ | ⟨h1, _⟩
    · rw [hm] at h1; cases h1
    · exact keep (sh := st.sh) h1 (.inr (.inr ⟨.inl ⟨_, rfl⟩, h.all_done hj⟩))
  | finish hm => exact keep (sh := st.sh) (late ⟨_, hm⟩).1 (.inr (.inr ⟨.inr rfl, (late ⟨_, hm⟩).2⟩))
  | print hm => exact keep (late ⟨_, hm⟩).1 (.inr (.inr ⟨.inl ⟨_, rfl⟩, (late ⟨_, hm⟩).2⟩))
  | printFail hm => exact keep (late ⟨_, hm⟩).1 (.inr (.inr ⟨.inl ⟨_, rfl⟩, (late ⟨_, hm⟩).2⟩))
  | skip hm => exact keep (sh := st.sh) (late ⟨_, hm⟩).1 (.inr (.inr ⟨.inl ⟨_, rfl⟩, (late ⟨_, hm⟩).2⟩))

theorem Inv1.few {env : CEnv} {st : CSt} (h : Inv1 env st) (hs : Single env) {th : Thread} (hth : th ∈ st.threads) : th.ss.imports.length ≤ 1 := by
  rcases h.frames th hth with h1 | ⟨source, id, lines, h1, h2⟩
  · simp [h1]
  · obtain ⟨p, h3, h4, h5⟩ := h.heap _ (List.mem_of_getElem? h1)
    exact hs h3 h4 h5 h2

theorem Reached.line {env : CEnv} {e : Bytes} (he : env.entries = [e]) (hs : Single env) {st : CSt} (h : Reached env st) : Line st := by
  induction h with
  | init => exact ⟨by simp [CSt.init], by simp [CSt.init], .inl ⟨rfl, rfl⟩⟩
  | step hr h ih =>
    rcases cstep_act h with h | ⟨t, th, hth, h⟩
    · exact ih.mainAct he h
    · exact ih.act hth (hr.inv1.few hs (List.mem_of_getElem? hth)) h

end Cssc
