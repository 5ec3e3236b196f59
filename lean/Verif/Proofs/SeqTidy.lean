import Verif.Proofs.CompileTidy

/-!
# The sequential compilation is a tidy schedule
-/

namespace Cssc

/-- How many goroutines have been started at this point. -/
def PC.kids : PC → Option Nat
  | .spawn _ k => some k
  | .wait _ | .cache _ _ | .deliver _ | .done => none
  | _ => some 0

theorem Loc.kids {env : CEnv} {st : CSt} {t : Nat} {th : Thread} {sh : Shared} {pc : PC} (h : Loc env st t th sh pc) (n : Nat)
    (hn : pc.kids = some n) : th.pc.kids = some n := by
  cases h with
  | spawned hpc hk => cases hn
  | transform hpc => cases hn
  | cache hpc => cases hn
  | finish hpc => cases hn
  | startFail hpc => cases hn
  | noAbs hpc => cases hn
  | noRead hpc => cases hn
  | parseFail hpc => cases hn
  | hit hpc => cases hn
  | known hpc => rw [hpc]; revert hn; split <;> exact id
  | incWrite hpc => rw [hpc]; revert hn; split <;> exact id
  | startEntry hpc => rw [hpc]; exact hn
  | startImport hpc => rw [hpc]; exact hn
  | unknown hpc => rw [hpc]; exact hn
  | read hpc => rw [hpc]; exact hn
  | alloc hpc => rw [hpc]; exact hn
  | store hpc => rw [hpc]; exact hn
  | incRead hpc => rw [hpc]; exact hn
  | outBegin hpc => rw [hpc]; exact hn
  | outEnd hpc => rw [hpc]; exact hn
  | miss hpc => rw [hpc]; exact hn
  | source hpc => rw [hpc]; exact hn

/-- Goroutines and `Compile` count the goroutines they start. -/
theorem Reached.kids {env : CEnv} {st : CSt} (h : Reached env st) :
    (∀ (t : Nat) (th : Thread), st.threads[t]? = some th → ∀ n, th.pc.kids = some n → st.parents.count (some t) = n) ∧
      ∀ k, st.main = .spawn k → st.parents.count none = k := by
  induction h with
  | init => exact ⟨fun t th h => (by cases h), fun k h => (by cases h; rfl)⟩
  | @step st st' c hr hs ih =>
    obtain ⟨ih1, ih2⟩ := ih
    have hnew : ∀ u, st.threads.length ≤ u → st.parents.count (some u) = 0 := by
      intro u hu
      rw [List.count_eq_zero]
      intro hm
      obtain ⟨v, hv, hve⟩ := List.getElem_of_mem hm
      have := hr.earlier v u (by rw [List.getElem?_eq_getElem hv, hve])
      have hv' : v < st.threads.length := by simpa using hv
      omega
    rcases cstep_act hs with h | ⟨t, th, hth, h⟩
    · rcases h.parents with ⟨e, h1⟩ | ⟨k, h1, h2, -, e⟩
      · unfold CSt.parents
        rw [e]
        refine ⟨ih1, fun k hk => ?_⟩
        cases h with
        | spawn hm => simpa using congrArg List.length e
        | _ => cases hk
      · have hp : st'.parents = st.parents ++ [none] := by unfold CSt.parents; rw [e, List.map_append]; rfl
        rw [hp]
        refine ⟨fun t th hth n hn => ?_, fun k' hk' => ?_⟩
        · rw [List.count_append]
          have hz : [(none : Option Nat)].count (some t) = 0 := rfl
          rw [hz]
          rw [e] at hth
          rcases Nat.lt_or_ge t st.threads.length with hlt | hge
          · rw [List.getElem?_append_left hlt] at hth
            exact ih1 t th hth n hn
          · rw [List.getElem?_append_right hge] at hth
            rw [List.mem_singleton.1 (List.mem_of_getElem? hth)] at hn
            cases hn
            exact hnew t hge
        · rw [h2] at hk'
          cases hk'
          rw [List.count_append, ih2 k h1]
          rfl
    · have hmain : st'.main = st.main := by cases h <;> rfl
      have hb := h.parents hth
      have hnone : st'.parents.count none = st.parents.count none := by
        rcases hb with e | ⟨i, k, -, -, e⟩
        · rw [e]
        · rw [e, List.count_append]; rfl
      rw [hmain, hnone]
      refine ⟨fun u x hx n hn => ?_, ih2⟩
      cases h with
      | @loc sh pc h =>
        have hps := set_parents (th1 := { th with pc := pc }) hth rfl
        show List.count _ (List.map _ _) = n
        rw [hps]
        rcases getElem?_set_cases hx with ⟨rfl, rfl⟩ | ⟨_, hx⟩
        · exact ih1 _ th hth n (h.kids n hn)
        · exact ih1 u x hx n hn
      | @parse i addr source ss lines hpc hs hp =>
        have hps := set_parents (th1 := { th with pc := .spawn i 0, addr := addr, ss := ss }) hth rfl
        show List.count _ (List.map _ _) = n
        rw [hps]
        rcases getElem?_set_cases hx with ⟨rfl, rfl⟩ | ⟨_, hx⟩
        · exact ih1 _ th hth n (by rw [hpc]; exact hn)
        · exact ih1 u x hx n hn
      | spawn hpc hlt =>
        rename_i i k
        have hps : CSt.parents { st with threads := st.threads.set t { th with pc := .spawn i (k + 1), imp := k } ++ [Thread.new (some t)] } =
            st.parents ++ [some t] := by
          have := set_parents (th1 := { th with pc := .spawn i (k + 1), imp := k }) hth rfl
          show List.map _ (_ ++ _) = _
          rw [List.map_append, this]; rfl
        rw [hps, List.count_append]
        rcases Nat.lt_or_ge u st.threads.length with hu | hu
        · rw [List.getElem?_append_left (by simpa using hu)] at hx
          rcases getElem?_set_cases hx with ⟨rfl, rfl⟩ | ⟨htu, hx⟩
          · cases hn
            rw [ih1 _ th hth k (by rw [hpc]; rfl)]
            simp
          · rw [ih1 u x hx n hn]
            simp [htu]
        · rw [List.getElem?_append_right (by simpa using hu)] at hx
          rw [List.mem_singleton.1 (List.mem_of_getElem? hx)] at hn
          cases hn
          have hlen := (List.getElem?_eq_some_iff.1 hth).1
          rw [hnew u hu]
          have hne : t ≠ u := by omega
          simp [hne]
      | deliver hpc hp hpar hi =>
        rename_i p par imp ss
        have hps : CSt.parents { st with threads := (st.threads.set p { par with repl := (imp.rule, ss) :: par.repl }).set t { th with pc := .done } } =
            st.parents := by
          rcases hb with e | ⟨i, k, h, -⟩
          · exact e
          · rw [hpc] at h; cases h
        rw [hps]
        rcases getElem?_set_cases hx with ⟨rfl, rfl⟩ | ⟨_, hx⟩
        · cases hn
        · rcases getElem?_set_cases hx with ⟨rfl, rfl⟩ | ⟨_, hx⟩
          · exact ih1 _ par hpar n hn
          · exact ih1 u x hx n hn

/-- The last goroutine of a loop that is still at it reads the loop variable of its own iteration. -/
theorem LastKid.own {env : CEnv} {st : CSt} (hr : Reached env st) {t : Nat} {th : Thread} (hth : st.threads[t]? = some th)
    (h : LastKid st t th) : st.loopVar th.parent = some (st.ordinal th.parent t) := by
  obtain ⟨h1, h2⟩ := h
  obtain ⟨k1, k2⟩ := hr.kids
  -- all the goroutines of the loop but this one are before it
  have hcount : st.parents.count th.parent = st.ordinal th.parent t + 1 := by
    have hlt := (List.getElem?_eq_some_iff.1 hth).1
    have hsplit : st.parents = st.parents.take t ++ th.parent :: st.parents.drop (t + 1) := by
      have hlt' : t < st.parents.length := by simpa using hlt
      have := List.take_append_drop t st.parents
      rw [List.drop_eq_getElem_cons hlt'] at this
      have he : st.parents[t] = th.parent := by
        have := parents_get hth
        rw [List.getElem?_eq_getElem hlt'] at this
        exact Option.some.inj this
      rw [he] at this
      exact this.symm
    have hz : (st.parents.drop (t + 1)).count th.parent = 0 := by
      rw [List.count_eq_zero]
      intro hm
      obtain ⟨v, hv, hve⟩ := List.getElem_of_mem hm
      have hv' : t + 1 + v < st.threads.length := by simp at hv; omega
      refine h2 (t + 1 + v) _ (by omega) (List.getElem?_eq_getElem hv') ?_
      rw [← hve]
      simp
    have hc := congrArg (List.count th.parent) hsplit
    rw [List.count_append, List.count_cons_self, hz] at hc
    exact hc
  cases hp : th.parent with
  | none =>
    rw [hp] at h1 hcount
    have := k2 _ h1
    unfold CSt.loopVar
    dsimp only
    congr 1
    omega
  | some p =>
    rw [hp] at h1 hcount
    obtain ⟨par, i, h3, h4⟩ := h1
    have := k1 p par h3 (par.imp + 1) (by rw [h4]; rfl)
    unfold CSt.loopVar
    dsimp only
    rw [h3]
    show some par.imp = _
    congr 1
    omega

theorem Runs.tidy {env : CEnv} {a b : CSt} (h1 : ReachedTidy env a) (h2 : Runs env a b) : ReachedTidy env b := by
  induction h2 with
  | refl => exact h1
  | @step b c ch _ hl hs ih =>
    refine .step (c := ch) ih ?_ hs
    cases ch with
    | main => trivial
    | print i => trivial
    | thread t => exact fun th hth hrd => (hl th hth hrd).own ih.reached hth

/-- The sequential compilation is a tidy schedule. -/
theorem seqCompile_tidy {env : CEnv} {n : Nat} {sh : Shared} (h : seqCompile env n = some sh) :
    ∃ st, ReachedTidy env st ∧ st.main = .done ∧ st.sh = sh := by
  obtain ⟨st, h1, h2⟩ := seqCompile_runs h
  exact ⟨st, h1.tidy .init, h2⟩

end Cssc
