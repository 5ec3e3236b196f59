import Verif.Proofs.CompileInv
import Verif.CompileSeq
import Verif.Spec.Tidy

/-!
# The sequential compilation is a schedule of the machine
-/

namespace Cssc

/-- Every case of `Act` is a step. -/
theorem act_step {env : CEnv} {st st' : CSt} {t : Nat} {th : Thread} (hth : st.threads[t]? = some th)
    (h : Act env st t th st') : cstep env st (.thread t) = some (.ok st') := by
  show stepThread env st t = _
  unfold stepThread
  rw [hth]
  dsimp only [Option.bind_some]
  cases h with
  | loc h =>
    cases h with
    | startEntry hpc hp he => simp [hpc, stepStart, hp, he, CSt.goto]
    | startFail hpc hp hpar hi hs hr => simp [hpc, stepStart, hp, hpar, hi, hs, hr, CSt.goto]
    | startImport hpc hp hpar hi hs hr => simp [hpc, stepStart, hp, hpar, hi, hs, hr, CSt.goto]
    | noAbs hpc ha => simp [hpc, ha, CSt.goto]
    | known hpc ha hl => simp [hpc, ha, hl, CSt.goto]
    | unknown hpc ha hl => simp [hpc, ha, hl, CSt.goto]
    | noRead hpc hr => simp [hpc, hr, CSt.goto]
    | read hpc hr => simp [hpc, hr, CSt.goto]
    | alloc hpc => simp [hpc, CSt.goto]
    | store hpc => simp [hpc, CSt.goto]
    | incRead hpc => simp [hpc, CSt.goto]
    | incWrite hpc => simp [hpc, CSt.goto]
    | outBegin hpc hw => simp [hpc, hw, CSt.goto]
    | outEnd hpc => simp [hpc, CSt.goto]
    | hit hpc hl => simp [hpc, hl, CSt.goto]
    | miss hpc hl => simp [hpc, hl, CSt.goto]
    | source hpc hl => simp [hpc, hl, CSt.goto]
    | parseFail hpc hs hp => simp [hpc, stepParse, hs, hp, CSt.goto, Shared.parsed]
    | spawned hpc hk => simp only [hpc]; rw [if_neg hk]; rfl
    | transform hpc hj hs ht =>
      simp only [hpc]; unfold stepWait; rw [if_pos hj, hs]; dsimp only [Option.bind_some]; rw [ht]; rfl
    | cache hpc => simp [hpc, CSt.goto]
    | finish hpc h =>
      simp only [hpc]
      unfold stepDeliver
      rcases h with h | rfl
      · simp [h, CSt.goto]
      · cases hp : th.parent <;> simp [CSt.goto, hp]
  | parse hpc hs hp => simp [hpc, stepParse, hs, hp, Shared.parsed]
  | spawn hpc hk => simp only [hpc]; rw [if_pos hk]
  | deliver hpc hp hpar hi => simp [hpc, stepDeliver, hp, hpar, hi]

/-- Goroutine `t` is the last one that its starter has started, and the starter's loop is still at it. -/
def LastKid (st : CSt) (t : Nat) (th : Thread) : Prop :=
  (match th.parent with
    | none => st.main = .spawn (st.e + 1)
    | some p => ∃ par i, st.threads[p]? = some par ∧ par.pc = .spawn i (par.imp + 1)) ∧
  ∀ (u : Nat) (x : Thread), t < u → st.threads[u]? = some x → x.parent ≠ th.parent

/-- The loop variable is read only by the last goroutine of a loop that is still at it. -/
def SeqStep (env : CEnv) (st : CSt) : Choice → Prop
  | .thread t => ∀ th, st.threads[t]? = some th → th.ReadsLoop env → LastKid st t th
  | _ => True

/-- Some number of steps of a schedule that reads no loop variable too late. -/
inductive Runs (env : CEnv) : CSt → CSt → Prop where
  | refl {st} : Runs env st st
  | step {a b c : CSt} {ch : Choice} : Runs env a b → SeqStep env b ch → cstep env b ch = some (.ok c) → Runs env a c

theorem Runs.trans {env : CEnv} {a b c : CSt} (h1 : Runs env a b) (h2 : Runs env b c) : Runs env a c := by
  induction h2 with
  | refl => exact h1
  | step _ hl hs ih => exact .step ih hl hs

theorem Runs.reach {env : CEnv} {a b : CSt} (h1 : Reached env a) (h2 : Runs env a b) : Reached env b := by
  induction h2 with
  | refl => exact h1
  | step _ _ hs ih => exact .step ih hs

theorem Runs.act {env : CEnv} {a b c : CSt} {t : Nat} {th : Thread} (h1 : Runs env a b) (hth : b.threads[t]? = some th)
    (h : Act env b t th c)
    (hl : th.ReadsLoop env → LastKid b t th := by first | exact fun h => h.elim | simp_all [Thread.ReadsLoop]) : Runs env a c :=
  .step (ch := .thread t) h1 (fun th' hth' => by rw [hth] at hth'; cases hth'; exact hl) (act_step hth h)

/-- Nothing changes but goroutine `t`, and the new goroutines have ended. -/
structure Ext (ths ths' : List Thread) (t : Nat) : Prop where
  len : ths.length ≤ ths'.length
  old : ∀ i, i < ths.length → i ≠ t → ths'[i]? = ths[i]?
  new : ∀ (i : Nat) (x : Thread), ths.length ≤ i → ths'[i]? = some x →
    x.pc = .done ∧ ∃ p, x.parent = some p ∧ p < ths'.length ∧ (p = t ∨ ths.length ≤ p)

theorem Ext.set {ths : List Thread} {t : Nat} {x : Thread} : Ext ths (ths.set t x) t := by
  refine ⟨by simp, fun i _ h => by rw [List.getElem?_set_ne (fun h' => h h'.symm)], ?_⟩
  intro i x hi h
  have := (List.getElem?_eq_some_iff.1 h).1
  simp at this; omega

theorem Ext.refl {ths : List Thread} {t : Nat} : Ext ths ths t := by
  refine ⟨Nat.le_refl _, fun i _ h => rfl, ?_⟩
  intro i x hi h
  have := (List.getElem?_eq_some_iff.1 h).1
  omega

theorem Ext.trans {a b c : List Thread} {t : Nat} (ht : t < a.length) (h1 : Ext a b t) (h2 : Ext b c t) : Ext a c t := by
  refine ⟨Nat.le_trans h1.len h2.len, fun i hi hit => ?_, ?_⟩
  · rw [h2.old i (Nat.lt_of_lt_of_le hi h1.len) hit, h1.old i hi hit]
  · intro i x hi h
    have hlen := h1.len
    have hlen2 := h2.len
    by_cases hib : i < b.length
    · rw [h2.old i hib (by omega)] at h
      obtain ⟨h3, p, h4, h5, h6⟩ := h1.new i x hi h
      exact ⟨h3, p, h4, by omega, h6⟩
    · obtain ⟨h3, p, h4, h5, h6⟩ := h2.new i x (by omega) h
      refine ⟨h3, p, h4, h5, ?_⟩
      rcases h6 with h6 | h6
      · exact .inl h6
      · exact .inr (by omega)

/-- Goroutines are started by goroutines. -/
def ParentsOk (ths : List Thread) : Prop :=
  ∀ (x : Thread) (p : Nat), x ∈ ths → x.parent = some p → p < ths.length

theorem Ext.parentsOk {a b : List Thread} {t : Nat} {th th' : Thread} (h : Ext a b t) (ha : ParentsOk a)
    (hth : a[t]? = some th) (hth' : b[t]? = some th') (hp : th'.parent = th.parent) : ParentsOk b := by
  intro x p hx hxp
  obtain ⟨i, hi, rfl⟩ := List.getElem_of_mem hx
  have hi' := List.getElem?_eq_getElem hi
  have hlen := h.len
  by_cases hit : i = t
  · subst hit
    rw [hth'] at hi'
    rw [← Option.some.inj hi', hp] at hxp
    have := ha th p (List.mem_of_getElem? hth) hxp
    omega
  · by_cases hia : i < a.length
    · rw [h.old i hia hit] at hi'
      have := ha _ p (List.mem_of_getElem? hi') hxp
      omega
    · obtain ⟨_, q, h1, h2, _⟩ := h.new i _ (by omega) hi'
      rw [hxp] at h1; cases h1; exact h2

/-- `t` has started no goroutine. -/
def NoKids (ths : List Thread) (t : Nat) : Prop := ∀ x ∈ ths, x.parent ≠ some t

/-- After the run of `t` all goroutines that it has started have ended. -/
theorem Ext.joined {a b : List Thread} {t : Nat} {th th' : Thread} (h : Ext a b t) (hk : NoKids a t)
    (hth : a[t]? = some th) (hth' : b[t]? = some th') (hp : th'.parent = th.parent) {sh : Shared} {m : MainPC} {e : Nat} :
    (CSt.mk sh b m e).joined (some t) = true := by
  unfold CSt.joined
  rw [List.all_eq_true]
  intro x hx
  obtain ⟨i, hi, rfl⟩ := List.getElem_of_mem hx
  have hi' := List.getElem?_eq_getElem hi
  show (if _ = _ then _ else _) = _
  split
  · rename_i hpar
    by_cases hit : i = t
    · subst hit
      rw [hth'] at hi'
      rw [← Option.some.inj hi', hp] at hpar
      exact absurd hpar (hk th (List.mem_of_getElem? hth))
    · by_cases hia : i < a.length
      · rw [h.old i hia hit] at hi'
        exact absurd hpar (hk _ (List.mem_of_getElem? hi'))
      · obtain ⟨h1, _⟩ := h.new i _ (by omega) hi'
        rw [h1]
  · rfl

theorem HeapLe.trans {a b c : List Source} (h1 : HeapLe a b) (h2 : HeapLe b c) : HeapLe a c := by
  intro i s hs
  obtain ⟨s', h3, h4, h5⟩ := h1 i s hs
  obtain ⟨s'', h6, h7, h8⟩ := h2 i s' h3
  exact ⟨s'', h6, h7.trans h4, h8.trans h5⟩

/-- What a run of `parseFile` in goroutine `t` does. -/
def FileRuns (env : CEnv) (rec : Bool → Shared → Bytes → Option (Shared × Option Stylesheet)) : Prop :=
  ∀ (sh sh' : Shared) (ths : List Thread) (m : MainPC) (e : Nat) (t : Nat) (th : Thread) (path : Bytes)
    (res : Option Stylesheet),
    ths[t]? = some th → th.pc = .lookup path → th.repl = [] → ParentsOk ths → NoKids ths t → sh.writing = false →
    rec (hasOutput env th) sh path = some (sh', res) →
    ∃ ths' th', Runs env ⟨sh, ths, m, e⟩ ⟨sh', ths', m, e⟩ ∧ Ext ths ths' t ∧ ths'[t]? = some th' ∧
      th'.pc = .deliver res ∧ th'.parent = th.parent ∧ HeapLe sh.heap sh'.heap ∧ sh'.writing = false

theorem set_getElem? {ths : List Thread} {t : Nat} {th x : Thread} (h : ths[t]? = some th) : (ths.set t x)[t]? = some x :=
  List.getElem?_set_self (List.getElem?_eq_some_iff.1 h).1

/-- A child has been started and has ended. -/
theorem ext_child {ths ths3 ths4 : List Thread} {t : Nat} {par x y th4 : Thread} (ht : t < ths.length)
    (h3 : Ext (ths.set t par ++ [x]) ths3 ths.length) (hlen : ths4.length = ths3.length)
    (h4 : ∀ i, i ≠ t → i ≠ ths.length → ths4[i]? = ths3[i]?) (hy : ths4[ths.length]? = some y) (hyd : y.pc = .done)
    (hyp : y.parent = some t) (_ : ths4[t]? = some th4) : Ext ths ths4 t := by
  have hl := h3.len
  simp at hl
  refine ⟨by omega, fun i hi hit => ?_, fun i z hi hz => ?_⟩
  · rw [h4 i hit (by omega), h3.old i (by simp; omega) (by omega), List.getElem?_append_left (by simpa using hi),
      List.getElem?_set_ne (fun h => hit h.symm)]
  · by_cases hiL : i = ths.length
    · subst hiL
      rw [hy] at hz; cases hz
      exact ⟨hyd, t, hyp, by omega, .inl rfl⟩
    · rw [h4 i (by omega) hiL] at hz
      obtain ⟨h5, p, h6, h7, h8⟩ := h3.new i z (by simp; omega) hz
      refine ⟨h5, p, h6, by omega, .inr ?_⟩
      rcases h8 with h8 | h8
      · omega
      · simp at h8; omega

theorem run_imports {env : CEnv} {rec : Bool → Shared → Bytes → Option (Shared × Option Stylesheet)}
    (hrec : FileRuns env rec) {m : MainPC} {e : Nat} {t : Nat} {i : Nat} {source : Source} {imports : List ImportSpec} :
    ∀ (rest : List ImportSpec) (k : Nat) (sh sh' : Shared) (ths : List Thread) (th : Thread)
      (repl' : List (AtId × Stylesheet)),
    imports.drop k = rest → k ≤ imports.length → ths[t]? = some th → th.pc = .spawn i k → th.ss.imports = imports →
    ParentsOk ths → (∃ s, sh.heap[th.addr]? = some s ∧ s.path = source.path) → sh.writing = false →
    seqImports env (rec (decide (env.opts.importRules = .follow))) (dirOf source.path) rest sh th.repl = some (sh', repl') →
    ∃ ths' th', Runs env ⟨sh, ths, m, e⟩ ⟨sh', ths', m, e⟩ ∧ Ext ths ths' t ∧ ths'[t]? = some th' ∧
      th'.pc = .spawn i imports.length ∧ th'.parent = th.parent ∧ th'.addr = th.addr ∧ th'.ss = th.ss ∧
      th'.repl = repl' ∧ HeapLe sh.heap sh'.heap ∧ sh'.writing = false := by
  intro rest
  induction rest with
  | nil =>
    intro k sh sh' ths th repl' hd hkl hth hpc himp hpok hs hw h
    have hk : imports.length ≤ k := by
      rcases Nat.lt_or_ge k imports.length with h | h
      · have := congrArg List.length hd; simp at this; omega
      · exact h
    cases h
    have hke : k = imports.length := by omega
    exact ⟨ths, th, .refl, .refl, hth, by rw [hpc, hke], rfl, rfl, rfl, rfl, HeapLe.refl _, hw⟩
  | cons imp rest ih =>
    intro k sh sh' ths th repl' hd hkl hth hpc himp hpok hs hw h
    have ht : t < ths.length := (List.getElem?_eq_some_iff.1 hth).1
    have hk : k < imports.length := by
      have := congrArg List.length hd; simp at this; omega
    have himpk : imports[k]? = some imp := by
      have := congrArg (fun l => l[0]?) hd
      simpa [List.getElem?_drop] using this
    have hd' : imports.drop (k + 1) = rest := by
      rw [← List.tail_drop, hd]; rfl
    -- the child is started
    let par : Thread := { th with pc := .spawn i (k + 1), imp := k }
    let ths1 := ths.set t par ++ [Thread.new (some t)]
    have r1 : Runs env ⟨sh, ths, m, e⟩ ⟨sh, ths1, m, e⟩ := Runs.refl.act hth (.spawn hpc (by rw [himp]; exact hk))
    have h1t : ths1[t]? = some par := by
      show (_ ++ _)[t]? = _
      rw [List.getElem?_append_left (by simpa using ht)]; exact set_getElem? hth
    have h1c : ths1[ths.length]? = some (Thread.new (some t)) := by
      show (_ ++ _)[ths.length]? = _
      rw [List.getElem?_append_right (by simp)]; simp
    obtain ⟨s, hs1, hs2⟩ := hs
    have h1len : ths1.length = ths.length + 1 := by simp [ths1]
    have hlast : LastKid ⟨sh, ths1, m, e⟩ ths.length (Thread.new (some t)) := by
      refine ⟨⟨par, i, h1t, rfl⟩, fun u x hu hx => ?_⟩
      have : u < ths1.length := (List.getElem?_eq_some_iff.1 hx).1
      omega
    unfold seqImports at h
    -- what is left after the child has ended
    have finish : ∀ (sh2 : Shared) (ths4 : List Thread) (par4 : Thread), Runs env ⟨sh, ths, m, e⟩ ⟨sh2, ths4, m, e⟩ →
        Ext ths ths4 t → ths4[t]? = some par4 → par4.pc = .spawn i (k + 1) → par4.parent = th.parent →
        par4.addr = th.addr → par4.ss = th.ss → HeapLe sh.heap sh2.heap → sh2.writing = false →
        seqImports env (rec (decide (env.opts.importRules = .follow))) (dirOf source.path) rest sh2 par4.repl =
          some (sh', repl') →
        ∃ ths' th', Runs env ⟨sh, ths, m, e⟩ ⟨sh', ths', m, e⟩ ∧ Ext ths ths' t ∧ ths'[t]? = some th' ∧
          th'.pc = .spawn i imports.length ∧ th'.parent = th.parent ∧ th'.addr = th.addr ∧ th'.ss = th.ss ∧
          th'.repl = repl' ∧ HeapLe sh.heap sh'.heap ∧ sh'.writing = false := by
      intro sh2 ths4 par4 hr hext hpar4 hpc4 hp4 ha4 hs4 hle hw2 hseq
      obtain ⟨s', hs', hs'2, _⟩ := hle _ _ hs1
      obtain ⟨ths', th', g1, g2, g3, g4, g5, g6, g7, g8, g9, g10⟩ := ih (k + 1) sh2 sh' ths4 par4 repl' hd' (by omega) hpar4
        hpc4 (by rw [hs4]; exact himp) (hext.parentsOk hpok hth hpar4 hp4) ⟨s', by rw [ha4]; exact hs', hs'2.trans hs2⟩ hw2 hseq
      exact ⟨ths', th', hr.trans g1, hext.trans ht g2, g3, g4, g5.trans hp4, g6.trans ha4, g7.trans hs4, g8, hle.trans g9, g10⟩
    rcases hr : env.resolve imp.value (dirOf source.path) with _ | rel <;> rw [hr] at h <;> dsimp only at h
    · -- it cannot be resolved
      have r2 := r1.act (t := ths.length) h1c (.loc (.startFail rfl rfl h1t
        (by show th.ss.imports[k]? = _; rw [himp]; exact himpk) hs1 (by rw [hs2]; exact hr))) (fun _ => hlast)
      rw [hs2] at r2
      have g : (ths1.set ths.length { Thread.new (some t) with pc := .done })[t]? = some par := by
        rw [List.getElem?_set_ne (by omega)]; exact h1t
      refine finish _ _ par r2 ?_ g rfl rfl rfl rfl (HeapLe.refl _) hw h
      refine ext_child (ths3 := ths1) (par := par) (x := Thread.new (some t)) ht .refl (by simp) ?_
        (set_getElem? h1c) rfl rfl g
      intro i _ hi
      rw [List.getElem?_set_ne (fun h => hi h.symm)]
    · -- it runs `parseFile`
      have r2 := r1.act (t := ths.length) h1c (.loc (.startImport rfl rfl h1t
        (by show th.ss.imports[k]? = _; rw [himp]; exact himpk) hs1 (by rw [hs2]; exact hr))) (fun _ => hlast)
      have h2c : (ths1.set ths.length { Thread.new (some t) with pc := .lookup rel })[ths.length]? =
        some { Thread.new (some t) with pc := .lookup rel } := set_getElem? h1c
      have hpok1 : ParentsOk ths1 := by
        intro x p hx hxp
        rw [h1len]
        rcases List.mem_append.1 hx with hx | hx
        · rcases mem_set hx with hx | rfl
          · have := hpok x p hx hxp; omega
          · have := hpok th p (List.mem_of_getElem? hth) hxp; omega
        · rw [List.mem_singleton.1 hx] at hxp
          cases hxp; omega
      have hpok2 : ParentsOk (ths1.set ths.length { Thread.new (some t) with pc := .lookup rel }) := by
        intro x p hx hxp
        rw [List.length_set]
        rcases mem_set hx with hx | rfl
        · exact hpok1 x p hx hxp
        · cases hxp; omega
      have hnk2 : NoKids (ths1.set ths.length { Thread.new (some t) with pc := .lookup rel }) ths.length := by
        intro x hx hxp
        rcases mem_set hx with hx | rfl
        · rcases List.mem_append.1 hx with hx | hx
          · rcases mem_set hx with hx | rfl
            · have := hpok x _ hx hxp; omega
            · have := hpok th _ (List.mem_of_getElem? hth) hxp; omega
          · rw [List.mem_singleton.1 hx] at hxp
            cases hxp; omega
        · cases hxp; omega
      have hcall : ∀ sh2 res, rec (decide (env.opts.importRules = .follow)) sh rel = some (sh2, res) →
          ∃ ths3 th3, Runs env ⟨sh, ths, m, e⟩ ⟨sh2, ths3, m, e⟩ ∧ Ext ths1 ths3 ths.length ∧
            ths3[ths.length]? = some th3 ∧ th3.pc = .deliver res ∧ th3.parent = some t ∧ ths3[t]? = some par ∧
            HeapLe sh.heap sh2.heap ∧ sh2.writing = false := by
        intro sh2 res hres
        obtain ⟨ths3, th3, q1, q2, q3, q4, q5, q6, q7⟩ := hrec sh sh2 _ m e ths.length _ rel res h2c rfl rfl hpok2 hnk2 hw hres
        have q2' : Ext ths1 ths3 ths.length := Ext.trans (by omega) .set q2
        exact ⟨ths3, th3, r2.trans q1, q2', q3, q4, q5, by rw [q2'.old t (by omega) (by omega)]; exact h1t, q6, q7⟩
      split at h
      · cases h
      · -- no stylesheet
        rename_i sh2 hres
        obtain ⟨ths3, th3, q1, q2, q3, q4, q5, q6, q7, q8⟩ := hcall sh2 none hres
        have r4 := q1.act (t := ths.length) q3 (.loc (.finish q4 (.inr rfl)))
        have g : (ths3.set ths.length { th3 with pc := .done })[t]? = some par := by
          rw [List.getElem?_set_ne (by omega)]; exact q6
        refine finish _ _ par r4 ?_ g rfl rfl rfl rfl q7 q8 h
        refine ext_child ht q2 (by simp) ?_ (set_getElem? q3) rfl q5 g
        intro i _ hi
        rw [List.getElem?_set_ne (fun h => hi h.symm)]
      · rename_i sh2 sx hres
        obtain ⟨ths3, th3, q1, q2, q3, q4, q5, q6, q7, q8⟩ := hcall sh2 (some sx) hres
        have hlast3 : LastKid ⟨sh2, ths3, m, e⟩ ths.length th3 := by
          unfold LastKid
          rw [q5]
          refine ⟨⟨par, i, q6, rfl⟩, fun u x hu hx hxp => ?_⟩
          obtain ⟨_, p, h5, _, h6⟩ := q2.new u x (by omega) hx
          rw [hxp] at h5
          cases h5
          omega
        have r4 := q1.act (t := ths.length) q3 (.deliver q4 q5 q6
          (by show th.ss.imports[k]? = _; rw [himp]; exact himpk)) (fun _ => hlast3)
        have g : ((ths3.set t { par with repl := (imp.rule, sx) :: par.repl }).set ths.length
            { th3 with pc := .done })[t]? = some { par with repl := (imp.rule, sx) :: par.repl } := by
          rw [List.getElem?_set_ne (by omega)]; exact set_getElem? q6
        have gc : ((ths3.set t { par with repl := (imp.rule, sx) :: par.repl }).set ths.length
            { th3 with pc := .done })[ths.length]? = some { th3 with pc := .done } := by
          have hl : ths.length < ths3.length := (List.getElem?_eq_some_iff.1 q3).1
          rw [List.getElem?_set_self (by simpa using hl)]
        refine finish _ _ _ r4 ?_ g rfl rfl rfl rfl q7 q8 h
        refine ext_child ht q2 (by simp) ?_ gc rfl q5 g
        intro i hi1 hi2
        rw [List.getElem?_set_ne (fun h => hi2 h.symm), List.getElem?_set_ne (fun h => hi1 h.symm)]

theorem run_parsed {env : CEnv} {rec : Bool → Shared → Bytes → Option (Shared × Option Stylesheet)}
    (hrec : FileRuns env rec) {m : MainPC} {e : Nat} {t i : Nat} {sh sh' : Shared} {ths : List Thread} {th : Thread}
    {res : Option Stylesheet} (hth : ths[t]? = some th) (hpc : th.pc = .cached i) (hrepl : th.repl = [])
    (hpok : ParentsOk ths) (hnk : NoKids ths t) (hw : sh.writing = false)
    (h : seqParsed env (rec (decide (env.opts.importRules = .follow))) sh i = some (sh', res)) :
    ∃ ths' th', Runs env ⟨sh, ths, m, e⟩ ⟨sh', ths', m, e⟩ ∧ Ext ths ths' t ∧ ths'[t]? = some th' ∧
      th'.pc = .deliver res ∧ th'.parent = th.parent ∧ HeapLe sh.heap sh'.heap ∧ sh'.writing = false := by
  have ht : t < ths.length := (List.getElem?_eq_some_iff.1 hth).1
  unfold seqParsed at h
  rcases hl : lookupMap sh.asts i with _ | ss0 <;> rw [hl] at h <;> dsimp only at h
  · obtain ⟨addr, hla, h⟩ := Option.bind_eq_some_iff.1 h
    obtain ⟨source, hs, h⟩ := Option.bind_eq_some_iff.1 h
    have r1 : Runs env ⟨sh, ths, m, e⟩ ⟨sh, ths.set t { th with pc := .source i }, m, e⟩ :=
      Runs.refl.act hth (.loc (.miss hpc hl))
    have r2 := r1.act (set_getElem? hth) (.loc (.source rfl hla))
    have h2 : ((ths.set t { th with pc := .source i }).set t { th with pc := .parse i addr })[t]? =
      some { th with pc := .parse i addr } := set_getElem? (set_getElem? hth)
    have e2 : Ext ths ((ths.set t { th with pc := .source i }).set t { th with pc := .parse i addr }) t :=
      Ext.trans ht .set .set
    rcases hp : parse env.fuel source.content sh.parses.length with ⟨ss, lines⟩ | ⟨err, lines⟩ | _ | _ <;>
      rw [hp] at h <;> dsimp only at h
    · obtain ⟨⟨sh2, repl⟩, hi, h⟩ := Option.bind_eq_some_iff.1 h
      have r3 := r2.act h2 (.parse (hpc := rfl) (hs := hs) (hp := hp))
      have e3 := Ext.trans ht e2 (.set (x := { th with pc := .spawn i 0, addr := addr, ss := ss }))
      have hpok3 := e3.parentsOk hpok hth (set_getElem? h2) rfl
      have hle3 : HeapLe sh.heap (sh.parsed addr source lines).heap := HeapLe.set hs rfl rfl
      obtain ⟨s', hs', hs'2, _⟩ := hle3 _ _ hs
      obtain ⟨ths4, th4, g1, g2, g3, g4, g5, g6, g7, g8, g9, g10⟩ := run_imports hrec (m := m) (e := e) (i := i)
        (source := source) (imports := ss.imports) ss.imports 0 (sh.parsed addr source lines) sh2 _
        { th with pc := .spawn i 0, addr := addr, ss := ss } repl rfl (Nat.zero_le _) (set_getElem? h2) rfl rfl hpok3
        ⟨s', hs', hs'2⟩ hw (by rw [show Thread.repl _ = th.repl from rfl, hrepl]; exact hi)
      dsimp only at h
      rcases htr : transform env.fo env.opts (if env.opts.importRules = .inline then some repl else none) env.fuel ss with
        ⟨ss', s⟩ | _ | _ <;> rw [htr] at h <;> dsimp only at h
      · cases h
        have e4 := Ext.trans ht e3 g2
        have r5 := (r3.trans g1).act g3 (.loc (.spawned g4 (by rw [g7]; simp)))
        have e5 := Ext.trans ht e4 (.set (x := { th4 with pc := .wait i }))
        obtain ⟨s4, hs4, hs42, _⟩ := g9 _ _ hs'
        have hj := e5.joined hnk hth (set_getElem? g3) g5 (sh := sh2) (m := m) (e := e)
        have r6 := r5.act (set_getElem? g3) (.loc (.transform rfl hj (by rw [show Thread.addr _ = th4.addr from rfl, g6]; exact hs4)
          (by rw [show Thread.repl _ = th4.repl from rfl, g8, show Thread.ss _ = th4.ss from rfl, g7]; exact htr)))
        have r7 := r6.act (set_getElem? (set_getElem? g3)) (.loc (.cache rfl))
        rw [hs42, hs'2] at r7
        refine ⟨_, _, r7, Ext.trans ht e5 (Ext.trans (Nat.lt_of_lt_of_le ht e5.len) .set .set),
          set_getElem? (set_getElem? (set_getElem? g3)), rfl, g5, hle3.trans g9, g10⟩
      · cases h
      · cases h
    · cases h
      have r3 := r2.act h2 (.loc (.parseFail (hpc := rfl) (hs := hs) (hp := hp)))
      exact ⟨_, _, r3, Ext.trans ht e2 .set, set_getElem? h2, rfl, rfl, HeapLe.set hs rfl rfl, hw⟩
    · cases h
    · cases h
  · cases h
    have r1 : Runs env ⟨sh, ths, m, e⟩ ⟨sh, ths.set t { th with pc := .deliver (some ss0) }, m, e⟩ :=
      Runs.refl.act hth (.loc (.hit hpc hl))
    exact ⟨_, _, r1, .set, set_getElem? hth, rfl, rfl, HeapLe.refl _, hw⟩

/-- `addSource`, after the path has been made absolute. -/
theorem run_add {env : CEnv} {m : MainPC} {e : Nat} {t : Nat} {sh sh' : Shared} {ths : List Thread} {th : Thread}
    {path abs : Bytes} {res : Option Nat} (hth : ths[t]? = some th) (hpc : th.pc = .lookup path)
    (ha : env.abs path = some abs) (hw : sh.writing = false) (h : seqAdd env sh path abs = (sh', res)) :
    ∃ ths', Runs env ⟨sh, ths, m, e⟩ ⟨sh', ths', m, e⟩ ∧ Ext ths ths' t ∧
      ths'[t]? = some { th with pc := (match res with
        | none => .deliver none
        | some i => if hasOutput env th then .outBegin i else .cached i) } ∧
      HeapLe sh.heap sh'.heap ∧ sh'.writing = false ∧ ths'.length = ths.length := by
  have ht : t < ths.length := (List.getElem?_eq_some_iff.1 hth).1
  unfold seqAdd at h
  rcases hl : lookupMap sh.sources abs with _ | i <;> rw [hl] at h <;> dsimp only at h
  · have r1 : Runs env ⟨sh, ths, m, e⟩ ⟨sh, ths.set t { th with pc := .read path abs }, m, e⟩ :=
      Runs.refl.act hth (.loc (.unknown hpc ha hl))
    rcases hr : env.read abs with _ | content <;> rw [hr] at h <;> dsimp only at h <;> cases h
    · have r2 := r1.act (set_getElem? hth) (.loc (.noRead rfl hr))
      exact ⟨_, r2, Ext.trans ht .set .set, set_getElem? (set_getElem? hth), HeapLe.refl _, hw, by simp⟩
    · have r2 := r1.act (set_getElem? hth) (.loc (.read rfl hr))
      have g2 := set_getElem? (x := { th with pc := .alloc abs content })
        (set_getElem? (x := { th with pc := .read path abs }) hth)
      have e2 : Ext ths ((ths.set t { th with pc := .read path abs }).set t { th with pc := .alloc abs content }) t :=
        Ext.trans ht .set .set
      have r3 := r2.act g2 (.loc (.alloc rfl))
      have g3 := set_getElem? (x := { th with pc := .store abs content sh.nextIndex }) g2
      have e3 := Ext.trans ht e2 (.set (x := { th with pc := .store abs content sh.nextIndex }))
      have r4 := r3.act g3 (.loc (.store rfl))
      have g4 := set_getElem? (x := { th with pc := .incRead sh.nextIndex }) g3
      have e4 := Ext.trans ht e3 (.set (x := { th with pc := .incRead sh.nextIndex }))
      have r5 := r4.act g4 (.loc (.incRead rfl))
      have g5 := set_getElem? (x := { th with pc := .incWrite sh.nextIndex sh.nextIndex }) g4
      have e5 := Ext.trans ht e4 (.set (x := { th with pc := .incWrite sh.nextIndex sh.nextIndex }))
      have r6 := r5.act g5 (.loc (.incWrite rfl))
      exact ⟨_, r6, Ext.trans ht e5 .set, set_getElem? g5, HeapLe.append _ _, hw, by simp⟩
  · cases h
    have r1 := (Runs.refl (st := ⟨sh, ths, m, e⟩)).act hth (.loc (.known hpc ha hl))
    exact ⟨_, r1, .set, set_getElem? hth, HeapLe.refl _, hw, by simp⟩

theorem NoKids.ext {a b : List Thread} {t : Nat} {th th' : Thread} (h : NoKids a t) (he : Ext a b t)
    (hlen : b.length = a.length) (hth : a[t]? = some th) (hth' : b[t]? = some th') (hp : th'.parent = th.parent) :
    NoKids b t := by
  intro x hx hxp
  obtain ⟨i, hi, rfl⟩ := List.getElem_of_mem hx
  have hi' := List.getElem?_eq_getElem hi
  by_cases hit : i = t
  · subst hit
    rw [hth'] at hi'
    rw [← Option.some.inj hi', hp] at hxp
    exact h th (List.mem_of_getElem? hth) hxp
  · rw [he.old i (by omega) hit] at hi'
    exact h _ (List.mem_of_getElem? hi') hxp

/-- `parseFile` is a run of the machine. -/
theorem run_file {env : CEnv} (n : Nat) : FileRuns env (seqFile env n) := by
  induction n with
  | zero => intro sh sh' ths m e t th path res _ _ _ _ _ _ h; cases h
  | succ n ih =>
    intro sh sh' ths m e t th path res hth hpc hrepl hpok hnk hw h
    have ht : t < ths.length := (List.getElem?_eq_some_iff.1 hth).1
    unfold seqFile at h
    rcases ha : env.abs path with _ | abs <;> rw [ha] at h <;> dsimp only at h
    · cases h
      have r1 := (Runs.refl (st := ⟨sh, ths, m, e⟩)).act hth (.loc (.noAbs hpc ha))
      exact ⟨_, _, r1, .set, set_getElem? hth, rfl, rfl, HeapLe.refl _, hw⟩
    · rcases hadd : seqAdd env sh path abs with ⟨sh1, _ | i⟩ <;> rw [hadd] at h <;> dsimp only at h
      · cases h
        obtain ⟨ths1, r1, e1, g1, l1, w1, n1⟩ := run_add (m := m) (e := e) hth hpc ha hw hadd
        exact ⟨_, _, r1, e1, g1, rfl, rfl, l1, w1⟩
      · obtain ⟨ths1, r1, e1, g1, l1, w1, n1⟩ := run_add (m := m) (e := e) hth hpc ha hw hadd
        dsimp only at g1
        have hpok1 := e1.parentsOk hpok hth g1 rfl
        have hnk1 := hnk.ext e1 n1 hth g1 rfl
        by_cases ho : hasOutput env th = true
        · rw [ho, if_pos rfl] at h
          rw [if_pos ho] at g1
          have r2 := r1.act g1 (.loc (.outBegin rfl w1))
          have g2 := set_getElem? (x := { th with pc := .outEnd i }) g1
          have r3 := r2.act g2 (.loc (.outEnd rfl))
          have g3 := set_getElem? (x := { th with pc := .cached i }) g2
          have e3 : Ext ths ((ths1.set t { th with pc := .outEnd i }).set t { th with pc := .cached i }) t :=
            Ext.trans ht (Ext.trans ht e1 .set) .set
          obtain ⟨ths4, th4, q1, q2, q3, q4, q5, q6, q7⟩ := run_parsed (sh := { sh1 with outputs := i :: sh1.outputs }) ih (m := m) (e := e) g3 rfl hrepl
            (e3.parentsOk hpok hth g3 rfl) (hnk.ext e3 (by simpa using n1) hth g3 rfl) w1 h
          exact ⟨ths4, th4, r3.trans (by rw [w1] at q1; exact q1), Ext.trans ht e3 q2, q3, q4, q5, l1.trans q6, q7⟩
        · rw [if_neg ho] at h g1
          obtain ⟨ths4, th4, q1, q2, q3, q4, q5, q6, q7⟩ := run_parsed ih (m := m) (e := e) g1 rfl hrepl hpok1 hnk1 w1 h
          exact ⟨ths4, th4, r1.trans q1, Ext.trans ht e1 q2, q3, q4, q5, l1.trans q6, q7⟩

/-- All goroutines have ended. -/
def AllDone (ths : List Thread) : Prop := ∀ x ∈ ths, x.pc = .done

theorem AllDone.joined {ths : List Thread} (h : AllDone ths) {sh : Shared} {m : MainPC} {e : Nat} {p : Option Nat} :
    (CSt.mk sh ths m e).joined p = true := by
  unfold CSt.joined
  rw [List.all_eq_true]
  intro x hx
  show (if _ = _ then _ else _) = _
  rw [h x hx]
  split <;> rfl

theorem run_entries {env : CEnv} {n : Nat} : ∀ (rest : List Bytes) (k : Nat) (sh sh' : Shared) (ths : List Thread) (e : Nat),
    env.entries.drop k = rest → ParentsOk ths → AllDone ths → sh.writing = false →
    seqEntries env n rest sh = some sh' →
    ∃ ths' e', Runs env ⟨sh, ths, .spawn k, e⟩ ⟨sh', ths', .wait, e'⟩ ∧ AllDone ths' := by
  intro rest
  induction rest with
  | nil =>
    intro k sh sh' ths e hd hpok had hw h
    cases h
    have hk : ¬ k < env.entries.length := by
      have := congrArg List.length hd; simp at this; omega
    refine ⟨ths, e, Runs.refl.step (ch := .main) trivial ?_, had⟩
    unfold cstep stepMain
    dsimp only
    rw [if_neg hk]
  | cons p rest ih =>
    intro k sh sh' ths e hd hpok had hw h
    have hk : k < env.entries.length := by
      have := congrArg List.length hd; simp at this; omega
    have hpk : env.entries[k]? = some p := by
      have := congrArg (fun l => l[0]?) hd
      simpa [List.getElem?_drop] using this
    have hd' : env.entries.drop (k + 1) = rest := by
      rw [← List.tail_drop, hd]; rfl
    obtain ⟨⟨sh1, res⟩, hf, h⟩ := Option.bind_eq_some_iff.1 h
    have r1 : Runs env ⟨sh, ths, .spawn k, e⟩ ⟨sh, ths ++ [Thread.new none], .spawn (k + 1), k⟩ := by
      refine Runs.refl.step (ch := .main) trivial ?_
      unfold cstep stepMain
      dsimp only
      rw [if_pos hk]
    have h1c : (ths ++ [Thread.new none])[ths.length]? = some (Thread.new none) := by
      rw [List.getElem?_append_right (by simp)]; simp
    have r2 := r1.act h1c (.loc (.startEntry rfl rfl hpk)) (fun _ => ⟨rfl, fun u x hu hx => by
      have : u < (ths ++ [Thread.new none]).length := (List.getElem?_eq_some_iff.1 hx).1
      rw [List.length_append, List.length_singleton] at this
      omega⟩)
    have g2 := set_getElem? (x := { Thread.new none with pc := .lookup p }) h1c
    have hpok1 : ParentsOk (ths ++ [Thread.new none]) := by
      intro x q hx hxq
      rcases List.mem_append.1 hx with hx | hx
      · have := hpok x q hx hxq; simp; omega
      · rw [List.mem_singleton.1 hx] at hxq; cases hxq
    have hnk1 : NoKids (ths ++ [Thread.new none]) ths.length := by
      intro x hx hxq
      rcases List.mem_append.1 hx with hx | hx
      · have := hpok x _ hx hxq; omega
      · rw [List.mem_singleton.1 hx] at hxq; cases hxq
    have e2 : Ext (ths ++ [Thread.new none]) ((ths ++ [Thread.new none]).set ths.length { Thread.new none with pc := .lookup p })
      ths.length := .set
    obtain ⟨ths3, th3, q1, q2, q3, q4, q5, q6, q7⟩ := run_file (env := env) n sh sh1 _ (.spawn (k + 1)) k ths.length _ p res g2 rfl
      rfl (e2.parentsOk hpok1 h1c g2 rfl) (hnk1.ext e2 (by simp) h1c g2 rfl) hw hf
    have r4 := (r2.trans q1).act q3 (.loc (.finish q4 (.inl q5)))
      (fun h => by unfold Thread.ReadsLoop at h; rw [q4, q5] at h; cases res <;> exact h.elim)
    have e4 := Ext.trans (by simp) (Ext.trans (by simp) e2 q2) (.set (x := { th3 with pc := .done }))
    have g4 := set_getElem? (x := { th3 with pc := .done }) q3
    have had4 : AllDone (ths3.set ths.length { th3 with pc := .done }) := by
      intro x hx
      obtain ⟨i, hi, rfl⟩ := List.getElem_of_mem hx
      have hi' := List.getElem?_eq_getElem hi
      by_cases hiL : i = ths.length
      · subst hiL
        rw [g4] at hi'
        rw [← Option.some.inj hi']
      · by_cases hil : i < ths.length
        · rw [e4.old i (by simp; omega) hiL, List.getElem?_append_left hil] at hi'
          exact had _ (List.mem_of_getElem? hi')
        · exact (e4.new i _ (by simp; omega) hi').1
    obtain ⟨ths5, e5, s1, s2⟩ := ih (k + 1) sh1 sh' _ k hd' (e4.parentsOk hpok1 h1c g4 q5) had4 q7 h
    exact ⟨ths5, e5, r4.trans s1, s2⟩

theorem run_print {env : CEnv} {ths : List Thread} {e : Nat} : ∀ (rest : List Nat) (sh sh' : Shared),
    seqPrint rest sh = some sh' → Runs env ⟨sh, ths, .print rest, e⟩ ⟨sh', ths, .print [], e⟩ := by
  intro rest
  induction rest with
  | nil => intro sh sh' h; cases h; exact .refl
  | cons i rest ih =>
    intro sh sh' h
    have hone : ∀ sh1, stepPrint ⟨sh, ths, .print (i :: rest), e⟩ i = some (.ok ⟨sh1, ths, .print rest, e⟩) →
        seqPrint rest sh1 = some sh' → Runs env ⟨sh, ths, .print (i :: rest), e⟩ ⟨sh', ths, .print [], e⟩ := by
      intro sh1 h1 h2
      exact (Runs.refl.step (ch := .print i) trivial (by unfold cstep; exact h1)).trans (ih sh1 sh' h2)
    unfold seqPrint at h
    split at h
    · rename_i source ss hs hss
      rcases hp : print (some source) ss with out | _ | _ <;> rw [hp] at h <;> dsimp only at h
      · refine hone _ ?_ h
        simp only [stepPrint, hs, hss, hp]
        simp
      · refine hone _ ?_ h
        simp only [stepPrint, hs, hss, hp]
        simp
      · cases h
    · rename_i hno
      refine hone _ ?_ h
      unfold stepPrint
      dsimp only
      rw [if_pos List.mem_cons_self]
      split
      · rename_i source ss hs hss
        exact (hno source ss hs hss).elim
      · simp

/-- The sequential compilation is one of the schedules of the machine. -/
theorem seqCompile_runs {env : CEnv} {n : Nat} {sh : Shared} (h : seqCompile env n = some sh) :
    ∃ st, Runs env CSt.init st ∧ st.main = .done ∧ st.sh = sh := by
  obtain ⟨sh1, h1, h2⟩ := Option.bind_eq_some_iff.1 h
  obtain ⟨ths, e, r1, hd⟩ := run_entries env.entries 0 Shared.init sh1 [] 0 rfl (fun x _ hx => by cases hx)
    (fun x hx => by cases hx) rfl h1
  have r2 : Runs env CSt.init ⟨sh1, ths, .print sh1.outputs.eraseDups, e⟩ := by
    refine r1.step (ch := .main) trivial ?_
    unfold cstep stepMain
    dsimp only
    rw [if_pos hd.joined]
  have r3 := (r2.trans (run_print _ _ _ h2)).step (ch := .main) (c := ⟨sh, ths, .done, e⟩) trivial (by unfold cstep stepMain; rfl)
  exact ⟨_, r3, rfl, rfl⟩

theorem seqCompile_reach {env : CEnv} {n : Nat} {sh : Shared} (h : seqCompile env n = some sh) :
    ∃ st, Reached env st ∧ st.main = .done ∧ st.sh = sh := by
  obtain ⟨st, h1, h2⟩ := seqCompile_runs h
  exact ⟨st, h1.reach .init, h2⟩

end Cssc
