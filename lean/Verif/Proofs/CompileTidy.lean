import Verif.Proofs.CompileTables
import Verif.Proofs.CompileLoop
import Verif.Spec.Tidy

/-!
# Compile: tidy schedules leave nothing out
-/

namespace Cssc

theorem ReachedTidy.reached {env : CEnv} {st : CSt} (h : ReachedTidy env st) : Reached env st := by
  induction h with
  | init => exact .init
  | step _ _ hs ih => exact .step ih hs

/-! ### What there is in the shared memory -/

/-- What has become of the file name `p`; `out` if it is to be printed. -/
def Loaded (env : CEnv) (out : Bool) (sh : Shared) (p : Bytes) : Prop :=
  (∃ e ∈ sh.errors, FailsWith env p e) ∨
    ∃ a i ss, env.abs p = some a ∧ (a, i) ∈ sh.sources ∧ (i, ss) ∈ sh.asts ∧ (out = true → i ∈ sh.outputs)

/-- Imported files are printed. -/
def CEnv.follows (env : CEnv) : Bool := decide (env.opts.importRules = .follow)

/-- What has become of an import of the file with the path `a`. -/
def ImportLoaded (env : CEnv) (sh : Shared) (a : Bytes) (imp : ImportSpec) : Prop :=
  (env.resolve imp.value (dirOf a) = none ∧ .resolve imp.value (dirOf a) ∈ sh.errors) ∨
    ∃ rel, env.resolve imp.value (dirOf a) = some rel ∧ Loaded env env.follows sh rel

/-- `ss` is the compilation of the file with the path `a`, and all problems met have been reported. -/
def FullRun (env : CEnv) (sh : Shared) (a : Bytes) (ss : Stylesheet) : Prop :=
  ∃ log, Full env sh.parses a ss log ∧ (∀ r ∈ log, .transform a r ∈ sh.errors) ∧
    ∃ c id ss0 lines, env.read a = some c ∧ parse env.fuel c id = .ok ss0 lines ∧
      ∀ imp ∈ ss0.imports, ImportLoaded env sh a imp

/-- The shared memory grows. -/
structure ShGrows (sh sh' : Shared) : Prop where
  sources : ∀ x ∈ sh.sources, x ∈ sh'.sources
  asts : ∀ x ∈ sh.asts, x ∈ sh'.asts
  outputs : ∀ x ∈ sh.outputs, x ∈ sh'.outputs
  errors : ∀ x ∈ sh.errors, x ∈ sh'.errors
  parses : ∃ l, sh'.parses = l ++ sh.parses

theorem Full.mono {env : CEnv} {ps ps' : List Bytes} (h : ∃ l, ps' = l ++ ps) {a : Bytes} {ss : Stylesheet} {log : List Report}
    (hf : Full env ps a ss log) : Full env ps' a ss log := by
  obtain ⟨l, rfl⟩ := h
  induction hf with
  | mk fileOf logOf h1 h2 h3 h4 h5 h6 _ h8 h9 ih =>
    refine .mk fileOf logOf h1 h2 h3 h4 ?_ h6 ih h8 h9
    rw [List.reverse_append, List.getElem?_append_left (List.getElem?_eq_some_iff.1 h5).1]
    exact h5

theorem FullErr.mono {env : CEnv} {ps ps' : List Bytes} (h : ∃ l, ps' = l ++ ps) {e : CompErr}
    (hf : FullErr env ps e) : FullErr env ps' e := by
  cases hf with
  | fails h1 h2 => exact .fails h1 h2
  | resolve h1 h2 h3 h4 h5 h6 => exact .resolve h1 h2 h3 h4 h5 h6
  | transform h1 h2 => exact .transform (h1.mono h) h2
  | print h1 h2 h3 => exact .print h1 (h2.mono h) h3

theorem Loaded.mono {env : CEnv} {out : Bool} {sh sh' : Shared} (hg : ShGrows sh sh') {p : Bytes} (h : Loaded env out sh p) :
    Loaded env out sh' p := by
  rcases h with ⟨e, h1, h2⟩ | ⟨a, i, ss, h1, h2, h3, h4⟩
  · exact .inl ⟨e, hg.errors _ h1, h2⟩
  · exact .inr ⟨a, i, ss, h1, hg.sources _ h2, hg.asts _ h3, fun h => hg.outputs _ (h4 h)⟩

theorem ImportLoaded.mono {env : CEnv} {sh sh' : Shared} (hg : ShGrows sh sh') {a : Bytes} {imp : ImportSpec}
    (h : ImportLoaded env sh a imp) : ImportLoaded env sh' a imp := by
  rcases h with ⟨h1, h2⟩ | ⟨rel, h1, h2⟩
  · exact .inl ⟨h1, hg.errors _ h2⟩
  · exact .inr ⟨rel, h1, h2.mono hg⟩

theorem FullRun.mono {env : CEnv} {sh sh' : Shared} (hg : ShGrows sh sh') {a : Bytes} {ss : Stylesheet}
    (h : FullRun env sh a ss) : FullRun env sh' a ss := by
  obtain ⟨log, h1, h2, c, id, ss0, lines, h3, h4, h5⟩ := h
  exact ⟨log, h1.mono hg.parses, fun r hr => hg.errors _ (h2 r hr), c, id, ss0, lines, h3, h4, fun imp him => (h5 imp him).mono hg⟩

theorem ShGrows.refl (sh : Shared) : ShGrows sh sh := ⟨fun _ h => h, fun _ h => h, fun _ h => h, fun _ h => h, [], rfl⟩

theorem Loc.grows {env : CEnv} {st : CSt} {t : Nat} {th : Thread} {sh : Shared} {pc : PC} (h : Loc env st t th sh pc) :
    ShGrows st.sh sh := by
  have hadd : ∀ e, ShGrows st.sh (st.sh.addError e) := fun e =>
    ⟨fun _ h => h, fun _ h => h, fun _ h => h, fun _ h => List.mem_append_left _ h, [], rfl⟩
  cases h with
  | alloc => exact ⟨fun _ h => List.mem_cons_of_mem _ h, fun _ h => h, fun _ h => h, fun _ h => h, [], rfl⟩
  | outEnd => exact ⟨fun _ h => h, fun _ h => h, fun _ h => List.mem_cons_of_mem _ h, fun _ h => h, [], rfl⟩
  | cache => exact ⟨fun _ h => h, fun _ h => List.mem_cons_of_mem _ h, fun _ h => h, fun _ h => h, [], rfl⟩
  | transform => exact ⟨fun _ h => h, fun _ h => h, fun _ h => h, fun _ h => List.mem_append_left _ h, [], rfl⟩
  | parseFail => exact ⟨fun _ h => h, fun _ h => h, fun _ h => h, fun _ h => List.mem_append_left _ h, [_], rfl⟩
  | startFail => exact hadd _
  | noAbs => exact hadd _
  | noRead => exact hadd _
  | _ => exact ⟨fun _ h => h, fun _ h => h, fun _ h => h, fun _ h => h, [], rfl⟩

theorem Act.grows {env : CEnv} {st st' : CSt} {t : Nat} {th : Thread} (h : Act env st t th st') : ShGrows st.sh st'.sh := by
  cases h with
  | loc h => exact h.grows
  | parse => exact ⟨fun _ h => h, fun _ h => h, fun _ h => h, fun _ h => h, [_], rfl⟩
  | _ => exact ShGrows.refl _

theorem MainAct.grows {env : CEnv} {st st' : CSt} (h : MainAct env st st') : ShGrows st.sh st'.sh := by
  cases h with
  | printFail => exact ⟨fun _ h => h, fun _ h => h, fun _ h => h, fun _ h => List.mem_append_left _ h, [], rfl⟩
  | _ => exact ⟨fun _ h => h, fun _ h => h, fun _ h => h, fun _ h => h, [], rfl⟩

/-! ### The goroutines -/

/-- Who started the goroutines. -/
abbrev CSt.parents (st : CSt) : List (Option Nat) := st.threads.map Thread.parent

theorem set_parents {l : List Thread} {t : Nat} {th th1 : Thread} (hth : l[t]? = some th) (hp : th1.parent = th.parent) :
    (l.set t th1).map Thread.parent = l.map Thread.parent := by
  rw [List.map_set, hp]
  obtain ⟨hlt, he⟩ := List.getElem?_eq_some_iff.1 hth
  rw [← he]
  have : l[t].parent = (l.map Thread.parent)[t]'(by simpa using hlt) := by simp
  rw [this, List.set_getElem_self]

theorem Act.parents {env : CEnv} {st st' : CSt} {t : Nat} {th : Thread} (hth : st.threads[t]? = some th)
    (h : Act env st t th st') : st'.parents = st.parents ∨
      ∃ i k, th.pc = .spawn i k ∧ k < th.ss.imports.length ∧ st'.parents = st.parents ++ [some t] := by
  cases h with
  | loc h => exact .inl (set_parents hth rfl)
  | parse => exact .inl (set_parents hth rfl)
  | spawn hpc hk =>
    rename_i i k
    refine .inr ⟨i, k, hpc, hk, ?_⟩
    have := set_parents (th1 := { th with pc := .spawn i (k + 1), imp := k }) hth rfl
    show List.map _ (_ ++ _) = _
    rw [List.map_append, this]
    rfl
  | deliver hpc hp hpar hi =>
    rename_i p par imp ss
    obtain ⟨y, hy, hyp⟩ : ∃ y : Thread, (st.threads.set p { par with repl := (imp.rule, ss) :: par.repl })[t]? = some y ∧
        y.parent = th.parent := by
      by_cases htu : p = t
      · subst htu
        rw [hpar] at hth; cases hth
        exact ⟨_, List.getElem?_set_self (List.getElem?_eq_some_iff.1 hpar).1, rfl⟩
      · exact ⟨th, by rw [List.getElem?_set_ne htu]; exact hth, rfl⟩
    have e1 := set_parents (th1 := { th with pc := .done }) hy hyp.symm
    exact .inl (e1.trans (set_parents hpar rfl))

theorem MainAct.parents {env : CEnv} {st st' : CSt} (h : MainAct env st st') :
    (st'.threads = st.threads ∧ ∀ k, st.main = .spawn k → st'.main = .wait ∧ ¬ k < env.entries.length) ∨
      ∃ k, st.main = .spawn k ∧ st'.main = .spawn (k + 1) ∧ k < env.entries.length ∧ st'.threads = st.threads ++ [Thread.new none] := by
  cases h with
  | spawn hm hk => exact .inr ⟨_, hm, rfl, hk, rfl⟩
  | spawned hm hk => exact .inl ⟨rfl, fun k h => by rw [hm] at h; cases h; exact ⟨rfl, hk⟩⟩
  | wait hm => exact .inl ⟨rfl, fun k h => by rw [hm] at h; cases h⟩
  | finish hm => exact .inl ⟨rfl, fun k h => by rw [hm] at h; cases h⟩
  | print hm => exact .inl ⟨rfl, fun k h => by rw [hm] at h; cases h⟩
  | printFail hm => exact .inl ⟨rfl, fun k h => by rw [hm] at h; cases h⟩
  | skip hm => exact .inl ⟨rfl, fun k h => by rw [hm] at h; cases h⟩

theorem parents_get {st : CSt} {t : Nat} {th : Thread} (h : st.threads[t]? = some th) : st.parents[t]? = some th.parent := by
  rw [List.getElem?_map, h]; rfl

/-- A goroutine is started by an earlier one. -/
theorem Reached.earlier {env : CEnv} {st : CSt} (h : Reached env st) : ∀ (t p : Nat), st.parents[t]? = some (some p) → p < t := by
  induction h with
  | init => intro t p h; cases h
  | @step st st' c _ hs ih =>
    have happ : ∀ q, (∀ p, q = some p → p < st.parents.length) → ∀ (t p : Nat), (st.parents ++ [q])[t]? = some (some p) → p < t := by
      intro q hq t p h
      rcases Nat.lt_trichotomy t st.parents.length with hlt | rfl | hgt
      · rw [List.getElem?_append_left hlt] at h; exact ih t p h
      · rw [List.getElem?_concat_length] at h; cases h; exact hq p rfl
      · rw [List.getElem?_eq_none (by rw [List.length_append, List.length_singleton]; omega)] at h; cases h
    rcases cstep_act hs with h | ⟨t, th, hth, h⟩
    · rcases h.parents with ⟨e, -⟩ | ⟨k, -, -, -, e⟩
      · unfold CSt.parents; rw [e]; exact ih
      · unfold CSt.parents; rw [e, List.map_append]; exact happ none fun p h => by cases h
    · rcases h.parents hth with e | ⟨i, k, -, -, e⟩
      · rw [e]; exact ih
      · rw [e]
        refine happ _ fun p h => ?_
        cases h
        rw [List.length_map]
        exact (List.getElem?_eq_some_iff.1 hth).1

/-- What a step keeps of the goroutines: who started them, and what was put in for their imports. -/
structure ThGrows (st st' : CSt) : Prop where
  parents : ∃ l, st'.parents = st.parents ++ l
  repls : ∀ (t : Nat) (th th' : Thread), st.threads[t]? = some th → st'.threads[t]? = some th' → ∀ kv ∈ th.repl, kv ∈ th'.repl

theorem set_repls {l : List Thread} {t : Nat} {th th1 : Thread} (hth : l[t]? = some th) (hr : ∀ kv ∈ th.repl, kv ∈ th1.repl)
    (u : Nat) (x x' : Thread) (hx : l[u]? = some x) (hx' : (l.set t th1)[u]? = some x') : ∀ kv ∈ x.repl, kv ∈ x'.repl := by
  rcases getElem?_set_cases hx' with ⟨rfl, rfl⟩ | ⟨_, h⟩
  · rw [hth] at hx; cases hx
    exact hr
  · rw [hx] at h; cases h
    exact fun _ h => h

theorem Act.thGrows {env : CEnv} {st st' : CSt} {t : Nat} {th : Thread} (hth : st.threads[t]? = some th)
    (hne : ∀ p, th.parent = some p → p ≠ t) (h : Act env st t th st') : ThGrows st st' := by
  have hpar : ∃ l, st'.parents = st.parents ++ l := by
    rcases h.parents hth with e | ⟨_, _, _, _, e⟩
    · exact ⟨[], by rw [e, List.append_nil]⟩
    · exact ⟨_, e⟩
  refine ⟨hpar, ?_⟩
  clear hpar
  cases h with
  | loc h => exact set_repls hth fun _ h => h
  | parse => exact set_repls hth fun _ h => h
  | spawn hpc hk =>
    rename_i i k
    intro u x x' hx hx'
    have hlt := (List.getElem?_eq_some_iff.1 hx).1
    rw [List.getElem?_append_left (by simpa using hlt)] at hx'
    exact set_repls (th1 := { th with pc := .spawn i (k + 1), imp := k }) hth (fun _ h => h) u x x' hx hx'
  | deliver hpc hp hpar hi =>
    rename_i p par imp ss
    intro u x x' hx hx'
    have hy : (st.threads.set p { par with repl := (imp.rule, ss) :: par.repl })[t]? = some th := by
      rw [List.getElem?_set_ne (hne p hp)]; exact hth
    rcases getElem?_set_cases hx' with ⟨rfl, rfl⟩ | ⟨_, h⟩
    · rw [hth] at hx; cases hx
      exact fun _ h => h
    · exact set_repls hpar (fun _ h => List.mem_cons_of_mem _ h) u x x' hx h

theorem MainAct.thGrows {env : CEnv} {st st' : CSt} (h : MainAct env st st') : ThGrows st st' := by
  rcases h.parents with ⟨e, -⟩ | ⟨k, -, -, -, e⟩
  · refine ⟨⟨[], by unfold CSt.parents; rw [e, List.append_nil]⟩, fun t th th' h h' => ?_⟩
    rw [e, h] at h'; cases h'
    exact fun _ h => h
  · refine ⟨⟨[none], by unfold CSt.parents; rw [e, List.map_append]; rfl⟩, fun t th th' h h' => ?_⟩
    rw [e, append_keeps h] at h'; cases h'
    exact fun _ h => h

/-- The file name that goroutine `t` is there for: the one of its own iteration. -/
def Own (env : CEnv) (st : CSt) (t : Nat) (parent : Option Nat) (p : Bytes) : Prop :=
  match parent with
  | none => env.entries[st.ordinal none t]? = some p
  | some q => ∃ par source, ParsedBy env st q par source ∧ ∃ imp, par.ss.imports[st.ordinal (some q) t]? = some imp ∧
      env.resolve imp.value (dirOf source.path) = some p

/-- … which has the number `i`. -/
def OwnNum (env : CEnv) (st : CSt) (t : Nat) (parent : Option Nat) (i : Nat) : Prop :=
  ∃ p a, Own env st t parent p ∧ env.abs p = some a ∧ (a, i) ∈ st.sh.sources

/-- The output of the goroutine is asked for. -/
def OutNum (env : CEnv) (st : CSt) (th : Thread) (i : Nat) : Prop := hasOutput env th = true → i ∈ st.sh.outputs

/-- The stylesheet of the goroutine is a parse of its source, with a number of its own. -/
def FrameNum (env : CEnv) (st : CSt) (th : Thread) : Prop :=
  ∃ source id lines, st.sh.heap[th.addr]? = some source ∧ parse env.fuel source.content id = .ok th.ss lines ∧
    st.sh.parses.reverse[id]? = some source.path

/-- What a goroutine has in its hands, and what has become of it. -/
def PcTidy (env : CEnv) (st : CSt) (t : Nat) (th : Thread) : PC → Prop
  | .start => True
  | .lookup p => Own env st t th.parent p
  | .read p a => Own env st t th.parent p ∧ env.abs p = some a
  | .alloc a _ => ∃ p, Own env st t th.parent p ∧ env.abs p = some a
  | .store a _ i => ∃ p, Own env st t th.parent p ∧ env.abs p = some a ∧ (a, i) ∈ st.sh.sources
  | .incRead i | .incWrite i _ => OwnNum env st t th.parent i
  | .outBegin i | .outEnd i => OwnNum env st t th.parent i ∧ hasOutput env th = true
  | .cached i | .source i | .parse i _ => OwnNum env st t th.parent i ∧ OutNum env st th i
  | .spawn i _ | .wait i => OwnNum env st t th.parent i ∧ OutNum env st th i ∧ FrameNum env st th
  | .cache i ss => OwnNum env st t th.parent i ∧ OutNum env st th i ∧ ∃ b, (b, i) ∈ st.sh.sources ∧ FullRun env st.sh b ss
  | .deliver (some ss) => ∃ p b log, Own env st t th.parent p ∧ env.abs p = some b ∧ Loaded env (hasOutput env th) st.sh p ∧
      Full env st.sh.parses b ss log
  | .deliver none => ∃ p, Own env st t th.parent p ∧ ∃ e ∈ st.sh.errors, FailsWith env p e
  | .done =>
    match th.parent with
    | none => ∃ p, Own env st t none p ∧ Loaded env true st.sh p
    | some q => ∃ par source, ParsedBy env st q par source ∧ ∃ imp, par.ss.imports[st.ordinal (some q) t]? = some imp ∧
        ImportLoaded env st.sh source.path imp ∧
          (env.opts.importRules = .inline → (∃ kv ∈ par.repl, kv.1 = imp.rule) ∨ NoFile env imp.value (dirOf source.path))

/-- All steps. -/
structure Grows (st st' : CSt) : Prop where
  le : StLe st st'
  sh : ShGrows st.sh st'.sh
  th : ThGrows st st'

theorem ThGrows.ordinal {st st' : CSt} (h : ThGrows st st') {t : Nat} {th : Thread} (hth : st.threads[t]? = some th) (q : Option Nat) :
    st'.ordinal q t = st.ordinal q t := by
  obtain ⟨l, e⟩ := h.parents
  unfold CSt.ordinal
  have hlt := (List.getElem?_eq_some_iff.1 (parents_get hth)).1
  rw [show List.map Thread.parent st'.threads = _ from e, List.take_append_of_le_length (Nat.le_of_lt hlt)]

theorem ParsedBy.grow {env : CEnv} {st st' : CSt} (h : Grows st st') {p : Nat} {par : Thread} {source : Source}
    (hp : ParsedBy env st p par source) : ∃ par' source', ParsedBy env st' p par' source' ∧ par'.ss = par.ss ∧
      source'.path = source.path ∧ ∀ kv ∈ par.repl, kv ∈ par'.repl := by
  obtain ⟨par', source', h1, h2, h3, h4⟩ := hp.mono h.le
  exact ⟨par', source', h1, h2, h4, h.th.repls _ _ _ hp.1 h1.1⟩

theorem Own.mono {env : CEnv} {st st' : CSt} (hg : Grows st st') {t : Nat} {th : Thread} (hth : st.threads[t]? = some th)
    {parent : Option Nat} {p : Bytes} (h : Own env st t parent p) : Own env st' t parent p := by
  cases parent with
  | none =>
    unfold Own at h ⊢
    rw [hg.th.ordinal hth]; exact h
  | some q =>
    obtain ⟨par, source, h1, imp, h2, h3⟩ := h
    obtain ⟨par', source', a1, a2, a3, _⟩ := h1.grow hg
    exact ⟨par', source', a1, imp, by rw [a2, hg.th.ordinal hth]; exact h2, by rw [a3]; exact h3⟩

theorem OwnNum.mono {env : CEnv} {st st' : CSt} (hg : Grows st st') {t : Nat} {th : Thread} (hth : st.threads[t]? = some th)
    {parent : Option Nat} {i : Nat} (h : OwnNum env st t parent i) : OwnNum env st' t parent i := by
  obtain ⟨p, a, h1, h2, h3⟩ := h
  exact ⟨p, a, h1.mono hg hth, h2, hg.sh.sources _ h3⟩

theorem FrameNum.mono {env : CEnv} {st st' : CSt} (hg : Grows st st') {th : Thread} (h : FrameNum env st th) : FrameNum env st' th := by
  obtain ⟨s, id, lines, h1, h2, h3⟩ := h
  obtain ⟨s', a1, a2, a3, a4⟩ := hg.le.heap _ _ h1
  refine ⟨s', id, lines, a1, by rw [a3]; exact h2, ?_⟩
  obtain ⟨l, e⟩ := hg.sh.parses
  rw [e, a2, List.reverse_append, List.getElem?_append_left (List.getElem?_eq_some_iff.1 h3).1]
  exact h3

theorem OutNum.mono {env : CEnv} {st st' : CSt} (hg : Grows st st') {th th' : Thread} (hp : th'.parent = th.parent) {i : Nat}
    (h : OutNum env st th i) : OutNum env st' th' i := by
  intro ho
  unfold hasOutput at ho
  rw [hp] at ho
  exact hg.sh.outputs _ (h ho)

theorem PcTidy.mono {env : CEnv} {st st' : CSt} (hg : Grows st st') {t : Nat} {th : Thread} (hth : st.threads[t]? = some th)
    {th' : Thread} (hp : th'.parent = th.parent) (ha : th'.addr = th.addr) (hs : th'.ss = th.ss) {pc : PC}
    (h : PcTidy env st t th pc) : PcTidy env st' t th' pc := by
  have hf : FrameNum env st th → FrameNum env st' th' := fun h => by
    have := h.mono hg
    unfold FrameNum at this ⊢
    rw [ha, hs]; exact this
  have hown : ∀ {p}, Own env st t th.parent p → Own env st' t th'.parent p := fun h => by rw [hp]; exact h.mono hg hth
  have hnum : ∀ {i}, OwnNum env st t th.parent i → OwnNum env st' t th'.parent i := fun h => by rw [hp]; exact h.mono hg hth
  have hout : ∀ {i}, OutNum env st th i → OutNum env st' th' i := fun h => h.mono hg hp
  have hho : hasOutput env th' = hasOutput env th := by unfold hasOutput; rw [hp]
  cases pc with
  | start => trivial
  | lookup => exact hown h
  | read => exact ⟨hown h.1, h.2⟩
  | alloc => obtain ⟨p, h1, h2⟩ := h; exact ⟨p, hown h1, h2⟩
  | store => obtain ⟨p, h1, h2, h3⟩ := h; exact ⟨p, hown h1, h2, hg.sh.sources _ h3⟩
  | incRead => exact hnum h
  | incWrite => exact hnum h
  | outBegin => exact ⟨hnum h.1, by rw [hho]; exact h.2⟩
  | outEnd => exact ⟨hnum h.1, by rw [hho]; exact h.2⟩
  | cached => exact ⟨hnum h.1, hout h.2⟩
  | source => exact ⟨hnum h.1, hout h.2⟩
  | parse => exact ⟨hnum h.1, hout h.2⟩
  | spawn => exact ⟨hnum h.1, hout h.2.1, hf h.2.2⟩
  | wait => exact ⟨hnum h.1, hout h.2.1, hf h.2.2⟩
  | cache =>
    obtain ⟨h1, h2, b, h3, h4⟩ := h
    exact ⟨hnum h1, hout h2, b, hg.sh.sources _ h3, h4.mono hg.sh⟩
  | deliver r =>
    cases r with
    | none => obtain ⟨p, h1, e, h2, h3⟩ := h; exact ⟨p, hown h1, e, hg.sh.errors _ h2, h3⟩
    | some ss =>
      obtain ⟨p, b, log, h1, h2, h3, h4⟩ := h
      exact ⟨p, b, log, hown h1, h2, by rw [hho]; exact h3.mono hg.sh, h4.mono hg.sh.parses⟩
  | done =>
    unfold PcTidy at h ⊢
    rw [hp]
    cases hq : th.parent with
    | none =>
      rw [hq] at h
      obtain ⟨p, h1, h2⟩ := h
      exact ⟨p, h1.mono hg hth, h2.mono hg.sh⟩
    | some q =>
      rw [hq] at h
      obtain ⟨par, source, h1, imp, h2, h3, h4⟩ := h
      obtain ⟨par', source', a1, a2, a3, a4⟩ := h1.grow hg
      refine ⟨par', source', a1, imp, by rw [a2, hg.th.ordinal hth]; exact h2, by rw [a3]; exact h3.mono hg.sh, ?_⟩
      intro hinl
      rcases h4 hinl with ⟨kv, h4, h5⟩ | h4
      · exact .inl ⟨kv, a4 _ h4, h5⟩
      · exact .inr (by rw [a3]; exact h4)

theorem PcTidy.imported {env : CEnv} {st : CSt} {t q : Nat} {th : Thread} (hp : th.parent = some q)
    (h : ∃ par source, ParsedBy env st q par source ∧ ∃ imp, par.ss.imports[st.ordinal (some q) t]? = some imp ∧
        ImportLoaded env st.sh source.path imp ∧
          (env.opts.importRules = .inline → (∃ kv ∈ par.repl, kv.1 = imp.rule) ∨ NoFile env imp.value (dirOf source.path))) :
    PcTidy env st t th .done := by
  unfold PcTidy
  rw [hp]; exact h

/-- What has been put in for the imports of a goroutine. -/
def ReplTidy (env : CEnv) (st : CSt) (th : Thread) : Prop :=
  env.opts.importRules = .inline → ∀ kv ∈ th.repl, ∃ source, st.sh.heap[th.addr]? = some source ∧ ∃ imp ∈ th.ss.imports, imp.rule = kv.1 ∧
    ∃ rel b log, env.resolve imp.value (dirOf source.path) = some rel ∧ env.abs rel = some b ∧ Full env st.sh.parses b kv.2 log

theorem ReplTidy.mono {env : CEnv} {st st' : CSt} (hg : Grows st st') {th th' : Thread} (hr : th'.repl = th.repl)
    (ha : th'.addr = th.addr) (hs : th'.ss = th.ss) (h : ReplTidy env st th) : ReplTidy env st' th' := by
  intro hinl kv hkv
  rw [hr] at hkv
  obtain ⟨source, h1, imp, h2, h3, rel, b, log, h4, h5, h6⟩ := h hinl kv hkv
  obtain ⟨s', a1, a2, _⟩ := hg.le.heap _ _ h1
  exact ⟨s', by rw [ha]; exact a1, imp, by rw [hs]; exact h2, h3, rel, b, log, by rw [a2]; exact h4, h5, h6.mono hg.sh.parses⟩

/-- How many goroutines it has started, and whether they have ended. -/
def KidsOk (st : CSt) (t : Nat) (th : Thread) : Prop :=
  match th.pc with
  | .spawn _ k => st.parents.count (some t) = k ∧ k ≤ th.ss.imports.length
  | .wait _ => st.parents.count (some t) = th.ss.imports.length
  | .cache _ _ | .deliver _ | .done => ∀ x ∈ st.threads, x.parent = some t → x.pc = .done
  | _ => st.parents.count (some t) = 0

/-- What has become of the output with number `i`. -/
def PrintedNum (sh : Shared) (i : Nat) : Prop :=
  (∃ a, (a, i) ∈ sh.sources ∧ ((∃ out, (a, out) ∈ sh.files) ∨ .print a ∈ sh.errors)) ∨ ∀ ss, (i, ss) ∉ sh.asts

/-- Where `Compile` is. -/
def MainOk (env : CEnv) (st : CSt) : Prop :=
  match st.main with
  | .spawn k => st.parents.count none = k ∧ k ≤ env.entries.length
  | .wait => st.parents.count none = env.entries.length
  | .print rest => st.parents.count none = env.entries.length ∧ (∀ x ∈ st.threads, x.pc = .done) ∧
      (∀ i ∈ rest, i ∈ st.sh.outputs) ∧ ∀ i ∈ st.sh.outputs, i ∈ rest ∨ PrintedNum st.sh i
  | .done => st.parents.count none = env.entries.length ∧ (∀ x ∈ st.threads, x.pc = .done) ∧
      ∀ i ∈ st.sh.outputs, PrintedNum st.sh i

structure InvTidy (env : CEnv) (st : CSt) : Prop where
  asts : ∀ i ss, (i, ss) ∈ st.sh.asts → ∃ b, (b, i) ∈ st.sh.sources ∧ FullRun env st.sh b ss
  outs : ∀ i ∈ st.sh.outputs, ∃ a, (a, i) ∈ st.sh.sources ∧ ToPrint env a
  pcs : ∀ (t : Nat) (th : Thread), st.threads[t]? = some th → PcTidy env st t th th.pc
  repls : ∀ th ∈ st.threads, ReplTidy env st th
  kids : ∀ (t : Nat) (th : Thread), st.threads[t]? = some th → KidsOk st t th
  main : MainOk env st
  errors : ∀ e ∈ st.sh.errors, FullErr env st.sh.parses e
  files : ∀ a out, (a, out) ∈ st.sh.files → ToPrint env a ∧ ∃ c ss log k, env.read a = some c ∧
    Full env st.sh.parses a ss log ∧ 1 ≤ k ∧ k ≤ st.sh.parses.count a ∧ print (some ⟨a, c, tables env c k⟩) ss = .ok out

theorem Act.busy {env : CEnv} {st st' : CSt} {t : Nat} {th : Thread} (h : Act env st t th st') : th.pc ≠ .done := by
  intro hd
  cases h with
  | loc h =>
    cases h <;> simp_all
  | parse hpc => rw [hpc] at hd; cases hd
  | spawn hpc => rw [hpc] at hd; cases hd
  | deliver hpc => rw [hpc] at hd; cases hd

theorem KidsOk.keep {st st' : CSt} {t : Nat} {th th' : Thread} (hpar : st'.parents.count (some t) = st.parents.count (some t))
    (hd : ∀ q, (∀ x ∈ st.threads, x.parent = some q → x.pc = .done) → ∀ x ∈ st'.threads, x.parent = some q → x.pc = .done)
    (hpc : th'.pc = th.pc) (hss : th'.ss = th.ss) (h : KidsOk st t th) : KidsOk st' t th' := by
  unfold KidsOk at h ⊢
  rw [hpc, hss, hpar]
  cases hp : th.pc <;> rw [hp] at h <;> first | exact h | exact hd t h

theorem KidsOk.count {st : CSt} {t : Nat} {th : Thread} (h : KidsOk st t th) (hp : ¬ th.pc.After) : st.parents.count (some t) = 0 := by
  unfold KidsOk at h
  cases hpc : th.pc <;> rw [hpc] at h hp <;> first | exact h | exact absurd trivial hp

theorem KidsOk.of_count {st : CSt} {t : Nat} {th : Thread} (hp : ¬ th.pc.After) (h : st.parents.count (some t) = 0) : KidsOk st t th := by
  unfold KidsOk
  cases hpc : th.pc <;> rw [hpc] at hp <;> first | exact h | exact absurd trivial hp

/-- Goroutines go on while `Compile` has not begun to print. -/
theorem MainOk.busy {env : CEnv} {st st' : CSt} (h : MainOk env st) {th : Thread} (hth : th ∈ st.threads) (hb : th.pc ≠ .done)
    (hm : st'.main = st.main) (hc : st'.parents.count none = st.parents.count none) : MainOk env st' := by
  unfold MainOk at h ⊢
  rw [hm, hc]
  cases hp : st.main <;> rw [hp] at h
  · exact h
  · exact h
  · exact absurd (h.2.1 th hth) hb
  · exact absurd (h.2.1 th hth) hb

theorem InvTidy.local {env : CEnv} {st : CSt} (hI : InvTidy env st) {t : Nat} {th th1 : Thread} {sh : Shared}
    (hth : st.threads[t]? = some th) (hb : th.pc ≠ .done) (hg : Grows st { st with sh := sh, threads := st.threads.set t th1 })
    (hpar : th1.parent = th.parent)
    (hasts : ∀ i ss, (i, ss) ∈ sh.asts → ∃ b, (b, i) ∈ sh.sources ∧ FullRun env sh b ss)
    (houts : ∀ i ∈ sh.outputs, ∃ a, (a, i) ∈ sh.sources ∧ ToPrint env a)
    (hpc : PcTidy env { st with sh := sh, threads := st.threads.set t th1 } t th1 th1.pc)
    (hrepl : ReplTidy env { st with sh := sh, threads := st.threads.set t th1 } th1)
    (hkids : KidsOk { st with sh := sh, threads := st.threads.set t th1 } t th1)
    (herr : ∀ e ∈ sh.errors, FullErr env sh.parses e) (hfiles : sh.files = st.sh.files) :
    InvTidy env { st with sh := sh, threads := st.threads.set t th1 } := by
  have hmem := List.mem_of_getElem? hth
  have hps : CSt.parents { st with sh := sh, threads := st.threads.set t th1 } = st.parents := set_parents hth hpar
  refine ⟨hasts, houts, fun u x hx => ?_, fun x hx => ?_, fun u x hx => ?_, ?_, herr, fun a out h => ?_⟩
  · rcases getElem?_set_cases hx with ⟨rfl, rfl⟩ | ⟨_, hx⟩
    · exact hpc
    · exact (hI.pcs u x hx).mono hg hx rfl rfl rfl
  · rcases mem_set hx with hx | rfl
    · exact (hI.repls x hx).mono hg rfl rfl rfl
    · exact hrepl
  · rcases getElem?_set_cases hx with ⟨rfl, rfl⟩ | ⟨_, hx⟩
    · exact hkids
    · refine (hI.kids u x hx).keep (by rw [hps]) (fun q hq y hy hyp => ?_) rfl rfl
      rcases mem_set hy with hy | rfl
      · exact hq y hy hyp
      · exact absurd (hq th hmem (by rw [← hpar]; exact hyp)) hb
  · exact hI.main.busy hmem hb rfl (by rw [hps])
  · rw [show CSt.sh { st with sh := sh, threads := st.threads.set t th1 } = sh from rfl, hfiles] at h
    obtain ⟨h0, c, ss, log, k, h1, h2, h3, h4, h5⟩ := hI.files a out h
    refine ⟨h0, c, ss, log, k, h1, h2.mono hg.sh.parses, h3, Nat.le_trans h4 ?_, h5⟩
    obtain ⟨l, e⟩ := hg.sh.parses
    rw [e, List.count_append]
    omega

/-- Every iteration has its goroutine. -/
theorem exists_ordinal {α : Type} [BEq α] [LawfulBEq α] {l : List α} {q : α} {j : Nat} (h : j < l.count q) :
    ∃ t : Nat, l[t]? = some q ∧ (l.take t).count q = j := by
  induction l generalizing j with
  | nil => simp at h
  | cons x l ih =>
    by_cases hx : x = q
    · subst hx
      rw [List.count_cons_self] at h
      cases j with
      | zero => exact ⟨0, rfl, rfl⟩
      | succ j =>
        obtain ⟨t, h1, h2⟩ := ih (j := j) (by omega)
        exact ⟨t + 1, h1, by rw [List.take_succ_cons, List.count_cons_self, h2]⟩
    · rw [List.count_cons_of_ne hx] at h
      obtain ⟨t, h1, h2⟩ := ih h
      exact ⟨t + 1, h1, by rw [List.take_succ_cons, List.count_cons_of_ne hx, h2]⟩

theorem joined_done {st : CSt} {q : Option Nat} (h : st.joined q = true) : ∀ x ∈ st.threads, x.parent = q → x.pc = .done := by
  intro x hx hq
  unfold CSt.joined at h
  have := List.all_eq_true.1 h x hx
  rw [if_pos hq] at this
  split at this
  · assumption
  · cases this

theorem Own.asked {env : CEnv} {st : CSt} (hI1 : Inv1 env st) {t : Nat} {parent : Option Nat} {p : Bytes}
    (h : Own env st t parent p) : (parent = none ∧ p ∈ env.entries) ∨ ((∃ q, parent = some q) ∧ Imported env p) := by
  cases parent with
  | none => exact .inl ⟨rfl, List.mem_of_getElem? h⟩
  | some q =>
    obtain ⟨par, source, ⟨_, _, h3, id, lines, h4⟩, imp, h5, h6⟩ := h
    obtain ⟨p', p1, p2, p3⟩ := hI1.heap _ (List.mem_of_getElem? h3)
    exact .inr ⟨⟨q, rfl⟩, .imp p1 p2 p3 h4 (List.mem_of_getElem? h5) h6⟩

theorem Own.isAsked {env : CEnv} {st : CSt} (hI1 : Inv1 env st) {t : Nat} {parent : Option Nat} {p : Bytes}
    (h : Own env st t parent p) : Asked env p := by
  rcases h.asked hI1 with ⟨_, h⟩ | ⟨_, h⟩
  · exact .entry h
  · exact h.asked

/-- When all its goroutines have ended, something has become of every import. -/
theorem imports_settled {env : CEnv} {st : CSt} (hI : InvTidy env st) {t : Nat} {th : Thread} (hth : st.threads[t]? = some th)
    (hc : st.parents.count (some t) = th.ss.imports.length) (hj : st.joined (some t) = true) {source : Source}
    (hs : st.sh.heap[th.addr]? = some source) : ∀ imp ∈ th.ss.imports, ImportLoaded env st.sh source.path imp ∧
      (env.opts.importRules = .inline → (∃ kv ∈ th.repl, kv.1 = imp.rule) ∨ NoFile env imp.value (dirOf source.path)) := by
  intro imp him
  obtain ⟨j, hj1, hj2⟩ := List.getElem_of_mem him
  obtain ⟨u, h1, h2⟩ := exists_ordinal (l := st.parents) (q := some t) (j := j) (by rw [hc]; exact hj1)
  rw [List.getElem?_map] at h1
  obtain ⟨x, h3, h4⟩ := Option.map_eq_some_iff.1 h1
  have h5 := joined_done hj x (List.mem_of_getElem? h3) h4
  have h6 := hI.pcs u x h3
  rw [h5] at h6
  unfold PcTidy at h6
  rw [h4] at h6
  obtain ⟨par, source', ⟨b1, _, b3, _⟩, imp', b4, b5, b6⟩ := h6
  rw [hth] at b1; cases b1
  rw [hs] at b3; cases b3
  have : st.ordinal (some t) u = j := h2
  rw [this, List.getElem?_eq_getElem hj1, hj2] at b4; cases b4
  exact ⟨b5, b6⟩

theorem full_of_frame {env : CEnv} {st : CSt} (hI1 : Inv1 env st) (hI : InvTidy env st) {t : Nat} {th : Thread}
    (hth : st.threads[t]? = some th) (hc : st.parents.count (some t) = th.ss.imports.length) (hj : st.joined (some t) = true)
    (hf : FrameNum env st th) {source : Source} (hs : st.sh.heap[th.addr]? = some source) {ss : Stylesheet} {s : TSt}
    (ht : transform env.fo env.opts (if env.opts.importRules = .inline then some th.repl else none) env.fuel th.ss = .ok ss s) :
    Full env st.sh.parses source.path ss s.log := by
  obtain ⟨p, p1, p2, p3⟩ := hI1.heap _ (List.mem_of_getElem? hs)
  obtain ⟨source', id, lines, f1, f2, f3⟩ := hf
  rw [hs] at f1; cases f1
  have hr := hI.repls th (List.mem_of_getElem? hth)
  by_cases hinl : env.opts.importRules = .inline
  case neg =>
    exact .mk (fun _ => []) (fun _ => []) p1 p2 p3 f2 f3 (fun h => absurd h hinl) (fun h => absurd h hinl) (fun h => absurd h hinl) ht
  have hr' : ∀ kv ∈ th.repl, ∃ b log, Full env st.sh.parses b kv.2 log ∧ ∃ imp ∈ th.ss.imports, imp.rule = kv.1 ∧ ∃ rel,
      env.resolve imp.value (dirOf source.path) = some rel ∧ env.abs rel = some b := by
    intro kv hkv
    obtain ⟨s', h1, imp, h2, h3, rel, b, log, h4, h5, h6⟩ := hr hinl kv hkv
    rw [hs] at h1; cases h1
    exact ⟨b, log, h6, imp, h2, h3, rel, h4, h5⟩
  obtain ⟨fileOf, logOf, hfl⟩ := choose_two hr'
  exact .mk fileOf logOf p1 p2 p3 f2 f3 (fun _ kv hkv => (hfl kv hkv).2) (fun _ kv hkv => (hfl kv hkv).1)
    (fun h imp him => (imports_settled hI hth hc hj hs imp him).2 h) ht

theorem hasOutput_some {env : CEnv} {th : Thread} {q : Nat} (h : th.parent = some q) : hasOutput env th = env.follows := by
  unfold hasOutput CEnv.follows; rw [h]

theorem Loc.tidy {env : CEnv} {st : CSt} {t : Nat} {th : Thread} {sh : Shared} {pc : PC} (hI1 : Inv1 env st)
    (hI2 : Inv2 env True st) (hI : InvTidy env st) (hD : Distinct st.sh) (hth : st.threads[t]? = some th)
    (hne : ∀ p, th.parent = some p → p ≠ t)
    (hti : th.ReadsLoop env → st.loopVar th.parent = some (st.ordinal th.parent t)) (h : Loc env st t th sh pc) :
    InvTidy env { st with sh := sh, threads := st.threads.set t { th with pc := pc } } := by
  have hact : Act env st t th { st with sh := sh, threads := st.threads.set t { th with pc := pc } } := .loc h
  have hg : Grows st { st with sh := sh, threads := st.threads.set t { th with pc := pc } } :=
    ⟨hact.stLe hth, hact.grows, hact.thGrows hth hne⟩
  have hb := hact.busy
  have hmem := List.mem_of_getElem? hth
  have hpcth := hI.pcs t th hth
  have hk := hI.kids t th hth
  have hps : CSt.parents { st with sh := sh, threads := st.threads.set t { th with pc := pc } } = st.parents := set_parents hth rfl
  have hr : ReplTidy env { st with sh := sh, threads := st.threads.set t { th with pc := pc } } { th with pc := pc } :=
    ReplTidy.mono (th := th) hg rfl rfl rfl (hI.repls th hmem)
  have hasts : ∀ i ss, (i, ss) ∈ st.sh.asts → ∃ b, (b, i) ∈ sh.sources ∧ FullRun env sh b ss := fun i ss h => by
    obtain ⟨b, h1, h2⟩ := hI.asts i ss h
    exact ⟨b, hg.sh.sources _ h1, h2.mono hg.sh⟩
  have houts : ∀ i ∈ st.sh.outputs, ∃ a, (a, i) ∈ sh.sources ∧ ToPrint env a := fun i h => by
    obtain ⟨b, h1, h2⟩ := hI.outs i h
    exact ⟨b, hg.sh.sources _ h1, h2⟩
  have herr : ∀ e ∈ st.sh.errors, FullErr env sh.parses e := fun e h => (hI.errors e h).mono hg.sh.parses
  have hadd : ∀ {e : CompErr}, FullErr env sh.parses e → ∀ e' ∈ st.sh.errors ++ [e], FullErr env sh.parses e' := by
    intro e he e' hm
    rcases List.mem_append.1 hm with hm | hm
    · exact herr _ hm
    · rw [List.mem_singleton.1 hm]; exact he
  have key : ∀ {pc' : PC}, PcTidy env st t th pc' → PcTidy env
      { st with sh := sh, threads := st.threads.set t { th with pc := pc } } t { th with pc := pc } pc' :=
    fun h => h.mono hg hth rfl rfl rfl
  -- how many goroutines it has started
  have k0 : ¬ th.pc.After → ¬ pc.After → KidsOk { st with sh := sh, threads := st.threads.set t { th with pc := pc } } t { th with pc := pc } :=
    fun h1 h2 => KidsOk.of_count h2 (by rw [hps]; exact hk.count h1)
  have k1 : ¬ th.pc.After → (∀ x, x.parent = some t → x ∈ st.threads.set t { th with pc := pc } → x.pc = .done) := fun h1 x hx hm => by
    have : 0 < st.parents.count (some t) := by
      rw [← hps]; exact List.count_pos_iff.2 (List.mem_map.2 ⟨x, hm, hx⟩)
    rw [hk.count h1] at this; omega
  have k2 : (∀ x ∈ st.threads, x.parent = some t → x.pc = .done) →
      (∀ x, x.parent = some t → x ∈ st.threads.set t { th with pc := pc } → x.pc = .done) := fun h x hx hm => by
    rcases mem_set hm with hm | rfl
    · exact h x hm hx
    · exact absurd (h th hmem hx) hb
  have nil : ∀ {b : Bool} {i : Nat}, ¬ PC.After (if b = true then .outBegin i else .cached i) := fun {b _} => by cases b <;> exact fun h => h
  cases h with
  | startEntry hpc hp he =>
    rw [hpc] at k0
    refine hI.local hth hb hg rfl hasts houts (key ?_) hr (k0 id id) herr rfl
    have := hti (by unfold Thread.ReadsLoop; simp [hpc, *])
    rw [hp] at this
    unfold PcTidy; rw [hp]
    unfold Own
    unfold CSt.loopVar at this
    injection this with h
    dsimp only
    rw [← h]; exact he
  | startFail hpc hp hpar hi hs hr' =>
    rename_i p par imp source
    have hv := hti (by unfold Thread.ReadsLoop; simp [hpc, *])
    rw [hp] at hv
    unfold CSt.loopVar at hv
    dsimp only at hv
    rw [hpar] at hv
    injection hv with hv
    obtain ⟨par', source', ha⟩ := hI2.parents th hmem _ hp
    have ha' := ha
    obtain ⟨a1, _, a3, id', lines, a4⟩ := ha'
    rw [hpar] at a1; cases a1
    rw [hs] at a3; cases a3
    obtain ⟨p', p1, p2, p3⟩ := hI1.heap _ (List.mem_of_getElem? hs)
    rw [hpc] at k1
    refine hI.local hth hb hg rfl hasts houts ?_ hr (fun x hx hm => k1 id x hm hx)
      (hadd (.resolve p1 p2 p3 a4 (List.mem_of_getElem? hi) hr')) rfl
    obtain ⟨par2, source2, b1, b2, b3, _⟩ := ha.grow hg
    refine PcTidy.imported hp ⟨par2, source2, b1, imp, by rw [b2, hg.th.ordinal hth, ← hv]; exact hi, .inl ⟨by rw [b3]; exact hr', ?_⟩, fun _ => .inr (.inl (by rw [b3]; exact hr'))⟩
    rw [b3]
    exact List.mem_append_right _ (List.mem_singleton.2 rfl)
  | startImport hpc hp hpar hi hs hr' =>
    rename_i p par imp source rel
    have hv := hti (by unfold Thread.ReadsLoop; simp [hpc, *])
    rw [hp] at hv
    unfold CSt.loopVar at hv
    dsimp only at hv
    rw [hpar] at hv
    injection hv with hv
    obtain ⟨par', source', ha⟩ := hI2.parents th hmem _ hp
    have ha' := ha
    obtain ⟨a1, _, a3, _⟩ := ha'
    rw [hpar] at a1; cases a1
    rw [hs] at a3; cases a3
    rw [hpc] at k0
    refine hI.local hth hb hg rfl hasts houts (key ?_) hr (k0 id id) herr rfl
    unfold PcTidy; rw [hp]
    exact ⟨par, source, ha, imp, by rw [← hv]; exact hi, hr'⟩
  | noAbs hpc ha =>
    rw [hpc] at hpcth k1
    have hp : Own env st t th.parent _ := hpcth
    refine hI.local hth hb hg rfl hasts houts ?_ hr (fun x hx hm => k1 id x hm hx) (hadd (.fails (hp.isAsked hI1) (.abs ha))) rfl
    exact ⟨_, hp.mono hg hth, _, List.mem_append_right _ (List.mem_singleton.2 rfl), .abs ha⟩
  | known hpc ha hl =>
    rename_i path abs i
    rw [hpc] at hpcth k0
    refine hI.local hth hb hg rfl hasts houts (key ?_) hr (k0 id nil) herr rfl
    have hn : OwnNum env st t th.parent i := ⟨_, _, hpcth, ha, mem_of_lookupMap hl⟩
    cases ho : hasOutput env th with
    | true => exact ⟨hn, ho⟩
    | false => exact ⟨hn, fun h => by rw [ho] at h; cases h⟩
  | unknown hpc ha hl =>
    rw [hpc] at hpcth k0
    exact hI.local hth hb hg rfl hasts houts (key (pc' := .read _ _) ⟨hpcth, ha⟩) hr (k0 id id) herr rfl
  | noRead hpc hr' =>
    rw [hpc] at hpcth k1
    obtain ⟨hp, ha⟩ := hpcth
    refine hI.local hth hb hg rfl hasts houts ?_ hr (fun x hx hm => k1 id x hm hx) (hadd (.fails (hp.isAsked hI1) (.read ha hr'))) rfl
    exact ⟨_, hp.mono hg hth, _, List.mem_append_right _ (List.mem_singleton.2 rfl), .read ha hr'⟩
  | read hpc hr' =>
    rw [hpc] at hpcth k0
    exact hI.local hth hb hg rfl hasts houts (key (pc' := .alloc _ _) ⟨_, hpcth⟩) hr (k0 id id) herr rfl
  | alloc hpc =>
    rw [hpc] at hpcth k0
    obtain ⟨p, h1, h2⟩ := hpcth
    exact hI.local hth hb hg rfl hasts houts ⟨p, h1.mono hg hth, h2, List.mem_cons_self ..⟩ hr (k0 id id) herr rfl
  | store hpc =>
    rw [hpc] at hpcth k0
    obtain ⟨p, h1, h2, h3⟩ := hpcth
    exact hI.local hth hb hg rfl hasts houts (key (pc' := .incRead _) ⟨p, _, h1, h2, h3⟩) hr (k0 id id) herr rfl
  | incRead hpc =>
    rw [hpc] at hpcth k0
    exact hI.local hth hb hg rfl hasts houts (key (pc' := .incWrite _ _) hpcth) hr (k0 id id) herr rfl
  | incWrite hpc =>
    rename_i i v
    rw [hpc] at hpcth k0
    refine hI.local hth hb hg rfl hasts houts (key ?_) hr (k0 id nil) herr rfl
    have hn : OwnNum env st t th.parent i := hpcth
    cases ho : hasOutput env th with
    | true => exact ⟨hn, ho⟩
    | false => exact ⟨hn, fun h => by rw [ho] at h; cases h⟩
  | outBegin hpc hw =>
    rw [hpc] at hpcth k0
    exact hI.local hth hb hg rfl hasts houts (key (pc' := .outEnd _) hpcth) hr (k0 id id) herr rfl
  | outEnd hpc =>
    rename_i i
    rw [hpc] at hpcth k0
    obtain ⟨h1, ho⟩ := hpcth
    refine hI.local hth hb hg rfl hasts (fun j hj => ?_) ⟨h1.mono hg hth, fun _ => List.mem_cons_self ..⟩ hr (k0 id id) herr rfl
    rcases List.mem_cons.1 hj with rfl | hj
    · obtain ⟨p, a, h2, h3, h4⟩ := h1
      refine ⟨a, h4, ?_⟩
      rcases h2.asked hI1 with ⟨_, h5⟩ | ⟨⟨q, h5⟩, h6⟩
      · exact .inl ⟨p, h5, h3⟩
      · rw [hasOutput_some h5] at ho
        exact .inr ⟨of_decide_eq_true ho, p, h6, h3⟩
    · exact houts j hj
  | hit hpc hl =>
    rename_i i ss
    rw [hpc] at hpcth k1
    obtain ⟨⟨p, a, c1, c2, c3⟩, ho⟩ := hpcth
    obtain ⟨b, a1, log, a2, _⟩ := hI.asts _ _ (mem_of_lookupMap hl)
    refine hI.local hth hb hg rfl hasts houts (key (pc' := .deliver (some _)) ⟨p, a, log, c1, c2, .inr ?_, ?_⟩) hr (fun x hx hm => k1 id x hm hx) herr rfl
    · exact ⟨a, i, ss, c2, c3, mem_of_lookupMap hl, ho⟩
    · rw [hD.eq c3 a1]; exact a2
  | miss hpc hl =>
    rw [hpc] at hpcth k0
    exact hI.local hth hb hg rfl hasts houts (key (pc' := .source _) hpcth) hr (k0 id id) herr rfl
  | source hpc hl =>
    rw [hpc] at hpcth k0
    exact hI.local hth hb hg rfl hasts houts (key (pc' := .parse _ _) hpcth) hr (k0 id id) herr rfl
  | parseFail hpc hs hp =>
    rename_i i addr source e lines
    have h2 := hI2.pcs th hmem
    rw [hpc] at hpcth k1 h2
    obtain ⟨⟨p, a, c1, c2, c3⟩, ho⟩ := hpcth
    obtain ⟨-, h3⟩ := h2
    obtain ⟨s', d1, d2⟩ := hI2.byIndex _ _ h3
    rw [hs] at d1; cases d1
    cases hD.eq c3 d2
    obtain ⟨p', p1, p2, p3⟩ := hI1.heap _ (List.mem_of_getElem? hs)
    have hf : FailsWith env p (.parse source.path e) := .parse c2 p3 (parse_error_id hp)
    refine hI.local hth hb hg rfl hasts houts ?_ hr (fun x hx hm => k1 id x hm hx) (hadd (.fails (c1.isAsked hI1) hf)) rfl
    exact ⟨p, c1.mono hg hth, _, List.mem_append_right _ (List.mem_singleton.2 rfl), hf⟩
  | spawned hpc hk' =>
    rw [hpc] at hpcth
    unfold KidsOk at hk
    rw [hpc] at hk
    refine hI.local hth hb hg rfl hasts houts (key (pc' := .wait _) hpcth) hr ?_ herr rfl
    show List.count _ _ = _
    rw [hps]
    dsimp only at hk ⊢
    omega
  | transform hpc hj hs ht =>
    rename_i i source ss s
    have h2 := hI2.pcs th hmem
    rw [hpc] at hpcth h2
    unfold KidsOk at hk
    rw [hpc] at hk
    obtain ⟨c1, c2, c3⟩ := hpcth
    have hm := full_of_frame hI1 hI hth hk hj c3 hs ht
    refine hI.local hth hb hg rfl hasts houts ?_ hr (fun x hx hm => k2 (joined_done hj) x hm hx) (fun e he => ?_) rfl
    · obtain ⟨d1, d2⟩ := hI2.byIndex _ _ h2.2.1
      rw [hs] at d2
      obtain ⟨d2, d3⟩ := d2
      cases d2
      refine ⟨c1.mono hg hth, c2.mono hg rfl, source.path, d3, s.log, hm, fun r hr => ?_, ?_⟩
      · exact List.mem_append_right _ (List.mem_map_of_mem hr)
      · obtain ⟨p', p1, p2, p3⟩ := hI1.heap _ (List.mem_of_getElem? hs)
        obtain ⟨source', id', lines, f1, f2, _⟩ := c3
        rw [hs] at f1; cases f1
        exact ⟨_, id', _, lines, p3, f2, fun imp him => (imports_settled hI hth hk hj hs imp him).1.mono hg.sh⟩
    · rcases List.mem_append.1 he with he | he
      · exact herr e he
      · obtain ⟨r, hr1, rfl⟩ := List.mem_map.1 he
        exact .transform hm hr1
  | cache hpc =>
    rename_i i ss
    rw [hpc] at hpcth
    unfold KidsOk at hk
    rw [hpc] at hk
    obtain ⟨⟨p, a, c1, c2, c3⟩, ho, b, c4, c5⟩ := hpcth
    cases hD.eq c3 c4
    refine hI.local hth hb hg rfl (fun j ss' hj => ?_) houts ?_ hr (fun x hx hm => k2 hk x hm hx) herr rfl
    · rcases List.mem_cons.1 hj with hj | hj
      · cases hj; exact ⟨a, c4, c5.mono hg.sh⟩
      · exact hasts _ _ hj
    · obtain ⟨log, c6, _⟩ := c5
      exact ⟨p, a, log, c1.mono hg hth, c2, .inr ⟨a, i, ss, c2, c3, List.mem_cons_self .., ho⟩, c6⟩
  | finish hpc h =>
    rename_i res
    unfold KidsOk at hk
    rw [hpc] at hk hpcth
    refine hI.local hth hb hg rfl hasts houts (key (pc' := .done) ?_) hr (fun x hx hm => k2 hk x hm hx) herr rfl
    unfold PcTidy
    cases hq : th.parent with
    | none =>
      cases res with
      | none =>
        obtain ⟨p, h1, h2⟩ := hpcth
        rw [hq] at h1
        exact ⟨p, h1, .inl h2⟩
      | some ss =>
        obtain ⟨p, b, log, h1, h2, h3, _⟩ := hpcth
        rw [hq] at h1
        have : hasOutput env th = true := by unfold hasOutput; rw [hq]
        rw [this] at h3
        exact ⟨p, h1, h3⟩
    | some q =>
      rcases h with h | rfl
      · rw [hq] at h; cases h
      · obtain ⟨p, h1, e, h2, h3⟩ := hpcth
        rw [hq] at h1
        obtain ⟨par, source, h4, imp, h5, h6⟩ := h1
        exact ⟨par, source, h4, imp, h5, .inr ⟨p, h6, .inl ⟨e, h2, h3⟩⟩, fun _ => .inr (.inr ⟨p, e, h6, h3⟩)⟩

theorem Act.tidy {env : CEnv} {st st' : CSt} {t : Nat} {th : Thread} (hI1 : Inv1 env st)
    (hI2 : Inv2 env True st) (hI : InvTidy env st) (hD : Distinct st.sh) (hth : st.threads[t]? = some th)
    (hne : ∀ p, th.parent = some p → p < t)
    (hti : th.ReadsLoop env → st.loopVar th.parent = some (st.ordinal th.parent t)) (h : Act env st t th st') :
    InvTidy env st' := by
  have hne' : ∀ p, th.parent = some p → p ≠ t := fun p hp => Nat.ne_of_lt (hne p hp)
  have hg : Grows st st' := ⟨h.stLe hth, h.grows, h.thGrows hth hne'⟩
  have hb := h.busy
  have hmem := List.mem_of_getElem? hth
  have hpcth := hI.pcs t th hth
  have hk := hI.kids t th hth
  cases h with
  | loc h => exact h.tidy hI1 hI2 hI hD hth hne' hti
  | parse hpc hs hp =>
    rename_i i addr source ss lines
    have h2 := hI2.pcs th hmem
    rw [hpc] at hpcth h2
    obtain ⟨⟨p, a, c1, c2, c3⟩, ho⟩ := hpcth
    have hnil := (hI2.repls th hmem).1 (by rw [hpc]; exact fun h => h)
    have hi := (List.getElem?_eq_some_iff.1 hs).1
    refine hI.local hth hb hg rfl (fun i ss h => ?_) (fun i h => ?_) ?_ (fun _ kv hkv => ?_) ?_
      (fun e he => (hI.errors e he).mono hg.sh.parses) rfl
    · obtain ⟨b, h1, h2⟩ := hI.asts i ss h
      exact ⟨b, h1, h2.mono hg.sh⟩
    · exact hI.outs i h
    · refine ⟨OwnNum.mono hg hth ⟨p, a, c1, c2, c3⟩, OutNum.mono (th := th) hg rfl ho,
        { source with lines := source.lines ++ lines }, _, _, List.getElem?_set_self hi, hp, ?_⟩
      show (source.path :: st.sh.parses).reverse[st.sh.parses.length]? = _
      rw [List.reverse_cons, List.getElem?_append_right (by simp)]
      simp
    · rw [show Thread.repl { th with pc := .spawn i 0, addr := addr, ss := ss } = th.repl from rfl, hnil] at hkv
      cases hkv
    · refine ⟨?_, Nat.zero_le _⟩
      have := set_parents (th1 := { th with pc := .spawn i 0, addr := addr, ss := ss }) hth rfl
      show List.count _ (List.map _ _) = 0
      rw [this]
      exact hk.count (by rw [hpc]; exact id)
  | spawn hpc hlt =>
    rename_i i k
    rw [hpc] at hpcth
    unfold KidsOk at hk
    rw [hpc] at hk
    have hps : CSt.parents { st with threads := st.threads.set t { th with pc := .spawn i (k + 1), imp := k } ++ [Thread.new (some t)] } =
        st.parents ++ [some t] := by
      have := set_parents (th1 := { th with pc := .spawn i (k + 1), imp := k }) hth rfl
      show List.map _ (_ ++ _) = _
      rw [List.map_append, this]; rfl
    have hlen := (List.getElem?_eq_some_iff.1 hth).1
    refine ⟨fun i ss h => ?_, hI.outs, fun u x hx => ?_, fun x hx => ?_, fun u x hx => ?_, ?_, hI.errors, fun a out h => ?_⟩
    · obtain ⟨b, h1, h2⟩ := hI.asts i ss h
      exact ⟨b, h1, h2.mono hg.sh⟩
    · rcases Nat.lt_or_ge u st.threads.length with hu | hu
      · rw [List.getElem?_append_left (by simpa using hu)] at hx
        rcases getElem?_set_cases hx with ⟨rfl, rfl⟩ | ⟨_, hx⟩
        · exact PcTidy.mono (pc := .spawn i (k + 1)) hg hth rfl rfl rfl hpcth
        · exact (hI.pcs u x hx).mono hg hx rfl rfl rfl
      · rw [List.getElem?_append_right (by simpa using hu)] at hx
        rw [List.mem_singleton.1 (List.mem_of_getElem? hx)]
        trivial
    · rcases List.mem_append.1 hx with hx | hx
      · rcases mem_set hx with hx | rfl
        · exact (hI.repls x hx).mono hg rfl rfl rfl
        · exact ReplTidy.mono (th := th) hg rfl rfl rfl (hI.repls th hmem)
      · rw [List.mem_singleton.1 hx]
        exact fun _ kv hkv => by cases hkv
    · rcases Nat.lt_or_ge u st.threads.length with hu | hu
      · rw [List.getElem?_append_left (by simpa using hu)] at hx
        rcases getElem?_set_cases hx with ⟨rfl, rfl⟩ | ⟨htu, hx⟩
        · refine ⟨?_, hlt⟩
          rw [hps, List.count_append, hk.1]
          simp
        · have hku := hI.kids u x hx
          have hc : (st.parents ++ [some t]).count (some u) = st.parents.count (some u) := by
            rw [List.count_append]; simp [htu]
          unfold KidsOk at hku ⊢
          rw [hps, hc]
          have hd : (∀ y ∈ st.threads, y.parent = some u → y.pc = .done) →
              ∀ y ∈ st.threads.set t { th with pc := .spawn i (k + 1), imp := k } ++ [Thread.new (some t)], y.parent = some u → y.pc = .done := by
            intro hq y hy hyp
            rcases List.mem_append.1 hy with hy | hy
            · rcases mem_set hy with hy | rfl
              · exact hq y hy hyp
              · exact absurd (hq th hmem hyp) hb
            · rw [List.mem_singleton.1 hy] at hyp
              injection hyp with hyp
              exact absurd hyp htu
          cases hp : x.pc <;> rw [hp] at hku <;> first | exact hku | exact hd hku
      · rw [List.getElem?_append_right (by simpa using hu)] at hx
        rw [List.mem_singleton.1 (List.mem_of_getElem? hx)]
        refine KidsOk.of_count id ?_
        rw [hps, List.count_append]
        have hu' : t ≠ u := by omega
        have h0 : st.parents.count (some u) = 0 := by
          rw [List.count_eq_zero]
          intro hm
          obtain ⟨y, hy, hyp⟩ := List.mem_map.1 hm
          obtain ⟨par, source, ⟨h1, _⟩⟩ := hI2.parents y hy u hyp
          have := (List.getElem?_eq_some_iff.1 h1).1
          omega
        rw [h0]
        simp [hu']
    · refine hI.main.busy hmem hb rfl ?_
      rw [hps, List.count_append]; simp
    · exact hI.files a out h
  | deliver hpc hp hpar hi =>
    rename_i p par imp ss
    have hv : env.opts.importRules = .inline → par.imp = st.ordinal (some p) t := by
      intro hinl
      have hv := hti (by unfold Thread.ReadsLoop; simp [hpc, hp, hinl])
      rw [hp] at hv
      unfold CSt.loopVar at hv
      dsimp only at hv
      rw [hpar] at hv
      injection hv with hv
    rw [hpc] at hpcth
    obtain ⟨pth, b, log, d1, d2, d3, d4⟩ := hpcth
    rw [hasOutput_some hp] at d3
    rw [hp] at d1
    obtain ⟨par', source, dp, imp', d5, d6⟩ := d1
    have dp' := dp
    obtain ⟨e1, e2, e3, _⟩ := dp'
    rw [hpar] at e1; cases e1
    have himp : env.opts.importRules = .inline → imp' = imp := by
      intro hinl
      rw [← hv hinl, hi] at d5
      exact (Option.some.inj d5).symm
    have hpmem := List.mem_of_getElem? hpar
    have hne1 := hne' p hp
    have hps : CSt.parents { st with threads := (st.threads.set p { par with repl := (imp.rule, ss) :: par.repl }).set t { th with pc := .done } } =
        st.parents := by
      have hy : (st.threads.set p { par with repl := (imp.rule, ss) :: par.repl })[t]? = some th := by
        rw [List.getElem?_set_ne hne1]; exact hth
      have q1 := set_parents (th1 := { th with pc := .done }) hy rfl
      exact q1.trans (set_parents hpar rfl)
    have hd : ∀ q, (∀ x ∈ st.threads, x.parent = some q → x.pc = .done) →
        ∀ x ∈ (st.threads.set p { par with repl := (imp.rule, ss) :: par.repl }).set t { th with pc := .done }, x.parent = some q → x.pc = .done := by
      intro q hq x hx hxp
      rcases mem_set hx with hx | rfl
      · rcases mem_set hx with hx | rfl
        · exact hq x hx hxp
        · exact hq par hpmem hxp
      · rfl
    have hcases : ∀ {u : Nat} {x : Thread}, ((st.threads.set p { par with repl := (imp.rule, ss) :: par.repl }).set t { th with pc := .done })[u]? = some x →
        (u = t ∧ x = { th with pc := .done }) ∨ (u = p ∧ x = { par with repl := (imp.rule, ss) :: par.repl }) ∨ st.threads[u]? = some x := by
      intro u x hx
      rcases getElem?_set_cases hx with ⟨h1, h2⟩ | ⟨_, hx⟩
      · exact .inl ⟨h1.symm, h2⟩
      · rcases getElem?_set_cases hx with ⟨h1, h2⟩ | ⟨_, hx⟩
        · exact .inr (.inl ⟨h1.symm, h2⟩)
        · exact .inr (.inr hx)
    refine ⟨fun i ss h => ?_, hI.outs, fun u x hx => ?_, fun x hx => ?_, fun u x hx => ?_, ?_, hI.errors, fun a out h => ?_⟩
    · obtain ⟨b, h1, h2⟩ := hI.asts i ss h
      exact ⟨b, h1, h2.mono hg.sh⟩
    · rcases hcases hx with ⟨rfl, rfl⟩ | ⟨rfl, rfl⟩ | hx
      · obtain ⟨par2, source2, b1, b2, b3, _⟩ := dp.grow hg
        refine PcTidy.imported hp ⟨par2, source2, b1, imp', by rw [b2, hg.th.ordinal hth]; exact d5,
          .inr ⟨pth, by rw [b3]; exact d6, d3.mono hg.sh⟩, fun hinl => .inl ⟨(imp.rule, ss), ?_, by rw [himp hinl]⟩⟩
        have hb1 := b1.1
        dsimp only at hb1
        rw [List.getElem?_set_ne hne1.symm, List.getElem?_set_self (List.getElem?_eq_some_iff.1 hpar).1] at hb1
        cases hb1
        exact List.mem_cons_self ..
      · exact PcTidy.mono (th := par) hg hpar rfl rfl rfl (hI.pcs _ _ hpar)
      · exact (hI.pcs u x hx).mono hg hx rfl rfl rfl
    · rcases mem_set hx with hx | rfl
      · rcases mem_set hx with hx | rfl
        · exact (hI.repls x hx).mono hg rfl rfl rfl
        · intro hinl kv hkv
          rcases List.mem_cons.1 hkv with rfl | hkv
          · exact ⟨source, e3, imp, List.mem_of_getElem? hi, rfl, pth, b, log, by rw [← himp hinl]; exact d6, d2, d4⟩
          · exact hI.repls par hpmem hinl kv hkv
      · exact ReplTidy.mono (th := th) hg rfl rfl rfl (hI.repls th hmem)
    · rcases hcases hx with ⟨rfl, rfl⟩ | ⟨rfl, rfl⟩ | hx
      · unfold KidsOk at hk
        rw [hpc] at hk
        exact hd _ hk
      · exact KidsOk.keep (th := par) (by rw [hps]) hd rfl rfl (hI.kids _ _ hpar)
      · exact (hI.kids u x hx).keep (by rw [hps]) hd rfl rfl
    · exact hI.main.busy hmem hb rfl (by rw [hps])
    · exact hI.files a out h

/-- When the goroutines of `Compile` have ended, all have. -/
theorem all_done {env : CEnv} {st : CSt} (hI : InvTidy env st) (hlt : ∀ (t p : Nat), st.parents[t]? = some (some p) → p < t)
    (hj : st.joined none = true) : ∀ (t : Nat) (x : Thread), st.threads[t]? = some x → x.pc = .done := by
  intro t
  induction t using Nat.strongRecOn with
  | ind t ih =>
    intro x hx
    cases hp : x.parent with
    | none => exact joined_done hj x (List.mem_of_getElem? hx) hp
    | some p =>
      have hpt := hlt t p (by rw [parents_get hx, hp])
      have hlen := (List.getElem?_eq_some_iff.1 hx).1
      have hy := List.getElem?_eq_getElem (l := st.threads) (i := p) (by omega)
      have hd := ih p hpt _ hy
      have hk := hI.kids p _ hy
      unfold KidsOk at hk
      rw [hd] at hk
      exact hk x (List.mem_of_getElem? hx) hp

theorem mem_lookupMap {α β : Type} [DecidableEq α] {m : List (α × β)} {k : α} {v : β} (h : (k, v) ∈ m) : lookupMap m k ≠ none := by
  induction m with
  | nil => cases h
  | cons kv m ih =>
    obtain ⟨k', v'⟩ := kv
    unfold lookupMap
    split
    · exact fun h => by cases h
    · rename_i hne
      rcases List.mem_cons.1 h with h | h
      · cases h; exact absurd rfl hne
      · exact ih h

theorem PrintedNum.files {sh : Shared} {i : Nat} (f : Bytes × Bytes) (h : PrintedNum sh i) : PrintedNum { sh with files := f :: sh.files } i := by
  rcases h with ⟨a, h1, h2 | h2⟩ | h
  · obtain ⟨out, h2⟩ := h2; exact .inl ⟨a, h1, .inl ⟨out, List.mem_cons_of_mem _ h2⟩⟩
  · exact .inl ⟨a, h1, .inr h2⟩
  · exact .inr h

theorem PrintedNum.addError {sh : Shared} {i : Nat} (e : CompErr) (h : PrintedNum sh i) : PrintedNum (sh.addError e) i := by
  rcases h with ⟨a, h1, h2 | h2⟩ | h
  · exact .inl ⟨a, h1, .inl h2⟩
  · exact .inl ⟨a, h1, .inr (List.mem_append_left _ h2)⟩
  · exact .inr h

theorem MainAct.tidy {env : CEnv} {st st' : CSt} (hI1 : Inv1 env st) (hP : InvP env st) (hT : HeapT env st.sh) (hI2 : Inv2 env True st)
    (hI : InvTidy env st) (hD : Distinct st.sh) (hN : InvN st) (hlt : ∀ (t p : Nat), st.parents[t]? = some (some p) → p < t)
    (h : MainAct env st st') : InvTidy env st' := by
  have hg : Grows st st' := ⟨h.stLe, h.grows, h.thGrows⟩
  have hasts : ∀ i ss, (i, ss) ∈ st.sh.asts → ∃ b, (b, i) ∈ st'.sh.sources ∧ FullRun env st'.sh b ss := fun i ss h => by
    obtain ⟨b, h1, h2⟩ := hI.asts i ss h
    exact ⟨b, hg.sh.sources _ h1, h2.mono hg.sh⟩
  have hpcs : ∀ (t : Nat) (th : Thread), st.threads[t]? = some th → PcTidy env st' t th th.pc := fun t th hx =>
    (hI.pcs t th hx).mono hg hx rfl rfl rfl
  have hrepls : ∀ th ∈ st.threads, ReplTidy env st' th := fun th hx => (hI.repls th hx).mono hg rfl rfl rfl
  have hmain := hI.main
  have hsame : ∀ (sh : Shared) (m : MainPC) (e : Nat) (t : Nat) (th : Thread), st.threads[t]? = some th → KidsOk ⟨sh, st.threads, m, e⟩ t th :=
    fun sh m e t th hx => (hI.kids t th hx).keep rfl (fun _ h => h) rfl rfl
  -- what is printed
  have hpr : ∀ {i addr source ss}, i ∈ st.sh.outputs → lookupMap st.sh.byIndex i = some addr → st.sh.heap[addr]? = some source →
      lookupMap st.sh.asts i = some ss → (source.path, i) ∈ st.sh.sources ∧ ToPrint env source.path ∧ source.lines.head? = some 0 ∧
        env.read source.path = some source.content ∧ ∃ log k, Full env st.sh.parses source.path ss log ∧ 1 ≤ k ∧
          k ≤ st.sh.parses.count source.path ∧ source.lines = tables env source.content k := by
    intro i addr source ss ho ha hs hss
    obtain ⟨s', b1, b2⟩ := hI2.byIndex _ _ (mem_of_lookupMap ha)
    rw [hs] at b1; cases b1
    obtain ⟨a, o1, o2⟩ := hI.outs i ho
    cases hD.eq b2 o1
    obtain ⟨b, f1, log, f2, _⟩ := hI.asts _ _ (mem_of_lookupMap hss)
    cases hD.eq b2 f1
    obtain ⟨addr', s', log', a1, a2, a3, a4, a5⟩ := hI2.asts _ _ (mem_of_lookupMap hss)
    cases hN.eq hD (mem_of_lookupMap ha) a1
    rw [hs] at a2; cases a2
    obtain ⟨p, p1, p2, p3⟩ := hI1.heap _ (List.mem_of_getElem? hs)
    obtain ⟨k, k1, k2⟩ := hT _ (List.mem_of_getElem? hs)
    refine ⟨b2, o2, (hP.lines _ (List.mem_of_getElem? hs)).resolve_left a3, p3, log, k, f2, ?_, k1, k2⟩
    cases k with
    | zero => exact absurd k2 a3
    | succ k => omega
  unfold MainOk at hmain
  cases h with
  | spawn hm hk =>
    rename_i k
    rw [hm] at hmain
    have hps : CSt.parents { st with main := .spawn (k + 1), e := k, threads := st.threads ++ [Thread.new none] } = st.parents ++ [none] := by
      show List.map _ (_ ++ _) = _
      rw [List.map_append]; rfl
    refine ⟨hasts, hI.outs, fun u x hx => ?_, fun x hx => ?_, fun u x hx => ?_, ?_, hI.errors, hI.files⟩
    · rcases Nat.lt_or_ge u st.threads.length with hu | hu
      · rw [List.getElem?_append_left hu] at hx
        exact hpcs u x hx
      · rw [List.getElem?_append_right hu] at hx
        rw [List.mem_singleton.1 (List.mem_of_getElem? hx)]
        trivial
    · rcases List.mem_append.1 hx with hx | hx
      · exact hrepls x hx
      · rw [List.mem_singleton.1 hx]
        exact fun _ kv hkv => by cases hkv
    · rcases Nat.lt_or_ge u st.threads.length with hu | hu
      · rw [List.getElem?_append_left hu] at hx
        refine (hI.kids u x hx).keep (by rw [hps, List.count_append]; simp) (fun q hq y hy hyp => ?_) rfl rfl
        rcases List.mem_append.1 hy with hy | hy
        · exact hq y hy hyp
        · rw [List.mem_singleton.1 hy] at hyp; cases hyp
      · rw [List.getElem?_append_right hu] at hx
        rw [List.mem_singleton.1 (List.mem_of_getElem? hx)]
        refine KidsOk.of_count id ?_
        rw [hps, List.count_append]
        have h0 : st.parents.count (some u) = 0 := by
          rw [List.count_eq_zero]
          intro hm
          obtain ⟨y, hy, hyp⟩ := List.mem_map.1 hm
          obtain ⟨par, source, ⟨h1, _⟩⟩ := hI2.parents y hy u hyp
          have := (List.getElem?_eq_some_iff.1 h1).1
          omega
        rw [h0]
        simp
    · refine ⟨?_, hk⟩
      rw [hps, List.count_append, hmain.1]
      simp
  | spawned hm hk =>
    rw [hm] at hmain
    refine ⟨hasts, hI.outs, hpcs, hrepls, fun u x hx => hsame _ _ _ u x hx, ?_, hI.errors, hI.files⟩
    have h1 : st.parents.count none = env.entries.length := by
      dsimp only at hmain
      omega
    exact h1
  | wait hm hj =>
    rw [hm] at hmain
    refine ⟨hasts, hI.outs, hpcs, hrepls, fun u x hx => hsame _ _ _ u x hx, ⟨hmain, fun x hx => ?_, ?_, fun i hi => ?_⟩, hI.errors, hI.files⟩
    · obtain ⟨t, ht, rfl⟩ := List.getElem_of_mem hx
      exact all_done hI hlt hj t _ (List.getElem?_eq_getElem ht)
    · exact fun i hi => List.mem_eraseDups.1 hi
    · exact .inl (List.mem_eraseDups.2 hi)
  | finish hm =>
    rw [hm] at hmain
    obtain ⟨h1, h2, _, h3⟩ := hmain
    exact ⟨hasts, hI.outs, hpcs, hrepls, fun u x hx => hsame _ _ _ u x hx,
      ⟨h1, h2, fun i hi => (h3 i hi).resolve_left (by simp)⟩, hI.errors, hI.files⟩
  | print hm hi ha hs hss hp =>
    rename_i rest i addr source ss out
    rw [hm] at hmain
    obtain ⟨h1, h2, h3, h4⟩ := hmain
    obtain ⟨g1, g2, g3, g4, log, k, g5, g6, g7, g8⟩ := hpr (h3 i hi) ha hs hss
    refine ⟨hasts, hI.outs, hpcs, hrepls, fun u x hx => hsame _ _ _ u x hx,
      ⟨h1, h2, fun j hj => h3 j (List.mem_of_mem_erase hj), fun j hj => ?_⟩, hI.errors, fun a out' hf => ?_⟩
    · by_cases hij : j = i
      · subst hij
        exact .inr (.inl ⟨source.path, g1, .inl ⟨out, List.mem_cons_self ..⟩⟩)
      · rcases h4 j hj with h4 | h4
        · exact .inl ((List.mem_erase_of_ne hij).2 h4)
        · exact .inr (h4.files _)
    · rcases List.mem_cons.1 hf with hf | hf
      · cases hf
        exact ⟨g2, source.content, ss, log, k, g4, g5, g6, g7, by rw [← g8]; exact hp⟩
      · exact hI.files a out' hf
  | printFail hm hi ha hs hss hp =>
    rename_i rest i addr source ss
    rw [hm] at hmain
    obtain ⟨h1, h2, h3, h4⟩ := hmain
    obtain ⟨g1, g2, g3, g4, log, k, g5, g6, g7, g8⟩ := hpr (h3 i hi) ha hs hss
    refine ⟨hasts, hI.outs, hpcs, hrepls, fun u x hx => hsame _ _ _ u x hx,
      ⟨h1, h2, fun j hj => h3 j (List.mem_of_mem_erase hj), fun j hj => ?_⟩, fun e he => ?_, hI.files⟩
    · by_cases hij : j = i
      · subst hij
        exact .inr (.inl ⟨source.path, g1, .inr (List.mem_append_right _ (List.mem_singleton.2 rfl))⟩)
      · rcases h4 j hj with h4 | h4
        · exact .inl ((List.mem_erase_of_ne hij).2 h4)
        · exact .inr (h4.addError _)
    · rcases List.mem_append.1 he with he | he
      · exact hI.errors e he
      · rw [List.mem_singleton.1 he]
        exact .print g2 g5 (print_any_lines g3 hp)
  | skip hm hi hn =>
    rename_i rest i
    rw [hm] at hmain
    obtain ⟨h1, h2, h3, h4⟩ := hmain
    refine ⟨hasts, hI.outs, hpcs, hrepls, fun u x hx => hsame _ _ _ u x hx,
      ⟨h1, h2, fun j hj => h3 j (List.mem_of_mem_erase hj), fun j hj => ?_⟩, hI.errors, hI.files⟩
    by_cases hij : j = i
    · subst hij
      refine .inr (.inr fun ss hss => ?_)
      obtain ⟨addr', s', log', a1, a2, -⟩ := hI2.asts _ _ hss
      rcases hn with hn | hn
      · cases hl : lookupMap st.sh.byIndex j with
        | none => exact mem_lookupMap a1 hl
        | some addr =>
          cases hN.eq hD (mem_of_lookupMap hl) a1
          rw [hl, Option.bind_some, a2] at hn; cases hn
      · exact mem_lookupMap hss hn
    · rcases h4 j hj with h4 | h4
      · exact .inl ((List.mem_erase_of_ne hij).2 h4)
      · exact .inr h4

theorem ReachedTidy.inv {env : CEnv} {st : CSt} (h : ReachedTidy env st) (hD : Distinct st.sh) : InvTidy env st := by
  induction h with
  | init =>
    exact ⟨by simp [CSt.init, Shared.init], by simp [CSt.init, Shared.init], by simp [CSt.init], by simp [CSt.init],
      by simp [CSt.init], ⟨rfl, Nat.zero_le _⟩, by simp [CSt.init, Shared.init], by simp [CSt.init, Shared.init]⟩
  | @step st st' c hr hti hs ih =>
    have hr' := hr.reached
    have hact : MainAct env st st' ∨ ∃ t th, c = .thread t ∧ st.threads[t]? = some th ∧ Act env st t th st' := by
      cases c with
      | main => exact .inl (stepMain_act hs)
      | print i => exact .inl (stepPrint_act hs)
      | thread t =>
        obtain ⟨th, h1, h2⟩ := stepThread_act hs
        exact .inr ⟨t, th, rfl, h1, h2⟩
    rcases hact with h | ⟨t, th, rfl, hth, h⟩
    · have hd := hD.of_le h.stLe
      exact h.tidy hr'.inv1 hr'.invP hr'.heapT (hr'.inv2 fun _ => hd) (ih hd) hd hr'.invN hr'.earlier
    · have hd := hD.of_le (h.stLe hth)
      exact h.tidy hr'.inv1 (hr'.inv2 fun _ => hd) (ih hd) hd hth
        (fun p hp => hr'.earlier t p (by rw [parents_get hth, hp])) (fun hrd => hti th hth hrd)

end Cssc
