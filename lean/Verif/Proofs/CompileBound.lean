import Verif.Proofs.CompileMade
import Verif.Proofs.CompileDiamond

/-!
# Compile: a bound for the length of schedules, if the imports have no cycle
-/

namespace Cssc

/-- The imports of the file with the absolute path `a`. -/
def fileImports (env : CEnv) (a : Bytes) : List ImportSpec :=
  match env.read a with
  | some c => match parse env.fuel c with
    | .ok ss _ => ss.imports
    | _ => []
  | none => []

/-- The largest value of `f` on the files that are imported with `imps` from `dir`. -/
def supOf (env : CEnv) (f : Bytes → Nat) (dir : Bytes) : List ImportSpec → Nat
  | [] => 0
  | imp :: imps => max (match (env.resolve imp.value dir).bind env.abs with | some b => f b | none => 0) (supOf env f dir imps)

theorem le_supOf {env : CEnv} {f : Bytes → Nat} {dir : Bytes} {imps : List ImportSpec} {imp : ImportSpec} (h : imp ∈ imps) {rel b : Bytes}
    (h1 : env.resolve imp.value dir = some rel) (h2 : env.abs rel = some b) : f b ≤ supOf env f dir imps := by
  induction imps with
  | nil => cases h
  | cons x imps ih =>
    unfold supOf
    rcases List.mem_cons.1 h with rfl | h
    · rw [h1]
      dsimp only [Option.bind]
      rw [h2]
      exact Nat.le_max_left ..
    · exact Nat.le_trans (ih h) (Nat.le_max_right ..)

theorem supOf_mono {env : CEnv} {f g : Bytes → Nat} (h : ∀ a, f a ≤ g a) {dir : Bytes} {imps : List ImportSpec} :
    supOf env f dir imps ≤ supOf env g dir imps := by
  induction imps with
  | nil => exact Nat.le_refl _
  | cons x imps ih =>
    unfold supOf
    have : (match (env.resolve x.value dir).bind env.abs with | some b => f b | none => 0) ≤
        (match (env.resolve x.value dir).bind env.abs with | some b => g b | none => 0) := by
      cases (env.resolve x.value dir).bind env.abs with
      | none => exact Nat.le_refl _
      | some b => exact h b
    omega

/-- How many steps it may take to compile the file `a` whose imports are nested at most `n` deep. -/
def cost (env : CEnv) : Nat → Bytes → Nat
  | 0, a => (fileImports env a).length * 22 + 5
  | n + 1, a => (fileImports env a).length * (supOf env (cost env n) (dirOf a) (fileImports env a) + 22) + 5

theorem cost_succ {env : CEnv} (n : Nat) : ∀ a, cost env n a ≤ cost env (n + 1) a := by
  induction n with
  | zero =>
    intro a
    unfold cost
    exact Nat.add_le_add_right (Nat.mul_le_mul_left _ (Nat.le_add_left ..)) _
  | succ n ih =>
    intro a
    rw [cost, cost]
    exact Nat.add_le_add_right (Nat.mul_le_mul_left _ (Nat.add_le_add_right (supOf_mono ih) _)) _

theorem cost_mono {env : CEnv} {n m : Nat} (h : n ≤ m) (a : Bytes) : cost env n a ≤ cost env m a := by
  induction h with
  | refl => exact Nat.le_refl _
  | step _ ih => exact Nat.le_trans ih (cost_succ _ a)

/-- Costs of files: `C` of a file, `M` of the dearest of its imports, `E` of the dearest entry. -/
structure Costs (env : CEnv) (C M : Bytes → Nat) (E : Nat) : Prop where
  entry : ∀ {e a}, e ∈ env.entries → env.abs e = some a → C a ≤ E
  imp : ∀ {p a c id ss lines imp rel b}, Asked env p → env.abs p = some a → env.read a = some c → parse env.fuel c id = .ok ss lines →
    imp ∈ ss.imports → env.resolve imp.value (dirOf a) = some rel → env.abs rel = some b → C b ≤ M a
  file : ∀ {a c id ss lines}, env.read a = some c → parse env.fuel c id = .ok ss lines → ss.imports.length * (M a + 22) + 5 ≤ C a

theorem fileImports_eq {env : CEnv} {a c : Bytes} {ss : Stylesheet} {lines : List Nat} (h1 : env.read a = some c)
    (h2 : parse env.fuel c = .ok ss lines) : fileImports env a = ss.imports := by
  unfold fileImports
  rw [h1]
  dsimp only
  rw [h2]

theorem le_sup_entries {env : CEnv} (f : Bytes → Nat) : ∀ (es : List Bytes), ∃ E, ∀ e ∈ es, ∀ a, env.abs e = some a → f a ≤ E := by
  intro es
  induction es with
  | nil => exact ⟨0, fun _ h => by cases h⟩
  | cons e es ih =>
    obtain ⟨E, hE⟩ := ih
    cases ha : env.abs e with
    | none =>
      refine ⟨E, fun x hx a hxa => ?_⟩
      rcases List.mem_cons.1 hx with rfl | hx
      · rw [ha] at hxa; cases hxa
      · exact hE x hx a hxa
    | some b =>
      refine ⟨max (f b) E, fun x hx a hxa => ?_⟩
      rcases List.mem_cons.1 hx with rfl | hx
      · rw [ha] at hxa; cases hxa; exact Nat.le_max_left ..
      · exact Nat.le_trans (hE x hx a hxa) (Nat.le_max_right ..)

theorem Acyclic.costs {env : CEnv} {rank : Bytes → Nat} (hac : Acyclic env rank) : ∃ C M E, Costs env C M E := by
  obtain ⟨E, hE⟩ := le_sup_entries (env := env) (fun a => cost env (rank a) a) env.entries
  refine ⟨fun a => cost env (rank a) a, fun a => match rank a with
    | 0 => 0
    | n + 1 => supOf env (cost env n) (dirOf a) (fileImports env a), E, ?_, ?_, ?_⟩
  · exact fun he ha => hE _ he _ ha
  · intro p a c id ss lines imp rel b hp ha hc hps hi hr hb
    obtain ⟨ss0, h1, h2⟩ := parse_ok_id hps
    rw [h2] at hi
    obtain ⟨imp0, h3, rfl⟩ := List.mem_map.1 hi
    have hlt := hac hp ha hc h1 h3 hr hb
    cases hra : rank a with
    | zero => omega
    | succ n =>
      dsimp only
      refine Nat.le_trans (cost_mono (show rank b ≤ n by omega) b) ?_
      rw [fileImports_eq hc h1]
      exact le_supOf h3 hr hb
  · intro a c id ss lines hc hps
    obtain ⟨ss0, h1, h2⟩ := parse_ok_id hps
    have hlen : ss.imports.length = (fileImports env a).length := by
      rw [fileImports_eq hc h1, h2]; exact List.length_map ..
    rw [hlen]
    cases hra : rank a with
    | zero => rw [cost]
    | succ n => rw [cost]

/-! ### The steps that are left -/

/-- The costs of what `parent` may have started a goroutine for. -/
def CSt.base (M : Bytes → Nat) (E : Nat) (st : CSt) : Option Nat → Nat
  | none => E
  | some p => match (st.threads[p]?).bind fun par => st.sh.heap[par.addr]? with
    | some s => M s.path
    | none => 0

/-- The costs of the imports of the goroutine. -/
def CSt.own (M : Bytes → Nat) (st : CSt) (th : Thread) : Nat :=
  match st.sh.heap[th.addr]? with
  | some s => M s.path
  | none => 0

/-- How many steps there may be left for the goroutine and those it will start. -/
def CSt.left (M : Bytes → Nat) (E : Nat) (st : CSt) (th : Thread) : Nat :=
  match th.pc with
  | .start => st.base M E th.parent + 20
  | .lookup _ => st.base M E th.parent + 19
  | .read .. => st.base M E th.parent + 18
  | .alloc .. => st.base M E th.parent + 17
  | .store .. => st.base M E th.parent + 16
  | .incRead _ => st.base M E th.parent + 15
  | .incWrite .. => st.base M E th.parent + 14
  | .outBegin _ => st.base M E th.parent + 13
  | .outEnd _ => st.base M E th.parent + 12
  | .cached _ => st.base M E th.parent + 10
  | .source _ => st.base M E th.parent + 9
  | .parse .. => st.base M E th.parent + 8
  | .spawn _ k => (th.ss.imports.length - k) * (st.own M th + 22) + 5
  | .wait _ => 4
  | .cache .. => 3
  | .deliver _ => 2
  | .done => 0

/-- … for `Compile`. -/
def CSt.mainLeft (env : CEnv) (E : Nat) (st : CSt) : Nat :=
  match st.main with
  | .spawn k => (env.entries.length - k) * (E + 21) + 3 + st.sh.outputs.length
  | .wait => 2 + st.sh.outputs.length
  | .print rest => 1 + rest.length
  | .done => 0

def CSt.total (env : CEnv) (M : Bytes → Nat) (E : Nat) (st : CSt) : Nat := (st.threads.map (st.left M E)).sum + st.mainLeft env E

theorem sum_set {l : List Thread} {t : Nat} {th x : Thread} {f f' : Thread → Nat} (hth : l[t]? = some th)
    (h : ∀ y ∈ l, f' y = f y) : ((l.set t x).map f').sum + f th = (l.map f).sum + f' x := by
  induction l generalizing t with
  | nil => cases hth
  | cons y l ih =>
    cases t with
    | zero =>
      cases hth
      rw [List.set_cons_zero, List.map_cons, List.map_cons, List.sum_cons, List.sum_cons]
      rw [List.map_congr_left fun z hz => h z (List.mem_cons_of_mem _ hz)]
      omega
    | succ t =>
      have := ih (t := t) hth fun z hz => h z (List.mem_cons_of_mem _ hz)
      rw [List.set_cons_succ, List.map_cons, List.map_cons, List.sum_cons, List.sum_cons, h y List.mem_cons_self]
      omega

/-- What is left for a goroutine does not change by the steps of others. -/
theorem left_eq {env : CEnv} {S : Prop} {M : Bytes → Nat} {E : Nat} {st st' : CSt} (hI : Inv2 env S st) (hle : StLe st st')
    {th : Thread} (hm : th ∈ st.threads) : st'.left M E th = st.left M E th := by
  have hb : st'.base M E th.parent = st.base M E th.parent := by
    cases hp : th.parent with
    | none => rfl
    | some p =>
      obtain ⟨par, source, h⟩ := hI.parents th hm p hp
      obtain ⟨par', source', h', h1, h2, h3⟩ := h.mono hle
      unfold CSt.base
      dsimp only
      rw [h.1, h'.1]
      dsimp only [Option.bind]
      rw [h.2.2.1, h'.2.2.1]
      dsimp only
      rw [h3]
  have ho : ∀ i k, th.pc = .spawn i k → st'.own M th = st.own M th := by
    intro i k hpc
    have := hI.pcs th hm
    rw [hpc] at this
    obtain ⟨-, -, s, id, lines, h1, -⟩ := this
    obtain ⟨s', h2, h3, -⟩ := hle.heap _ _ h1
    unfold CSt.own
    rw [h1, h2]
    dsimp only
    rw [h3]
  unfold CSt.left
  cases hpc : th.pc with
  | spawn i k => dsimp only; rw [ho i k hpc]
  | _ => dsimp only; try rw [hb]

theorem base_eq {env : CEnv} {S : Prop} {M : Bytes → Nat} {E : Nat} {st st' : CSt} (hI : Inv2 env S st) (hle : StLe st st')
    {th : Thread} (hm : th ∈ st.threads) : st'.base M E th.parent = st.base M E th.parent := by
  cases hp : th.parent with
  | none => rfl
  | some p =>
    obtain ⟨par, source, h⟩ := hI.parents th hm p hp
    obtain ⟨par', source', h', h1, h2, h3⟩ := h.mono hle
    unfold CSt.base
    dsimp only
    rw [h.1, h'.1]
    dsimp only [Option.bind]
    rw [h.2.2.1, h'.2.2.1]
    dsimp only
    rw [h3]

theorem left_ite {M : Bytes → Nat} {E : Nat} {st : CSt} {th : Thread} {b : Bool} {i : Nat} :
    st.left M E { th with pc := if b = true then .outBegin i else .cached i } ≤ st.base M E th.parent + 13 := by
  cases b <;> unfold CSt.left <;> dsimp only <;> simp

theorem Loc.outputs {env : CEnv} {st : CSt} {t : Nat} {th : Thread} {sh : Shared} {pc : PC} (h : Loc env st t th sh pc) :
    sh.outputs.length ≤ st.sh.outputs.length + (match th.pc with | .outEnd _ => 1 | _ => 0) := by
  cases h with
  | outEnd hpc => rw [hpc]; exact Nat.le_refl _
  | _ => exact Nat.le_add_right ..

/-- A step of one goroutine that changes its program counter only. -/
theorem Loc.left {env : CEnv} {M : Bytes → Nat} {E : Nat} {st st' : CSt} {t : Nat} {th : Thread} {sh : Shared} {pc : PC}
    (h : Loc env st t th sh pc) (hb : st'.base M E th.parent = st.base M E th.parent) :
    st'.left M E { th with pc := pc } + 1 + (match th.pc with | .outEnd _ => 1 | _ => 0) ≤ st.left M E th := by
  have hz : ∀ {b : Bool} {i : Nat}, st'.left M E { th with pc := if b = true then .outBegin i else .cached i } ≤ st.base M E th.parent + 13 := by
    intro b i
    rw [← hb]; exact left_ite
  cases h with
  | known hpc =>
    have h0 : st.left M E th = st.base M E th.parent + 19 := by unfold CSt.left; rw [hpc]
    rw [hpc, h0]
    exact Nat.le_trans (Nat.add_le_add_right (Nat.add_le_add_right hz 1) _) (by dsimp only; omega)
  | incWrite hpc =>
    have h0 : st.left M E th = st.base M E th.parent + 14 := by unfold CSt.left; rw [hpc]
    rw [hpc, h0]
    exact Nat.le_trans (Nat.add_le_add_right (Nat.add_le_add_right hz 1) _) (by dsimp only; omega)
  | startEntry hpc => unfold CSt.left; rw [hpc]; dsimp only; rw [hb]
  | startFail hpc => unfold CSt.left; rw [hpc]; dsimp only; omega
  | startImport hpc => unfold CSt.left; rw [hpc]; dsimp only; rw [hb]
  | noAbs hpc => unfold CSt.left; rw [hpc]; dsimp only; omega
  | unknown hpc => unfold CSt.left; rw [hpc]; dsimp only; rw [hb]
  | noRead hpc => unfold CSt.left; rw [hpc]; dsimp only; omega
  | read hpc => unfold CSt.left; rw [hpc]; dsimp only; rw [hb]
  | alloc hpc => unfold CSt.left; rw [hpc]; dsimp only; rw [hb]
  | store hpc => unfold CSt.left; rw [hpc]; dsimp only; rw [hb]
  | incRead hpc => unfold CSt.left; rw [hpc]; dsimp only; rw [hb]
  | outBegin hpc => unfold CSt.left; rw [hpc]; dsimp only; rw [hb]
  | outEnd hpc => unfold CSt.left; rw [hpc]; dsimp only; rw [hb]
  | hit hpc => unfold CSt.left; rw [hpc]; dsimp only; omega
  | miss hpc => unfold CSt.left; rw [hpc]; dsimp only; rw [hb]
  | source hpc => unfold CSt.left; rw [hpc]; dsimp only; rw [hb]
  | parseFail hpc => unfold CSt.left; rw [hpc]; dsimp only; omega
  | spawned hpc => unfold CSt.left; rw [hpc]; dsimp only; omega
  | transform hpc => unfold CSt.left; rw [hpc]; dsimp only; omega
  | cache hpc => unfold CSt.left; rw [hpc]; dsimp only; omega
  | finish hpc => unfold CSt.left; rw [hpc]; dsimp only; omega

theorem mainLeft_le {env : CEnv} {E : Nat} {st st' : CSt} (h : st'.main = st.main) {n : Nat}
    (ho : st'.sh.outputs.length ≤ st.sh.outputs.length + n) : st'.mainLeft env E ≤ st.mainLeft env E + n := by
  unfold CSt.mainLeft
  rw [h]
  cases st.main <;> dsimp only <;> omega

/-- The file that a goroutine is about to parse is one that it was started for, if no number is given twice. -/
theorem parse_target {env : CEnv} {C M : Bytes → Nat} {E : Nat} (hC : Costs env C M E) {st : CSt} (hI1 : Inv1 env st)
    (hI : Inv2 env True st) (hD : Distinct st.sh) {th : Thread} (hm : th ∈ st.threads) {i addr : Nat} (hpc : th.pc = .parse i addr)
    {source : Source} (hs : st.sh.heap[addr]? = some source) : C source.path ≤ st.base M E th.parent := by
  have h := hI.pcs th hm
  rw [hpc] at h
  obtain ⟨⟨a, ⟨rel, h1, h2⟩, h3⟩, h4⟩ := h
  obtain ⟨s, h5, h6⟩ := hI.byIndex _ _ h4
  rw [hs] at h5; cases h5
  have := hD.eq h3 h6
  subst this
  cases hp : th.parent with
  | none =>
    rw [hp] at h1
    exact hC.entry h1 h2
  | some p =>
    rw [hp] at h1
    obtain ⟨par, src, ⟨h7, h8, h9, id, lines, h10⟩, imp, h11, h12⟩ := h1
    obtain ⟨q, b1, b2, b3⟩ := hI1.heap _ (List.mem_of_getElem? h9)
    unfold CSt.base
    dsimp only
    rw [h7]
    dsimp only [Option.bind]
    rw [h9]
    exact hC.imp b1 b2 b3 h10 h11 h12 h2

theorem Act.total {env : CEnv} {C M : Bytes → Nat} {E : Nat} (hC : Costs env C M E) {st st' : CSt} {t : Nat} {th : Thread}
    (hI1 : Inv1 env st) (hI : Inv2 env True st) (hD : Distinct st.sh) (hth : st.threads[t]? = some th) (h : Act env st t th st') :
    st'.total env M E + 1 ≤ st.total env M E := by
  have hm := List.mem_of_getElem? hth
  have hle := h.stLe hth
  have hall : ∀ y ∈ st.threads, st'.left M E y = st.left M E y := fun y hy => left_eq hI hle hy
  have hb : st'.base M E th.parent = st.base M E th.parent := base_eq hI hle hm
  unfold CSt.total
  cases h with
  | @loc sh pc h =>
    have h1 := sum_set (x := { th with pc := pc }) hth hall
    have h2 := h.left hb
    have h3 := mainLeft_le (env := env) (E := E) (st := st) (st' := { st with sh := sh, threads := st.threads.set t { th with pc := pc } }) rfl h.outputs
    dsimp only at h1 h2 h3 ⊢
    omega
  | @parse i addr source ss lines hpc hs hp =>
    have h1 := sum_set (x := { th with pc := .spawn i 0, addr := addr, ss := ss }) hth hall
    have h2 := parse_target hC hI1 hI hD hm hpc hs
    obtain ⟨q, -, -, b3⟩ := hI1.heap _ (List.mem_of_getElem? hs)
    have h3 := hC.file b3 hp
    have h4 : CSt.left M E { st with
        sh := st.sh.parsed addr source lines
        threads := st.threads.set t { th with pc := .spawn i 0, addr := addr, ss := ss } }
        { th with pc := .spawn i 0, addr := addr, ss := ss } = ss.imports.length * (M source.path + 22) + 5 := by
      unfold CSt.left CSt.own Shared.parsed
      dsimp only
      rw [List.getElem?_set_self (List.getElem?_eq_some_iff.1 hs).1]
      dsimp only
      rw [Nat.sub_zero]
    have h5 : st.left M E th = st.base M E th.parent + 8 := by unfold CSt.left; rw [hpc]
    have h6 := mainLeft_le (env := env) (E := E) (st := st) (st' := { st with
        sh := st.sh.parsed addr source lines
        threads := st.threads.set t { th with pc := .spawn i 0, addr := addr, ss := ss } }) rfl (n := 0) (Nat.le_refl _)
    dsimp only at h1 h4 h6 ⊢
    omega
  | @spawn i k hpc hk =>
    have h1 := sum_set (x := { th with pc := .spawn i (k + 1), imp := k }) hth hall
    have hp := hI.pcs th hm
    rw [hpc] at hp
    obtain ⟨-, -, s, id, lines, b1, -⟩ := hp
    have h5 : st.left M E th = (th.ss.imports.length - k) * (M s.path + 22) + 5 := by
      unfold CSt.left CSt.own; rw [hpc]; dsimp only; rw [b1]
    have h4 : CSt.left M E { st with
        threads := st.threads.set t { th with pc := .spawn i (k + 1), imp := k } ++ [Thread.new (some t)] }
        { th with pc := .spawn i (k + 1), imp := k } = (th.ss.imports.length - (k + 1)) * (M s.path + 22) + 5 := by
      unfold CSt.left CSt.own; dsimp only; rw [b1]
    have h7 : CSt.left M E { st with
        threads := st.threads.set t { th with pc := .spawn i (k + 1), imp := k } ++ [Thread.new (some t)] }
        (Thread.new (some t)) = M s.path + 20 := by
      unfold CSt.left CSt.base Thread.new; dsimp only
      rw [append_keeps (List.getElem?_set_self (List.getElem?_eq_some_iff.1 hth).1)]
      dsimp only [Option.bind]
      rw [b1]
    have h6 := mainLeft_le (env := env) (E := E) (st := st) (st' := { st with
        threads := st.threads.set t { th with pc := .spawn i (k + 1), imp := k } ++ [Thread.new (some t)] }) rfl (n := 0) (Nat.le_refl _)
    have h8 : (th.ss.imports.length - k) * (M s.path + 22) = (th.ss.imports.length - (k + 1)) * (M s.path + 22) + (M s.path + 22) := by
      rw [← Nat.succ_mul]
      congr 1
      omega
    dsimp only at h1 h4 h6 h7 ⊢
    rw [List.map_append, List.sum_append, List.map_singleton, List.sum_singleton]
    omega
  | @deliver p par imp ss hpc hp hpar hi =>
    have h1 := sum_set (x := { par with repl := (imp.rule, ss) :: par.repl }) hpar hall
    have hx : ∃ y, (st.threads.set p { par with repl := (imp.rule, ss) :: par.repl })[t]? = some y ∧
        CSt.left M E { st with
          threads := (st.threads.set p { par with repl := (imp.rule, ss) :: par.repl }).set t { th with pc := .done } } y = 2 := by
      by_cases htp : p = t
      · subst htp
        rw [hth] at hpar; cases hpar
        exact ⟨_, List.getElem?_set_self (List.getElem?_eq_some_iff.1 hth).1, by unfold CSt.left; dsimp only; rw [hpc]⟩
      · exact ⟨th, by rw [List.getElem?_set_ne htp]; exact hth, by unfold CSt.left; rw [hpc]⟩
    obtain ⟨y, hy, hy2⟩ := hx
    have h2 := sum_set (x := { th with pc := .done }) (f := CSt.left M E { st with
          threads := (st.threads.set p { par with repl := (imp.rule, ss) :: par.repl }).set t { th with pc := .done } })
          (f' := CSt.left M E { st with
          threads := (st.threads.set p { par with repl := (imp.rule, ss) :: par.repl }).set t { th with pc := .done } }) hy fun _ _ => rfl
    have h3 : CSt.left M E { st with
          threads := (st.threads.set p { par with repl := (imp.rule, ss) :: par.repl }).set t { th with pc := .done } }
          { th with pc := .done } = 0 := rfl
    have h4 : CSt.left M E { st with
          threads := (st.threads.set p { par with repl := (imp.rule, ss) :: par.repl }).set t { th with pc := .done } }
          { par with repl := (imp.rule, ss) :: par.repl } = st.left M E par := hall par (List.mem_of_getElem? hpar)
    have h6 := mainLeft_le (env := env) (E := E) (st := st) (st' := { st with
          threads := (st.threads.set p { par with repl := (imp.rule, ss) :: par.repl }).set t { th with pc := .done } }) rfl (n := 0) (Nat.le_refl _)
    dsimp only at h1 h2 h3 h4 h6 hy2 ⊢
    omega

theorem length_eraseDups_le (l : List Nat) : l.eraseDups.length ≤ l.length := by
  induction h : l.length using Nat.strongRecOn generalizing l with
  | _ n ih =>
    cases l with
    | nil => simp at h; subst h; simp
    | cons x l =>
      rw [List.eraseDups_cons, List.length_cons]
      have h1 := List.length_filter_le (fun b => !b == x) l
      rw [List.length_cons] at h
      have := ih _ (by omega) (l.filter fun b => !b == x) rfl
      omega

theorem MainAct.total {env : CEnv} {M : Bytes → Nat} {E : Nat} {st st' : CSt}
    (hI : Inv2 env True st) (h : MainAct env st st') : st'.total env M E + 1 ≤ st.total env M E := by
  have hle := h.stLe
  have hall : ∀ y ∈ st.threads, st'.left M E y = st.left M E y := fun y hy => left_eq hI hle hy
  have hsum : (st.threads.map (st'.left M E)).sum = (st.threads.map (st.left M E)).sum := by
    rw [List.map_congr_left hall]
  unfold CSt.total
  have herase : ∀ {rest : List Nat} {i : Nat}, i ∈ rest → (rest.erase i).length + 1 = rest.length := by
    intro rest i hi
    rw [List.length_erase_of_mem hi]
    have := List.length_pos_of_mem hi
    omega
  cases h with
  | @spawn k hm hk =>
    have h7 : CSt.left M E { st with main := .spawn (k + 1), e := k, threads := st.threads ++ [Thread.new none] } (Thread.new none) = E + 20 := rfl
    have h8 : (env.entries.length - k) * (E + 21) = (env.entries.length - (k + 1)) * (E + 21) + (E + 21) := by
      rw [← Nat.succ_mul]
      congr 1
      omega
    unfold CSt.mainLeft
    rw [hm]
    dsimp only at hsum h7 ⊢
    rw [List.map_append, List.sum_append, List.map_singleton, List.sum_singleton]
    omega
  | spawned hm hk => unfold CSt.mainLeft; rw [hm]; dsimp only at hsum ⊢; omega
  | wait hm hj =>
    unfold CSt.mainLeft; rw [hm]; dsimp only at hsum ⊢
    have := length_eraseDups_le st.sh.outputs
    omega
  | finish hm => unfold CSt.mainLeft; rw [hm]; dsimp only at hsum ⊢; simp only [List.length_nil]; omega
  | print hm hi => unfold CSt.mainLeft; rw [hm]; dsimp only at hsum ⊢; have := herase hi; omega
  | printFail hm hi => unfold CSt.mainLeft; rw [hm]; dsimp only at hsum ⊢; have := herase hi; omega
  | skip hm hi => unfold CSt.mainLeft; rw [hm]; dsimp only at hsum ⊢; have := herase hi; omega

theorem cstep_stLe {env : CEnv} {st st' : CSt} {c : Choice} (h : cstep env st c = some (.ok st')) : StLe st st' := by
  rcases cstep_act h with h | ⟨t, th, hth, h⟩
  · exact h.stLe
  · exact h.stLe hth

theorem Steps.distinct {env : CEnv} {k : Nat} {x y : CSt} (h : Steps env k x y) (hd : Distinct y.sh) : Distinct x.sh := by
  induction h with
  | refl => exact hd
  | step hs _ ih => exact (ih hd).of_le (cstep_stLe hs)

theorem Steps.total {env : CEnv} {C M : Bytes → Nat} {E : Nat} (hC : Costs env C M E) {k : Nat} {x y : CSt} (h : Steps env k x y)
    (hr : Reached env x) (hd : Distinct y.sh) : y.total env M E + k ≤ x.total env M E := by
  induction h with
  | refl => exact Nat.le_refl _
  | step hs hrest ih =>
    have h1 := ih (hr.step hs) hd
    have hx : Distinct _ := (hrest.distinct hd).of_le (cstep_stLe hs)
    have hI := hr.inv2 (S := True) fun _ => hx
    rcases cstep_act hs with h | ⟨t, th, hth, h⟩
    · have := h.total (M := M) (E := E) hI
      omega
    · have := h.total hC hr.inv1 hI hx hth
      omega

end Cssc
