import Verif.Proofs.CompileMade
import Verif.Proofs.CompileEnds

/-!
# Compile: what is handed over has no at-rules of files that are still to be transformed
-/

namespace Cssc

/-- The goroutine has parsed its file and not yet transformed it. -/
def PC.Opened : PC → Prop
  | .spawn _ _ | .wait _ => True
  | _ => False

/-- The goroutine has at-rules of parse `s` still to be transformed. -/
def Thread.Has (th : Thread) (s : Nat) : Prop :=
  th.pc.Opened ∧ ((∃ r, Node.at r ∈ th.ss.nodes ∧ r.src = s) ∨ ∃ imp ∈ th.ss.imports, imp.rule.src = s)

/-- The at-rules are of earlier parses and not to be transformed any more. -/
def Free (st : CSt) (ss : Stylesheet) : Prop :=
  ∀ r, Node.at r ∈ ss.nodes → r.src < st.sh.parses.length ∧ ∀ (u : Nat) (x : Thread), st.threads[u]? = some x → ¬ x.Has r.src

/-- The stylesheet a goroutine hands over. -/
def PC.Gives : PC → Stylesheet → Prop
  | .cache _ ss, x | .deliver (some ss), x => x = ss
  | _, _ => False

structure InvOwn (st : CSt) : Prop where
  asts : ∀ i ss, (i, ss) ∈ st.sh.asts → Free st ss
  pcs : ∀ th ∈ st.threads, ∀ ss, th.pc.Gives ss → Free st ss
  repls : ∀ th ∈ st.threads, ∀ kv ∈ th.repl, Free st kv.2
  own : ∀ (t : Nat) (th : Thread), st.threads[t]? = some th → ∀ s, th.Has s → s < st.sh.parses.length
  one : ∀ (t u : Nat) (th x : Thread), st.threads[t]? = some th → st.threads[u]? = some x → ∀ s, th.Has s → x.Has s → t = u
  keys : ∀ th ∈ st.threads, ∀ kv ∈ th.repl, ∃ imp ∈ th.ss.imports, imp.rule = kv.1
  early : ∀ th ∈ st.threads, ¬ th.pc.After → th.repl = []

/-- Goroutines have no more at-rules to transform than before, new parses apart. -/
structure OwnLe (st st' : CSt) : Prop where
  len : st.sh.parses.length ≤ st'.sh.parses.length
  has : ∀ (u : Nat) (x' : Thread) (s : Nat), st'.threads[u]? = some x' → x'.Has s → st.sh.parses.length ≤ s ∧ s < st'.sh.parses.length ∨
    ∃ x, st.threads[u]? = some x ∧ x.Has s

theorem Free.mono {st st' : CSt} (hle : OwnLe st st') {ss : Stylesheet} (h : Free st ss) : Free st' ss := by
  intro r hr
  obtain ⟨h1, h2⟩ := h r hr
  refine ⟨Nat.lt_of_lt_of_le h1 hle.len, fun u x' hx hh => ?_⟩
  rcases hle.has u x' _ hx hh with ⟨h3, -⟩ | ⟨x, h3, h4⟩
  · omega
  · exact h2 u x h3 h4

/-- The new state, but for the new stylesheets and a new parse. -/
theorem InvOwn.next {st st' : CSt} (hL : InvOwn st) (hle : OwnLe st st')
    (hasts : ∀ i ss, (i, ss) ∈ st'.sh.asts → (i, ss) ∈ st.sh.asts ∨ Free st' ss)
    (hths : ∀ y ∈ st'.threads, (∀ ss, y.pc.Gives ss → Free st' ss) ∧ (∀ kv ∈ y.repl, Free st' kv.2 ∧ ∃ imp ∈ y.ss.imports, imp.rule = kv.1) ∧
      (¬ y.pc.After → y.repl = []))
    (hnew : ∀ (t u : Nat) (th x : Thread) (s : Nat), st'.threads[t]? = some th → st'.threads[u]? = some x → th.Has s → x.Has s →
      st.sh.parses.length ≤ s → t = u) : InvOwn st' := by
  refine ⟨fun i ss h => ?_, fun y hy => (hths y hy).1, fun y hy kv hkv => ((hths y hy).2.1 kv hkv).1, ?_, ?_,
    fun y hy kv hkv => ((hths y hy).2.1 kv hkv).2, fun y hy => (hths y hy).2.2⟩
  · rcases hasts i ss h with h | h
    · exact (hL.asts i ss h).mono hle
    · exact h
  · intro t th hth s hs
    rcases hle.has t th s hth hs with ⟨-, h⟩ | ⟨x, h1, h2⟩
    · exact h
    · exact Nat.lt_of_lt_of_le (hL.own t x h1 s h2) hle.len
  · intro t u th x hth hx s h1 h2
    rcases hle.has t th s hth h1 with ⟨h, -⟩ | ⟨th', h3, h4⟩
    · exact hnew t u th x s hth hx h1 h2 h
    · rcases hle.has u x s hx h2 with ⟨h, -⟩ | ⟨x', h5, h6⟩
      · have := hL.own t th' h3 s h4; omega
      · exact hL.one t u th' x' h3 h5 s h4 h6

theorem get_set {l : List Thread} {t u : Nat} {th1 x : Thread} (h : (l.set t th1)[u]? = some x) :
    t ≠ u ∧ l[u]? = some x ∨ t = u ∧ x = th1 := by
  by_cases e : t = u
  · subst e
    right
    rw [List.getElem?_set] at h
    simp only [if_true] at h
    split at h
    · cases h; exact ⟨rfl, rfl⟩
    · cases h
  · rw [List.getElem?_set_ne e] at h
    exact .inl ⟨e, h⟩

/-- The number of the new goroutine. -/
theorem get_append {l : List Thread} {u : Nat} {y x : Thread} (h : (l ++ [y])[u]? = some x) : l[u]? = some x ∨ x = y := by
  by_cases hu : u < l.length
  · rw [List.getElem?_append_left hu] at h; exact .inl h
  · rw [List.getElem?_append_right (by omega)] at h
    right
    have := List.mem_of_getElem? h
    exact List.mem_singleton.1 this

theorem not_has_new {p : Option Nat} {s : Nat} : ¬ (Thread.new p).Has s := fun h => h.1

theorem Loc.own {env : CEnv} {st : CSt} {t : Nat} {th : Thread} {sh : Shared} {pc : PC}
    (hI2 : Inv2 env False st) (hL : InvOwn st) (hth : st.threads[t]? = some th) (h : Loc env st t th sh pc) :
    InvOwn { st with sh := sh, threads := st.threads.set t { th with pc := pc } } := by
  have hmem := List.mem_of_getElem? hth
  have hlt := (List.getElem?_eq_some_iff.1 hth).1
  -- the goroutine has no more than before
  have hopen : pc.Opened → th.pc.Opened := by
    intro ho
    cases h <;> first
      | exact ho.elim
      | (rename_i hpc _; rw [hpc]; exact trivial)
      | (exfalso; revert ho; split <;> exact id)
  have hlen : st.sh.parses.length ≤ sh.parses.length := by
    cases h <;> first | exact Nat.le_refl _ | exact Nat.le_succ _
  have hle : OwnLe st { st with sh := sh, threads := st.threads.set t { th with pc := pc } } := by
    refine ⟨hlen, fun u x s hx hs => .inr ?_⟩
    rcases get_set hx with ⟨-, h1⟩ | ⟨rfl, rfl⟩
    · exact ⟨x, h1, hs⟩
    · exact ⟨th, hth, hopen hs.1, hs.2⟩
  refine hL.next hle ?_ ?_ ?_
  · intro i ss hm
    cases h <;> first | exact .inl hm | skip
    rename_i hpc
    rcases List.mem_cons.1 hm with e | hm
    · cases e
      exact .inr ((hL.pcs th hmem _ (by rw [hpc]; rfl)).mono hle)
    · exact .inl hm
  · intro y hy
    rcases mem_set hy with hy | rfl
    · exact ⟨fun ss hs => (hL.pcs y hy ss hs).mono hle, fun kv hkv => ⟨(hL.repls y hy kv hkv).mono hle, hL.keys y hy kv hkv⟩, hL.early y hy⟩
    · refine ⟨fun ss hs => ?_, fun kv hkv => ⟨(hL.repls th hmem kv hkv).mono hle, hL.keys th hmem kv hkv⟩,
        fun ha => hL.early th hmem fun hb => ha (h.after hb)⟩
      cases h with
      | hit hpc hl => cases hs; exact (hL.asts _ _ (mem_of_lookupMap hl)).mono hle
      | cache hpc => cases hs; exact (hL.pcs th hmem _ (by rw [hpc]; rfl)).mono hle
      | known => revert hs; dsimp only; split <;> exact fun h => h.elim
      | incWrite => revert hs; dsimp only; split <;> exact fun h => h.elim
      | @transform i source ss0 s0 hpc hj hsrc ht =>
        have e : ss = ss0 := hs
        subst e
        have hp := hI2.pcs th hmem
        rw [hpc] at hp
        obtain ⟨-, -, s, id, lines, h1, h2, -⟩ := hp
        intro r hr
        have hget : ∀ (u : Nat) (x : Thread), (st.threads.set t { th with pc := .cache i ss })[u]? = some x → ∀ s, x.Has s →
            t ≠ u ∧ st.threads[u]? = some x := by
          intro u x hx s hs
          rcases get_set hx with h3 | ⟨rfl, rfl⟩
          · exact h3
          · exact hs.1.elim
        refine transform_from ht (Q := fun j => j < st.sh.parses.length ∧ ∀ (u : Nat) (x : Thread),
          (st.threads.set t { th with pc := .cache i ss })[u]? = some x → ¬ x.Has j) ?_ ?_ r hr
        · intro r hr
          have hh : th.Has r.src := ⟨by rw [hpc]; exact trivial, .inl ⟨r, hr, rfl⟩⟩
          refine ⟨hL.own t th hth _ hh, fun u x hx hs => ?_⟩
          obtain ⟨h3, h4⟩ := hget u x hx _ hs
          exact h3 (hL.one t u th x hth h4 _ hh hs)
        · intro x hx r hr
          obtain ⟨h3, h4⟩ := hL.repls th hmem x hx r hr
          refine ⟨h3, fun u y hy hs => ?_⟩
          exact h4 u y (hget u y hy _ hs).2 hs
      | _ => exact hs.elim
  · intro a b x y s hx hy h1 h2 h3
    exfalso
    rcases hle.has a x s hx h1 with ⟨-, h4⟩ | ⟨x', h4, h5⟩
    · rcases get_set hx with ⟨-, h6⟩ | ⟨rfl, rfl⟩
      · have := hL.own a x h6 s h1; omega
      · have := hL.own t th hth s ⟨hopen h1.1, h1.2⟩; omega
    · have := hL.own a x' h4 s h5; omega

theorem Act.own {env : CEnv} {st st' : CSt} {t : Nat} {th : Thread} (hI2 : Inv2 env False st) (hL : InvOwn st)
    (hth : st.threads[t]? = some th) (h : Act env st t th st') : InvOwn st' := by
  have hmem := List.mem_of_getElem? hth
  -- nothing new
  have same : ∀ {st' : CSt}, (∀ (u : Nat) (x' : Thread) (s : Nat), st'.threads[u]? = some x' → x'.Has s → ∃ x, st.threads[u]? = some x ∧ x.Has s) →
      ∀ (a b : Nat) (x y : Thread) (s : Nat), st'.threads[a]? = some x → st'.threads[b]? = some y → x.Has s → y.Has s →
        st.sh.parses.length ≤ s → a = b := by
    intro st' hh a b x y s hx hy h1 h2 h3
    obtain ⟨x', h4, h5⟩ := hh a x s hx h1
    have := hL.own a x' h4 s h5; omega
  cases h with
  | loc h => exact h.own hI2 hL hth
  | @parse i addr source ss lines hpc hs hp =>
    obtain ⟨hsrc1, hsrc2⟩ := parse_src hp
    have hnew : ∀ s, Thread.Has { th with pc := .spawn i 0, addr := addr, ss := ss } s → s = st.sh.parses.length := by
      rintro s ⟨-, ⟨r, hr, rfl⟩ | ⟨imp, hi, rfl⟩⟩
      · exact hsrc1 r hr
      · exact hsrc2 imp hi
    have hle : OwnLe st { st with
        sh := st.sh.parsed addr source lines
        threads := st.threads.set t { th with pc := .spawn i 0, addr := addr, ss := ss } } := by
      refine ⟨Nat.le_succ _, fun u x s hx hs => ?_⟩
      rcases get_set hx with ⟨-, h1⟩ | ⟨rfl, rfl⟩
      · exact .inr ⟨x, h1, hs⟩
      · have := hnew s hs
        exact .inl ⟨by omega, by show s < st.sh.parses.length + 1; omega⟩
    have he : th.repl = [] := hL.early th hmem (by rw [hpc]; exact id)
    refine hL.next hle (fun _ _ h => .inl h) ?_ ?_
    · intro y hy
      rcases mem_set hy with hy | rfl
      · exact ⟨fun ss hs => (hL.pcs y hy ss hs).mono hle, fun kv hkv => ⟨(hL.repls y hy kv hkv).mono hle, hL.keys y hy kv hkv⟩, hL.early y hy⟩
      · refine ⟨fun _ h => h.elim, fun kv hkv => ?_, fun h => absurd trivial h⟩
        dsimp only at hkv
        rw [he] at hkv
        cases hkv
    · intro a b x y s hx hy h1 h2 h3
      rcases get_set hx with ⟨-, h4⟩ | ⟨rfl, rfl⟩
      · have := hL.own a x h4 s h1; omega
      · rcases get_set hy with ⟨-, h4⟩ | ⟨h5, -⟩
        · have := hL.own b y h4 s h2; omega
        · exact h5
  | @spawn i k hpc hk =>
    have hh : ∀ (u : Nat) (x' : Thread) (s : Nat), (st.threads.set t { th with pc := .spawn i (k + 1), imp := k } ++ [Thread.new (some t)])[u]? = some x' →
        x'.Has s → ∃ x, st.threads[u]? = some x ∧ x.Has s := by
      intro u x s hx hs
      rcases get_append hx with hx | rfl
      · rcases get_set hx with ⟨-, h1⟩ | ⟨rfl, rfl⟩
        · exact ⟨x, h1, hs⟩
        · exact ⟨th, hth, by rw [hpc]; exact trivial, hs.2⟩
      · exact (not_has_new hs).elim
    have hle : OwnLe st { st with threads := st.threads.set t { th with pc := .spawn i (k + 1), imp := k } ++ [Thread.new (some t)] } :=
      ⟨Nat.le_refl _, fun u x s hx hs => .inr (hh u x s hx hs)⟩
    refine hL.next hle (fun _ _ h => .inl h) ?_ (same hh)
    intro y hy
    rcases List.mem_append.1 hy with hy | hy
    · rcases mem_set hy with hy | rfl
      · exact ⟨fun ss hs => (hL.pcs y hy ss hs).mono hle, fun kv hkv => ⟨(hL.repls y hy kv hkv).mono hle, hL.keys y hy kv hkv⟩, hL.early y hy⟩
      · exact ⟨fun _ h => h.elim, fun kv hkv => ⟨(hL.repls th hmem kv hkv).mono hle, hL.keys th hmem kv hkv⟩, fun h => absurd trivial h⟩
    · rw [List.mem_singleton.1 hy]
      exact ⟨fun _ h => h.elim, fun kv h => (by cases h), fun _ => rfl⟩
  | @deliver p par imp ss hpc hp hpar hi =>
    have hpm := List.mem_of_getElem? hpar
    have hh : ∀ (u : Nat) (x' : Thread) (s : Nat), ((st.threads.set p { par with repl := (imp.rule, ss) :: par.repl }).set t { th with pc := .done })[u]? = some x' →
        x'.Has s → ∃ x, st.threads[u]? = some x ∧ x.Has s := by
      intro u x s hx hs
      rcases get_set hx with ⟨-, hx⟩ | ⟨rfl, rfl⟩
      · rcases get_set hx with ⟨-, h1⟩ | ⟨rfl, rfl⟩
        · exact ⟨x, h1, hs⟩
        · exact ⟨par, hpar, hs⟩
      · exact hs.1.elim
    have hle : OwnLe st { st with threads := (st.threads.set p { par with repl := (imp.rule, ss) :: par.repl }).set t { th with pc := .done } } :=
      ⟨Nat.le_refl _, fun u x s hx hs => .inr (hh u x s hx hs)⟩
    obtain ⟨par', source, h4, h5, -⟩ := hI2.parents th hmem p hp
    rw [hpar] at h4; cases h4
    refine hL.next hle (fun _ _ h => .inl h) ?_ (same hh)
    intro y hy
    rcases mem_set hy with hy | rfl
    · rcases mem_set hy with hy | rfl
      · exact ⟨fun ss hs => (hL.pcs y hy ss hs).mono hle, fun kv hkv => ⟨(hL.repls y hy kv hkv).mono hle, hL.keys y hy kv hkv⟩, hL.early y hy⟩
      · refine ⟨fun ss hs => (hL.pcs par hpm ss hs).mono hle, fun kv hkv => ?_, fun h => absurd h5 h⟩
        rcases List.mem_cons.1 hkv with rfl | hkv
        · exact ⟨(hL.pcs th hmem ss (by rw [hpc]; rfl)).mono hle, imp, List.mem_of_getElem? hi, rfl⟩
        · exact ⟨(hL.repls par hpm kv hkv).mono hle, hL.keys par hpm kv hkv⟩
    · exact ⟨fun _ h => h.elim, fun kv hkv => ⟨(hL.repls th hmem kv hkv).mono hle, hL.keys th hmem kv hkv⟩, fun h => absurd trivial h⟩

theorem MainAct.own {env : CEnv} {st st' : CSt} (hL : InvOwn st) (h : MainAct env st st') : InvOwn st' := by
  have key : ∀ {st' : CSt}, st'.sh.parses = st.sh.parses → st'.sh.asts = st.sh.asts →
      (st'.threads = st.threads ∨ ∃ p, st'.threads = st.threads ++ [Thread.new p]) → InvOwn st' := by
    intro st' e1 e2 e3
    have hh : ∀ (u : Nat) (x' : Thread) (s : Nat), st'.threads[u]? = some x' → x'.Has s → ∃ x, st.threads[u]? = some x ∧ x.Has s := by
      intro u x s hx hs
      rcases e3 with e3 | ⟨p, e3⟩ <;> rw [e3] at hx
      · exact ⟨x, hx, hs⟩
      · rcases get_append hx with hx | rfl
        · exact ⟨x, hx, hs⟩
        · exact (not_has_new hs).elim
    have hle : OwnLe st st' := ⟨by rw [e1], fun u x s hx hs => .inr (hh u x s hx hs)⟩
    refine hL.next hle (fun i ss h => .inl (e2 ▸ h)) ?_ ?_
    · intro y hy
      have old : y ∈ st.threads → (∀ ss, y.pc.Gives ss → Free st' ss) ∧ (∀ kv ∈ y.repl, Free st' kv.2 ∧ ∃ imp ∈ y.ss.imports, imp.rule = kv.1) ∧
          (¬ y.pc.After → y.repl = []) := fun hy => ⟨fun ss hs => (hL.pcs y hy ss hs).mono hle,
        fun kv hkv => ⟨(hL.repls y hy kv hkv).mono hle, hL.keys y hy kv hkv⟩, hL.early y hy⟩
      rcases e3 with e3 | ⟨p, e3⟩ <;> rw [e3] at hy
      · exact old hy
      · rcases List.mem_append.1 hy with hy | hy
        · exact old hy
        · rw [List.mem_singleton.1 hy]
          exact ⟨fun _ h => h.elim, fun kv h => (by cases h), fun _ => rfl⟩
    · intro a b x y s hx hy h1 h2 h3
      obtain ⟨x', h4, h5⟩ := hh a x s hx h1
      have := hL.own a x' h4 s h5; omega
  cases h with
  | spawn => exact key rfl rfl (.inr ⟨none, rfl⟩)
  | _ => exact key rfl rfl (.inl rfl)

theorem Reached.own {env : CEnv} {st : CSt} (h : Reached env st) : InvOwn st := by
  induction h with
  | init => exact ⟨by simp [CSt.init, Shared.init], by simp [CSt.init], by simp [CSt.init], by simp [CSt.init], by simp [CSt.init],
      by simp [CSt.init], by simp [CSt.init]⟩
  | step hr hs ih =>
    rcases cstep_act hs with h | ⟨t, th, hth, h⟩
    · exact h.own ih
    · exact h.own (hr.inv2 False.elim) ih hth

/-- What is put in the place of the imports of a file has no at-rules of that file. -/
theorem Reached.apart {env : CEnv} {st : CSt} (hr : Reached env st) {th : Thread} (hth : th ∈ st.threads) (ho : th.pc.Opened)
    {k : Nat} {c : Bytes} {id : Nat} {l : List Nat} (hp : parse k c id = .ok th.ss l) :
    ∀ x ∈ th.repl, x.1.src = id ∧ ∀ r, Node.at r ∈ x.2.nodes → r.src ≠ id := by
  intro x hx
  have hL := hr.own
  obtain ⟨imp, h1, h2⟩ := hL.keys th hth x hx
  have h3 := (parse_src hp).2 imp h1
  refine ⟨by rw [← h2]; exact h3, fun r hr he => ?_⟩
  obtain ⟨t, ht, rfl⟩ := List.getElem_of_mem hth
  exact ((hL.repls _ hth x hx) r hr).2 t _ (List.getElem?_eq_getElem ht) ⟨ho, .inr ⟨imp, h1, by rw [h3, he]⟩⟩

end Cssc
