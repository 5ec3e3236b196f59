import Verif.Proofs.CompileLoop
import Verif.Proofs.CompileTab

/-!
# Compile: states from which it does not return
-/

namespace Cssc

/-- The source at `addr` has imports.  `H` has the paths and texts of the sources. -/
def HasImports (env : CEnv) (H : List (Bytes × Bytes)) (addr : Nat) : Prop :=
  ∃ path c ss l, H[addr]? = some (path, c) ∧ parse env.fuel c = .ok ss l ∧ ss.imports ≠ []

/-- What is found under number `i` has imports. -/
def NumImports (env : CEnv) (B : List (Nat × Nat)) (H : List (Bytes × Bytes)) (i : Nat) : Prop :=
  ∃ addr, lookupMap B i = some addr ∧ HasImports env H addr

/-- All files that are looked at are known, and what is found under their numbers has imports. -/
structure Trap (env : CEnv) (S : List (Bytes × Nat)) (B : List (Nat × Nat)) (H : List (Bytes × Bytes)) : Prop where
  file : ∀ {p}, Asked env p → ∃ a i, env.abs p = some a ∧ lookupMap S a = some i ∧ NumImports env B H i
  resolves : ∀ {path c ss l}, (path, c) ∈ H → parse env.fuel c = .ok ss l → ∀ imp ∈ ss.imports, ∃ r, env.resolve imp.value (dirOf path) = some r

/-- The goroutine has not returned, and will not. -/
def Held (env : CEnv) (B : List (Nat × Nat)) (H : List (Bytes × Bytes)) (ths : List Thread) (t : Nat) (ss : Stylesheet) : PC → Prop
  | .start | .lookup _ => True
  | .incRead i | .incWrite i _ | .outBegin i | .outEnd i | .cached i | .source i => NumImports env B H i
  | .parse _ addr => HasImports env H addr
  | .spawn _ k => ss.imports ≠ [] ∧ (0 < k → Kids ths (some t))
  | .wait _ => Kids ths (some t)
  | _ => False

theorem Held.mono {env : CEnv} {B : List (Nat × Nat)} {H : List (Bytes × Bytes)} {ths ths' : List Thread} {t : Nat} {ss : Stylesheet}
    {pc : PC} (h : Held env B H ths t ss pc) (hk : ∀ {p}, Kids ths p → Kids ths' p) : Held env B H ths' t ss pc := by
  cases pc <;> first | exact h | exact hk h | exact ⟨h.1, fun h0 => hk (h.2 h0)⟩

structure TrapInv (env : CEnv) (S : List (Bytes × Nat)) (B : List (Nat × Nat)) (H : List (Bytes × Bytes)) (st : CSt) : Prop where
  sources : st.sh.sources = S
  byIndex : st.sh.byIndex = B
  heap : st.sh.heap.map (fun s => (s.path, s.content)) = H
  asts : st.sh.asts = []
  main : (∃ k, st.main = .spawn k ∧ 0 < k ∧ Kids st.threads none) ∨ (st.main = .wait ∧ Kids st.threads none)
  held : ∀ (t : Nat) (th : Thread), st.threads[t]? = some th → Held env B H st.threads t th.ss th.pc

theorem held_joined {env : CEnv} {S : List (Bytes × Nat)} {B : List (Nat × Nat)} {H : List (Bytes × Bytes)} {st : CSt}
    (hb : TrapInv env S B H st) {p : Option Nat} (hk : Kids st.threads p) (hj : st.joined p = true) : False := by
  obtain ⟨x, hx, hp⟩ := hk
  unfold CSt.joined at hj
  have := List.all_eq_true.1 hj x hx
  rw [if_pos hp] at this
  obtain ⟨i, hi, rfl⟩ := List.getElem_of_mem hx
  have hbx := hb.held _ _ (List.getElem?_eq_getElem hi)
  split at this
  · rename_i h; rw [h] at hbx; exact hbx
  · cases this

theorem heap_source {st : CSt} {H : List (Bytes × Bytes)} (h : st.sh.heap.map (fun s => (s.path, s.content)) = H) {addr : Nat}
    {source : Source} (hs : st.sh.heap[addr]? = some source) : H[addr]? = some (source.path, source.content) := by
  rw [← h, List.getElem?_map, hs]; rfl

theorem heap_set {h : List Source} {addr : Nat} {source : Source} (hs : h[addr]? = some source) (lines : List Nat) :
    (h.set addr { source with lines := source.lines ++ lines }).map (fun s => (s.path, s.content)) = h.map fun s => (s.path, s.content) := by
  obtain ⟨hlt, he⟩ := List.getElem?_eq_some_iff.1 hs
  rw [List.map_set]
  have : (source.path, source.content) = (h.map fun s => (s.path, s.content))[addr]'(by simpa using hlt) := by simp [he]
  dsimp only
  rw [this, List.set_getElem_self]

theorem Loc.trap {env : CEnv} {S : List (Bytes × Nat)} {B : List (Nat × Nat)} {H : List (Bytes × Bytes)} (hT : Trap env S B H)
    {st : CSt} {t : Nat} {th : Thread} {sh : Shared} {pc : PC} (hI : Inv1 env st) (hL : TrapInv env S B H st)
    (hth : st.threads[t]? = some th) (h : Loc env st t th sh pc) :
    sh.sources = S ∧ sh.byIndex = B ∧ sh.heap.map (fun s => (s.path, s.content)) = H ∧ sh.asts = [] ∧ Held env B H st.threads t th.ss pc := by
  have hmem := List.mem_of_getElem? hth
  have hpcg := hI.pcs th hmem
  have hb := hL.held _ _ hth
  have hite : ∀ {b : Bool} {i : Nat}, NumImports env B H i → Held env B H st.threads t th.ss (if b = true then .outBegin i else .cached i) := by
    intro b i h; cases b <;> exact h
  cases h with
  | startEntry hpc hp he => exact ⟨hL.sources, hL.byIndex, hL.heap, hL.asts, trivial⟩
  | startFail hpc hp hpar hi hs hr =>
    exfalso
    have him := List.mem_of_getElem? hi
    rcases hI.frames _ (List.mem_of_getElem? hpar) with h0 | ⟨source', id, lines, h1, h2⟩
    · rw [h0] at him; cases him
    · rw [hs] at h1; cases h1
      obtain ⟨ss0, h3, h4⟩ := parse_ok_id h2
      rw [h4] at him
      obtain ⟨imp0, h5, rfl⟩ := List.mem_map.1 him
      obtain ⟨r, h6⟩ := hT.resolves (List.mem_of_getElem? (heap_source hL.heap hs)) h3 imp0 h5
      rw [show env.resolve (imp0.setId id).value _ = _ from h6] at hr
      cases hr
  | startImport hpc hp hpar hi hs hr => exact ⟨hL.sources, hL.byIndex, hL.heap, hL.asts, trivial⟩
  | noAbs hpc ha =>
    rw [hpc] at hpcg
    obtain ⟨a, i, h6, h7⟩ := hT.file hpcg
    rw [h6] at ha; cases ha
  | known hpc ha hl =>
    rw [hpc] at hpcg
    obtain ⟨a, i, h6, h7, h8⟩ := hT.file hpcg
    rw [h6] at ha; cases ha
    rw [hL.sources, h7] at hl; cases hl
    exact ⟨hL.sources, hL.byIndex, hL.heap, hL.asts, hite h8⟩
  | unknown hpc ha hl =>
    rw [hpc] at hpcg
    obtain ⟨a, i, h6, h7, h8⟩ := hT.file hpcg
    rw [h6] at ha; cases ha
    rw [hL.sources, h7] at hl; cases hl
  | noRead hpc => rw [hpc] at hb; exact hb.elim
  | read hpc => rw [hpc] at hb; exact hb.elim
  | alloc hpc => rw [hpc] at hb; exact hb.elim
  | store hpc => rw [hpc] at hb; exact hb.elim
  | incRead hpc => rw [hpc] at hb; exact ⟨hL.sources, hL.byIndex, hL.heap, hL.asts, hb⟩
  | incWrite hpc => rw [hpc] at hb; exact ⟨hL.sources, hL.byIndex, hL.heap, hL.asts, hite hb⟩
  | outBegin hpc => rw [hpc] at hb; exact ⟨hL.sources, hL.byIndex, hL.heap, hL.asts, hb⟩
  | outEnd hpc => rw [hpc] at hb; exact ⟨hL.sources, hL.byIndex, hL.heap, hL.asts, hb⟩
  | hit hpc hl => rw [hL.asts] at hl; cases hl
  | miss hpc => rw [hpc] at hb; exact ⟨hL.sources, hL.byIndex, hL.heap, hL.asts, hb⟩
  | source hpc hl =>
    rw [hpc] at hb
    obtain ⟨addr, h1, h2⟩ := hb
    rw [hL.byIndex, h1] at hl; cases hl
    exact ⟨hL.sources, hL.byIndex, hL.heap, hL.asts, h2⟩
  | parseFail hpc hs hp =>
    rw [hpc] at hb
    obtain ⟨path, c, ss, l, h1, h2, -⟩ := hb
    rw [heap_source hL.heap hs] at h1; cases h1
    rw [parse_id, h2] at hp
    cases hp
  | spawned hpc hk =>
    rw [hpc] at hb
    refine ⟨hL.sources, hL.byIndex, hL.heap, hL.asts, hb.2 ?_⟩
    have := List.length_pos_iff.2 hb.1
    omega
  | transform hpc hj =>
    rw [hpc] at hb
    exact (held_joined hL hb hj).elim
  | cache hpc => rw [hpc] at hb; exact hb.elim
  | finish hpc => rw [hpc] at hb; exact hb.elim

theorem Act.trap {env : CEnv} {S : List (Bytes × Nat)} {B : List (Nat × Nat)} {H : List (Bytes × Bytes)} (hT : Trap env S B H)
    {st st' : CSt} {t : Nat} {th : Thread} (hI : Inv1 env st)
    (hL : TrapInv env S B H st) (hth : st.threads[t]? = some th) (h : Act env st t th st') : TrapInv env S B H st' := by
  have hmain : ∀ {ths' : List Thread}, (∀ {p}, Kids st.threads p → Kids ths' p) →
      (∃ k, st.main = .spawn k ∧ 0 < k ∧ Kids ths' none) ∨ (st.main = .wait ∧ Kids ths' none) := by
    intro ths' hk
    rcases hL.main with ⟨k, h1, h0, h2⟩ | ⟨h1, h2⟩
    · exact .inl ⟨k, h1, h0, hk h2⟩
    · exact .inr ⟨h1, hk h2⟩
  cases h with
  | @loc sh pc h =>
    obtain ⟨h1, h2, h3, h4, h5⟩ := h.trap hT hI hL hth
    have hk : ∀ {p}, Kids st.threads p → Kids (st.threads.set t { th with pc := pc }) p := fun h => h.set hth rfl
    refine ⟨h1, h2, h3, h4, hmain hk, ?_⟩
    intro i x hx
    rcases getElem?_set_cases hx with ⟨rfl, rfl⟩ | ⟨-, hx⟩
    · exact h5.mono hk
    · exact (hL.held _ _ hx).mono hk
  | @parse i addr source ss lines hpc hs hp =>
    have hk : ∀ {p}, Kids st.threads p →
        Kids (st.threads.set t { th with pc := .spawn i 0, addr := addr, ss := ss }) p := fun h => h.set hth rfl
    refine ⟨hL.sources, hL.byIndex, (heap_set hs lines).trans hL.heap, hL.asts, hmain hk, ?_⟩
    intro j x hx
    rcases getElem?_set_cases hx with ⟨rfl, rfl⟩ | ⟨-, hx⟩
    · refine ⟨?_, fun h => absurd h (Nat.lt_irrefl _)⟩
      have hb := hL.held _ _ hth
      rw [hpc] at hb
      obtain ⟨path, c, ss0, l, h1, h2, h3⟩ := hb
      rw [heap_source hL.heap hs] at h1; cases h1
      rw [parse_id, h2] at hp
      dsimp only at hp
      injection hp with hp _
      rw [← hp]
      intro h
      exact h3 (List.map_eq_nil_iff.1 h)
    · exact (hL.held _ _ hx).mono hk
  | @spawn i k hpc hk' =>
    have hk : ∀ {p}, Kids st.threads p →
        Kids (st.threads.set t { th with pc := .spawn i (k + 1), imp := k } ++ [Thread.new (some t)]) p :=
      fun h => Kids.append (Kids.set (x := { th with pc := .spawn i (k + 1), imp := k }) h hth rfl)
    refine ⟨hL.sources, hL.byIndex, hL.heap, hL.asts, hmain hk, ?_⟩
    intro j x hx
    rcases Nat.lt_or_ge j (st.threads.set t { th with pc := .spawn i (k + 1), imp := k }).length with hj | hj
    · rw [List.getElem?_append_left hj] at hx
      rcases getElem?_set_cases hx with ⟨rfl, rfl⟩ | ⟨-, hx⟩
      · have hb := hL.held _ _ hth
        rw [hpc] at hb
        exact ⟨hb.1, fun _ => ⟨Thread.new (some t), List.mem_append_right _ List.mem_cons_self, rfl⟩⟩
      · exact (hL.held _ _ hx).mono hk
    · rw [List.getElem?_append_right hj] at hx
      have := List.mem_of_getElem? hx
      rw [List.mem_singleton.1 this]
      trivial
  | deliver hpc =>
    have hb := hL.held _ _ hth
    rw [hpc] at hb
    exact hb.elim

theorem MainAct.trap {env : CEnv} {S : List (Bytes × Nat)} {B : List (Nat × Nat)} {H : List (Bytes × Bytes)}
    {st st' : CSt} (hL : TrapInv env S B H st) (h : MainAct env st st') : TrapInv env S B H st' := by
  have hno : ∀ {rest}, st.main ≠ .print rest := by
    intro rest e
    rcases hL.main with ⟨k, h1, -⟩ | ⟨h1, -⟩ <;> rw [e] at h1 <;> cases h1
  have hkn : Kids st.threads none := by rcases hL.main with ⟨_, _, _, h⟩ | ⟨_, h⟩ <;> exact h
  cases h with
  | @spawn k hm hk =>
    refine ⟨hL.sources, hL.byIndex, hL.heap, hL.asts, .inl ⟨k + 1, rfl, Nat.succ_pos _, hkn.append⟩, ?_⟩
    intro j x hx
    rcases Nat.lt_or_ge j st.threads.length with hj | hj
    · dsimp only at hx
      rw [List.getElem?_append_left hj] at hx
      exact (hL.held _ _ hx).mono Kids.append
    · dsimp only at hx
      rw [List.getElem?_append_right hj] at hx
      rw [List.mem_singleton.1 (List.mem_of_getElem? hx)]
      trivial
  | spawned hm hk => exact ⟨hL.sources, hL.byIndex, hL.heap, hL.asts, .inr ⟨rfl, hkn⟩, hL.held⟩
  | wait hm hj => exact (held_joined hL hkn hj).elim
  | finish hm => exact (hno hm).elim
  | print hm => exact (hno hm).elim
  | printFail hm => exact (hno hm).elim
  | skip hm => exact (hno hm).elim

/-- A trap is not left. -/
theorem trap_stays {env : CEnv} {S : List (Bytes × Nat)} {B : List (Nat × Nat)} {H : List (Bytes × Bytes)} (hT : Trap env S B H)
    {n : Nat} {st st' : CSt} (hr : Reached env st) (hL : TrapInv env S B H st) (hs : Steps env n st st') : TrapInv env S B H st' := by
  induction hs with
  | refl => exact hL
  | step h1 _ ih =>
    refine ih (hr.step h1) ?_
    rcases cstep_act h1 with h | ⟨t, th, hth, h⟩
    · exact h.trap hL
    · exact h.trap hT hr.inv1 hL hth

end Cssc
