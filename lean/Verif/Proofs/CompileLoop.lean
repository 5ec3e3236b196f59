import Verif.Proofs.CompileInv
import Verif.Proofs.Ids

/-!
# Compile: import cycles
-/

namespace Cssc

/-- Every file that the compilation has to look at imports another one. -/
structure Endless (env : CEnv) : Prop where
  entries : env.entries ≠ []
  file : ∀ {p}, Asked env p → ∃ a c ss l, env.abs p = some a ∧ env.read a = some c ∧ parse env.fuel c = .ok ss l ∧
    ss.imports ≠ [] ∧ ∀ imp ∈ ss.imports, ∃ r, env.resolve imp.value (dirOf a) = some r

/-- `p` has started a goroutine. -/
def Kids (ths : List Thread) (p : Option Nat) : Prop := ∃ x ∈ ths, x.parent = p

theorem Kids.set {ths : List Thread} {p : Option Nat} {t : Nat} {th x : Thread} (h : Kids ths p) (hth : ths[t]? = some th)
    (hx : x.parent = th.parent) : Kids (ths.set t x) p := by
  obtain ⟨y, hy, rfl⟩ := h
  obtain ⟨i, hi, rfl⟩ := List.getElem_of_mem hy
  by_cases hti : t = i
  · subst hti
    rw [List.getElem?_eq_getElem hi] at hth
    cases hth
    exact ⟨x, List.mem_of_getElem? (List.getElem?_set_self hi), hx⟩
  · exact ⟨ths[i], List.mem_of_getElem? (by rw [List.getElem?_set_ne hti, List.getElem?_eq_getElem hi]), rfl⟩

theorem Kids.append {ths : List Thread} {p : Option Nat} {x : List Thread} (h : Kids ths p) : Kids (ths ++ x) p := by
  obtain ⟨y, hy, h⟩ := h
  exact ⟨y, List.mem_append_left _ hy, h⟩

/-- The goroutine has not returned, and will not. -/
def Busy (ths : List Thread) (t : Nat) (ss : Stylesheet) : PC → Prop
  | .cache .. => False
  | .deliver _ => False
  | .done => False
  | .spawn _ k => ss.imports ≠ [] ∧ (0 < k → Kids ths (some t))
  | .wait _ => Kids ths (some t)
  | _ => True

theorem Busy.mono {ths ths' : List Thread} {t : Nat} {ss : Stylesheet} {pc : PC} (h : Busy ths t ss pc)
    (hk : ∀ {p}, Kids ths p → Kids ths' p) : Busy ths' t ss pc := by
  cases pc <;> first | exact h | exact hk h | exact ⟨h.1, fun h0 => hk (h.2 h0)⟩

structure LoopInv (env : CEnv) (st : CSt) : Prop where
  asts : st.sh.asts = []
  files : st.sh.files = []
  main : (∃ k, st.main = .spawn k ∧ (0 < k → Kids st.threads none)) ∨ (st.main = .wait ∧ Kids st.threads none)
  busy : ∀ {t th}, st.threads[t]? = some th → Busy st.threads t th.ss th.pc

theorem joined_false {env : CEnv} {st : CSt} (hb : ∀ {t th}, st.threads[t]? = some th → Busy st.threads t th.ss th.pc)
    {p : Option Nat} (hk : Kids st.threads p) (hj : st.joined p = true) : False := by
  obtain ⟨x, hx, hp⟩ := hk
  unfold CSt.joined at hj
  have := List.all_eq_true.1 hj x hx
  rw [if_pos hp] at this
  obtain ⟨i, hi, rfl⟩ := List.getElem_of_mem hx
  have hbx := hb (List.getElem?_eq_getElem hi)
  split at this
  · rename_i h; rw [h] at hbx; exact hbx
  · cases this

theorem getElem?_set_cases {α : Type} {l : List α} {t i : Nat} {x y : α} (h : (l.set t x)[i]? = some y) :
    (t = i ∧ y = x) ∨ (t ≠ i ∧ l[i]? = some y) := by
  by_cases hti : t = i
  · subst hti
    have hlt : t < l.length := by
      have := (List.getElem?_eq_some_iff.1 h).1
      simpa using this
    rw [List.getElem?_set_self hlt] at h
    cases h
    exact .inl ⟨rfl, rfl⟩
  · rw [List.getElem?_set_ne hti] at h
    exact .inr ⟨hti, h⟩

theorem Loc.busy {env : CEnv} (he : Endless env) {st : CSt} {t : Nat} {th : Thread} {sh : Shared} {pc : PC}
    (hI : Inv1 env st) (hL : LoopInv env st) (hth : st.threads[t]? = some th) (h : Loc env st t th sh pc) :
    sh.asts = [] ∧ sh.files = [] ∧ Busy st.threads t th.ss pc := by
  have hmem := List.mem_of_getElem? hth
  have hpcg := hI.pcs th hmem
  have hb := hL.busy hth
  have hite : ∀ {b : Bool} {i : Nat}, Busy st.threads t th.ss (if b = true then .outBegin i else .cached i) := by
    intro b i; cases b <;> trivial
  cases h with
  | startEntry hpc hp he => exact ⟨hL.asts, hL.files, trivial⟩
  | startFail hpc hp hpar hi hs hr =>
    exfalso
    have him := List.mem_of_getElem? hi
    rcases hI.frames _ (List.mem_of_getElem? hpar) with h0 | ⟨source', id, lines, h1, h2⟩
    · rw [h0] at him; cases him
    · rw [hs] at h1; cases h1
      obtain ⟨q, h3, h4, h5⟩ := hI.heap _ (List.mem_of_getElem? hs)
      obtain ⟨a, c, ss, l, h6, h7, h8, h9, h10⟩ := he.file h3
      rw [h4] at h6; cases h6
      rw [h5] at h7; cases h7
      rw [parse_id, h8] at h2
      dsimp only at h2
      injection h2 with h2 _
      rw [← h2] at him
      obtain ⟨imp0, h11, h12⟩ := List.mem_map.1 him
      obtain ⟨r, h13⟩ := h10 imp0 h11
      rw [← h12] at hr
      rw [show env.resolve (imp0.setId id).value _ = _ from h13] at hr
      cases hr
  | startImport hpc hp hpar hi hs hr => exact ⟨hL.asts, hL.files, trivial⟩
  | noAbs hpc ha =>
    rw [hpc] at hpcg
    obtain ⟨a, c, ss, l, h6, h7⟩ := he.file hpcg
    rw [h6] at ha; cases ha
  | known => exact ⟨hL.asts, hL.files, hite⟩
  | unknown hpc ha hl => exact ⟨hL.asts, hL.files, trivial⟩
  | noRead hpc hr =>
    rw [hpc] at hpcg
    obtain ⟨a, c, ss, l, h6, h7, _⟩ := he.file hpcg.1
    rw [hpcg.2] at h6; cases h6
    rw [h7] at hr; cases hr
  | read hpc hr => exact ⟨hL.asts, hL.files, trivial⟩
  | alloc hpc => exact ⟨hL.asts, hL.files, trivial⟩
  | store hpc => exact ⟨hL.asts, hL.files, trivial⟩
  | incRead => exact ⟨hL.asts, hL.files, trivial⟩
  | incWrite => exact ⟨hL.asts, hL.files, hite⟩
  | outBegin => exact ⟨hL.asts, hL.files, trivial⟩
  | outEnd => exact ⟨hL.asts, hL.files, trivial⟩
  | hit hpc hl => rw [hL.asts] at hl; cases hl
  | miss => exact ⟨hL.asts, hL.files, trivial⟩
  | source => exact ⟨hL.asts, hL.files, trivial⟩
  | parseFail hpc hs hp =>
    obtain ⟨q, h3, h4, h5⟩ := hI.heap _ (List.mem_of_getElem? hs)
    obtain ⟨a, c, ss, l, h6, h7, h8, h9, h10⟩ := he.file h3
    rw [h4] at h6; cases h6
    rw [h5] at h7; cases h7
    rw [parse_id, h8] at hp
    cases hp
  | spawned hpc hk =>
    rw [hpc] at hb
    refine ⟨hL.asts, hL.files, hb.2 ?_⟩
    have := List.length_pos_iff.2 hb.1
    omega
  | transform hpc hj =>
    rw [hpc] at hb
    exact (joined_false (env := env) hL.busy hb hj).elim
  | cache hpc => rw [hpc] at hb; exact hb.elim
  | finish hpc => rw [hpc] at hb; exact hb.elim

theorem Act.loop {env : CEnv} (he : Endless env) {st st' : CSt} {t : Nat} {th : Thread} (hI : Inv1 env st)
    (hL : LoopInv env st) (hth : st.threads[t]? = some th) (h : Act env st t th st') : LoopInv env st' := by
  have hmain : ∀ {ths' : List Thread}, (∀ {p}, Kids st.threads p → Kids ths' p) →
      (∃ k, st.main = .spawn k ∧ (0 < k → Kids ths' none)) ∨ (st.main = .wait ∧ Kids ths' none) := by
    intro ths' hk
    rcases hL.main with ⟨k, h1, h2⟩ | ⟨h1, h2⟩
    · exact .inl ⟨k, h1, fun h => hk (h2 h)⟩
    · exact .inr ⟨h1, hk h2⟩
  cases h with
  | @loc sh pc h =>
    obtain ⟨h1, h2, h3⟩ := h.busy he hI hL hth
    have hk : ∀ {p}, Kids st.threads p → Kids (st.threads.set t { th with pc := pc }) p := fun h => h.set hth rfl
    refine ⟨h1, h2, hmain hk, ?_⟩
    intro i x hx
    rcases getElem?_set_cases hx with ⟨rfl, rfl⟩ | ⟨-, hx⟩
    · exact h3.mono hk
    · exact (hL.busy hx).mono hk
  | @parse i addr source ss lines hpc hs hp =>
    have hk : ∀ {p}, Kids st.threads p →
        Kids (st.threads.set t { th with pc := .spawn i 0, addr := addr, ss := ss }) p := fun h => h.set hth rfl
    refine ⟨hL.asts, hL.files, hmain hk, ?_⟩
    intro j x hx
    rcases getElem?_set_cases hx with ⟨rfl, rfl⟩ | ⟨-, hx⟩
    · refine ⟨?_, fun h => absurd h (Nat.lt_irrefl _)⟩
      obtain ⟨q, h3, h4, h5⟩ := hI.heap _ (List.mem_of_getElem? hs)
      obtain ⟨a, c, ss0, l, h6, h7, h8, h9, h10⟩ := he.file h3
      rw [h4] at h6; cases h6
      rw [h5] at h7; cases h7
      rw [parse_id, h8] at hp
      dsimp only at hp
      injection hp with hp _
      rw [← hp]
      intro h
      exact h9 (List.map_eq_nil_iff.1 h)
    · exact (hL.busy hx).mono hk
  | @spawn i k hpc hk' =>
    have hk : ∀ {p}, Kids st.threads p →
        Kids (st.threads.set t { th with pc := .spawn i (k + 1), imp := k } ++ [Thread.new (some t)]) p :=
      fun h => Kids.append (Kids.set (x := { th with pc := .spawn i (k + 1), imp := k }) h hth rfl)
    refine ⟨hL.asts, hL.files, hmain hk, ?_⟩
    intro j x hx
    rcases Nat.lt_or_ge j (st.threads.set t { th with pc := .spawn i (k + 1), imp := k }).length with hj | hj
    · rw [List.getElem?_append_left hj] at hx
      rcases getElem?_set_cases hx with ⟨rfl, rfl⟩ | ⟨-, hx⟩
      · have hb := hL.busy hth
        rw [hpc] at hb
        exact ⟨hb.1, fun _ => ⟨Thread.new (some t), List.mem_append_right _ List.mem_cons_self, rfl⟩⟩
      · exact (hL.busy hx).mono hk
    · rw [List.getElem?_append_right hj] at hx
      have := List.mem_of_getElem? hx
      rw [List.mem_singleton.1 this]
      trivial
  | deliver hpc =>
    have hb := hL.busy hth
    rw [hpc] at hb
    exact hb.elim

theorem MainAct.loop {env : CEnv} (he : Endless env) {st st' : CSt} (hL : LoopInv env st) (h : MainAct env st st') :
    LoopInv env st' := by
  cases h with
  | @spawn k hm hk =>
    refine ⟨hL.asts, hL.files, .inl ⟨k + 1, rfl, fun _ => ⟨Thread.new none, List.mem_append_right _ List.mem_cons_self, rfl⟩⟩, ?_⟩
    intro j x hx
    rcases Nat.lt_or_ge j st.threads.length with hj | hj
    · rw [List.getElem?_append_left hj] at hx
      exact (hL.busy hx).mono fun h => h.append
    · rw [List.getElem?_append_right hj] at hx
      have := List.mem_of_getElem? hx
      rw [List.mem_singleton.1 this]
      trivial
  | @spawned k hm hk =>
    rcases hL.main with ⟨k', h1, h2⟩ | ⟨h1, h2⟩
    · rw [hm] at h1
      cases h1
      have := List.length_pos_iff.2 he.entries
      exact ⟨hL.asts, hL.files, .inr ⟨rfl, h2 (by omega)⟩, hL.busy⟩
    · rw [hm] at h1; cases h1
  | wait hm hj =>
    rcases hL.main with ⟨k', h1, h2⟩ | ⟨h1, h2⟩
    · rw [hm] at h1; cases h1
    · exact (joined_false (env := env) hL.busy h2 hj).elim
  | finish hm => rcases hL.main with ⟨k', h1, h2⟩ | ⟨h1, h2⟩ <;> (rw [hm] at h1; cases h1)
  | print hm => rcases hL.main with ⟨k', h1, h2⟩ | ⟨h1, h2⟩ <;> (rw [hm] at h1; cases h1)
  | printFail hm => rcases hL.main with ⟨k', h1, h2⟩ | ⟨h1, h2⟩ <;> (rw [hm] at h1; cases h1)
  | skip hm => rcases hL.main with ⟨k', h1, h2⟩ | ⟨h1, h2⟩ <;> (rw [hm] at h1; cases h1)

theorem Reached.loop {env : CEnv} (he : Endless env) {st : CSt} (h : Reached env st) : LoopInv env st := by
  induction h with
  | init => exact ⟨rfl, rfl, .inl ⟨0, rfl, fun h => absurd h (Nat.lt_irrefl _)⟩, fun h => by simp [CSt.init] at h⟩
  | step hr hs ih =>
    rcases cstep_act hs with h | ⟨t, th, h1, h2⟩
    · exact h.loop he ih
    · exact h2.loop he hr.inv1 ih h1

end Cssc
