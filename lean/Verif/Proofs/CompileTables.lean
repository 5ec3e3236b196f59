import Verif.Proofs.CompileMade

/-!
# The line tables of the sources during a compilation

Every parse of a source appends the table of its text once more.
-/

namespace Cssc

/-- The line table that a parse of a text makes. -/
def tableOf (env : CEnv) (c : Bytes) : List Nat :=
  match parse env.fuel c with
  | .ok _ lines => lines
  | .error _ lines => lines
  | _ => []

/-- … and `k` parses. -/
def tables (env : CEnv) (c : Bytes) (k : Nat) : List Nat := (List.replicate k (tableOf env c)).flatten

theorem tables_succ (env : CEnv) (c : Bytes) (k : Nat) : tables env c (k + 1) = tables env c k ++ tableOf env c := by
  unfold tables
  rw [List.replicate_succ', List.flatten_append, List.flatten_singleton]

theorem tableOf_ok {env : CEnv} {c : Bytes} {id : Nat} {ss : Stylesheet} {lines : List Nat}
    (h : parse env.fuel c id = .ok ss lines) : tableOf env c = lines := by
  obtain ⟨ss0, h0, _⟩ := parse_ok_id h
  unfold tableOf
  rw [h0]

theorem tableOf_error {env : CEnv} {c : Bytes} {id : Nat} {e : LexErr} {lines : List Nat}
    (h : parse env.fuel c id = .error e lines) : tableOf env c = lines := by
  unfold tableOf
  rw [parse_error_id h]

/-- The line table of a source is made by at most as many parses as there were of files with its path. -/
def HeapT (env : CEnv) (sh : Shared) : Prop :=
  ∀ s ∈ sh.heap, ∃ k, k ≤ sh.parses.count s.path ∧ s.lines = tables env s.content k

theorem HeapT.parsed {env : CEnv} {sh : Shared} (h : HeapT env sh) {addr : Nat} {source : Source} {lines : List Nat}
    (hs : sh.heap[addr]? = some source) (hl : tableOf env source.content = lines) : HeapT env (sh.parsed addr source lines) := by
  intro s hm
  have hm : s ∈ sh.heap.set addr { source with lines := source.lines ++ lines } := hm
  have hc : (sh.parsed addr source lines).parses = source.path :: sh.parses := rfl
  rw [hc]
  rcases List.mem_or_eq_of_mem_set hm with hm | rfl
  · obtain ⟨k, h1, h2⟩ := h s hm
    exact ⟨k, Nat.le_trans h1 (by rw [List.count_cons]; omega), h2⟩
  · obtain ⟨k, h1, h2⟩ := h source (List.mem_of_getElem? hs)
    refine ⟨k + 1, ?_, ?_⟩
    · dsimp only
      rw [List.count_cons_self]; omega
    · dsimp only
      rw [tables_succ, h2, hl]

theorem Loc.heapT {env : CEnv} {st : CSt} {t : Nat} {th : Thread} {sh : Shared} {pc : PC} (h : Loc env st t th sh pc)
    (hI : HeapT env st.sh) : HeapT env sh := by
  cases h with
  | store =>
    intro s hm
    have hm := List.mem_append.1 hm
    rcases hm with hm | hm
    · exact hI s hm
    · rw [List.mem_singleton.1 hm]
      exact ⟨0, Nat.zero_le _, rfl⟩
  | parseFail hpc hs hp => exact HeapT.parsed hI hs (tableOf_error hp)
  | _ => exact hI

theorem Act.heapT {env : CEnv} {st st' : CSt} {t : Nat} {th : Thread} (h : Act env st t th st')
    (hI : HeapT env st.sh) : HeapT env st'.sh := by
  cases h with
  | loc h => exact h.heapT hI
  | parse hpc hs hp => exact HeapT.parsed hI hs (tableOf_ok hp)
  | spawn => exact hI
  | deliver => exact hI

theorem Loc.parses {env : CEnv} {st : CSt} {t : Nat} {th : Thread} {sh : Shared} {pc : PC} (h : Loc env st t th sh pc) :
    sh.files = st.sh.files ∧ ∀ a, st.sh.parses.count a ≤ sh.parses.count a := by
  cases h with
  | parseFail => exact ⟨rfl, fun a => List.count_le_count_cons⟩
  | _ => exact ⟨rfl, fun a => Nat.le_refl _⟩

theorem Act.parses {env : CEnv} {st st' : CSt} {t : Nat} {th : Thread} (h : Act env st t th st') :
    st'.sh.files = st.sh.files ∧ ∀ a, st.sh.parses.count a ≤ st'.sh.parses.count a := by
  cases h with
  | loc h => exact h.parses
  | parse => exact ⟨rfl, fun a => List.count_le_count_cons⟩
  | spawn => exact ⟨rfl, fun a => Nat.le_refl _⟩
  | deliver => exact ⟨rfl, fun a => Nat.le_refl _⟩

/-- The files have been printed with tables made by at most as many parses as there were of the file. -/
def FilesT (env : CEnv) (S : Prop) (sh : Shared) : Prop :=
  ∀ a out, (a, out) ∈ sh.files → ∃ p c b ss log k, Asked env p ∧ env.abs p = some a ∧ env.read a = some c ∧
    Made env S b ss log ∧ (S → b = a ∧ 1 ≤ k) ∧ k ≤ sh.parses.count a ∧ print (some ⟨a, c, tables env c k⟩) ss = .ok out

theorem MainAct.heapT {env : CEnv} {st st' : CSt} (h : MainAct env st st') (hI : HeapT env st.sh) : HeapT env st'.sh := by
  cases h <;> exact hI

theorem MainAct.filesT {env : CEnv} {S : Prop} {st st' : CSt} (hI1 : Inv1 env st) (hT : HeapT env st.sh) (hI : Inv2 env S st)
    (hS : S → ∀ i x y, (i, x) ∈ st.sh.byIndex → (i, y) ∈ st.sh.byIndex → x = y) (hF : FilesT env S st.sh)
    (h : MainAct env st st') : FilesT env S st'.sh := by
  cases h with
  | print hm hi ha hs hss hp =>
    intro a out hkv
    rcases List.mem_cons.1 hkv with hkv | hkv
    · cases hkv
      obtain ⟨p, p1, p2, p3⟩ := hI1.heap _ (List.mem_of_getElem? hs)
      obtain ⟨k, k1, k2⟩ := hT _ (List.mem_of_getElem? hs)
      obtain ⟨addr', s', log, a1, a2, a3, a4, a5⟩ := hI.asts _ _ (mem_of_lookupMap hss)
      refine ⟨p, _, s'.path, _, log, k, p1, p2, p3, a5, fun h => ?_, k1, by rw [← k2]; exact hp⟩
      cases hS h _ _ _ (mem_of_lookupMap ha) a1
      rw [hs] at a2; cases a2
      refine ⟨rfl, ?_⟩
      cases k with
      | zero => exact absurd k2 a3
      | succ k => omega
    · exact hF a out hkv
  | spawn => exact hF
  | spawned => exact hF
  | wait => exact hF
  | finish => exact hF
  | skip => exact hF
  | printFail => exact hF

theorem Reached.heapT {env : CEnv} {st : CSt} (h : Reached env st) : HeapT env st.sh := by
  induction h with
  | init => intro s hs; cases hs
  | step _ hs ih =>
    rcases cstep_act hs with h | ⟨t, th, _, h⟩
    · exact h.heapT ih
    · exact h.heapT ih

theorem Reached.filesT {env : CEnv} {S : Prop} {st : CSt} (h : Reached env st) (hS : S → Distinct st.sh) :
    FilesT env S st.sh := by
  induction h with
  | init => intro a out h; cases h
  | step hr hs ih =>
    rcases cstep_act hs with h | ⟨t, th, hth, h⟩
    · have hd := fun hs => (hS hs).of_le h.stLe
      exact h.filesT hr.inv1 hr.heapT (hr.inv2 hd) (fun hs i x y hx hy => hr.invN.eq (hd hs) hx hy) (ih hd)
    · have hd := fun hs => (hS hs).of_le (h.stLe hth)
      intro a out hf
      rw [h.parses.1] at hf
      obtain ⟨p, c, b, ss, log, k, h1, h2, h3, h4, h5, h6, h7⟩ := ih hd a out hf
      exact ⟨p, c, b, ss, log, k, h1, h2, h3, h4, h5, Nat.le_trans h6 (h.parses.2 a), h7⟩

end Cssc
