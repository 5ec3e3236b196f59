import Verif.Props.Win
import Verif.Props.ProjectShared

/-!
# C92: projects that are followed

In follow mode every file that is asked for is written, so that the condition of `followed_wins_partial` that all files are
written holds at the end.
-/

namespace Cssc

variable {B : Browser} {lt : List B.W → List B.W → Prop}

/-- Without inlining the whole compilation of a file is made of this file alone. -/
theorem Full.made {env : CEnv} (hin : env.opts.importRules ≠ .inline) {ps : List Bytes} {a : Bytes} {ss : Stylesheet} {log : List Report}
    (h : Full env ps a ss log) : Made env True a ss log := by
  cases h with
  | mk fileOf logOf h1 h2 h3 h4 h5 h6 h7 h8 h9 =>
    refine Made.mk (repl := []) fileOf logOf h1 h2 h3 h4 (fun _ k => absurd k List.not_mem_nil) (fun _ k => absurd k List.not_mem_nil)
      (fun _ _ k => absurd k List.not_mem_nil) ?_
    rw [if_neg hin] at h9 ⊢
    exact h9

theorem lookupMap_some_of_mem {β : Type} {a : Bytes} {x : β} : ∀ {m : List (Bytes × β)}, (a, x) ∈ m → ∃ y, lookupMap m a = some y
  | [], h => by cases h
  | kv :: m, h => by
    unfold lookupMap
    split
    · exact ⟨_, rfl⟩
    · rename_i hne
      rcases List.mem_cons.1 h with rfl | h
      · exact absurd rfl hne
      · exact lookupMap_some_of_mem h

/-- In follow mode every file that can be parsed is written. -/
theorem followed_all {env : CEnv} (hin : env.opts.importRules = .follow)
    (hready : ∀ {p a c ss lines}, Asked env p → env.abs p = some a → env.read a = some c → parse env.fuel c = .ok ss lines → ss.Ready)
    (hrk : ∀ {a ss' log}, Made env True a ss' log → ss'.Reckoned)
    {st : CSt} (h : ReachedTidy env st) (hD : Distinct st.sh) (hd : st.main = .done)
    {p f : Bytes} {ns : List Node} (hp : Asked env p) (hf : env.abs p = some f) (hs : sourceOf env f = some ns) :
    ∃ out, lookupMap st.sh.files f = some out := by
  have hcomp : ∀ {a ss' log}, Full env st.sh.parses a ss' log → Compiled env.fo Stylesheet.Ready ss' := fun hf =>
    hf.compiled fun h1 h2 h3 h4 => by
      obtain ⟨ss0, h5, rfl⟩ := parse_ok_id h4
      exact ready_setId (hready h1 h2 h3 h5) _
  have ht : ToPrint env f := by
    cases hp with
    | entry he => exact .inl ⟨_, he, hf⟩
    | imp h1 h2 h3 h4 h5 h6 => exact .inr ⟨hin, _, .imp h1 h2 h3 h4 h5 h6, hf⟩
  unfold sourceOf at hs
  obtain ⟨c, hc, hs⟩ := Option.bind_eq_some_iff.1 hs
  split at hs
  · rename_i ss lines hpar
    rcases printed_whole (h.inv hD) hD hd ht hc hpar with ⟨out, k⟩ | k
    · exact lookupMap_some_of_mem k
    · cases (h.inv hD).errors _ k with
      | fails _ hf => cases hf
      | @print _ ss' log _ k2 k3 =>
        obtain ⟨css, _, _, _, d1, -⟩ := sources_output_parses (hcomp k2) (hrk (k2.made (by rw [hin]; decide))) 0
        rw [k3] at d1
        cases d1
  · cases hs

/-- **C92 for projects in follow mode, partial**: compile a project in follow mode, without custom properties, with nodes shared in
memory.  When a schedule has ended in which the loop variables are read in time and no number is given twice, then every file
that can be parsed is written, and for every element the same declarations win in what is written as in the sources, each file
with the imported ones at the places of their imports, to any depth, under the conditions of the imports. -/
theorem followed_project_partial {env : CEnv} (hr : RoundTrip env.fo) (hC : B.KnowsCalc env.fo) (hL : B.KnowsLinks)
    (has : ∀ a b, lt a b → ¬ lt b a) (ho : env.opts.customProperties = false) (hin : env.opts.importRules = .follow)
    (hready : ∀ {p a c ss lines}, Asked env p → env.abs p = some a → env.read a = some c → parse env.fuel c = .ok ss lines → ss.Ready)
    (hlow : ∀ {p a c id ss lines}, Asked env p → env.abs p = some a → env.read a = some c → parse env.fuel c id = .ok ss lines →
      Lowerable B env.fo env.opts ss.nodes)
    (hrk : ∀ {a ss' log}, Made env True a ss' log → ss'.Reckoned)
    {cs : List Choice} {st : CSt} (h : Along env CSt.init cs st) (hD : Distinct st.sh) (hd : st.main = .done) :
    ∃ hs, hRunSched env HSt.init cs = .ok hs ∧ hs.main = .done ∧
    ∀ (d : Nat) {p f : Bytes} {ns : List Node}, Asked env p → env.abs p = some f → sourceOf env f = some ns →
      ∃ ns', writtenOf hs.sh.files f = some ns' ∧ ∀ e : B.doc.Elem,
        SameWins lt (saidBy B env e (writtenOf hs.sh.files) d (dirOf f) ns') (saidBy B env e (sourceOf env) d (dirOf f) ns) := by
  have hni : env.opts.importRules ≠ .inline := by rw [hin]; decide
  have hsame := sharing_partial (env := env) (fun k => absurd k hni) cs
  rw [h.run] at hsame
  obtain ⟨hs, e, v⟩ : ∃ hs, hRunSched env HSt.init cs = .ok hs ∧ SameView st hs := by
    revert hsame
    generalize hRunSched env HSt.init cs = b
    intro hsame
    cases hsame with
    | ok v => exact ⟨_, rfl, v⟩
  refine ⟨hs, e, v.main.trans hd, ?_⟩
  rw [v.files]
  have ht := h.tidy .init
  exact followed_wins hr hC hL has ho hni hready hlow hrk ht.reached hD fun h1 h2 h3 => followed_all hin hready hrk ht hD hd h1 h2 h3

/-- The sequential compilation of an acyclic project ends, and so it is with it. -/
theorem followed_project_seq {env : CEnv} {rank : Bytes → Nat} (hac : Acyclic env rank) (hleg : Legible env)
    (hr : RoundTrip env.fo) (hC : B.KnowsCalc env.fo) (hL : B.KnowsLinks)
    (has : ∀ a b, lt a b → ¬ lt b a) (ho : env.opts.customProperties = false) (hin : env.opts.importRules = .follow)
    (hready : ∀ {p a c ss lines}, Asked env p → env.abs p = some a → env.read a = some c → parse env.fuel c = .ok ss lines → ss.Ready)
    (hlow : ∀ {p a c id ss lines}, Asked env p → env.abs p = some a → env.read a = some c → parse env.fuel c id = .ok ss lines →
      Lowerable B env.fo env.opts ss.nodes)
    (hrk : ∀ {a ss' log}, Made env True a ss' log → ss'.Reckoned) :
    ∃ n sh, seqCompile env n = some sh ∧
    ∀ (d : Nat) {p f : Bytes} {ns : List Node}, Asked env p → env.abs p = some f → sourceOf env f = some ns →
      ∃ ns', writtenOf sh.files f = some ns' ∧ ∀ e : B.doc.Elem,
        SameWins lt (saidBy B env e (writtenOf sh.files) d (dirOf f) ns') (saidBy B env e (sourceOf env) d (dirOf f) ns) := by
  obtain ⟨n, sh, h1⟩ := seqCompile_ends hac hleg.tame
  obtain ⟨st, h2, h3, rfl⟩ := seqCompile_tidy h1
  refine ⟨n, _, h1, followed_wins_seq hr hC hL has ho (by rw [hin]; decide) hready hlow hrk h1 fun k1 k2 k3 => ?_⟩
  exact followed_all hin hready hrk h2 (seqCompile_distinct h1) h3 k1 k2 k3

/-- All hypotheses of `followed_project_seq` are met. -/
example : ∃ n sh, seqCompile apartEnv n = some sh ∧
    ∀ (d : Nat) {p f : Bytes} {ns : List Node}, Asked apartEnv p → apartEnv.abs p = some f → sourceOf apartEnv f = some ns →
      ∃ ns', writtenOf sh.files f = some ns' ∧ ∀ e, SameWins sumLess (saidBy smallBrowser apartEnv e (writtenOf sh.files) d (dirOf f) ns')
        (saidBy smallBrowser apartEnv e (sourceOf apartEnv) d (dirOf f) ns) :=
  followed_project_seq (env := apartEnv)
    (acyclic_of_test (env := apartEnv) (files := apartFiles) (rank := fun a => if a = b!"/m" then 1 else 0) rfl (by decide +kernel))
    (legible_of_test (files := apartFiles) rfl (by decide) (by decide +kernel)) unary_roundTrip smallBrowser_calc smallBrowser_links
    (fun _ _ h k => absurd h (Nat.lt_asymm k)) rfl rfl
    (fun _ _ hc hp => ready_of_test (env := apartEnv) (files := apartFiles) rfl (by decide +kernel) hc hp)
    (fun _ _ hc hp => low_of_test (files := apartFiles) rfl (by decide +kernel) _ hc hp)
    (fun hm => reckoned_of_test (files := apartFiles) rfl (by decide) (by decide +kernel) hm)

end Cssc
