import Verif.Props.Project
import Verif.Props.Sharing

/-!
# C89 with trees in memory

`project_says_partial` is about the compilation in which every stylesheet is a value of its own.  Without custom properties
and custom media queries the compilation in which stylesheets share their nodes does the same (C75), so it holds there too.
-/

namespace Cssc

/-- The choices `cs` lead from one state to another, with the loop variables read in time. -/
inductive Along (env : CEnv) : CSt → List Choice → CSt → Prop where
  | nil {st : CSt} : Along env st [] st
  | cons {st st' st'' : CSt} {c : Choice} {cs : List Choice} : TidyStep env st c → cstep env st c = some (.ok st') →
      Along env st' cs st'' → Along env st (c :: cs) st''

theorem Along.tidy {env : CEnv} {st st' : CSt} {cs : List Choice} (h : Along env st cs st') : ReachedTidy env st → ReachedTidy env st' := by
  induction h with
  | nil => exact id
  | cons h1 h2 _ ih => exact fun h => ih (.step h h1 h2)

theorem Along.run {env : CEnv} {st st' : CSt} {cs : List Choice} (h : Along env st cs st') : runSched env st cs = .ok st' := by
  induction h with
  | nil => rfl
  | cons h1 h2 _ ih => unfold runSched; rw [h2]; exact ih

theorem Along.snoc {env : CEnv} {st st' st'' : CSt} {c : Choice} {cs : List Choice} (h : Along env st cs st') (h1 : TidyStep env st' c)
    (h2 : cstep env st' c = some (.ok st'')) : Along env st (cs ++ [c]) st'' := by
  induction h with
  | nil => exact .cons h1 h2 .nil
  | cons k1 k2 _ ih => exact .cons k1 k2 (ih h1 h2)

/-- Every state that tidy schedules lead to has its choices. -/
theorem ReachedTidy.along {env : CEnv} {st : CSt} (h : ReachedTidy env st) : ∃ cs, Along env CSt.init cs st := by
  induction h with
  | init => exact ⟨[], .nil⟩
  | step _ h1 h2 ih =>
    obtain ⟨cs, h3⟩ := ih
    exact ⟨_, h3.snoc h1 h2⟩

/-- **C89 with trees in memory, partial**: a project as in `project_says_partial`, compiled with imports inlined and any features
but custom properties and custom media queries.  The same choices lead the compilation in which stylesheets share their nodes to its
end, and what is written there says about every element what the files say that are included in one another.  Missing: those two
features, with which there are projects where sharing can be seen (`sharing_refuted`); whether it can be in lucid ones is not shown. -/
theorem project_shared_partial {B : Browser} {env : CEnv} (hr : RoundTrip env.fo)
    (hC : B.KnowsCalc env.fo) (hL : B.KnowsLinks) (hw : Lucid B env) (ho : env.opts.customProperties = false)
    (hq : env.opts.customMediaQueries = false) (hin : env.opts.importRules = .inline)
    (hready : ∀ {p a c ss lines}, Asked env p → env.abs p = some a → env.read a = some c → parse env.fuel c = .ok ss lines → ss.Ready)
    {cs : List Choice} {st : CSt} (h : Along env CSt.init cs st) (hD : Distinct st.sh) (hd : st.main = .done) :
    ∃ hs, hRunSched env HSt.init cs = .ok hs ∧ hs.main = .done ∧ hs.sh.errors = st.sh.errors ∧
    (∀ {a out}, (a, out) ∈ hs.sh.files → ∃ c id ss lines incl ss' log, env.read a = some c ∧ parse env.fuel c id = .ok ss lines ∧
      Included env (dirOf a) ss.nodes incl ∧ Full env hs.sh.parses a ss' log ∧
      (ss'.Reckoned → ∀ i, ∃ k ss2 lines2, (∀ n, k ≤ n → parse n out i = .ok ss2 lines2) ∧
        ∀ e : B.doc.Elem, applied B e ss2.nodes = applied B e incl)) ∧
    ∀ {e a}, e ∈ env.entries → env.abs e = some a →
      (∃ out, (a, out) ∈ hs.sh.files) ∨ ∃ ss' log, Full env hs.sh.parses a ss' log ∧ ¬ ss'.Reckoned := by
  have hsame := sharing_partial (env := env) (fun _ => ⟨ho, hq⟩) cs
  rw [h.run] at hsame
  obtain ⟨hs, e, v⟩ : ∃ hs, hRunSched env HSt.init cs = .ok hs ∧ SameView st hs := by
    revert hsame
    generalize hRunSched env HSt.init cs = b
    intro hsame
    cases hsame with
    | ok v => exact ⟨_, rfl, v⟩
  refine ⟨hs, e, v.main.trans hd, v.errors, ?_⟩
  rw [v.files, v.parses]
  exact project_says_partial hr hC hL hw ho hin hready (h.tidy .init) hD hd

/-- One call after the other, the files of an acyclic project are all written by a schedule of the compilation with trees in memory. -/
theorem project_shared_seq {B : Browser} {env : CEnv} {rank : Bytes → Nat} (hac : Acyclic env rank) (hleg : Legible env) (hr : RoundTrip env.fo)
    (hC : B.KnowsCalc env.fo) (hL : B.KnowsLinks) (hw : Lucid B env) (ho : env.opts.customProperties = false)
    (hq : env.opts.customMediaQueries = false) (hin : env.opts.importRules = .inline)
    (hready : ∀ {p a c ss lines}, Asked env p → env.abs p = some a → env.read a = some c → parse env.fuel c = .ok ss lines → ss.Ready) :
    ∃ n sh cs hs, seqCompile env n = some sh ∧ hRunSched env HSt.init cs = .ok hs ∧ hs.main = .done ∧ hs.sh.errors = sh.errors ∧
      ∀ {a out}, (a, out) ∈ hs.sh.files → ∃ c id ss lines incl ss' log, env.read a = some c ∧
      parse env.fuel c id = .ok ss lines ∧ Included env (dirOf a) ss.nodes incl ∧ Full env hs.sh.parses a ss' log ∧
      (ss'.Reckoned → ∀ i, ∃ k ss2 lines2, (∀ n, k ≤ n → parse n out i = .ok ss2 lines2) ∧
        ∀ e : B.doc.Elem, applied B e ss2.nodes = applied B e incl) := by
  obtain ⟨n, sh, h1⟩ := seqCompile_ends hac hleg.tame
  obtain ⟨st, h2, h3, rfl⟩ := seqCompile_tidy h1
  obtain ⟨cs, h4⟩ := h2.along
  obtain ⟨hs, k1, k2, k3, k4, -⟩ := project_shared_partial hr hC hL hw ho hq hin hready h4 (seqCompile_distinct h1) h3
  exact ⟨n, _, cs, hs, h1, k1, k2, k3, k4⟩

/-- Three files; two of them import the third. -/
def shareFiles : List (Bytes × Bytes) :=
  [(b!"/m", b!"@import 'a'; @import 'b'; a:any-link { w: calc(11px + 1px) }"),
    (b!"/a", b!"@import 'b'; @media (width >= 1px) { b { c: d } }"), (b!"/b", b!"@media (height <= 11px) { x { y: z } }")]

def shareEnv : CEnv :=
  ⟨[b!"m", b!"a"], { lowering with customMediaQueries := false }, some b!"/", lookupMap shareFiles, fun spec dir => some (joinPath [dir, spec]), unaryOps, 400⟩

/-- All hypotheses of `project_shared_seq` are met; the nodes of `/b` are in three stylesheets. -/
example : (∃ rank, Acyclic shareEnv rank) ∧ Legible shareEnv ∧ RoundTrip shareEnv.fo ∧ smallBrowser.KnowsCalc shareEnv.fo ∧ smallBrowser.KnowsLinks ∧
    Lucid smallBrowser shareEnv ∧ shareEnv.opts.customProperties = false ∧ shareEnv.opts.customMediaQueries = false ∧ shareEnv.opts.importRules = .inline ∧
    (∀ {p a c ss lines}, Asked shareEnv p → shareEnv.abs p = some a → shareEnv.read a = some c → parse shareEnv.fuel c = .ok ss lines → ss.Ready) ∧
    (seqCompile shareEnv 20).map (fun sh => (sh.errors, (lookupMap sh.files b!"/m").map cssLine, (lookupMap sh.files b!"/a").map cssLine)) = some ([], some
      b!"@media (max-height:11px){x{y:z}}@media (min-width:1px){b{c:d}}@media (max-height:11px){x{y:z}}a:visited,a:link{w:111px}",
      some b!"@media (max-height:11px){x{y:z}}@media (min-width:1px){b{c:d}}") :=
  ⟨⟨_, acyclic_of_test (env := shareEnv) (files := shareFiles) (rank := fun a => if a = b!"/m" then 2 else if a = b!"/a" then 1 else 0) rfl (by decide +kernel)⟩,
    legible_of_test (files := shareFiles) rfl (by decide) (by decide +kernel), unary_roundTrip, smallBrowser_calc, smallBrowser_links,
    lucid_of_test (files := shareFiles) rfl (by decide +kernel) _, rfl, rfl, rfl,
    fun _ _ hc hp => ready_of_test (env := shareEnv) (files := shareFiles) rfl (by decide +kernel) hc hp, by decide +kernel⟩

end Cssc
