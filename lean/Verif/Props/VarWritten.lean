import Verif.Props.Var
import Verif.Props.Races
import Verif.Props.Project

/-!
# C90, for what is written
-/

namespace Cssc

/-- Without imports nothing is put in and nothing is doubled. -/
theorem flat_same {repl : Replacements} {ns flat : List Node} (h : Flat repl ns flat) (hi : ∀ n ∈ ns, n.isImport = false) : flat = ns := by
  cases repl with
  | some m => exact inlined_same h hi
  | none =>
    rw [show flat = doubleImports ns from h]
    clear h
    induction ns with
    | nil => rfl
    | cons n ns ih =>
      have h1 := hi n List.mem_cons_self
      have h2 := ih fun n hn => hi n (List.mem_cons_of_mem _ hn)
      unfold doubleImports at h2 ⊢
      rw [List.flatMap_cons, h2]
      cases n with
      | rule r => rfl
      | «at» a =>
        have : a.name ≠ b!"import" := by simpa [Node.isImport] using h1
        dsimp only
        rw [if_neg this]
        rfl

/-- Positions do not count. -/
theorem understood_bare {B : Browser} {cs : Custom B} {a b : List Node} (h : a.map Node.bare = b.map Node.bare) (e : B.doc.Elem) :
    understood B cs e a = understood B cs e b := by
  have : ∀ (B' : Browser) (e : B'.doc.Elem), applied B' e a = applied B' e b := fun B' e => by
    unfold applied
    rw [h]
  unfold understood sayings
  have h1 : (fun e : B.doc.Elem => applied B.raw e a) = fun e => applied B.raw e b := funext fun e => this B.raw e
  rw [h1]
  exact congrArg _ (this (B.under _) e)

/-- A file for which no import is listed has none. -/
theorem parse_noImport {n : Nat} {src : Bytes} {id : Nat} {ss : Stylesheet} {lines : List Nat} (h : parse n src id = .ok ss lines)
    (hi : ss.imports = []) : ∀ x ∈ ss.nodes, x.isImport = false := by
  obtain ⟨-, -, h3⟩ := imports_exact h
  rw [hi] at h3
  have h4 := List.filter_eq_nil_iff.1 (List.length_eq_zero_iff.1 h3.symm)
  intro x hx
  have := h4 x hx
  cases x with
  | rule r => rfl
  | «at» a => simpa [Node.isImport] using this

/-- **C90** for what `Compile` writes: under every schedule in which no number is given twice, what is written for a file
without imports is parsed as a stylesheet that says about every element what the file says, custom properties put in. -/
theorem custom_written_partial {B : Browser} {env : CEnv} {cs : Custom B} (hr : RoundTrip env.fo) (hC : B.KnowsCalc env.fo) (hL : B.KnowsLinks)
    (hcs : B.KnowsCustom cs) (ho : env.opts.customProperties = true)
    (hready : ∀ {p a c ss lines}, Asked env p → env.abs p = some a → env.read a = some c → parse env.fuel c = .ok ss lines → ss.Ready)
    {st : CSt} (h : Reached env st) (hd : Distinct st.sh) {a out : Bytes} (hf : (a, out) ∈ st.sh.files) :
    ∃ c id ss lines ss' log, env.read a = some c ∧ parse env.fuel c id = .ok ss lines ∧ Made env True a ss' log ∧
      (ss.imports = [] → Lowerable B env.fo env.opts ss.nodes → Rooted ss.nodes → ss'.Reckoned →
        ∀ i, ∃ k ss2 lines2, (∀ n, k ≤ n → parse n out i = .ok ss2 lines2) ∧
          ∀ e : B.doc.Elem, understood B cs e ss2.nodes = understood B cs e ss.nodes) := by
  obtain ⟨p, c, ss', log, lines0, -, -, -, hm, hp⟩ := written_true_distinct_partial h hd hf
  have hc := hm.compiled (P := Stylesheet.Ready) fun h1 h2 h3 h4 => by
    obtain ⟨ss0, h5, rfl⟩ := parse_ok_id h4
    exact ready_setId (hready h1 h2 h3 h5) _
  have hm' := hm
  cases hm' with
  | mk fileOf logOf m1 m2 m3 m4 m5 m6 m7 m8 =>
    refine ⟨_, _, _, _, ss', _, m3, m4, hm, fun hi hlow hR hn i => ?_⟩
    obtain ⟨j, ss2, l2, d1, d2, -⟩ := output_map_parses hc (sources_fit hc hn) hp i
    refine ⟨j, ss2, l2, d1, fun e => ?_⟩
    obtain ⟨flat, f1, f2⟩ := custom_meaning_partial hr hC hL hcs ho m8
    cases flat_same f1 (parse_noImport m4 hi)
    rw [← f2 hlow hR e]
    exact understood_bare d2 e

/-- A file with custom properties. -/
def varFiles : List (Bytes × Bytes) :=
  [(b!"/m", b!":root { --x: 1px d; --y: 11px } a:any-link { b: var(--x) g var(--y, h); c: var(--z, 1); w: calc(1px + 1px) } @media (width >= 1px) { b { c: d } }")]

def varEnv : CEnv :=
  ⟨[b!"m"], allFeatures, some b!"/", lookupMap varFiles, fun spec dir => some (joinPath [dir, spec]), unaryOps, 400⟩

/-- All hypotheses of `custom_written_partial` are met, and this is written. -/
example : RoundTrip varEnv.fo ∧ smallBrowser.KnowsCalc varEnv.fo ∧ smallBrowser.KnowsLinks ∧ smallBrowser.KnowsCustom (lastWins _) ∧
    varEnv.opts.customProperties = true ∧
    (∀ {p a c ss lines}, Asked varEnv p → varEnv.abs p = some a → varEnv.read a = some c → parse varEnv.fuel c = .ok ss lines → ss.Ready) ∧
    ((parse 400 varFiles.head!.2).sheet?.map fun x => (x.1.imports.length, lowerableB allFeatures x.1.nodes, rootedB x.1.nodes)) = some (0, true, true) ∧
    (seqCompile varEnv 20).map (fun sh => (sh.errors, (lookupMap sh.files b!"/m").map cssLine)) = some ([], some
      b!"a:visited,a:link{b:1px d g 11px;c:1;w:11px}@media (min-width:1px){b{c:d}}") :=
  ⟨unary_roundTrip, smallBrowser_calc, smallBrowser_links, lastWins_knows _, rfl,
    fun _ _ hc hp => ready_of_test (env := varEnv) (files := varFiles) rfl (by decide +kernel) hc hp, by decide +kernel, by decide +kernel⟩

end Cssc
