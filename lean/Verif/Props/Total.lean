import Verif.Proofs.CompileTame
import Verif.Props.Output

/-!
# C84: transforming again

`Compile` gives `Transform` replacements that have been transformed themselves.  C39 and C62 for these, and for anything that
comes from parsing and transforming any number of times.
-/

namespace Cssc

theorem Value.Fit.mono {D E : Nat} {v : Value} (h : v.Fit D) (he : D ≤ E) : v.Fit E :=
  ⟨h.solid, h.tame, h.plain, Nat.le_trans h.nest he⟩

theorem Node.Fit.mono {D E : Nat} {x : Node} (h : x.Fit D) (he : D ≤ E) : x.Fit E := by
  obtain ⟨h1, h2, h3⟩ := h
  refine ⟨h1, h2, ?_⟩
  cases x with
  | «at» => trivial
  | rule r =>
    intro b hb d hd
    have := h3 b hb d hd
    cases d with
    | raw => trivial
    | decl => exact fun v hv => (this v hv).mono he

theorem Node.Fit.tame {D : Nat} {x : Node} (h : x.Fit D) : x.tame := by
  cases x with
  | «at» => trivial
  | rule r =>
    intro b hb d hd
    have := h.2.2 b hb d hd
    cases d with
    | raw => trivial
    | decl => exact fun v hv => ⟨(this v hv).tame, (this v hv).plain⟩

theorem transformNode_more {fo : FloatOps} {o : TOpts} {repl : Replacements} {n d : Nat} {x : Node} {s s' : TSt} {out : List Node}
    (h : transformNode fo o repl n x s = .ok out s') : transformNode fo o repl (n + d) x s = .ok out s' := by
  induction d with
  | zero => exact h
  | succ d ih => exact (TLe.transformNode fo o repl (n + d) x).run _ _ _ ih

/-- What comes out is no deeper than what goes in. -/
theorem transformNode_was_fit {fo : FloatOps} {o : TOpts} {repl : Replacements} {D : Nat}
    (hr : ∀ m, repl = some m → ∀ p ∈ m, ∀ x ∈ p.2.nodes, x.Fit D) : ∀ {n : Nat} {x : Node} {s s' : TSt} {out : List Node},
    x.Fit D → FitSt D s → transformNode fo o repl n x s = .ok out s' → FitSt D s' ∧ ∀ y ∈ out, Node.Fit D y
  | 0, _, _, _, _, _, _, h => by cases h
  | n + 1, x, s, s', out, hx, hs, h => by
    by_cases himp : ∃ m a i, repl = some m ∧ x = .at a ∧ a.name = b!"import" ∧ lookupImport m a.id = some i
    · obtain ⟨m, a, i, hm, rfl, hname, hl⟩ := himp
      subst hm
      rw [transformNode] at h
      unfold transformAt at h
      rw [if_pos hname] at h
      dsimp only at h
      rw [hl] at h
      dsimp only at h
      obtain ⟨_, s1, h1, h2⟩ := tbind_ok h
      exact mapConcat_was (I := FitSt D) (P := Node.Fit D) (fun y hy s s' out hs h =>
        transformNode_was_fit hr (hr m rfl _ (lookupImport_mem hl) y hy) hs h)
        (hs.framed ((LogOnly.whenT (.report ..)).ok h1)) h2
    · obtain ⟨out', s2, e, h1, h2⟩ := transformNode_fit (fo := fo) (o := o) (repl := repl) (n := n + 1 + D) (by omega) hx
        (fun m em a ea hname => by
          cases hla : lookupImport m a.id with
          | none => rfl
          | some j => exact absurd ⟨m, a, j, em, ea, hname, hla⟩ himp) hs
      rw [transformNode_more h] at e
      cases e
      exact ⟨h1, h2⟩

theorem init_fit (D : Nat) (o : TOpts) (repl : Replacements) : FitSt D (TSt.init o repl) := by
  unfold TSt.init
  constructor
  · intro vars h
    dsimp only at h
    split at h <;> cases h
    simp
  · intro media h
    dsimp only at h
    split at h <;> cases h
    simp

/-- A bound for one stylesheet and its replacements. -/
theorem common_fit {ss : Stylesheet} {repl : Replacements} (hs : ∃ D, ∀ x ∈ ss.nodes, x.Fit D)
    (hr : ∀ m, repl = some m → ∀ d ∈ m, ∃ D, ∀ x ∈ d.2.nodes, x.Fit D) :
    ∃ D, (∀ x ∈ ss.nodes, x.Fit D) ∧ ∀ m, repl = some m → ∀ d ∈ m, ∀ x ∈ d.2.nodes, x.Fit D := by
  obtain ⟨D, hD⟩ := hs
  cases repl with
  | none => exact ⟨D, hD, fun m e => by cases e⟩
  | some m =>
    obtain ⟨E, hE⟩ := common_fuel (P := fun (d : AtId × Stylesheet) D => ∀ x ∈ d.2.nodes, x.Fit D) (xs := m) fun d hd => by
      obtain ⟨N, hN⟩ := hr m rfl d hd
      exact ⟨N, fun n hn x hx => (hN x hx).mono hn⟩
    refine ⟨max D E, fun x hx => (hD x hx).mono (by omega), fun m' e d hd => ?_⟩
    cases e
    exact hE _ (by omega) d hd

/-- No rule without prelude, no `@media` without queries. -/
def Stylesheet.Complete (ss : Stylesheet) : Prop := ∀ x ∈ ss.nodes, x.complete

theorem Compiled.fits {fo : FloatOps} {ss : Stylesheet} (h : Compiled fo Stylesheet.Complete ss) : ∃ D, ∀ x ∈ ss.nodes, x.Fit D := by
  induction h with
  | parsed h hc => exact ⟨_, parse_sound h hc⟩
  | @transformed o repl n ss out s _ _ h ih ihr =>
    obtain ⟨D, h1, h2⟩ := common_fit ih ihr
    refine ⟨D, ?_⟩
    unfold transform transformNodes at h
    cases e : mapConcat (transformNode fo o repl n) ss.nodes (TSt.init o repl) with
    | ok ns s1 =>
      rw [e] at h
      cases h
      exact (mapConcat_was (I := FitSt D) (P := Node.Fit D) (fun x hx s s' out hs h => transformNode_was_fit h2 (h1 x hx) hs h)
        (init_fit D o repl) e).2
    | crash => rw [e] at h; cases h
    | timeout => rw [e] at h; cases h

/-- **C84**: a stylesheet that comes from parsing and transforming, any number of times and with any options, is printed without
a panic.  Transforming it again, under any options and with any replacements that come from parsing and transforming, does not
panic, and returns exactly if its imports are not replaced without end.  What is parsed has no rule without prelude and no
`@media` without queries. -/
theorem compiled_total {fo : FloatOps} {ss : Stylesheet} {repl : Replacements} (h : Compiled fo Stylesheet.Complete ss)
    (hr : ∀ m, repl = some m → ∀ d ∈ m, Compiled fo Stylesheet.Complete d.2) :
    (∀ source, print source ss ≠ .panic) ∧ (∀ o n, transform fo o repl n ss ≠ .crash) ∧
    ∀ o, (∃ N out s, ∀ n, N ≤ n → transform fo o repl n ss = .ok out s) ↔ ¬ EndlessImports repl ss := by
  obtain ⟨D, h1, h2⟩ := common_fit h.fits fun m hm d hd => (hr m hm d hd).fits
  have crash : ∀ o n, transform fo o repl n ss ≠ .crash := by
    intro o n e
    have := tw_mapConcat (f := transformNode fo o repl n) (I := SolidVars) (P := fun _ => True) (cr := False) (init_fit D o repl).solid
      fun x (hx : x ∈ ss.nodes) s hs =>
        tw_mono (transformNode_solid (fun m hm p hp x hx => (h2 m hm p hp x hx).1) (h1 x hx).1 hs) fun _ _ h => ⟨h, fun _ _ => trivial⟩
    unfold tw at this
    unfold transform transformNodes at e
    rcases e1 : mapConcat (transformNode fo o repl n) ss.nodes (TSt.init o repl) with _ | _ | _ <;> rw [e1] at e this
    · cases e
    · exact this
    · cases e
  refine ⟨fun source => print_np (printNodes_np _ _ fun x hx => (h1 x hx).2.1), crash, fun o => ⟨?_, fun he => ?_⟩⟩
  · rintro ⟨N, out, s, h⟩
    exact transform_returned (h N (Nat.le_refl _))
  · obtain ⟨N, hN⟩ := transform_ends_tame (fun x hx => (h1 x hx).tame) (fun m hm p hp x hx => (h2 m hm p hp x hx).tame) he
    cases e : transform fo o repl N ss with
    | ok out s => exact ⟨N, out, s, fun n hn => transform_more e hn⟩
    | crash => exact absurd e (crash o N)
    | timeout => exact absurd e (hN N (Nat.le_refl _) fo o)

/-! ### The hypotheses are met -/

theorem parsed_complete {fo : FloatOps} {n : Nat} {src : Bytes} {x : Stylesheet × List Nat} (h : (parse n src).sheet? = some x)
    (hc : x.1.nodes.all completeTest = true) : Compiled fo Stylesheet.Complete x.1 :=
  .parsed (sheet?_some h) fun y hy => complete_of_test (List.all_eq_true.1 hc y hy)

/-- A stylesheet and the replacement of its import, which has been transformed before; and the text of the two together. -/
def twoRounds : Option (Bool × Option Bytes) :=
  (parse 300 b!"@import 'f';u:any-link{v:calc(11px + 1px)}").sheet?.bind fun x =>
  (parse 300 featureText).sheet?.bind fun y =>
  (transform unaryOps allOn none 100 y.1).out?.bind fun d =>
  (transform unaryOps allOn (some [(⟨0, 0⟩, d)]) 100 x.1).out?.map fun out =>
    (x.1.nodes.all completeTest && y.1.nodes.all completeTest, (print none out).text?)

theorem twoRounds_eq : twoRounds =
    some (true, some b!"a:visited,a:link{c:\"x\";w:111px}@media (min-width:11px) and (max-width:1111px){b{c:d}}@media x and (min-width:11px){e{f:g}}u:visited,u:link{v:111px}") := by
  decide +kernel

example : ∃ ss d, Compiled unaryOps Stylesheet.Complete ss ∧ Compiled unaryOps Stylesheet.Complete d ∧
    ¬ EndlessImports (some [(⟨0, 0⟩, d)]) ss ∧ ∃ out s, transform unaryOps allOn (some [(⟨0, 0⟩, d)]) 100 ss = .ok out s ∧
    print none out = .ok b!"a:visited,a:link{c:\"x\";w:111px}@media (min-width:11px) and (max-width:1111px){b{c:d}}@media x and (min-width:11px){e{f:g}}u:visited,u:link{v:111px}" := by
  have h := twoRounds_eq
  unfold twoRounds at h
  obtain ⟨x, h1, h⟩ := Option.bind_eq_some_iff.1 h
  obtain ⟨y, h2, h⟩ := Option.bind_eq_some_iff.1 h
  obtain ⟨d, h3, h⟩ := Option.bind_eq_some_iff.1 h
  obtain ⟨out, h4, h⟩ := Option.map_eq_some_iff.1 h
  simp only [Prod.mk.injEq, Bool.and_eq_true] at h
  obtain ⟨s1, h5⟩ := out?_some h3
  obtain ⟨s2, h6⟩ := out?_some h4
  exact ⟨x.1, d, parsed_complete h1 h.1.1, .transformed (parsed_complete h2 h.1.2) (fun _ e => by cases e) h5,
    transform_returned h6, out, s2, h6, PrintRes.text?_some h.2⟩

end Cssc
