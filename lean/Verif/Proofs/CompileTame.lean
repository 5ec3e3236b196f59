import Verif.Proofs.CompileEnds
import Verif.Proofs.CompileOne
import Verif.Proofs.ParseNest
import Verif.Proofs.TransformTotal
import Verif.Props.Printer
import Verif.Spec.Legible

/-!
# Legible files are compiled without a panic

Whatever the options, and whatever has been compiled before.
-/

namespace Cssc

/-! ### Which files do not make the transformer panic -/

/-- What is known of transformed stylesheets, if the fuel is `n`. -/
def Sound (n : Nat) (ss : Stylesheet) : Prop := ∀ x ∈ ss.nodes, x.Fit (n - 2)

/-- What is parsed is sound. -/
theorem parse_sound {n id : Nat} {src : Bytes} {ss : Stylesheet} {lines : List Nat} (h : parse n src id = .ok ss lines)
    (hc : ∀ x ∈ ss.nodes, x.complete) : Sound n ss := by
  have hok := parse_sheetOk h
  intro x hx
  have hs := (hok.nodes x hx).solid (hc x hx)
  refine ⟨hs, hok.noParens x hx, ?_⟩
  cases x with
  | «at» a => trivial
  | rule r =>
    intro b hb d hd
    have h1 := (hok.nodes _ hx).tame b hb d hd
    have h2 := parse_nest (B := n - 2) h (by omega) r hx b hb d hd
    obtain ⟨-, b', hb', h3⟩ := hs
    rw [hb] at hb'
    cases hb'
    have h3 := h3 d hd
    cases d with
    | raw => trivial
    | decl => exact fun v hv => ⟨solidL_iff.1 h3 v hv, (h1 v hv).1, (h1 v hv).2, nestL_le_iff.1 h2 v hv⟩

/-- `Tame` for all options and all files that parse, or do not, but with an error, and that have no rule without prelude and
no `@media` without queries. -/
theorem Legible.tame {env : CEnv} (hrd : Legible env) : Tame env (Sound env.fuel) := by
  obtain ⟨hf, hp, hc⟩ := hrd
  refine ⟨@hp, ?_, fun {source ss} h => print_np (printNodes_np _ _ fun x hx => (h x hx).2.1)⟩
  intro a c id ss l repl hread hpar hrepl
  have hown : Sound env.fuel ss := by
    refine parse_sound hpar ?_
    obtain ⟨ss0, h1, h2⟩ := parse_ok_id hpar
    intro x hx
    rw [h2] at hx
    obtain ⟨x0, h3, rfl⟩ := List.mem_map.1 hx
    have := hc hread h1 x0 h3
    cases x0 <;> exact this
  generalize hr : (if env.opts.importRules = .inline then some repl else none : Replacements) = r
  have hin : ∀ m, r = some m → m = repl := by
    intro m hm
    rw [← hr] at hm
    split at hm
    · cases hm; rfl
    · cases hm
  have hinit : FitSt (env.fuel - 2) (TSt.init env.opts r) := by
    unfold TSt.init
    constructor
    · intro vars h
      dsimp only at h
      split at h <;> cases h
      simp
    · intro media h
      dsimp only at h
      split at h <;> cases h
      simp
  have key : ∀ x ∈ ss.nodes, ∀ s, FitSt (env.fuel - 2) s → ∃ out s', transformNode env.fo env.opts r env.fuel x s = .ok out s' ∧
      FitSt (env.fuel - 2) s' ∧ ∀ y ∈ out, Node.Fit (env.fuel - 2) y := by
    intro x hx s hb
    by_cases himp : ∃ m a i, r = some m ∧ x = .at a ∧ a.name = b!"import" ∧ lookupImport m a.id = some i
    · obtain ⟨m, b, i, hm, rfl, hname, hl⟩ := himp
      have hmr := hin m hm
      subst hmr
      obtain ⟨h1, h2, h3⟩ := hrepl _ (lookupImport_key hl)
      obtain ⟨n, hn⟩ : ∃ n, env.fuel = n + 1 := ⟨env.fuel - 1, by omega⟩
      rw [hn, transformNode]
      rw [hn] at h1 hb hf
      unfold transformAt
      rw [if_pos hname, hm]
      dsimp only
      rw [hl]
      dsimp only
      have hw : ∃ s1, whenT (1 < b.preludes.length) (report true (some b.sp) "@import transform does not yet support @supports or media queries") s = .ok () s1 ∧
          FitSt (n + 1 - 2) s1 := by
        unfold whenT
        split
        · exact ⟨_, rfl, hb.vars, hb.media⟩
        · exact ⟨_, rfl, hb⟩
      obtain ⟨s1, hw1, hw2⟩ := hw
      rw [tbind_eq_ok hw1]
      refine mapConcat_out (I := FitSt (n + 1 - 2)) (fun y hy s hs => ?_) s1 hw2
      refine transformNode_fit (by omega) (h1 y hy) (fun m' em a ea _ => ?_) hs
      cases em
      cases hla : lookupImport m a.id with
      | none => rfl
      | some j =>
        exfalso
        have := (hrepl _ (lookupImport_key hla)).2.1
        subst ea
        exact h3 a hy this
    · refine transformNode_fit (by omega) (hown x hx) (fun m em a ea hname => ?_) hb
      cases hla : lookupImport m a.id with
      | none => rfl
      | some j => exact absurd ⟨m, a, j, em, ea, hname, hla⟩ himp
  obtain ⟨out, s', e, -, h⟩ := mapConcat_out key _ hinit
  refine ⟨⟨out, ss.imports⟩, s', ?_, h⟩
  unfold transform transformNodes
  rw [e]

/-- A test for `Node.complete`. -/
def completeTest : Node → Bool
  | .rule r => match r.prelude with | .nil => false | _ => true
  | .at a => match a.preludes with | [.mql none] => false | _ => true

theorem complete_of_test {x : Node} (h : completeTest x = true) : x.complete := by
  cases x with
  | rule r =>
    intro e
    unfold completeTest at h
    dsimp only at h
    rw [e] at h
    cases h
  | «at» a =>
    intro _ e
    unfold completeTest at h
    dsimp only at h
    rw [e] at h
    cases h

/-- A test for `Legible`. -/
def legibleTest (env : CEnv) (files : List (Bytes × Bytes)) : Bool :=
  files.all fun f => match parse env.fuel f.2 with
    | .ok ss _ => ss.nodes.all completeTest
    | .error _ _ => true
    | _ => false

theorem legible_of_test {env : CEnv} {files : List (Bytes × Bytes)} (hr : env.read = lookupMap files)
    (hf : 2 ≤ env.fuel) (h : legibleTest env files = true) : Legible env := by
  have hall : ∀ {a c}, env.read a = some c → (match parse env.fuel c with
    | .ok ss _ => ss.nodes.all completeTest
    | .error _ _ => true
    | _ => false) = true := by
    intro a c hc
    rw [hr] at hc
    exact List.all_eq_true.1 h (a, c) (lookupMap_mem hc)
  refine ⟨hf, fun {a c} hc => ?_, (fun {a c ss l} hc hp x hx => ?_)⟩
  · have := hall hc
    cases hp : parse env.fuel c with
    | ok ss l => exact .inl ⟨ss, l, rfl⟩
    | error e l => exact .inr ⟨e, l, rfl⟩
    | panic => rw [hp] at this; cases this
    | timeout => rw [hp] at this; cases this
  · have := hall hc
    rw [hp] at this
    exact complete_of_test (List.all_eq_true.1 this x hx)

end Cssc
