import Verif.Props.Compile

/-!
# C76: nothing but the entries and what they import matters
-/

namespace Cssc

/-- The two compilations differ at most in files that the first has no reason to look at, and in what the resolver
says about specifiers that are not in the files it looks at. -/
structure SameAsked (env env' : CEnv) : Prop where
  entries : env'.entries = env.entries
  opts : env'.opts = env.opts
  cwd : env'.cwd = env.cwd
  fo : env'.fo = env.fo
  fuel : env'.fuel = env.fuel
  read : ∀ {p a}, Asked env p → env.abs p = some a → env'.read a = env.read a
  resolve : ∀ {p a c id ss lines imp}, Asked env p → env.abs p = some a → env.read a = some c →
    parse env.fuel c id = .ok ss lines → imp ∈ ss.imports → env'.resolve imp.value (dirOf a) = env.resolve imp.value (dirOf a)

theorem SameAsked.abs {env env' : CEnv} (h : SameAsked env env') (p : Bytes) : env'.abs p = env.abs p := by
  unfold CEnv.abs
  rw [h.cwd]

theorem frame_start {env env' : CEnv} (h : SameAsked env env') {st : CSt} (hI : Inv1 env st) (t : Nat) (th : Thread) :
    stepStart env' st t th = stepStart env st t th := by
  unfold stepStart
  cases th.parent with
  | none => rw [h.entries]
  | some p =>
    dsimp only
    cases hp : st.threads[p]? with
    | none => rfl
    | some par =>
      simp only [Option.bind_some]
      cases hi : par.ss.imports[par.imp]? with
      | none => rfl
      | some imp =>
        simp only [Option.bind_some]
        cases hs : st.sh.heap[par.addr]? with
        | none => rfl
        | some source =>
          simp only [Option.bind_some]
          have him := List.mem_of_getElem? hi
          rcases hI.frames par (List.mem_of_getElem? hp) with he | ⟨source', id, lines, h1, h2⟩
          · rw [he] at him; cases him
          · rw [hs] at h1; cases h1
            obtain ⟨q, h3, h4, h5⟩ := hI.heap _ (List.mem_of_getElem? hs)
            rw [h.resolve h3 h4 h5 h2 him]

theorem frame_step {env env' : CEnv} (h : SameAsked env env') {st : CSt} (hI : Inv1 env st) (c : Choice) :
    cstep env' st c = cstep env st c := by
  cases c with
  | main =>
    show stepMain env' st = stepMain env st
    unfold stepMain
    rw [h.entries]
  | print i => rfl
  | thread t =>
    show stepThread env' st t = stepThread env st t
    unfold stepThread
    cases ht : st.threads[t]? with
    | none => rfl
    | some th =>
      simp only [Option.bind_some]
      have hg := hI.pcs th (List.mem_of_getElem? ht)
      have ho : hasOutput env' th = hasOutput env th := by
        unfold hasOutput
        rw [h.opts]
      cases hpc : th.pc with
      | start => exact frame_start h hI t th
      | lookup path =>
        dsimp only
        rw [h.abs, ho]
      | read path abs =>
        rw [hpc] at hg
        dsimp only
        rw [h.read hg.1 hg.2]
      | incWrite i v =>
        dsimp only
        rw [ho]
      | parse i addr =>
        dsimp only
        unfold stepParse
        rw [h.fuel]
      | wait i =>
        dsimp only
        unfold stepWait
        rw [h.fuel, h.opts, h.fo]
      | _ => rfl

/-- **C76**: under every schedule, files that no entry is, and none of the files looked at imports, do not matter. -/
theorem frame {env env' : CEnv} (h : SameAsked env env') (cs : List Choice) : runSched env' CSt.init cs = runSched env CSt.init cs := by
  suffices ∀ cs st, Reached env st → runSched env' st cs = runSched env st cs from this cs _ .init
  intro cs
  induction cs with
  | nil => exact fun _ _ => rfl
  | cons c cs ih =>
    intro st hr
    unfold runSched
    rw [frame_step h hr.inv1 c]
    cases hc : cstep env st c with
    | none => exact ih st hr
    | some r =>
      cases r with
      | crash => rfl
      | ok st' => exact ih st' (.step hr hc)

/-- In particular such a file may be added, changed or removed. -/
theorem frame_file {env : CEnv} {x : Bytes} {content : Option Bytes} (hx : ∀ p, Asked env p → env.abs p ≠ some x) (cs : List Choice) :
    runSched { env with read := fun a => if a = x then content else env.read a } CSt.init cs = runSched env CSt.init cs := by
  refine frame (env := env) (env' := { env with read := fun a => if a = x then content else env.read a }) ⟨rfl, rfl, rfl, rfl, rfl, fun {p a} hp ha => ?_, fun _ _ _ _ _ => rfl⟩ cs
  dsimp only
  rw [if_neg]
  rintro rfl
  exact hx p hp ha

/-- A test: every file is one of those listed, and the imports of those listed are listed. -/
def askedTest (env : CEnv) (paths : List Bytes) : Bool :=
  (env.entries.all fun e => match env.abs e with | some a => decide (a ∈ paths) | none => true) &&
  paths.all fun a =>
    match env.read a with
    | none => true
    | some c =>
      match parse env.fuel c with
      | .ok ss _ => ss.imports.all fun imp =>
        match (env.resolve imp.value (dirOf a)).bind env.abs with
        | some b => decide (b ∈ paths)
        | none => true
      | _ => true

theorem asked_of_test {env : CEnv} {paths : List Bytes} (h : askedTest env paths = true) {p a : Bytes} (hp : Asked env p)
    (ha : env.abs p = some a) : a ∈ paths := by
  unfold askedTest at h
  rw [Bool.and_eq_true] at h
  induction hp generalizing a with
  | entry he =>
    have := List.all_eq_true.1 h.1 _ he
    rw [ha] at this
    exact of_decide_eq_true this
  | @imp q b c id ss lines imp r hq hb hr hpar him hres ih =>
    have h1 := List.all_eq_true.1 h.2 _ (ih hb)
    rw [hr] at h1
    obtain ⟨ss0, h2, h3⟩ := parse_ok_id hpar
    dsimp only at h1
    rw [h2] at h1
    rw [h3] at him
    obtain ⟨imp0, h4, h5⟩ := List.mem_map.1 him
    have h6 := List.all_eq_true.1 h1 imp0 h4
    have h7 : imp.value = imp0.value := by rw [← h5]; rfl
    rw [← h7, hres, show (some r).bind env.abs = env.abs r from rfl, ha] at h6
    exact of_decide_eq_true h6

/-- The hypothesis of `frame_file` holds for a file beside an entry and its import, in a compilation that writes a
file; and not for the import. -/
example : (∀ p, Asked entryAndImport p → entryAndImport.abs p ≠ some b!"/z") ∧ Asked entryAndImport b!"a" ∧
    ∃ p, Asked entryAndImport p ∧ entryAndImport.abs p = some b!"/x" := by
  have ht : askedTest entryAndImport [b!"/a", b!"/b", b!"/x"] = true := by decide +kernel
  have ha : Asked entryAndImport b!"a" := .entry (by decide)
  refine ⟨fun p hp h => ?_, ha, b!"/x", ?_, by decide +kernel⟩
  · exact absurd (asked_of_test ht hp h) (by decide)
  · have h1 : (match parse entryAndImport.fuel b!"@import \"x\";" with
      | .ok ss _ => ss.imports.map (·.value) | _ => []) = [b!"x"] := by decide +kernel
    cases hp : parse entryAndImport.fuel b!"@import \"x\";" with
    | ok ss lines =>
      rw [hp] at h1
      dsimp only at h1
      obtain ⟨imp, hi, hv⟩ := List.mem_map.1 (show b!"x" ∈ ss.imports.map (·.value) by rw [h1]; simp)
      refine .imp ha (show entryAndImport.abs b!"a" = some b!"/a" by decide +kernel)
        (show entryAndImport.read b!"/a" = some b!"@import \"x\";" by decide +kernel) hp hi ?_
      rw [hv]
      decide +kernel
    | error => rw [hp] at h1; cases h1
    | panic => rw [hp] at h1; cases h1
    | timeout => rw [hp] at h1; cases h1

end Cssc
