import Verif.Proofs.CompileInv
import Verif.Proofs.CompileSpans
import Verif.Proofs.PrintLines
import Verif.Proofs.CompileTab
import Verif.Spec.Made

/-!
# Compile: whatever comes out under any schedule has been made of the files
-/

namespace Cssc

/-- The goroutine has its parse behind it. -/
def PC.After : PC → Prop
  | .spawn _ _ | .wait _ | .cache _ _ | .deliver _ | .done => True
  | _ => False

/-- Goroutine `p` has parsed its source. -/
def ParsedBy (env : CEnv) (st : CSt) (p : Nat) (par : Thread) (source : Source) : Prop :=
  st.threads[p]? = some par ∧ par.pc.After ∧ st.sh.heap[par.addr]? = some source ∧
    ∃ id lines, parse env.fuel source.content id = .ok par.ss lines

/-- The goroutine is there for the file name `rel`. -/
def Target (env : CEnv) (st : CSt) (parent : Option Nat) (rel : Bytes) : Prop :=
  match parent with
  | none => rel ∈ env.entries
  | some p => ∃ par source, ParsedBy env st p par source ∧ ∃ imp ∈ par.ss.imports,
      env.resolve imp.value (dirOf source.path) = some rel

/-- … for the file with the absolute path `a`. -/
def AbsTarget (env : CEnv) (st : CSt) (parent : Option Nat) (a : Bytes) : Prop :=
  ∃ rel, Target env st parent rel ∧ env.abs rel = some a

/-- … for the file with number `i`. -/
def NumTarget (env : CEnv) (st : CSt) (parent : Option Nat) (i : Nat) : Prop :=
  ∃ a, AbsTarget env st parent a ∧ (a, i) ∈ st.sh.sources

/-- The stylesheet of the goroutine is the parse of its source. -/
def FrameParsed (env : CEnv) (st : CSt) (th : Thread) : Prop :=
  ∃ source id lines, st.sh.heap[th.addr]? = some source ∧ parse env.fuel source.content id = .ok th.ss lines ∧
    source.lines ≠ []

/-- `ss` is made of the file with number `i`, which has its line table. -/
def MadeNum (env : CEnv) (S : Prop) (sh : Shared) (i : Nat) (ss : Stylesheet) : Prop :=
  ∃ addr source log, (i, addr) ∈ sh.byIndex ∧ sh.heap[addr]? = some source ∧ source.lines ≠ [] ∧
    (source.path, i) ∈ sh.sources ∧ Made env S source.path ss log

/-- What a goroutine has in its hands. -/
def PcOk (env : CEnv) (S : Prop) (st : CSt) (th : Thread) : PC → Prop
  | .start | .done | .deliver none => True
  | .lookup rel => Target env st th.parent rel
  | .read rel a => Target env st th.parent rel ∧ env.abs rel = some a
  | .alloc a _ => AbsTarget env st th.parent a
  | .store a _ i => AbsTarget env st th.parent a ∧ (a, i) ∈ st.sh.sources
  | .incRead i | .incWrite i _ | .outBegin i | .outEnd i | .cached i | .source i => NumTarget env st th.parent i
  | .parse i addr => NumTarget env st th.parent i ∧ (i, addr) ∈ st.sh.byIndex
  | .spawn i _ | .wait i => NumTarget env st th.parent i ∧ (i, th.addr) ∈ st.sh.byIndex ∧ FrameParsed env st th
  | .cache i ss => NumTarget env st th.parent i ∧ MadeNum env S st.sh i ss
  | .deliver (some ss) => ∃ b log, Made env S b ss log ∧ (S → AbsTarget env st th.parent b)

/-- What has been put in for the imports of a goroutine. -/
def FrameRepl (env : CEnv) (S : Prop) (st : CSt) (th : Thread) : Prop :=
  (¬ th.pc.After → th.repl = []) ∧ ∀ kv ∈ th.repl, (∃ imp ∈ th.ss.imports, imp.rule = kv.1) ∧
    ∃ b log, Made env S b kv.2 log ∧ (S → ∃ source, st.sh.heap[th.addr]? = some source ∧
      ∃ imp ∈ th.ss.imports, ∃ rel, env.resolve imp.value (dirOf source.path) = some rel ∧ env.abs rel = some b)

structure Inv2 (env : CEnv) (S : Prop) (st : CSt) : Prop where
  byIndex : ∀ i addr, (i, addr) ∈ st.sh.byIndex → ∃ s, st.sh.heap[addr]? = some s ∧ (s.path, i) ∈ st.sh.sources
  asts : ∀ i ss, (i, ss) ∈ st.sh.asts → MadeNum env S st.sh i ss
  pcs : ∀ th ∈ st.threads, PcOk env S st th th.pc
  repls : ∀ th ∈ st.threads, FrameRepl env S st th
  parents : ∀ th ∈ st.threads, ∀ p, th.parent = some p → ∃ par source, ParsedBy env st p par source
  errors : ∀ e ∈ st.sh.errors, TrueErr env S e
  files : ∀ a out, (a, out) ∈ st.sh.files → ∃ p c b ss log lines, Asked env p ∧ env.abs p = some a ∧ env.read a = some c ∧
    Made env S b ss log ∧ (S → b = a ∧ lines.head? = some 0) ∧ print (some ⟨a, c, lines⟩) ss = .ok out

/-- What a step keeps. -/
structure StLe (st st' : CSt) : Prop where
  heap : HeapGrows st.sh.heap st'.sh.heap
  sources : ∃ l, st'.sh.sources = l ++ st.sh.sources
  byIndex : ∀ x ∈ st.sh.byIndex, x ∈ st'.sh.byIndex
  threads : ∀ (t : Nat) (th : Thread), st.threads[t]? = some th → th.pc.After →
    ∃ th' : Thread, st'.threads[t]? = some th' ∧ th'.pc.After ∧ th'.addr = th.addr ∧ th'.ss = th.ss

theorem StLe.mem {st st' : CSt} (h : StLe st st') {x : Bytes × Nat} (hx : x ∈ st.sh.sources) : x ∈ st'.sh.sources := by
  obtain ⟨l, e⟩ := h.sources
  rw [e]; exact List.mem_append_right _ hx

theorem MadeNum.mono {env : CEnv} {S : Prop} {st st' : CSt} (hle : StLe st st') {i : Nat} {ss : Stylesheet}
    (h : MadeNum env S st.sh i ss) : MadeNum env S st'.sh i ss := by
  obtain ⟨addr, source, log, h1, h2, h3, h4, h5⟩ := h
  obtain ⟨s', b1, b2, b3, b4⟩ := hle.heap _ _ h2
  exact ⟨addr, s', log, hle.byIndex _ h1, b1, b4 h3, by rw [b2]; exact hle.mem h4, by rw [b2]; exact h5⟩

theorem ParsedBy.mono {env : CEnv} {st st' : CSt} (hle : StLe st st') {p : Nat} {par : Thread} {source : Source}
    (h : ParsedBy env st p par source) : ∃ par' source', ParsedBy env st' p par' source' ∧ par'.ss = par.ss ∧
      par'.addr = par.addr ∧ source'.path = source.path := by
  obtain ⟨h1, h2, h3, id, lines, h4⟩ := h
  obtain ⟨th', a1, a2, a3, a4⟩ := hle.threads _ _ h1 h2
  obtain ⟨s', b1, b2, b3, _⟩ := hle.heap _ _ h3
  exact ⟨th', s', ⟨a1, a2, by rw [a3]; exact b1, id, lines, by rw [b3, a4]; exact h4⟩, a4, a3, b2⟩

theorem Target.mono {env : CEnv} {st st' : CSt} (hle : StLe st st') {parent : Option Nat} {rel : Bytes}
    (h : Target env st parent rel) : Target env st' parent rel := by
  cases parent with
  | none => exact h
  | some p =>
    obtain ⟨par, source, h1, imp, h2, h3⟩ := h
    obtain ⟨par', source', a1, a2, _, a4⟩ := h1.mono hle
    exact ⟨par', source', a1, imp, by rw [a2]; exact h2, by rw [a4]; exact h3⟩

theorem AbsTarget.mono {env : CEnv} {st st' : CSt} (hle : StLe st st') {parent : Option Nat} {a : Bytes}
    (h : AbsTarget env st parent a) : AbsTarget env st' parent a := by
  obtain ⟨rel, h1, h2⟩ := h
  exact ⟨rel, h1.mono hle, h2⟩

theorem NumTarget.mono {env : CEnv} {st st' : CSt} (hle : StLe st st') {parent : Option Nat} {i : Nat}
    (h : NumTarget env st parent i) : NumTarget env st' parent i := by
  obtain ⟨a, h1, h2⟩ := h
  exact ⟨a, h1.mono hle, hle.mem h2⟩

theorem FrameParsed.mono {env : CEnv} {st st' : CSt} (hle : StLe st st') {th : Thread} (h : FrameParsed env st th) :
    FrameParsed env st' th := by
  obtain ⟨s, id, lines, h1, h2, h3⟩ := h
  obtain ⟨s', a1, _, a3, a4⟩ := hle.heap _ _ h1
  exact ⟨s', id, lines, a1, by rw [a3]; exact h2, a4 h3⟩

theorem PcOk.mono {env : CEnv} {S : Prop} {st st' : CSt} (hle : StLe st st') {th th' : Thread} (hp : th'.parent = th.parent)
    (ha : th'.addr = th.addr) (hs : th'.ss = th.ss) {pc : PC} (h : PcOk env S st th pc) : PcOk env S st' th' pc := by
  have hf : FrameParsed env st th → FrameParsed env st' th' := fun h => by
    have := h.mono hle
    unfold FrameParsed at this ⊢
    rw [ha, hs]; exact this
  cases pc with
  | start => trivial
  | done => trivial
  | deliver r =>
    cases r with
    | none => trivial
    | some ss =>
      obtain ⟨b, log, h1, h2⟩ := h
      exact ⟨b, log, h1, fun hS => by rw [hp]; exact (h2 hS).mono hle⟩
  | lookup rel => unfold PcOk at h ⊢; rw [hp]; exact h.mono hle
  | read rel a => unfold PcOk at h ⊢; rw [hp]; exact ⟨h.1.mono hle, h.2⟩
  | alloc a c => unfold PcOk at h ⊢; rw [hp]; exact h.mono hle
  | store a c i => unfold PcOk at h ⊢; rw [hp]; exact ⟨h.1.mono hle, hle.mem h.2⟩
  | incRead i => unfold PcOk at h ⊢; rw [hp]; exact h.mono hle
  | incWrite i v => unfold PcOk at h ⊢; rw [hp]; exact h.mono hle
  | outBegin i => unfold PcOk at h ⊢; rw [hp]; exact h.mono hle
  | outEnd i => unfold PcOk at h ⊢; rw [hp]; exact h.mono hle
  | cached i => unfold PcOk at h ⊢; rw [hp]; exact h.mono hle
  | source i => unfold PcOk at h ⊢; rw [hp]; exact h.mono hle
  | parse i addr => unfold PcOk at h ⊢; rw [hp]; exact ⟨h.1.mono hle, hle.byIndex _ h.2⟩
  | spawn i k => unfold PcOk at h ⊢; rw [hp, ha]; exact ⟨h.1.mono hle, hle.byIndex _ h.2.1, hf h.2.2⟩
  | wait i => unfold PcOk at h ⊢; rw [hp, ha]; exact ⟨h.1.mono hle, hle.byIndex _ h.2.1, hf h.2.2⟩
  | cache i ss =>
    unfold PcOk at h ⊢
    obtain ⟨h1, h2⟩ := h
    rw [hp]
    exact ⟨h1.mono hle, h2.mono hle⟩

theorem FrameRepl.mono {env : CEnv} {S : Prop} {st st' : CSt} (hle : StLe st st') {th th' : Thread} (hr : th'.repl = th.repl)
    (ha : th'.addr = th.addr) (hs : th'.ss = th.ss) (hpc : th.pc.After → th'.pc.After) (h : FrameRepl env S st th) :
    FrameRepl env S st' th' := by
  refine ⟨fun hn => by rw [hr]; exact h.1 fun hn' => hn (hpc hn'), fun kv hkv => ?_⟩
  rw [hr] at hkv
  obtain ⟨h1, b, log, h2, h3⟩ := h.2 kv hkv
  rw [hs]
  refine ⟨h1, b, log, h2, fun hS => ?_⟩
  obtain ⟨s, a1, a2⟩ := h3 hS
  obtain ⟨s', b1, b2, _⟩ := hle.heap _ _ a1
  exact ⟨s', by rw [ha]; exact b1, by rw [b2]; exact a2⟩

theorem Loc.after {env : CEnv} {st : CSt} {t : Nat} {th : Thread} {sh : Shared} {pc : PC} (h : Loc env st t th sh pc)
    (ha : th.pc.After) : pc.After := by
  cases h <;> first | trivial | (rename_i hpc; rw [hpc] at ha; exact ha.elim) | (rename_i hpc _; rw [hpc] at ha; exact ha.elim) |
    (rename_i hpc _ _; rw [hpc] at ha; exact ha.elim) | (rename_i hpc _ _ _ _ _; rw [hpc] at ha; exact ha.elim)

theorem Loc.shLe {env : CEnv} {st : CSt} {t : Nat} {th : Thread} {sh : Shared} {pc : PC} (h : Loc env st t th sh pc) :
    HeapGrows st.sh.heap sh.heap ∧ (∃ l, sh.sources = l ++ st.sh.sources) ∧ (∀ x ∈ st.sh.byIndex, x ∈ sh.byIndex) := by
  have href := HeapGrows.refl st.sh.heap
  cases h with
  | alloc => exact ⟨href, ⟨[_], rfl⟩, fun _ hx => hx⟩
  | store => exact ⟨HeapGrows.append _ _, ⟨[], rfl⟩, fun x hx => List.mem_cons_of_mem _ hx⟩
  | parseFail hpc hs hp => exact ⟨HeapGrows.set hs _, ⟨[], rfl⟩, fun _ hx => hx⟩
  | _ => exact ⟨href, ⟨[], rfl⟩, fun _ hx => hx⟩

theorem set_keeps {l : List Thread} {t : Nat} {th : Thread} (hth : l[t]? = some th) {th1 : Thread}
    (h1 : th.pc.After → th1.pc.After) (h2 : th.pc.After → th1.addr = th.addr ∧ th1.ss = th.ss) (u : Nat) (x : Thread) (hx : l[u]? = some x)
    (ha : x.pc.After) : ∃ x' : Thread, (l.set t th1)[u]? = some x' ∧ x'.pc.After ∧ x'.addr = x.addr ∧ x'.ss = x.ss := by
  by_cases htu : t = u
  · subst htu
    rw [hth] at hx; cases hx
    exact ⟨th1, by rw [List.getElem?_set_self (List.getElem?_eq_some_iff.1 hth).1], h1 ha, h2 ha⟩
  · exact ⟨x, by rw [List.getElem?_set_ne htu]; exact hx, ha, rfl, rfl⟩

theorem append_keeps {l m : List Thread} {x : Thread} {u : Nat} (h : l[u]? = some x) : (l ++ m)[u]? = some x := by
  rw [List.getElem?_append_left (List.getElem?_eq_some_iff.1 h).1]; exact h

theorem Act.stLe {env : CEnv} {st st' : CSt} {t : Nat} {th : Thread} (hth : st.threads[t]? = some th)
    (h : Act env st t th st') : StLe st st' := by
  cases h with
  | loc h =>
    obtain ⟨h1, h2, h3⟩ := h.shLe
    exact ⟨h1, h2, h3, set_keeps hth h.after fun _ => ⟨rfl, rfl⟩⟩
  | parse hpc hs hp =>
    refine ⟨HeapGrows.set hs _, ⟨[], rfl⟩, fun _ hx => hx, set_keeps hth (fun _ => trivial) fun ha => ?_⟩
    rw [hpc] at ha; exact ha.elim
  | spawn hpc hk =>
    refine ⟨HeapGrows.refl _, ⟨[], rfl⟩, fun _ hx => hx, fun u x hx ha => ?_⟩
    obtain ⟨x', a1, a2⟩ := set_keeps hth (fun _ => trivial : th.pc.After → PC.After (.spawn _ _)) (fun _ => ⟨rfl, rfl⟩) u x hx ha
      (th1 := { th with pc := .spawn _ _, imp := _ })
    exact ⟨x', append_keeps a1, a2⟩
  | deliver hpc hp hpar hi =>
    rename_i p par imp ss
    refine ⟨HeapGrows.refl _, ⟨[], rfl⟩, fun _ hx => hx, fun u x hx ha => ?_⟩
    obtain ⟨x', a1, a2, a3, a4⟩ := set_keeps hpar (fun h => h) (fun _ => ⟨rfl, rfl⟩) u x hx ha
      (th1 := { par with repl := (imp.rule, ss) :: par.repl })
    by_cases htu : t = u
    · subst htu
      rw [hth] at hx; cases hx
      refine ⟨{ th with pc := .done }, by
        rw [List.getElem?_set_self (by simpa using (List.getElem?_eq_some_iff.1 hth).1)], trivial, rfl, rfl⟩
    · exact ⟨x', by rw [List.getElem?_set_ne htu]; exact a1, a2, a3, a4⟩

theorem MainAct.stLe {env : CEnv} {st st' : CSt} (h : MainAct env st st') : StLe st st' := by
  cases h with
  | spawn =>
    exact ⟨HeapGrows.refl _, ⟨[], rfl⟩, fun _ hx => hx, fun u x hx ha => ⟨x, append_keeps hx, ha, rfl, rfl⟩⟩
  | _ => exact ⟨HeapGrows.refl _, ⟨[], rfl⟩, fun _ hx => hx, fun u x hx ha => ⟨x, hx, ha, rfl, rfl⟩⟩

/-- Choose, for each element of a list, what is known to be there. -/
theorem choose_two {α β γ : Type} [Inhabited β] [Inhabited γ] {l : List α} {R : α → β → γ → Prop}
    (h : ∀ x ∈ l, ∃ b c, R x b c) : ∃ (f : α → β) (g : α → γ), ∀ x ∈ l, R x (f x) (g x) := by
  have h' : ∀ x, ∃ bc : β × γ, x ∈ l → R x bc.1 bc.2 := fun x => by
    by_cases hx : x ∈ l
    · obtain ⟨b, c, hr⟩ := h x hx
      exact ⟨(b, c), fun _ => hr⟩
    · exact ⟨(default, default), fun h => absurd h hx⟩
  obtain ⟨f, hf⟩ := Classical.axiomOfChoice h'
  exact ⟨fun x => (f x).1, fun x => (f x).2, hf⟩

theorem made_of_frame {env : CEnv} {S : Prop} {st : CSt} {th : Thread} {source : Source} {ss : Stylesheet} {s : TSt}
    (h1 : ∀ s ∈ st.sh.heap, FromAsked env s) (hf : FrameParsed env st th) (hr : FrameRepl env S st th)
    (hs : st.sh.heap[th.addr]? = some source)
    (ht : transform env.fo env.opts (if env.opts.importRules = .inline then some th.repl else none) env.fuel th.ss =
      .ok ss s) : Made env S source.path ss s.log := by
  obtain ⟨p, p1, p2, p3⟩ := h1 _ (List.mem_of_getElem? hs)
  obtain ⟨source', id, lines, f1, f2, _⟩ := hf
  rw [hs] at f1; cases f1
  obtain ⟨fileOf, logOf, hfl⟩ := choose_two fun kv hkv => (hr.2 kv hkv).2
  refine .mk fileOf logOf p1 p2 p3 f2 (fun kv hkv => (hr.2 kv hkv).1) (fun kv hkv => (hfl kv hkv).1) (fun hS kv hkv => ?_) ht
  obtain ⟨source', e1, e2⟩ := (hfl kv hkv).2 hS
  rw [hs] at e1; cases e1
  exact e2

/-- A step that leaves alone the files, and changes one goroutine only. -/
theorem Inv2.local {env : CEnv} {S : Prop} {st : CSt} (hI : Inv2 env S st) {t : Nat} {th th1 : Thread} {sh : Shared}
    (hth : st.threads[t]? = some th) (hle : StLe st { st with sh := sh, threads := st.threads.set t th1 })
    (hpar : th1.parent = th.parent)
    (hby : ∀ i addr, (i, addr) ∈ sh.byIndex → ∃ s, sh.heap[addr]? = some s ∧ (s.path, i) ∈ sh.sources)
    (hasts : ∀ i ss, (i, ss) ∈ sh.asts → MadeNum env S sh i ss)
    (hpc : PcOk env S { st with sh := sh, threads := st.threads.set t th1 } th1 th1.pc)
    (hrepl : FrameRepl env S { st with sh := sh, threads := st.threads.set t th1 } th1)
    (herr : ∀ e ∈ sh.errors, TrueErr env S e) (hfiles : sh.files = st.sh.files) :
    Inv2 env S { st with sh := sh, threads := st.threads.set t th1 } := by
  refine ⟨hby, hasts, fun x hx => ?_, fun x hx => ?_, fun x hx p hp => ?_, herr, ?_⟩
  · rcases mem_set hx with hx | rfl
    · exact (hI.pcs x hx).mono hle rfl rfl rfl
    · exact hpc
  · rcases mem_set hx with hx | rfl
    · exact (hI.repls x hx).mono hle rfl rfl rfl fun h => h
    · exact hrepl
  · rcases mem_set hx with hx | rfl
    · obtain ⟨par, source, h⟩ := hI.parents x hx p hp
      obtain ⟨par', source', h', _⟩ := h.mono hle
      exact ⟨par', source', h'⟩
    · obtain ⟨par, source, h⟩ := hI.parents th (List.mem_of_getElem? hth) p (by rw [← hpar]; exact hp)
      obtain ⟨par', source', h', _⟩ := h.mono hle
      exact ⟨par', source', h'⟩
  · rw [show ({ st with sh := sh, threads := st.threads.set t th1 } : CSt).sh.files = st.sh.files from hfiles]
    exact hI.files

theorem Inv2.byIndex_mono {env : CEnv} {S : Prop} {st st' : CSt} (hI : Inv2 env S st) (hle : StLe st st') {i addr : Nat}
    (h : (i, addr) ∈ st.sh.byIndex) : ∃ s, st'.sh.heap[addr]? = some s ∧ (s.path, i) ∈ st'.sh.sources := by
  obtain ⟨s, a1, a2⟩ := hI.byIndex i addr h
  obtain ⟨s', b1, b2, _⟩ := hle.heap _ _ a1
  exact ⟨s', b1, by rw [b2]; exact hle.mem a2⟩

theorem Distinct.eq {sh : Shared} (h : Distinct sh) {a b : Bytes} {i : Nat} (ha : (a, i) ∈ sh.sources) (hb : (b, i) ∈ sh.sources) :
    a = b := by
  unfold Distinct at h
  generalize sh.sources = l at h ha hb
  induction l with
  | nil => cases ha
  | cons x l ih =>
    rw [List.map_cons, List.nodup_cons] at h
    rcases List.mem_cons.1 ha with ha1 | ha1 <;> rcases List.mem_cons.1 hb with hb1 | hb1
    · exact (Prod.mk.inj (ha1.trans hb1.symm)).1
    · rw [← ha1] at h; exact absurd (List.mem_map_of_mem (f := Prod.snd) hb1) h.1
    · rw [← hb1] at h; exact absurd (List.mem_map_of_mem (f := Prod.snd) ha1) h.1
    · exact ih h.2 ha1 hb1

theorem mem_of_lookupMap {α β : Type} [DecidableEq α] {m : List (α × β)} {k : α} {v : β} (h : lookupMap m k = some v) :
    (k, v) ∈ m := by
  induction m with
  | nil => cases h
  | cons kv m ih =>
    obtain ⟨k', v'⟩ := kv
    unfold lookupMap at h
    split at h
    · rename_i hk
      cases h; cases hk; exact List.mem_cons_self ..
    · exact List.mem_cons_of_mem _ (ih h)

theorem PcOk.numbered {env : CEnv} {S : Prop} {st : CSt} {th : Thread} {b : Bool} {i : Nat} (h : NumTarget env st th.parent i) :
    PcOk env S st th (if b = true then .outBegin i else .cached i) := by
  cases b <;> exact h

theorem Loc.inv2 {env : CEnv} {S : Prop} {st : CSt} {t : Nat} {th : Thread} {sh : Shared} {pc : PC} (hI1 : Inv1 env st)
    (hI : Inv2 env S st) (hS : S → Distinct st.sh) (hth : st.threads[t]? = some th) (h : Loc env st t th sh pc) :
    Inv2 env S { st with sh := sh, threads := st.threads.set t { th with pc := pc } } := by
  have hle : StLe st { st with sh := sh, threads := st.threads.set t { th with pc := pc } } := Act.stLe hth (.loc h)
  have hmem := List.mem_of_getElem? hth
  have hpcth := hI.pcs th hmem
  have hr : FrameRepl env S { st with sh := sh, threads := st.threads.set t { th with pc := pc } } { th with pc := pc } :=
    FrameRepl.mono (th := th) hle rfl rfl rfl h.after (hI.repls th hmem)
  have hrepl := hI.repls th hmem
  have haft := h.after
  have hby := fun i addr => hI.byIndex_mono hle (i := i) (addr := addr)
  have hasts := fun i ss h => (hI.asts i ss h).mono hle
  have hadd : ∀ {e : CompErr}, TrueErr env S e → ∀ e' ∈ st.sh.errors ++ [e], TrueErr env S e' := by
    intro e he e' hm
    rcases List.mem_append.1 hm with hm | hm
    · exact hI.errors _ hm
    · rw [List.mem_singleton.1 hm]; exact he
  have key : ∀ {pc' : PC}, PcOk env S st th pc' → PcOk env S
      { st with sh := sh, threads := st.threads.set t { th with pc := pc } } { th with pc := pc } pc' :=
    fun h => h.mono hle rfl rfl rfl
  cases h with
  | startEntry hpc hp he =>
    refine hI.local hth hle rfl hby hasts (key ?_) hr hI.errors rfl
    show Target env st th.parent _
    rw [hp]; exact List.mem_of_getElem? he
  | startFail hpc hp hpar hi hs hr' =>
    obtain ⟨par', source', ⟨a1, _, a3, id, lines, a4⟩⟩ := hI.parents th hmem _ hp
    rw [hpar] at a1; cases a1
    rw [hs] at a3; cases a3
    obtain ⟨p, p1, p2, p3⟩ := hI1.heap _ (List.mem_of_getElem? hs)
    exact hI.local hth hle rfl hby hasts trivial hr
      (hadd (.resolve p1 p2 p3 a4 (List.mem_of_getElem? hi) hr')) rfl
  | startImport hpc hp hpar hi hs hr' =>
    obtain ⟨par', source', ha⟩ := hI.parents th hmem _ hp
    have ha' := ha
    obtain ⟨a1, _, a3, _⟩ := ha'
    rw [hpar] at a1; cases a1
    rw [hs] at a3; cases a3
    refine hI.local hth hle rfl hby hasts (key ?_) hr hI.errors rfl
    show Target env st th.parent _
    rw [hp]
    exact ⟨_, _, ha, _, List.mem_of_getElem? hi, hr'⟩
  | noAbs hpc ha =>
    refine hI.local hth hle rfl hby hasts trivial hr (hadd ?_) rfl
    have := hI1.pcs th hmem
    rw [hpc] at this
    exact .fails this (.abs ha)
  | known hpc ha hl =>
    rw [hpc] at hpcth
    exact hI.local hth hle rfl hby hasts (key (PcOk.numbered ⟨_, ⟨_, hpcth, ha⟩, mem_of_lookupMap hl⟩)) hr hI.errors rfl
  | unknown hpc ha hl =>
    rw [hpc] at hpcth
    exact hI.local hth hle rfl hby hasts (key (pc' := .read _ _) ⟨hpcth, ha⟩) hr hI.errors rfl
  | noRead hpc hr' =>
    refine hI.local hth hle rfl hby hasts trivial hr (hadd ?_) rfl
    have := hI1.pcs th hmem
    rw [hpc] at this
    exact .fails this.1 (.read this.2 hr')
  | read hpc hr' =>
    rw [hpc] at hpcth
    exact hI.local hth hle rfl hby hasts (key (pc' := .alloc _ _) ⟨_, hpcth⟩) hr hI.errors rfl
  | alloc hpc =>
    rw [hpc] at hpcth
    exact hI.local hth hle rfl hby hasts ⟨AbsTarget.mono hle hpcth, List.mem_cons_self ..⟩ hr hI.errors rfl
  | store hpc =>
    rw [hpc] at hpcth
    refine hI.local hth hle rfl (fun i addr hm => ?_) hasts (key (pc' := .incRead _) ⟨_, hpcth.1, hpcth.2⟩) hr hI.errors rfl
    rcases List.mem_cons.1 hm with hm | hm
    · cases hm
      exact ⟨_, List.getElem?_concat_length, hpcth.2⟩
    · exact hby i addr hm
  | incRead hpc =>
    rw [hpc] at hpcth
    exact hI.local hth hle rfl hby hasts (key (pc' := .incWrite _ _) hpcth) hr hI.errors rfl
  | incWrite hpc =>
    rw [hpc] at hpcth
    exact hI.local hth hle rfl hby hasts (key (PcOk.numbered hpcth)) hr hI.errors rfl
  | outBegin hpc hw =>
    rw [hpc] at hpcth
    exact hI.local hth hle rfl hby hasts (key (pc' := .outEnd _) hpcth) hr hI.errors rfl
  | outEnd hpc =>
    rw [hpc] at hpcth
    exact hI.local hth hle rfl hby hasts (key (pc' := .cached _) hpcth) hr hI.errors rfl
  | hit hpc hl =>
    rw [hpc] at hpcth
    obtain ⟨_, s, log, _, _, _, a2, a1⟩ := hI.asts _ _ (mem_of_lookupMap hl)
    obtain ⟨a, c1, c2⟩ := hpcth
    exact hI.local hth hle rfl hby hasts (key (pc' := .deliver (some _)) ⟨s.path, log, a1, fun hs => by
      rw [(hS hs).eq a2 c2]; exact c1⟩) hr hI.errors rfl
  | miss hpc hl =>
    rw [hpc] at hpcth
    exact hI.local hth hle rfl hby hasts (key (pc' := .source _) hpcth) hr hI.errors rfl
  | source hpc hl =>
    rw [hpc] at hpcth
    exact hI.local hth hle rfl hby hasts (key (pc' := .parse _ _) ⟨hpcth, mem_of_lookupMap hl⟩) hr hI.errors rfl
  | parseFail hpc hs hp =>
    obtain ⟨p, p1, p2, p3⟩ := hI1.heap _ (List.mem_of_getElem? hs)
    exact hI.local hth hle rfl hby hasts trivial hr (hadd (.fails p1 (.parse p2 p3 (parse_error_id hp)))) rfl
  | spawned hpc hk =>
    rw [hpc] at hpcth
    exact hI.local hth hle rfl hby hasts (key (pc' := .wait _) hpcth) hr hI.errors rfl
  | transform hpc hj hs ht =>
    rw [hpc] at hpcth
    obtain ⟨c1, c2, c3⟩ := hpcth
    have hm := made_of_frame hI1.heap c3 hrepl hs ht
    refine hI.local hth hle rfl hby hasts (key (pc' := .cache _ _) ⟨c1, ?_⟩) hr (fun e he => ?_) rfl
    · obtain ⟨s', d1, d2⟩ := hI.byIndex _ _ c2
      rw [hs] at d1; cases d1
      obtain ⟨s', _, _, f1, _, f3⟩ := c3
      rw [hs] at f1; cases f1
      exact ⟨_, _, _, c2, hs, f3, d2, hm⟩
    · rcases List.mem_append.1 he with he | he
      · exact hI.errors e he
      · obtain ⟨r, hr1, rfl⟩ := List.mem_map.1 he
        exact .transform hm hr1
  | cache hpc =>
    rw [hpc] at hpcth
    obtain ⟨⟨a, c1, c2⟩, hmn⟩ := hpcth
    have hmn' := hmn
    obtain ⟨_, s, log, _, _, _, a2, a1⟩ := hmn'
    refine hI.local hth hle rfl hby (fun i ss hm => ?_) (key (pc' := .deliver (some _)) ⟨s.path, log, a1, fun hs => by
      rw [(hS hs).eq a2 c2]; exact c1⟩) hr hI.errors rfl
    rcases List.mem_cons.1 hm with hm | hm
    · cases hm; exact hmn
    · exact hasts i ss hm
  | finish hpc h => exact hI.local hth hle rfl hby hasts trivial hr hI.errors rfl

theorem Act.inv2 {env : CEnv} {S : Prop} {st st' : CSt} {t : Nat} {th : Thread} (hI1 : Inv1 env st) (hI : Inv2 env S st)
    (hS : S → Distinct st.sh) (hth : st.threads[t]? = some th) (h : Act env st t th st') : Inv2 env S st' := by
  have hle := h.stLe hth
  have hmem := List.mem_of_getElem? hth
  have hpcth := hI.pcs th hmem
  cases h with
  | loc h => exact h.inv2 hI1 hI hS hth
  | parse hpc hs hp =>
    rename_i i addr source ss lines
    rw [hpc] at hpcth
    obtain ⟨c1, c2⟩ := hpcth
    have hnil := (hI.repls th hmem).1 (by rw [hpc]; exact fun h => h)
    have hi := (List.getElem?_eq_some_iff.1 hs).1
    refine hI.local hth hle rfl (fun i addr => hI.byIndex_mono hle) (fun i ss h => (hI.asts i ss h).mono hle)
      ⟨c1.mono hle, c2, { source with lines := source.lines ++ lines }, _, _, List.getElem?_set_self hi, hp, fun e => by
        have := parse_ok_head hp
        rw [(List.append_eq_nil_iff.1 e).2] at this; cases this⟩ ⟨fun h => hnil, fun kv hkv => ?_⟩ hI.errors rfl
    rw [hnil] at hkv; cases hkv
  | spawn hpc hk =>
    rename_i i k
    rw [hpc] at hpcth
    refine ⟨hI.byIndex, hI.asts, fun x hx => ?_, fun x hx => ?_, fun x hx p hp => ?_, hI.errors, hI.files⟩
    · rcases List.mem_append.1 hx with hx | hx
      · rcases mem_set hx with hx | rfl
        · exact (hI.pcs x hx).mono hle rfl rfl rfl
        · exact PcOk.mono (S := S) (th := th) (th' := { th with pc := .spawn i (k + 1), imp := k }) (pc := .spawn i (k + 1)) hle rfl rfl rfl hpcth
      · rw [List.mem_singleton.1 hx]; trivial
    · rcases List.mem_append.1 hx with hx | hx
      · rcases mem_set hx with hx | rfl
        · exact (hI.repls x hx).mono hle rfl rfl rfl fun h => h
        · exact FrameRepl.mono (th := th) hle rfl rfl rfl (fun _ => trivial) (hI.repls th hmem)
      · rw [List.mem_singleton.1 hx]
        exact ⟨fun _ => rfl, fun kv hkv => by cases hkv⟩
    · have hold : ∀ x ∈ st.threads, x.parent = some p → ∃ par source, ParsedBy env
          { st with threads := st.threads.set t { th with pc := .spawn i (k + 1), imp := k } ++ [Thread.new (some t)] } p par source := by
        intro x hx hp
        obtain ⟨par, source, h⟩ := hI.parents x hx p hp
        obtain ⟨par', source', h', _⟩ := h.mono hle
        exact ⟨par', source', h'⟩
      rcases List.mem_append.1 hx with hx | hx
      · rcases mem_set hx with hx | rfl
        · exact hold x hx hp
        · exact hold th hmem hp
      · rw [List.mem_singleton.1 hx] at hp; cases hp
        obtain ⟨source, id, lines, f1, f2, _⟩ := hpcth.2.2
        obtain ⟨par', source', h', _⟩ := ParsedBy.mono hle ⟨hth, by rw [hpc]; trivial, f1, id, lines, f2⟩
        exact ⟨par', source', h'⟩
  | deliver hpc hp hpar hi =>
    rename_i p par imp ss
    rw [hpc] at hpcth
    obtain ⟨b, log, m1, m2⟩ := hpcth
    obtain ⟨par0, source, hpb⟩ := hI.parents th hmem p hp
    have hpb' := hpb
    obtain ⟨e1, e2, e3, _⟩ := hpb'
    rw [hpar] at e1; cases e1
    have hpmem := List.mem_of_getElem? hpar
    have hold : ∀ x ∈ st.threads, ∀ q, x.parent = some q → ∃ par' source, ParsedBy env
        { st with threads := (st.threads.set p { par with repl := (imp.rule, ss) :: par.repl }).set t { th with pc := .done } } q par' source := by
      intro x hx q hq
      obtain ⟨par, source, h⟩ := hI.parents x hx q hq
      obtain ⟨par', source', h', _⟩ := h.mono hle
      exact ⟨par', source', h'⟩
    refine ⟨hI.byIndex, hI.asts, fun x hx => ?_, fun x hx => ?_, fun x hx q hq => ?_, hI.errors, hI.files⟩
    · rcases mem_set hx with hx | rfl
      · rcases mem_set hx with hx | rfl
        · exact (hI.pcs x hx).mono hle rfl rfl rfl
        · exact PcOk.mono (th := par) hle rfl rfl rfl (hI.pcs par hpmem)
      · trivial
    · rcases mem_set hx with hx | rfl
      · rcases mem_set hx with hx | rfl
        · exact (hI.repls x hx).mono hle rfl rfl rfl fun h => h
        · refine ⟨fun h => absurd e2 h, fun kv hkv => ?_⟩
          rcases List.mem_cons.1 hkv with rfl | hkv
          · refine ⟨⟨imp, List.mem_of_getElem? hi, rfl⟩, b, log, m1, fun hs => ?_⟩
            obtain ⟨rel, t1, t2⟩ := m2 hs
            rw [hp] at t1
            obtain ⟨par1, source1, ⟨g1, _, g3, _⟩, imp1, g4, g5⟩ := t1
            rw [hpar] at g1; cases g1
            exact ⟨source1, g3, imp1, g4, rel, g5, t2⟩
          · exact (hI.repls par hpmem).2 kv hkv
      · exact FrameRepl.mono (th := th) hle rfl rfl rfl (fun _ => trivial) (hI.repls th hmem)
    · rcases mem_set hx with hx | rfl
      · rcases mem_set hx with hx | rfl
        · exact hold x hx q hq
        · exact hold par hpmem q hq
      · exact hold th hmem q hq

theorem MainAct.inv2 {env : CEnv} {S : Prop} {st st' : CSt} (hI1 : Inv1 env st) (hP : InvP env st) (hI : Inv2 env S st)
    (hS : S → ∀ i x y, (i, x) ∈ st.sh.byIndex → (i, y) ∈ st.sh.byIndex → x = y) (h : MainAct env st st') : Inv2 env S st' := by
  have hlines : ∀ {i addr source ss}, lookupMap st.sh.byIndex i = some addr → st.sh.heap[addr]? = some source →
      lookupMap st.sh.asts i = some ss → ∃ b log, Made env S b ss log ∧ (S → b = source.path ∧ source.lines.head? = some 0) := by
    intro i addr source ss ha hs hss
    obtain ⟨addr', s', log, a1, a2, a3, a4, a5⟩ := hI.asts _ _ (mem_of_lookupMap hss)
    refine ⟨_, log, a5, fun h => ?_⟩
    cases hS h _ _ _ (mem_of_lookupMap ha) a1
    rw [hs] at a2; cases a2
    exact ⟨rfl, (hP.lines _ (List.mem_of_getElem? hs)).resolve_left a3⟩
  have hle := h.stLe
  have hpcs : ∀ th ∈ st.threads, PcOk env S st' th th.pc := fun th hx => (hI.pcs th hx).mono hle rfl rfl rfl
  have hrepls : ∀ th ∈ st.threads, FrameRepl env S st' th := fun th hx => (hI.repls th hx).mono hle rfl rfl rfl fun h => h
  have hpars : ∀ th ∈ st.threads, ∀ p, th.parent = some p → ∃ par source, ParsedBy env st' p par source := by
    intro x hx p hp
    obtain ⟨par, source, h⟩ := hI.parents x hx p hp
    obtain ⟨par', source', h', _⟩ := h.mono hle
    exact ⟨par', source', h'⟩
  cases h with
  | spawn =>
    refine ⟨hI.byIndex, hI.asts, fun x hx => ?_, fun x hx => ?_, fun x hx p hp => ?_, hI.errors, hI.files⟩
    · rcases List.mem_append.1 hx with hx | hx
      · exact hpcs x hx
      · rw [List.mem_singleton.1 hx]; trivial
    · rcases List.mem_append.1 hx with hx | hx
      · exact hrepls x hx
      · rw [List.mem_singleton.1 hx]
        exact ⟨fun _ => rfl, fun kv hkv => by cases hkv⟩
    · rcases List.mem_append.1 hx with hx | hx
      · exact hpars x hx p hp
      · rw [List.mem_singleton.1 hx] at hp; cases hp
  | spawned => exact ⟨hI.byIndex, hI.asts, hpcs, hrepls, hpars, hI.errors, hI.files⟩
  | wait => exact ⟨hI.byIndex, hI.asts, hpcs, hrepls, hpars, hI.errors, hI.files⟩
  | finish => exact ⟨hI.byIndex, hI.asts, hpcs, hrepls, hpars, hI.errors, hI.files⟩
  | skip => exact ⟨hI.byIndex, hI.asts, hpcs, hrepls, hpars, hI.errors, hI.files⟩
  | print hm hi ha hs hss hp =>
    refine ⟨hI.byIndex, hI.asts, hpcs, hrepls, hpars, hI.errors, fun a out hkv => ?_⟩
    rcases List.mem_cons.1 hkv with hkv | hkv
    · cases hkv
      obtain ⟨p, p1, p2, p3⟩ := hI1.heap _ (List.mem_of_getElem? hs)
      obtain ⟨b, log, a1, a2⟩ := hlines ha hs hss
      exact ⟨p, _, b, _, log, _, p1, p2, p3, a1, a2, hp⟩
    · exact hI.files a out hkv
  | printFail hm hi ha hs hss hp =>
    refine ⟨hI.byIndex, hI.asts, hpcs, hrepls, hpars, fun e he => ?_, hI.files⟩
    rcases List.mem_append.1 he with he | he
    · exact hI.errors e he
    · rw [List.mem_singleton.1 he]
      obtain ⟨p, p1, p2, p3⟩ := hI1.heap _ (List.mem_of_getElem? hs)
      obtain ⟨b, log, a1, a2⟩ := hlines ha hs hss
      exact .print p1 p2 p3 a1 hp fun h => ⟨(a2 h).1, print_any_lines (a2 h).2 hp⟩

theorem Distinct.of_le {st st' : CSt} (hle : StLe st st') (h : Distinct st'.sh) : Distinct st.sh := by
  obtain ⟨l, e⟩ := hle.sources
  unfold Distinct at h ⊢
  rw [e, List.map_append] at h
  exact (List.nodup_append.1 h).2.1

/-! ### The numbers -/

/-- The goroutine is about to store the source with number `i`. -/
def storing (i : Nat) (th : Thread) : Bool :=
  match th.pc with
  | .store _ _ j => decide (j = i)
  | _ => false

/-- Each number is used for at most as many sources as it has been given to. -/
def InvN (st : CSt) : Prop :=
  ∀ i, st.sh.byIndex.countP (fun x => decide (x.1 = i)) + st.threads.countP (storing i) ≤
    st.sh.sources.countP (fun x => decide (x.2 = i))

theorem InvN.same {st st' : CSt} (h : InvN st) (h1 : st'.sh.byIndex = st.sh.byIndex) (h2 : st'.sh.sources = st.sh.sources)
    (h3 : ∀ i, st'.threads.countP (storing i) ≤ st.threads.countP (storing i)) : InvN st' := by
  intro i
  rw [h1, h2]
  exact Nat.le_trans (Nat.add_le_add_left (h3 i) _) (h i)

theorem countP_set_le {l : List Thread} {t : Nat} {th th1 : Thread} {f : Thread → Bool} (hth : l[t]? = some th)
    (h : f th1 = false) : (l.set t th1).countP f ≤ l.countP f := by
  have hlt := (List.getElem?_eq_some_iff.1 hth).1
  rw [List.countP_set hlt, h]
  simp

theorem Loc.invN {env : CEnv} {st : CSt} {t : Nat} {th : Thread} {sh : Shared} {pc : PC} (hN : InvN st)
    (hth : st.threads[t]? = some th) (h : Loc env st t th sh pc) :
    InvN { st with sh := sh, threads := st.threads.set t { th with pc := pc } } := by
  have hlt := (List.getElem?_eq_some_iff.1 hth).1
  have hget : st.threads[t] = th := (List.getElem?_eq_some_iff.1 hth).2
  have hite : ∀ {i j : Nat} {b : Bool}, storing i { th with pc := if b = true then .outBegin j else .cached j } = false := by
    intro i j b; cases b <;> rfl
  cases h with
  | alloc hpc =>
    rename_i abs content
    intro i
    have := hN i
    dsimp only
    rw [List.countP_set hlt, List.countP_cons]
    have hst : storing i st.threads[t] = false := by rw [hget]; unfold storing; rw [hpc]
    rw [hst]
    have : storing i { th with pc := .store abs content st.sh.nextIndex } = decide (st.sh.nextIndex = i) := rfl
    rw [this]
    simp only [Bool.false_eq_true, if_false]
    omega
  | store hpc =>
    rename_i abs content j
    intro i
    have := hN i
    dsimp only
    rw [List.countP_set hlt, List.countP_cons]
    have hst : storing i st.threads[t] = decide (j = i) := by rw [hget]; unfold storing; rw [hpc]
    have hpos : storing i st.threads[t] = true → 0 < st.threads.countP (storing i) := fun h =>
      List.countP_pos_iff.2 ⟨_, List.getElem_mem hlt, h⟩
    rw [hst] at hpos ⊢
    have : storing i { th with pc := .incRead j } = false := rfl
    rw [this]
    simp only [Bool.false_eq_true, if_false]
    split
    · rename_i hj
      have := hpos hj
      omega
    · omega
  | known => exact hN.same rfl rfl fun i => countP_set_le hth hite
  | incWrite => exact hN.same rfl rfl fun i => countP_set_le hth hite
  | _ => exact hN.same rfl rfl fun i => countP_set_le hth rfl

theorem Act.invN {env : CEnv} {st st' : CSt} {t : Nat} {th : Thread} (hN : InvN st) (hth : st.threads[t]? = some th)
    (h : Act env st t th st') : InvN st' := by
  cases h with
  | loc h => exact h.invN hN hth
  | parse => exact hN.same rfl rfl fun i => countP_set_le hth rfl
  | spawn =>
    refine hN.same rfl rfl fun i => ?_
    dsimp only
    rw [List.countP_append]
    exact countP_set_le hth rfl
  | deliver hpc hp hpar hi =>
    rename_i p par imp ss
    refine hN.same rfl rfl fun i => ?_
    have hlt := (List.getElem?_eq_some_iff.1 hpar).1
    have hget : st.threads[p] = par := (List.getElem?_eq_some_iff.1 hpar).2
    have hlt' := (List.getElem?_eq_some_iff.1 hth).1
    have h1 : (st.threads.set p { par with repl := (imp.rule, ss) :: par.repl }).countP (storing i) ≤ st.threads.countP (storing i) := by
      rw [List.countP_set hlt, hget]
      have : storing i { par with repl := (imp.rule, ss) :: par.repl } = storing i par := rfl
      rw [this]
      have hpos : storing i par = true → 0 < st.threads.countP (storing i) := fun h =>
        List.countP_pos_iff.2 ⟨_, List.mem_of_getElem? hpar, h⟩
      split
      · rename_i h; have := hpos h; omega
      · omega
    refine Nat.le_trans ?_ h1
    obtain ⟨x, hx⟩ : ∃ x, (st.threads.set p { par with repl := (imp.rule, ss) :: par.repl })[t]? = some x :=
      ⟨_, List.getElem?_eq_getElem (by simpa using hlt')⟩
    exact countP_set_le hx rfl

theorem MainAct.invN {env : CEnv} {st st' : CSt} (hN : InvN st) (h : MainAct env st st') : InvN st' := by
  cases h with
  | spawn =>
    refine hN.same rfl rfl fun i => ?_
    dsimp only
    rw [List.countP_append]
    exact Nat.le_refl _
  | _ => exact hN.same rfl rfl fun i => Nat.le_refl _

theorem Reached.invN {env : CEnv} {st : CSt} (h : Reached env st) : InvN st := by
  induction h with
  | init => intro i; exact Nat.le_refl _
  | step _ hs ih =>
    rcases cstep_act hs with h | ⟨t, th, hth, h⟩
    · exact h.invN ih
    · exact h.invN ih hth

theorem InvN.eq {st : CSt} (h : InvN st) (hd : Distinct st.sh) {i x y : Nat} (hx : (i, x) ∈ st.sh.byIndex)
    (hy : (i, y) ∈ st.sh.byIndex) : x = y := by
  have h1 : st.sh.sources.countP (fun x => decide (x.2 = i)) ≤ 1 := by
    have := (List.nodup_iff_count.1 hd) i
    rw [List.count, List.countP_map] at this
    refine Nat.le_trans (Nat.le_of_eq (List.countP_congr fun x _ => ?_)) this
    simp
  have h2 : st.sh.byIndex.countP (fun x => decide (x.1 = i)) ≤ 1 := Nat.le_trans (Nat.le_trans (Nat.le_add_right ..) (h i)) h1
  generalize st.sh.byIndex = l at hx hy h2
  induction l with
  | nil => cases hx
  | cons z l ih =>
    rw [List.countP_cons] at h2
    have hpos : ∀ {w}, (i, w) ∈ l → 0 < l.countP (fun x => decide (x.1 = i)) := fun hw =>
      List.countP_pos_iff.2 ⟨_, hw, by simp⟩
    rcases List.mem_cons.1 hx with hx1 | hx1 <;> rcases List.mem_cons.1 hy with hy1 | hy1
    · exact (Prod.mk.inj (hx1.trans hy1.symm)).2
    · rw [← hx1, if_pos (by simp)] at h2; have := hpos hy1; omega
    · rw [← hy1, if_pos (by simp)] at h2; have := hpos hx1; omega
    · exact ih hx1 hy1 (by omega)

theorem Reached.inv2 {env : CEnv} {S : Prop} {st : CSt} (h : Reached env st) (hS : S → Distinct st.sh) : Inv2 env S st := by
  induction h with
  | init => exact ⟨by simp [CSt.init, Shared.init], by simp [CSt.init, Shared.init], by simp [CSt.init], by simp [CSt.init],
      by simp [CSt.init], by simp [CSt.init, Shared.init], by simp [CSt.init, Shared.init]⟩
  | step hr hs ih =>
    rcases cstep_act hs with h | ⟨t, th, hth, h⟩
    · have hd := fun hs => (hS hs).of_le h.stLe
      exact h.inv2 hr.inv1 hr.invP (ih hd) fun hs i x y hx hy => hr.invN.eq (hd hs) hx hy
    · have hd := fun hs => (hS hs).of_le (h.stLe hth)
      exact h.inv2 hr.inv1 (ih hd) hd hth

end Cssc
