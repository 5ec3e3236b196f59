import Verif.Compile

/-!
# Compile: the steps, case by case
-/

namespace Cssc

/-- The line table of the source at `addr` is extended, and the parse is recorded. -/
def Shared.parsed (sh : Shared) (addr : Nat) (source : Source) (lines : List Nat) : Shared :=
  { sh with
    heap := sh.heap.set addr { source with lines := source.lines ++ lines }
    parses := source.path :: sh.parses }

/-- The steps that change the shared memory and the program counter of the goroutine only. -/
inductive Loc (env : CEnv) (st : CSt) (t : Nat) (th : Thread) : Shared → PC → Prop where
  | startEntry {path} (hpc : th.pc = .start) (hp : th.parent = none) (he : env.entries[st.e]? = some path) :
    Loc env st t th st.sh (.lookup path)
  | startFail {p par imp source} (hpc : th.pc = .start) (hp : th.parent = some p) (hpar : st.threads[p]? = some par)
    (hi : par.ss.imports[par.imp]? = some imp) (hs : st.sh.heap[par.addr]? = some source)
    (hr : env.resolve imp.value (dirOf source.path) = none) :
    Loc env st t th (st.sh.addError (.resolve imp.value (dirOf source.path))) .done
  | startImport {p par imp source rel} (hpc : th.pc = .start) (hp : th.parent = some p)
    (hpar : st.threads[p]? = some par)
    (hi : par.ss.imports[par.imp]? = some imp) (hs : st.sh.heap[par.addr]? = some source)
    (hr : env.resolve imp.value (dirOf source.path) = some rel) :
    Loc env st t th st.sh (.lookup rel)
  | noAbs {path} (hpc : th.pc = .lookup path) (ha : env.abs path = none) :
    Loc env st t th (st.sh.addError (.abs path)) (.deliver none)
  | known {path abs i} (hpc : th.pc = .lookup path) (ha : env.abs path = some abs)
    (hl : lookupMap st.sh.sources abs = some i) :
    Loc env st t th st.sh (if hasOutput env th then .outBegin i else .cached i)
  | unknown {path abs} (hpc : th.pc = .lookup path) (ha : env.abs path = some abs)
    (hl : lookupMap st.sh.sources abs = none) :
    Loc env st t th st.sh (.read path abs)
  | noRead {path abs} (hpc : th.pc = .read path abs) (hr : env.read abs = none) :
    Loc env st t th (st.sh.addError (.read path)) (.deliver none)
  | read {path abs content} (hpc : th.pc = .read path abs) (hr : env.read abs = some content) :
    Loc env st t th st.sh (.alloc abs content)
  | alloc {abs content} (hpc : th.pc = .alloc abs content) :
    Loc env st t th { st.sh with sources := (abs, st.sh.nextIndex) :: st.sh.sources } (.store abs content st.sh.nextIndex)
  | store {abs content i} (hpc : th.pc = .store abs content i) :
    Loc env st t th
      { st.sh with heap := st.sh.heap ++ [⟨abs, content, []⟩], byIndex := (i, st.sh.heap.length) :: st.sh.byIndex }
      (.incRead i)
  | incRead {i} (hpc : th.pc = .incRead i) : Loc env st t th st.sh (.incWrite i st.sh.nextIndex)
  | incWrite {i v} (hpc : th.pc = .incWrite i v) :
    Loc env st t th { st.sh with nextIndex := v + 1 } (if hasOutput env th then .outBegin i else .cached i)
  | outBegin {i} (hpc : th.pc = .outBegin i) (hw : st.sh.writing = false) :
    Loc env st t th { st.sh with writing := true } (.outEnd i)
  | outEnd {i} (hpc : th.pc = .outEnd i) :
    Loc env st t th { st.sh with outputs := i :: st.sh.outputs, writing := false } (.cached i)
  | hit {i ss} (hpc : th.pc = .cached i) (hl : lookupMap st.sh.asts i = some ss) :
    Loc env st t th st.sh (.deliver (some ss))
  | miss {i} (hpc : th.pc = .cached i) (hl : lookupMap st.sh.asts i = none) : Loc env st t th st.sh (.source i)
  | source {i addr} (hpc : th.pc = .source i) (hl : lookupMap st.sh.byIndex i = some addr) :
    Loc env st t th st.sh (.parse i addr)
  | parseFail {i addr source e lines} (hpc : th.pc = .parse i addr) (hs : st.sh.heap[addr]? = some source)
    (hp : parse env.fuel source.content st.sh.parses.length = .error e lines) :
    Loc env st t th ((st.sh.parsed addr source lines).addError (.parse source.path e)) (.deliver none)
  | spawned {i k} (hpc : th.pc = .spawn i k) (hk : ¬ k < th.ss.imports.length) : Loc env st t th st.sh (.wait i)
  | transform {i source ss s} (hpc : th.pc = .wait i) (hj : st.joined (some t) = true)
    (hs : st.sh.heap[th.addr]? = some source)
    (ht : transform env.fo env.opts (if env.opts.importRules = .inline then some th.repl else none) env.fuel th.ss =
      .ok ss s) :
    Loc env st t th { st.sh with errors := st.sh.errors ++ s.log.map (CompErr.transform source.path) } (.cache i ss)
  | cache {i ss} (hpc : th.pc = .cache i ss) :
    Loc env st t th { st.sh with asts := (i, ss) :: st.sh.asts } (.deliver (some ss))
  | finish {res} (hpc : th.pc = .deliver res) (h : th.parent = none ∨ res = none) : Loc env st t th st.sh .done

/-- The steps of a goroutine. -/
inductive Act (env : CEnv) (st : CSt) (t : Nat) (th : Thread) : CSt → Prop where
  | loc {sh pc} (h : Loc env st t th sh pc) :
    Act env st t th { st with sh := sh, threads := st.threads.set t { th with pc := pc } }
  | parse {i addr source ss lines} (hpc : th.pc = .parse i addr) (hs : st.sh.heap[addr]? = some source)
    (hp : parse env.fuel source.content st.sh.parses.length = .ok ss lines) :
    Act env st t th { st with
      sh := st.sh.parsed addr source lines
      threads := st.threads.set t { th with pc := .spawn i 0, addr := addr, ss := ss } }
  | spawn {i k} (hpc : th.pc = .spawn i k) (hk : k < th.ss.imports.length) :
    Act env st t th { st with
      threads := st.threads.set t { th with pc := .spawn i (k + 1), imp := k } ++ [Thread.new (some t)] }
  | deliver {p par imp ss} (hpc : th.pc = .deliver (some ss)) (hp : th.parent = some p)
    (hpar : st.threads[p]? = some par) (hi : par.ss.imports[par.imp]? = some imp) :
    Act env st t th { st with
      threads := (st.threads.set p { par with repl := (imp.rule, ss) :: par.repl }).set t { th with pc := .done } }

theorem stepStart_act {env : CEnv} {st st' : CSt} {t : Nat} {th : Thread} (hpc : th.pc = .start)
    (h : stepStart env st t th = some (.ok st')) : Act env st t th st' := by
  unfold stepStart at h
  rcases hp : th.parent with _ | p <;> rw [hp] at h <;> dsimp only at h
  · obtain ⟨path, he, h⟩ := Option.bind_eq_some_iff.1 h
    cases h; exact .loc (.startEntry hpc hp he)
  · obtain ⟨par, hpar, h⟩ := Option.bind_eq_some_iff.1 h
    obtain ⟨imp, hi, h⟩ := Option.bind_eq_some_iff.1 h
    obtain ⟨source, hs, h⟩ := Option.bind_eq_some_iff.1 h
    rcases hr : env.resolve imp.value (dirOf source.path) with _ | rel <;> rw [hr] at h <;> dsimp only at h <;> cases h
    · exact .loc (.startFail hpc hp hpar hi hs hr)
    · exact .loc (.startImport hpc hp hpar hi hs hr)

theorem stepParse_act {env : CEnv} {st st' : CSt} {t : Nat} {th : Thread} {i addr : Nat} (hpc : th.pc = .parse i addr)
    (h : stepParse env st t th i addr = some (.ok st')) : Act env st t th st' := by
  unfold stepParse CSt.goto at h
  obtain ⟨source, hs, h⟩ := Option.bind_eq_some_iff.1 h
  rcases hp : parse env.fuel source.content st.sh.parses.length with ⟨ss, lines⟩ | ⟨e, lines⟩ | _ | _ <;>
    rw [hp] at h <;> dsimp only at h <;> cases h
  · exact .parse hpc hs hp
  · exact .loc (.parseFail hpc hs hp)

theorem stepWait_act {env : CEnv} {st st' : CSt} {t : Nat} {th : Thread} {i : Nat} (hpc : th.pc = .wait i)
    (h : stepWait env st t th i = some (.ok st')) : Act env st t th st' := by
  unfold stepWait CSt.goto at h
  split at h
  case isFalse => cases h
  rename_i hj
  obtain ⟨source, hs, h⟩ := Option.bind_eq_some_iff.1 h
  rcases ht : transform env.fo env.opts (if env.opts.importRules = .inline then some th.repl else none) env.fuel th.ss
    with ⟨ss, s⟩ | _ | _ <;> rw [ht] at h <;> dsimp only at h <;> cases h
  exact .loc (.transform hpc hj hs ht)

theorem stepDeliver_act {env : CEnv} {st st' : CSt} {t : Nat} {th : Thread} {res : Option Stylesheet}
    (hpc : th.pc = .deliver res) (h : stepDeliver st t th res = some (.ok st')) : Act env st t th st' := by
  unfold stepDeliver at h
  rcases hp : th.parent with _ | p <;> rw [hp] at h <;> (try dsimp only at h)
  · cases h; exact .loc (.finish hpc (.inl hp))
  · rcases res with _ | ss <;> dsimp only at h
    · cases h; exact .loc (.finish hpc (.inr rfl))
    · obtain ⟨par, hpar, h⟩ := Option.bind_eq_some_iff.1 h
      obtain ⟨imp, hi, h⟩ := Option.bind_eq_some_iff.1 h
      cases h
      have := Act.deliver (env := env) (t := t) hpc hp hpar hi
      rw [hp] at this
      exact this

/-- The steps of a goroutine, case by case. -/
theorem stepThread_act {env : CEnv} {st st' : CSt} {t : Nat} (h : stepThread env st t = some (.ok st')) :
    ∃ th, st.threads[t]? = some th ∧ Act env st t th st' := by
  unfold stepThread at h
  obtain ⟨th, hth, h⟩ := Option.bind_eq_some_iff.1 h
  refine ⟨th, hth, ?_⟩
  dsimp only at h
  rcases hpc : th.pc with _ | path | ⟨path, abs⟩ | ⟨abs, content⟩ | ⟨abs, content, i⟩ | i | ⟨i, v⟩ | i | i | i | i |
    ⟨i, addr⟩ | ⟨i, k⟩ | i | ⟨i, ss⟩ | res | _ <;> rw [hpc] at h <;> dsimp only at h
  · exact stepStart_act hpc h
  · unfold CSt.goto at h
    rcases ha : env.abs path with _ | abs <;> rw [ha] at h <;> dsimp only at h
    · cases h; exact .loc (.noAbs hpc ha)
    · rcases hl : lookupMap st.sh.sources abs with _ | i <;> rw [hl] at h <;> dsimp only at h <;> cases h
      · exact .loc (.unknown hpc ha hl)
      · exact .loc (.known hpc ha hl)
  · unfold CSt.goto at h
    rcases hr : env.read abs with _ | content <;> rw [hr] at h <;> dsimp only at h <;> cases h
    · exact .loc (.noRead hpc hr)
    · exact .loc (.read hpc hr)
  · cases h; exact .loc (.alloc hpc)
  · cases h; exact .loc (.store hpc)
  · cases h; exact .loc (.incRead hpc)
  · cases h; exact .loc (.incWrite hpc)
  · split at h
    · cases h
    · rename_i hw
      cases h; exact .loc (.outBegin hpc (by simpa using hw))
  · cases h; exact .loc (.outEnd hpc)
  · unfold CSt.goto at h
    rcases hl : lookupMap st.sh.asts i with _ | ss <;> rw [hl] at h <;> dsimp only at h <;> cases h
    · exact .loc (.miss hpc hl)
    · exact .loc (.hit hpc hl)
  · unfold CSt.goto at h
    rcases hl : lookupMap st.sh.byIndex i with _ | addr <;> rw [hl] at h <;> dsimp only at h <;> cases h
    exact .loc (.source hpc hl)
  · exact stepParse_act hpc h
  · split at h
    · rename_i hk
      cases h; exact .spawn hpc hk
    · rename_i hk
      cases h; exact .loc (.spawned hpc hk)
  · exact stepWait_act hpc h
  · cases h; exact .loc (.cache hpc)
  · exact stepDeliver_act hpc h
  · cases h

/-- The steps of `Compile` itself and of its printing goroutines. -/
inductive MainAct (env : CEnv) (st : CSt) : CSt → Prop where
  | spawn {k} (hm : st.main = .spawn k) (hk : k < env.entries.length) :
    MainAct env st { st with main := .spawn (k + 1), e := k, threads := st.threads ++ [Thread.new none] }
  | spawned {k} (hm : st.main = .spawn k) (hk : ¬ k < env.entries.length) : MainAct env st { st with main := .wait }
  | wait (hm : st.main = .wait) (hj : st.joined none = true) :
    MainAct env st { st with main := .print st.sh.outputs.eraseDups }
  | finish (hm : st.main = .print []) : MainAct env st { st with main := .done }
  | print {rest i addr source ss out} (hm : st.main = .print rest) (hi : i ∈ rest)
    (ha : lookupMap st.sh.byIndex i = some addr) (hs : st.sh.heap[addr]? = some source)
    (hss : lookupMap st.sh.asts i = some ss) (hp : print (some source) ss = .ok out) :
    MainAct env st { st with
      main := .print (rest.erase i), sh := { st.sh with files := (source.path, out) :: st.sh.files } }
  | printFail {rest i addr source ss} (hm : st.main = .print rest) (hi : i ∈ rest)
    (ha : lookupMap st.sh.byIndex i = some addr) (hs : st.sh.heap[addr]? = some source)
    (hss : lookupMap st.sh.asts i = some ss) (hp : print (some source) ss = .error) :
    MainAct env st { st with main := .print (rest.erase i), sh := st.sh.addError (.print source.path) }
  | skip {rest i} (hm : st.main = .print rest) (hi : i ∈ rest)
    (hn : (lookupMap st.sh.byIndex i).bind (st.sh.heap[·]?) = none ∨ lookupMap st.sh.asts i = none) :
    MainAct env st { st with main := .print (rest.erase i) }

theorem stepMain_act {env : CEnv} {st st' : CSt} (h : stepMain env st = some (.ok st')) : MainAct env st st' := by
  unfold stepMain at h
  rcases hm : st.main with k | _ | rest | _ <;> rw [hm] at h <;> dsimp only at h
  · split at h <;> rename_i hk <;> cases h
    · exact .spawn hm hk
    · exact .spawned hm hk
  · split at h
    · rename_i hj; cases h; exact .wait hm hj
    · cases h
  · split at h
    · rename_i hr; subst hr; cases h; exact .finish hm
    · cases h
  · cases h

theorem stepPrint_act {env : CEnv} {st st' : CSt} {i : Nat} (h : stepPrint st i = some (.ok st')) : MainAct env st st' := by
  unfold stepPrint at h
  rcases hm : st.main with k | _ | rest | _ <;> rw [hm] at h <;> dsimp only at h
  · cases h
  · cases h
  · split at h
    case isFalse => cases h
    rename_i hi
    split at h
    · rename_i source ss hs hss
      obtain ⟨addr, ha, hs⟩ := Option.bind_eq_some_iff.1 hs
      rcases hp : print (some source) ss with out | _ | _ <;> rw [hp] at h <;> dsimp only at h <;> cases h
      · exact .print hm hi ha hs hss hp
      · exact .printFail hm hi ha hs hss hp
    · rename_i hno
      cases h
      refine .skip hm hi ?_
      rcases hs : (lookupMap st.sh.byIndex i).bind (st.sh.heap[·]?) with _ | source
      · exact .inl rfl
      · rcases hss : lookupMap st.sh.asts i with _ | ss
        · exact .inr rfl
        · exact (hno source ss hs hss).elim
  · cases h

/-- Every step is one of `Compile` or one of a goroutine. -/
theorem cstep_act {env : CEnv} {st st' : CSt} {c : Choice} (h : cstep env st c = some (.ok st')) :
    MainAct env st st' ∨ ∃ t th, st.threads[t]? = some th ∧ Act env st t th st' := by
  cases c with
  | main => exact .inl (stepMain_act h)
  | print i => exact .inl (stepPrint_act h)
  | thread t =>
    obtain ⟨th, h1, h2⟩ := stepThread_act h
    exact .inr ⟨t, th, h1, h2⟩

end Cssc
