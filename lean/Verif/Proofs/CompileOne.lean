import Verif.Proofs.CompileInv

/-!
# Compile with one entry: what holds under every schedule
-/

namespace Cssc

theorem lookupMap_cons_ne {α β : Type} [DecidableEq α] {m : List (α × β)} {k k' : α} {v : β} (h : k' ≠ k) :
    lookupMap ((k', v) :: m) k = lookupMap m k := by
  simp [lookupMap, h]

theorem lookupMap_cons_eq {α β : Type} [DecidableEq α] {m : List (α × β)} {k : α} {v : β} :
    lookupMap ((k, v) :: m) k = some v := by simp [lookupMap]

theorem lookupMap_mem {α β : Type} [DecidableEq α] {m : List (α × β)} {k : α} {v : β} (h : lookupMap m k = some v) :
    (k, v) ∈ m := by
  induction m with
  | nil => cases h
  | cons x m ih =>
    obtain ⟨k', v'⟩ := x
    unfold lookupMap at h
    split at h
    · rename_i e; subst e; cases h; exact List.mem_cons_self
    · exact List.mem_cons_of_mem _ (ih h)

/-- What the entry is transformed to, with some replacements. -/
def TransformsTo (env : CEnv) (ss ss' : Stylesheet) : Prop :=
  ∃ repl s, (ss.imports = [] → repl = []) ∧
    transform env.fo env.opts (if env.opts.importRules = .inline then some repl else none) env.fuel ss = .ok ss' s

/-- The memory and the first goroutine up to the parse of the entry. -/
inductive PreSh (env : CEnv) (e : Bytes) : PC → Shared → Prop where
  | start : PreSh env e .start Shared.init
  | lookup : PreSh env e (.lookup e) Shared.init
  | read {a} : env.abs e = some a → PreSh env e (.read e a) Shared.init
  | alloc {a c} : env.abs e = some a → env.read a = some c → PreSh env e (.alloc a c) Shared.init
  | store {a c} : env.abs e = some a → env.read a = some c →
    PreSh env e (.store a c 0) { Shared.init with sources := [(a, 0)] }
  | incRead {a c} : env.abs e = some a → env.read a = some c →
    PreSh env e (.incRead 0) { Shared.init with sources := [(a, 0)], heap := [⟨a, c, []⟩], byIndex := [(0, 0)] }
  | incWrite {a c} : env.abs e = some a → env.read a = some c →
    PreSh env e (.incWrite 0 0) { Shared.init with sources := [(a, 0)], heap := [⟨a, c, []⟩], byIndex := [(0, 0)] }
  | outBegin {a c} : env.abs e = some a → env.read a = some c →
    PreSh env e (.outBegin 0)
      { Shared.init with sources := [(a, 0)], heap := [⟨a, c, []⟩], byIndex := [(0, 0)], nextIndex := 1 }
  | outEnd {a c} : env.abs e = some a → env.read a = some c →
    PreSh env e (.outEnd 0)
      { Shared.init with
        sources := [(a, 0)], heap := [⟨a, c, []⟩], byIndex := [(0, 0)], nextIndex := 1, writing := true }
  | cached {a c} : env.abs e = some a → env.read a = some c →
    PreSh env e (.cached 0)
      { Shared.init with
        sources := [(a, 0)], heap := [⟨a, c, []⟩], byIndex := [(0, 0)], nextIndex := 1, outputs := [0] }
  | source {a c} : env.abs e = some a → env.read a = some c →
    PreSh env e (.source 0)
      { Shared.init with
        sources := [(a, 0)], heap := [⟨a, c, []⟩], byIndex := [(0, 0)], nextIndex := 1, outputs := [0] }
  | parse {a c} : env.abs e = some a → env.read a = some c →
    PreSh env e (.parse 0 0)
      { Shared.init with
        sources := [(a, 0)], heap := [⟨a, c, []⟩], byIndex := [(0, 0)], nextIndex := 1, outputs := [0] }

/-- Up to the parse of the entry. -/
inductive Pre (env : CEnv) (e : Bytes) (st : CSt) : Prop where
  | init : st = CSt.init → Pre env e st
  | one {pc} : st.threads = [{ Thread.new none with pc := pc }] → (st.main = .spawn 1 ∨ st.main = .wait) → st.e = 0 →
    PreSh env e pc st.sh → Pre env e st

/-- Why the entry cannot be compiled. -/
def EntryFails (env : CEnv) (e : Bytes) : Prop :=
  env.abs e = none ∨ ∃ a, env.abs e = some a ∧
    (env.read a = none ∨ ∃ c err lines, env.read a = some c ∧ parse env.fuel c 0 = .error err lines)

/-- The entry could not be read or parsed. -/
structure Failed (env : CEnv) (e : Bytes) (st : CSt) : Prop where
  why : EntryFails env e
  threads : ∃ pc, st.threads = [{ Thread.new none with pc := pc }] ∧ (pc = .deliver none ∨ pc = .done)
  main : st.main ≠ .spawn 0
  errors : st.sh.errors ≠ []
  files : st.sh.files = []
  asts : st.sh.asts = []

/-- The goroutines of the imports keep away from the entry. -/
def PC.Away (env : CEnv) (a : Bytes) : PC → Prop
  | .start => True
  | .lookup p => Imported env p
  | .read p b => Imported env p ∧ env.abs p = some b
  | .alloc b _ => b ≠ a
  | .store b _ i => b ≠ a ∧ 1 ≤ i
  | .incRead i => 1 ≤ i
  | .incWrite i _ => 1 ≤ i
  | .outBegin i => 1 ≤ i ∧ env.opts.importRules = .follow
  | .outEnd i => 1 ≤ i ∧ env.opts.importRules = .follow
  | .cached i => 1 ≤ i
  | .source i => 1 ≤ i
  | .parse i addr => 1 ≤ i ∧ 1 ≤ addr
  | .spawn i _ => 1 ≤ i
  | .wait i => 1 ≤ i
  | .cache i _ => 1 ≤ i
  | .deliver _ => True
  | .done => True

/-- The memory, as far as the entry is concerned. -/
structure MemOk (env : CEnv) (a content : Bytes) (lines : List Nat) (sh : Shared) : Prop where
  heap0 : sh.heap[0]? = some ⟨a, content, lines⟩
  heapS : ∀ (j : Nat) (s : Source), 1 ≤ j → sh.heap[j]? = some s → s.path ≠ a
  idx0 : lookupMap sh.byIndex 0 = some 0
  idxS : ∀ x ∈ sh.byIndex, 1 ≤ x.1 → 1 ≤ x.2
  next : 1 ≤ sh.nextIndex
  srcs : ∀ x ∈ sh.sources, x.1 ≠ a → 1 ≤ x.2
  outs0 : 0 ∈ sh.outputs
  outsS : env.opts.importRules ≠ .follow → ∀ i ∈ sh.outputs, i = 0

/-- Where the goroutine of the entry is after the parse. -/
inductive ZeroAt (env : CEnv) (ss : Stylesheet) (early : Prop) (asts : List (Nat × Stylesheet)) : PC → Prop where
  | spawn {k} : early → lookupMap asts 0 = none → ZeroAt env ss early asts (.spawn 0 k)
  | wait : early → lookupMap asts 0 = none → ZeroAt env ss early asts (.wait 0)
  | cache {ss'} : early → lookupMap asts 0 = none → TransformsTo env ss ss' → ZeroAt env ss early asts (.cache 0 ss')
  | deliver {ss'} : early → lookupMap asts 0 = some ss' → TransformsTo env ss ss' →
    ZeroAt env ss early asts (.deliver (some ss'))
  | done {ss'} : lookupMap asts 0 = some ss' → TransformsTo env ss ss' → ZeroAt env ss early asts .done

/-- The entry has been printed, or printing it has failed. -/
def EntryPrinted (env : CEnv) (source : Source) (ss : Stylesheet) (sh : Shared) : Prop :=
  ∃ ss', TransformsTo env ss ss' ∧
    ((∃ out, print (some source) ss' = .ok out ∧ lookupMap sh.files source.path = some out) ∨
     (print (some source) ss' = .error ∧ (∀ kv ∈ sh.files, kv.1 ≠ source.path) ∧ .print source.path ∈ sh.errors))

/-- The output, by where `Compile` is. -/
def OutOk (env : CEnv) (source : Source) (ss : Stylesheet) (sh : Shared) : MainPC → Prop
  | .spawn k => k = 1 ∧ sh.files = []
  | .wait => sh.files = []
  | .print rest => rest.Nodup ∧ (env.opts.importRules ≠ .follow → ∀ i ∈ rest, i = 0) ∧
    (0 ∈ rest → ∀ kv ∈ sh.files, kv.1 ≠ source.path) ∧ (0 ∉ rest → EntryPrinted env source ss sh)
  | .done => EntryPrinted env source ss sh

/-- `Compile` has not begun to print. -/
def MainPC.early (m : MainPC) : Prop := m = .spawn 1 ∨ m = .wait

/-- After the parse of the entry. -/
structure Later (env : CEnv) (source : Source) (ss : Stylesheet) (st : CSt) : Prop where
  zero : ∃ th, st.threads[0]? = some th ∧ th.parent = none ∧ th.addr = 0 ∧ th.ss = ss ∧
    (ss.imports = [] → th.repl = []) ∧ ZeroAt env ss st.main.early st.sh.asts th.pc
  others : ∀ (i : Nat) (th : Thread), 1 ≤ i → st.threads[i]? = some th → th.parent ≠ none ∧ th.pc.Away env source.path
  mem : MemOk env source.path source.content source.lines st.sh
  out : OutOk env source ss st.sh st.main
  keys : env.opts.importRules ≠ .follow → ∀ kv ∈ st.sh.files, kv.1 = source.path

/-- The three phases. -/
def One (env : CEnv) (e : Bytes) (st : CSt) : Prop :=
  Pre env e st ∨ Failed env e st ∨
  ∃ a c ss lines, env.abs e = some a ∧ env.read a = some c ∧ parse env.fuel c 0 = .ok ss lines ∧
    Later env ⟨a, c, lines⟩ ss st

/-! ### Preservation -/

theorem parsed_lines {sh : Shared} {a c : Bytes} {lines : List Nat} (hs : sh.heap[0]? = some ⟨a, c, []⟩) :
    (sh.parsed 0 ⟨a, c, []⟩ lines).heap[0]? = some ⟨a, c, lines⟩ := by
  have := (List.getElem?_eq_some_iff.1 hs).1
  simp [Shared.parsed, List.getElem?_set_self this]

theorem pre_step {env : CEnv} {e : Bytes} (he : env.entries = [e]) {st st' : CSt} (h : Pre env e st) {c : Choice}
    (hs : cstep env st c = some (.ok st')) : One env e st' := by
  rcases h with rfl | ⟨hth, hmain, he0, hsh⟩
  · -- the initial state
    rcases cstep_act hs with h | ⟨t, th, hth, _⟩
    · cases h with
      | spawn hm hk =>
        cases hm
        exact .inl (.one (pc := .start) rfl (.inl rfl) rfl .start)
      | spawned hm hk => cases hm; rw [he] at hk; simp at hk
      | wait hm => cases hm
      | finish hm => cases hm
      | print hm => cases hm
      | printFail hm => cases hm
      | skip hm => cases hm
    · simp [CSt.init] at hth
  rename_i pc
  rcases cstep_act hs with h | ⟨t, th, ht, h⟩
  · cases h with
    | spawn hm hk =>
      rcases hmain with h1 | h1 <;> rw [h1] at hm <;> cases hm
      rw [he] at hk; simp at hk
    | spawned hm hk => exact .inl (.one hth (.inr rfl) he0 hsh)
    | wait hm hj =>
      exfalso
      generalize st.sh = s at hsh
      cases hsh <;> simp [CSt.joined, hth, Thread.new] at hj
    | finish hm => rcases hmain with h1 | h1 <;> rw [h1] at hm <;> cases hm
    | print hm => rcases hmain with h1 | h1 <;> rw [h1] at hm <;> cases hm
    | printFail hm => rcases hmain with h1 | h1 <;> rw [h1] at hm <;> cases hm
    | skip hm => rcases hmain with h1 | h1 <;> rw [h1] at hm <;> cases hm
  -- the goroutine steps
  rw [hth] at ht
  have ht0 : t = 0 := by
    have := (List.getElem?_eq_some_iff.1 ht).1
    simpa using this
  subst ht0
  have hthe : th = { Thread.new none with pc := pc } := by simpa using ht.symm
  have hpcE : th.pc = pc := by rw [hthe]
  have hparent : th.parent = none := by rw [hthe]; rfl
  have hss : th.ss.imports = [] := by rw [hthe]; rfl
  have hout : hasOutput env th = true := by simp [hasOutput, hparent]
  have hset : ∀ pc', st.threads.set 0 { th with pc := pc' } = [{ Thread.new none with pc := pc' }] := by
    intro pc'; rw [hth, hthe]; rfl
  have go : ∀ {sh' : Shared} {pc' : PC}, PreSh env e pc' sh' →
      One env e { st with sh := sh', threads := st.threads.set 0 { th with pc := pc' } } := by
    intro sh' pc' hp
    exact .inl (.one (hset pc') hmain he0 hp)
  have gofail : ∀ {sh' : Shared}, EntryFails env e → sh'.errors ≠ [] → sh'.files = [] → sh'.asts = [] →
      One env e { st with sh := sh', threads := st.threads.set 0 { th with pc := .deliver none } } := by
    intro sh' hw h1 h2 h3
    refine .inr (.inl ⟨hw, ⟨_, hset _, .inl rfl⟩, ?_, h1, h2, h3⟩)
    rcases hmain with h | h <;> rw [h] <;> simp
  obtain ⟨shst, hsheq⟩ : ∃ s, s = st.sh := ⟨_, rfl⟩
  rw [← hsheq] at hsh
  cases hsh with
  | start =>
    cases h with
    | loc h =>
      cases h with
      | startEntry hpc hp hen =>
        rw [he, he0] at hen
        cases hen
        rw [← hsheq]
        exact go .lookup
      | startFail hpc hp => rw [hparent] at hp; cases hp
      | startImport hpc hp => rw [hparent] at hp; cases hp
      | _ => simp_all
    | _ => simp_all
  | lookup =>
    cases h with
    | loc h =>
      cases h with
      | noAbs hpc ha =>
        rw [hpcE] at hpc; cases hpc
        exact gofail (.inl ha) (by simp [Shared.addError]) (by rw [← hsheq]; rfl) (by rw [← hsheq]; rfl)
      | known hpc ha hl => rw [← hsheq] at hl; cases hl
      | unknown hpc ha hl =>
        rw [hpcE] at hpc; cases hpc
        rw [← hsheq]
        exact go (.read ha)
      | _ => simp_all
    | _ => simp_all
  | read ha =>
    cases h with
    | loc h =>
      cases h with
      | noRead hpc hr =>
        rw [hpcE] at hpc; cases hpc
        exact gofail (.inr ⟨_, ha, .inl hr⟩) (by simp [Shared.addError]) (by rw [← hsheq]; rfl) (by rw [← hsheq]; rfl)
      | read hpc hr =>
        rw [hpcE] at hpc; cases hpc
        rw [← hsheq]
        exact go (.alloc ha hr)
      | _ => simp_all
    | _ => simp_all
  | alloc ha hr =>
    cases h with
    | loc h =>
      cases h with
      | alloc hpc =>
        rw [hpcE] at hpc; cases hpc
        rw [← hsheq]
        exact go (.store ha hr)
      | _ => simp_all
    | _ => simp_all
  | store ha hr =>
    cases h with
    | loc h =>
      cases h with
      | store hpc =>
        rw [hpcE] at hpc; cases hpc
        rw [← hsheq]
        exact go (.incRead ha hr)
      | _ => simp_all
    | _ => simp_all
  | incRead ha hr =>
    cases h with
    | loc h =>
      cases h with
      | incRead hpc =>
        rw [hpcE] at hpc; cases hpc
        rw [← hsheq]
        exact go (.incWrite ha hr)
      | _ => simp_all
    | _ => simp_all
  | incWrite ha hr =>
    cases h with
    | loc h =>
      cases h with
      | incWrite hpc =>
        rw [hpcE] at hpc; cases hpc
        rw [← hsheq, hout]
        exact go (.outBegin ha hr)
      | _ => simp_all
    | _ => simp_all
  | outBegin ha hr =>
    cases h with
    | loc h =>
      cases h with
      | outBegin hpc =>
        rw [hpcE] at hpc; cases hpc
        rw [← hsheq]
        exact go (.outEnd ha hr)
      | _ => simp_all
    | _ => simp_all
  | outEnd ha hr =>
    cases h with
    | loc h =>
      cases h with
      | outEnd hpc =>
        rw [hpcE] at hpc; cases hpc
        rw [← hsheq]
        exact go (.cached ha hr)
      | _ => simp_all
    | _ => simp_all
  | cached ha hr =>
    cases h with
    | loc h =>
      cases h with
      | hit hpc hl => rw [← hsheq] at hl; cases hl
      | miss hpc hl =>
        rw [hpcE] at hpc; cases hpc
        rw [← hsheq]
        exact go (.source ha hr)
      | _ => simp_all
    | _ => simp_all
  | source ha hr =>
    cases h with
    | loc h =>
      cases h with
      | source hpc hl =>
        rw [hpcE] at hpc; cases hpc
        rw [← hsheq] at hl
        cases hl
        rw [← hsheq]
        exact go (.parse ha hr)
      | _ => simp_all
    | _ => simp_all
  | parse ha hr =>
    cases h with
    | loc h =>
      cases h with
      | parseFail hpc hs' hp =>
        rw [hpcE] at hpc; cases hpc
        rw [← hsheq] at hs' hp
        cases hs'
        exact gofail (.inr ⟨_, ha, .inr ⟨_, _, _, hr, hp⟩⟩) (by simp [Shared.addError])
          (by rw [← hsheq]; rfl) (by rw [← hsheq]; rfl)
      | _ => simp_all
    | parse hpc hs' hp =>
      rw [hpcE] at hpc; cases hpc
      rw [← hsheq] at hs' hp
      cases hs'
      refine .inr (.inr ⟨_, _, _, _, ha, hr, hp, ?_⟩)
      rename_i a c ss lines
      refine ⟨⟨{ th with pc := .spawn 0 0, addr := 0, ss := ss }, by rw [hth]; rfl, hparent, rfl, rfl, fun _ => by rw [hthe]; rfl, ?_⟩, ?_, ?_, ?_, ?_⟩
      · exact .spawn hmain (by rw [← hsheq]; rfl)
      · intro i th' hi hth'
        rw [hth] at hth'
        have := (List.getElem?_eq_some_iff.1 hth').1
        simp at this; omega
      · rw [← hsheq]
        refine ⟨rfl, ?_, rfl, ?_, Nat.le_refl 1, ?_, by simp [Shared.parsed], ?_⟩
        · intro j s hj hs1
          have := (List.getElem?_eq_some_iff.1 hs1).1
          simp [Shared.parsed] at this; omega
        · simp [Shared.parsed]
        · simp [Shared.parsed]
        · simp [Shared.parsed]
      · rw [← hsheq]
        rcases hmain with h | h <;> rw [h]
        · exact ⟨rfl, rfl⟩
        · exact rfl
      · rw [← hsheq]
        simp [Shared.parsed, Shared.init]
    | _ => simp_all

theorem failed_step {env : CEnv} {e : Bytes} (he : env.entries = [e]) {st st' : CSt} (h : Failed env e st) {c : Choice}
    (hs : cstep env st c = some (.ok st')) : Failed env e st' := by
  obtain ⟨hw, ⟨pc, hth, hpc⟩, hmain, herr, hfiles, hasts⟩ := h
  rcases cstep_act hs with h | ⟨t, th, ht, h⟩
  · cases h with
    | spawn hm hk =>
      rename_i k
      rw [he] at hk
      have : k = 0 := by simpa using hk
      subst this
      exact absurd hm hmain
    | spawned hm hk => exact ⟨hw, ⟨pc, hth, hpc⟩, by simp, herr, hfiles, hasts⟩
    | wait hm hj => exact ⟨hw, ⟨pc, hth, hpc⟩, by simp, herr, hfiles, hasts⟩
    | finish hm => exact ⟨hw, ⟨pc, hth, hpc⟩, by simp, herr, hfiles, hasts⟩
    | print hm hi ha hs hss => rw [hasts] at hss; cases hss
    | printFail hm hi ha hs hss => rw [hasts] at hss; cases hss
    | skip hm => exact ⟨hw, ⟨pc, hth, hpc⟩, by simp, herr, hfiles, hasts⟩
  · rw [hth] at ht
    have ht0 : t = 0 := by
      have := (List.getElem?_eq_some_iff.1 ht).1
      simpa using this
    subst ht0
    have hthe : th = { Thread.new none with pc := pc } := by simpa using ht.symm
    have hpcE : th.pc = pc := by rw [hthe]
    have hset : ∀ pc', st.threads.set 0 { th with pc := pc' } = [{ Thread.new none with pc := pc' }] := by
      intro pc'; rw [hth, hthe]; rfl
    cases h with
    | loc h =>
      cases h with
      | finish hpc' hr => exact ⟨hw, ⟨_, hset _, .inr rfl⟩, hmain, herr, hfiles, hasts⟩
      | _ => rcases hpc with rfl | rfl <;> simp_all
    | _ => rcases hpc with rfl | rfl <;> simp_all

theorem Loc.away {env : CEnv} {st : CSt} {t : Nat} {th : Thread} {sh : Shared} {pc : PC} {a c : Bytes}
    {lines : List Nat} (hI : Inv1 env st) (hself : ∀ r, Imported env r → env.abs r ≠ some a)
    (hm : MemOk env a c lines st.sh) (hp : th.parent ≠ none) (ha : th.pc.Away env a) (h : Loc env st t th sh pc) :
    MemOk env a c lines sh ∧ sh.files = st.sh.files ∧ lookupMap sh.asts 0 = lookupMap st.sh.asts 0 ∧
    (∀ x ∈ st.sh.errors, x ∈ sh.errors) ∧ pc.Away env a := by
  have hite : ∀ {i : Nat}, 1 ≤ i → PC.Away env a (if hasOutput env th = true then .outBegin i else .cached i) := by
    intro i hi
    unfold hasOutput
    cases hpar : th.parent with
    | none => exact absurd hpar hp
    | some p =>
      by_cases hf : env.opts.importRules = .follow
      · simp [hf, PC.Away, hi]
      · simp [hf, PC.Away, hi]
  cases h with
  | startEntry hpc hp' => exact absurd hp' hp
  | startFail => exact ⟨⟨hm.1, hm.2, hm.3, hm.4, hm.5, hm.6, hm.7, hm.8⟩, rfl, rfl, fun x hx => by
      simp [Shared.addError, hx], trivial⟩
  | startImport hpc hp' hpar hi hs hr => exact ⟨hm, rfl, rfl, fun x hx => hx, hI.import_asked hpar hi hs hr⟩
  | noAbs => exact ⟨⟨hm.1, hm.2, hm.3, hm.4, hm.5, hm.6, hm.7, hm.8⟩, rfl, rfl, fun x hx => by
      simp [Shared.addError, hx], trivial⟩
  | known hpc hab hl =>
    rw [hpc] at ha
    refine ⟨hm, rfl, rfl, fun x hx => hx, hite ?_⟩
    refine hm.srcs _ (lookupMap_mem hl) ?_
    rintro rfl
    exact hself _ ha hab
  | unknown hpc hab hl => rw [hpc] at ha; exact ⟨hm, rfl, rfl, fun x hx => hx, ha, hab⟩
  | noRead => exact ⟨⟨hm.1, hm.2, hm.3, hm.4, hm.5, hm.6, hm.7, hm.8⟩, rfl, rfl, fun x hx => by
      simp [Shared.addError, hx], trivial⟩
  | read hpc hr =>
    rw [hpc] at ha
    refine ⟨hm, rfl, rfl, fun x hx => hx, ?_⟩
    rintro rfl
    exact hself _ ha.1 ha.2
  | alloc hpc =>
    rw [hpc] at ha
    refine ⟨⟨hm.1, hm.2, hm.3, hm.4, hm.5, ?_, hm.7, hm.8⟩, rfl, rfl, fun x hx => hx, ha, hm.next⟩
    intro x hx hxa
    rcases List.mem_cons.1 hx with rfl | hx
    · exact hm.next
    · exact hm.srcs x hx hxa
  | store hpc =>
    rw [hpc] at ha
    have hlen : 1 ≤ st.sh.heap.length := (List.getElem?_eq_some_iff.1 hm.heap0).1
    refine ⟨⟨?_, ?_, ?_, ?_, hm.5, hm.6, hm.7, hm.8⟩, rfl, rfl, fun x hx => hx, ha.2⟩
    · show (st.sh.heap ++ _)[0]? = _
      rw [List.getElem?_append_left hlen]; exact hm.heap0
    · intro j s hj hs
      by_cases hjl : j < st.sh.heap.length
      · rw [List.getElem?_append_left hjl] at hs; exact hm.heapS j s hj hs
      · rw [List.getElem?_append_right (by omega)] at hs
        have := List.mem_of_getElem? hs
        rw [List.mem_singleton.1 this]
        exact ha.1
    · show lookupMap (_ :: _) 0 = _
      rw [lookupMap_cons_ne (by have := ha.2; omega)]; exact hm.idx0
    · intro x hx hx1
      rcases List.mem_cons.1 hx with rfl | hx
      · exact hlen
      · exact hm.idxS x hx hx1
  | incRead hpc => rw [hpc] at ha; exact ⟨hm, rfl, rfl, fun x hx => hx, ha⟩
  | incWrite hpc =>
    rw [hpc] at ha
    exact ⟨⟨hm.1, hm.2, hm.3, hm.4, by simp, hm.6, hm.7, hm.8⟩, rfl, rfl, fun x hx => hx, hite ha⟩
  | outBegin hpc =>
    rw [hpc] at ha
    exact ⟨⟨hm.1, hm.2, hm.3, hm.4, hm.5, hm.6, hm.7, hm.8⟩, rfl, rfl, fun x hx => hx, ha⟩
  | outEnd hpc =>
    rw [hpc] at ha
    exact ⟨⟨hm.1, hm.2, hm.3, hm.4, hm.5, hm.6, List.mem_cons_of_mem _ hm.7, fun hf => absurd ha.2 hf⟩, rfl, rfl,
      fun x hx => hx, ha.1⟩
  | hit => exact ⟨hm, rfl, rfl, fun x hx => hx, trivial⟩
  | miss hpc => rw [hpc] at ha; exact ⟨hm, rfl, rfl, fun x hx => hx, ha⟩
  | source hpc hl =>
    rw [hpc] at ha
    exact ⟨hm, rfl, rfl, fun x hx => hx, ha, hm.idxS _ (lookupMap_mem hl) ha⟩
  | parseFail hpc hs hp =>
    rw [hpc] at ha
    rename_i i addr source err ls
    refine ⟨⟨?_, ?_, hm.3, hm.4, hm.5, hm.6, hm.7, hm.8⟩, rfl, rfl, fun x hx => by
      simp [Shared.addError, Shared.parsed, hx], trivial⟩
    · show (st.sh.heap.set addr _)[0]? = _
      rw [List.getElem?_set_ne (by have := ha.2; omega)]; exact hm.heap0
    · intro j s hj hs'
      have hle : HeapLe st.sh.heap (st.sh.parsed addr source ls).heap := HeapLe.set hs rfl rfl
      have hj' : j < st.sh.heap.length := by
        have := (List.getElem?_eq_some_iff.1 hs').1
        simpa [Shared.addError, Shared.parsed] using this
      obtain ⟨s', h1, h2, _⟩ := hle j _ (List.getElem?_eq_getElem hj')
      have : s = s' := by
        have e := hs'.symm.trans h1
        exact Option.some.inj e
      rw [this, h2]
      exact hm.heapS j _ hj (List.getElem?_eq_getElem hj')
  | spawned hpc => rw [hpc] at ha; exact ⟨hm, rfl, rfl, fun x hx => hx, ha⟩
  | transform hpc =>
    rw [hpc] at ha
    exact ⟨⟨hm.1, hm.2, hm.3, hm.4, hm.5, hm.6, hm.7, hm.8⟩, rfl, rfl, fun x hx => List.mem_append_left _ hx, ha⟩
  | cache hpc =>
    rw [hpc] at ha
    exact ⟨⟨hm.1, hm.2, hm.3, hm.4, hm.5, hm.6, hm.7, hm.8⟩, rfl, lookupMap_cons_ne (by have : 1 ≤ _ := ha; omega),
      fun x hx => hx, trivial⟩
  | finish => exact ⟨hm, rfl, rfl, fun x hx => hx, trivial⟩

theorem EntryPrinted.mono {env : CEnv} {source : Source} {ss : Stylesheet} {sh sh' : Shared}
    (hf : sh'.files = sh.files) (he : ∀ x ∈ sh.errors, x ∈ sh'.errors) (h : EntryPrinted env source ss sh) :
    EntryPrinted env source ss sh' := by
  obtain ⟨ss', h1, h2 | ⟨h2, h3, h4⟩⟩ := h
  · exact ⟨ss', h1, .inl (by rw [hf]; exact h2)⟩
  · exact ⟨ss', h1, .inr ⟨h2, by rw [hf]; exact h3, he _ h4⟩⟩

theorem OutOk.mono {env : CEnv} {source : Source} {ss : Stylesheet} {sh sh' : Shared} {m : MainPC}
    (hf : sh'.files = sh.files) (he : ∀ x ∈ sh.errors, x ∈ sh'.errors) (h : OutOk env source ss sh m) :
    OutOk env source ss sh' m := by
  cases m with
  | spawn k => exact ⟨h.1, by rw [hf]; exact h.2⟩
  | wait => show sh'.files = []; rw [hf]; exact h
  | print rest => exact ⟨h.1, h.2.1, by rw [hf]; exact h.2.2.1, fun h0 => (h.2.2.2 h0).mono hf he⟩
  | done => exact EntryPrinted.mono hf he h

theorem ZeroAt.mono {env : CEnv} {ss : Stylesheet} {early : Prop} {asts asts' : List (Nat × Stylesheet)} {pc : PC}
    (h : lookupMap asts' 0 = lookupMap asts 0) (hz : ZeroAt env ss early asts pc) : ZeroAt env ss early asts' pc := by
  cases hz with
  | spawn h1 h2 => exact .spawn h1 (h.trans h2)
  | wait h1 h2 => exact .wait h1 (h.trans h2)
  | cache h1 h2 h3 => exact .cache h1 (h.trans h2) h3
  | deliver h1 h2 h3 => exact .deliver h1 (h.trans h2) h3
  | done h1 h2 => exact .done (h.trans h1) h2

theorem MemOk.parsed {env : CEnv} {a c : Bytes} {lines ls : List Nat} {sh : Shared} {addr : Nat} {source : Source}
    (hm : MemOk env a c lines sh) (ha : 1 ≤ addr) (hs : sh.heap[addr]? = some source) :
    MemOk env a c lines (sh.parsed addr source ls) := by
  refine ⟨?_, ?_, hm.3, hm.4, hm.5, hm.6, hm.7, hm.8⟩
  · show (sh.heap.set addr _)[0]? = _
    rw [List.getElem?_set_ne (by omega)]; exact hm.heap0
  · intro j s hj hs'
    have hle : HeapLe sh.heap (sh.parsed addr source ls).heap := HeapLe.set hs rfl rfl
    have hj' : j < sh.heap.length := by
      have := (List.getElem?_eq_some_iff.1 hs').1
      simpa [Shared.parsed] using this
    obtain ⟨s', h1, h2, _⟩ := hle j _ (List.getElem?_eq_getElem hj')
    have : s = s' := Option.some.inj (hs'.symm.trans h1)
    rw [this, h2]
    exact hm.heapS j _ hj (List.getElem?_eq_getElem hj')

/-- A step of the goroutine of an import. -/
theorem later_other {env : CEnv} {source : Source} {ss : Stylesheet} {st st' : CSt} {t : Nat} {th : Thread}
    (hI : Inv1 env st) (hself : ∀ r, Imported env r → env.abs r ≠ some source.path) (hL : Later env source ss st)
    (ht : 1 ≤ t) (hth : st.threads[t]? = some th) (h : Act env st t th st') : Later env source ss st' := by
  obtain ⟨⟨th0, hth0, hpar0, haddr0, hss0, hrepl0, hz⟩, hothers, hmem, hout, hkeys⟩ := hL
  obtain ⟨hpar, haway⟩ := hothers t th ht hth
  have htl : t < st.threads.length := (List.getElem?_eq_some_iff.1 hth).1
  have set0 : ∀ x, (st.threads.set t x)[0]? = some th0 := by
    intro x; rw [List.getElem?_set_ne (by omega)]; exact hth0
  have setO : ∀ (x : Thread), x.parent ≠ none ∧ x.pc.Away env source.path → ∀ (i : Nat) (th' : Thread), 1 ≤ i →
      (st.threads.set t x)[i]? = some th' → th'.parent ≠ none ∧ th'.pc.Away env source.path := by
    intro x hx i th' hi h'
    by_cases hit : t = i
    · subst hit
      rw [List.getElem?_set_self htl] at h'; cases h'; exact hx
    · rw [List.getElem?_set_ne hit] at h'; exact hothers i th' hi h'
  cases h with
  | loc h =>
    obtain ⟨h1, h2, h3, h4, h5⟩ := h.away hI hself hmem hpar haway
    refine ⟨⟨th0, set0 _, hpar0, haddr0, hss0, hrepl0, hz.mono h3⟩, setO _ ⟨hpar, h5⟩, h1, hout.mono h2 h4, ?_⟩
    show _ → ∀ kv ∈ Shared.files _, _
    rw [h2]; exact hkeys
  | parse hpc hs hp =>
    rw [hpc] at haway
    exact ⟨⟨th0, set0 _, hpar0, haddr0, hss0, hrepl0, hz⟩, setO _ ⟨hpar, haway.1⟩, hmem.parsed haway.2 hs,
      OutOk.mono (sh := st.sh) rfl (fun x hx => hx) hout, hkeys⟩
  | spawn hpc hk =>
    rw [hpc] at haway
    refine ⟨⟨th0, ?_, hpar0, haddr0, hss0, hrepl0, hz⟩, ?_, hmem, hout, hkeys⟩
    · show (_ ++ _)[0]? = _
      rw [List.getElem?_append_left (by simp; omega)]; exact set0 _
    · intro i th' hi h'
      by_cases hil : i < st.threads.length
      · rw [List.getElem?_append_left (by simpa using hil)] at h'
        refine setO _ ?_ i th' hi h'
        exact ⟨hpar, haway⟩
      · rw [List.getElem?_append_right (by simpa using hil)] at h'
        rw [List.mem_singleton.1 (List.mem_of_getElem? h')]
        exact ⟨by simp [Thread.new], trivial⟩
  | deliver hpc hp hpar' hi =>
    rename_i p par imp sx
    have hpl : p < st.threads.length := (List.getElem?_eq_some_iff.1 hpar').1
    have hO : ∀ (i : Nat) (th' : Thread), 1 ≤ i →
        ((st.threads.set p { par with repl := (imp.rule, sx) :: par.repl }).set t { th with pc := .done })[i]? = some th' →
        th'.parent ≠ none ∧ th'.pc.Away env source.path := by
      intro i th' hi' h'
      by_cases hit : t = i
      · subst hit
        rw [List.getElem?_set_self (by simpa using htl)] at h'; cases h'; exact ⟨hpar, trivial⟩
      · rw [List.getElem?_set_ne hit] at h'
        by_cases hip : p = i
        · subst hip
          rw [List.getElem?_set_self hpl] at h'; cases h'
          exact hothers p par hi' hpar'
        · rw [List.getElem?_set_ne hip] at h'; exact hothers i th' hi' h'
    by_cases hp0 : p = 0
    · subst hp0
      rw [hth0] at hpar'; cases hpar'
      refine ⟨⟨{ th0 with repl := (imp.rule, sx) :: th0.repl }, ?_, hpar0, haddr0, hss0, ?_, hz⟩, hO, hmem, hout, hkeys⟩
      · show (List.set _ _ _)[0]? = _
        rw [List.getElem?_set_ne (by omega), List.getElem?_set_self hpl]
      · intro hno
        rw [hss0, hno] at hi; cases hi
    · refine ⟨⟨th0, ?_, hpar0, haddr0, hss0, hrepl0, hz⟩, hO, hmem, hout, hkeys⟩
      show (List.set _ _ _)[0]? = _
      rw [List.getElem?_set_ne (by omega), List.getElem?_set_ne hp0]; exact hth0

/-- A step of the goroutine of the entry. -/
theorem later_zero {env : CEnv} {source : Source} {ss : Stylesheet} {st st' : CSt} {th : Thread}
    (hL : Later env source ss st) (hth : st.threads[0]? = some th) (h : Act env st 0 th st') :
    Later env source ss st' := by
  obtain ⟨⟨th0, hth0, hpar0, haddr0, hss0, hrepl0, hz⟩, hothers, hmem, hout, hkeys⟩ := hL
  rw [hth] at hth0; cases hth0
  have htl : 0 < st.threads.length := (List.getElem?_eq_some_iff.1 hth).1
  have setO : ∀ (x : Thread) (i : Nat) (th' : Thread), 1 ≤ i →
      (st.threads.set 0 x)[i]? = some th' → th'.parent ≠ none ∧ th'.pc.Away env source.path := by
    intro x i th' hi h'
    rw [List.getElem?_set_ne (by omega)] at h'; exact hothers i th' hi h'
  obtain ⟨pc, hpcE⟩ : ∃ pc, pc = th.pc := ⟨_, rfl⟩
  rw [← hpcE] at hz
  cases hz with
  | spawn h1 h2 =>
    cases h with
    | loc h =>
      cases h with
      | spawned hpc hk =>
        rw [← hpcE] at hpc; cases hpc
        exact ⟨⟨_, List.getElem?_set_self htl, hpar0, haddr0, hss0, hrepl0, .wait h1 h2⟩, setO _, hmem, hout, hkeys⟩
      | _ => simp_all
    | spawn hpc hk =>
      rw [← hpcE] at hpc; cases hpc
      rename_i k
      refine ⟨⟨{ th with pc := .spawn 0 (k + 1), imp := k }, ?_, hpar0, haddr0, hss0, hrepl0, .spawn h1 h2⟩, ?_, hmem, hout, hkeys⟩
      · show (_ ++ _)[0]? = _
        rw [List.getElem?_append_left (by simpa using htl), List.getElem?_set_self htl]
      · intro i th' hi h'
        by_cases hil : i < (st.threads.set 0 { th with pc := .spawn 0 (k + 1), imp := k }).length
        · rw [List.getElem?_append_left hil] at h'
          exact setO _ i th' hi h'
        · rw [List.getElem?_append_right (by omega)] at h'
          rw [List.mem_singleton.1 (List.mem_of_getElem? h')]
          exact ⟨by simp [Thread.new], trivial⟩
    | parse hpc => rw [← hpcE] at hpc; cases hpc
    | deliver hpc => rw [← hpcE] at hpc; cases hpc
  | wait h1 h2 =>
    cases h with
    | loc h =>
      cases h with
      | transform hpc hj hs htr =>
        rw [← hpcE] at hpc; cases hpc
        rw [hss0] at htr
        refine ⟨⟨_, List.getElem?_set_self htl, hpar0, haddr0, hss0, hrepl0, .cache h1 h2 ⟨th.repl, _, hrepl0, htr⟩⟩, setO _,
          ⟨hmem.1, hmem.2, hmem.3, hmem.4, hmem.5, hmem.6, hmem.7, hmem.8⟩,
          OutOk.mono (sh := st.sh) rfl (fun x hx => List.mem_append_left _ hx) hout, hkeys⟩
      | _ => simp_all
    | parse hpc => rw [← hpcE] at hpc; cases hpc
    | spawn hpc => rw [← hpcE] at hpc; cases hpc
    | deliver hpc => rw [← hpcE] at hpc; cases hpc
  | cache h1 h2 h3 =>
    cases h with
    | loc h =>
      cases h with
      | cache hpc =>
        rw [← hpcE] at hpc; cases hpc
        exact ⟨⟨_, List.getElem?_set_self htl, hpar0, haddr0, hss0, hrepl0, .deliver h1 lookupMap_cons_eq h3⟩, setO _,
          ⟨hmem.1, hmem.2, hmem.3, hmem.4, hmem.5, hmem.6, hmem.7, hmem.8⟩,
          OutOk.mono (sh := st.sh) rfl (fun x hx => hx) hout, hkeys⟩
      | _ => simp_all
    | parse hpc => rw [← hpcE] at hpc; cases hpc
    | spawn hpc => rw [← hpcE] at hpc; cases hpc
    | deliver hpc => rw [← hpcE] at hpc; cases hpc
  | deliver h1 h2 h3 =>
    cases h with
    | loc h =>
      cases h with
      | finish hpc =>
        exact ⟨⟨_, List.getElem?_set_self htl, hpar0, haddr0, hss0, hrepl0, .done h2 h3⟩, setO _, hmem, hout, hkeys⟩
      | _ => simp_all
    | parse hpc => rw [← hpcE] at hpc; cases hpc
    | spawn hpc => rw [← hpcE] at hpc; cases hpc
    | deliver hpc hp => rw [hpar0] at hp; cases hp
  | done h1 h2 =>
    cases h with
    | loc h => cases h <;> simp_all
    | parse hpc => rw [← hpcE] at hpc; cases hpc
    | spawn hpc => rw [← hpcE] at hpc; cases hpc
    | deliver hpc => rw [← hpcE] at hpc; cases hpc

theorem nodup_eraseDups {α : Type} [DecidableEq α] : ∀ (n : Nat) (l : List α), l.length ≤ n → l.eraseDups.Nodup := by
  intro n
  induction n with
  | zero => intro l hl; cases l with | nil => simp | cons => simp at hl
  | succ n ih =>
    intro l hl
    cases l with
    | nil => simp
    | cons a t =>
      rw [List.eraseDups_cons]
      refine List.nodup_cons.2 ⟨?_, ih _ ?_⟩
      · rw [List.mem_eraseDups]; simp
      · have := List.length_filter_le (fun b => !b == a) t
        simp at hl; omega

theorem later_main {env : CEnv} {e : Bytes} (he : env.entries = [e]) {source : Source} {ss : Stylesheet} {st st' : CSt}
    (hL : Later env source ss st) (h : MainAct env st st') : Later env source ss st' := by
  obtain ⟨⟨th0, hth0, hpar0, haddr0, hss0, hrepl0, hz⟩, hothers, hmem, hout, hkeys⟩ := hL
  -- once `Compile` prints, the entry is done
  have late : ¬ st.main.early → ∃ ss', lookupMap st.sh.asts 0 = some ss' ∧ TransformsTo env ss ss' ∧
      ∀ early, ZeroAt env ss early st.sh.asts th0.pc := by
    intro hne
    generalize th0.pc = pc at hz
    cases hz with
    | spawn h1 => exact absurd h1 hne
    | wait h1 => exact absurd h1 hne
    | cache h1 => exact absurd h1 hne
    | deliver h1 => exact absurd h1 hne
    | done h1 h2 => exact ⟨_, h1, h2, fun _ => .done h1 h2⟩
  have notEarly : ∀ {rest}, st.main = .print rest → ¬ st.main.early := by
    intro rest hm h; rw [hm] at h; rcases h with h | h <;> cases h
  cases h with
  | spawn hm hk =>
    rw [hm] at hout
    have h1 : _ = 1 := hout.1
    rw [he] at hk; simp at hk; omega
  | spawned hm hk =>
    rw [hm] at hout
    refine ⟨⟨th0, hth0, hpar0, haddr0, hss0, hrepl0, ?_⟩, hothers, hmem, hout.2, hkeys⟩
    have h1 : _ = 1 := hout.1
    subst h1
    generalize th0.pc = pc at hz
    cases hz with
    | spawn h1 h2 => exact .spawn (.inr rfl) h2
    | wait h1 h2 => exact .wait (.inr rfl) h2
    | cache h1 h2 h3 => exact .cache (.inr rfl) h2 h3
    | deliver h1 h2 h3 => exact .deliver (.inr rfl) h2 h3
    | done h1 h2 => exact .done h1 h2
  | wait hm hj =>
    rw [hm] at hout
    have hf : st.sh.files = [] := hout
    have hdone : th0.pc = .done := by
      unfold CSt.joined at hj
      rw [List.all_eq_true] at hj
      have := hj th0 (List.mem_of_getElem? hth0)
      rw [if_pos hpar0] at this
      split at this
      · assumption
      · cases this
    rw [hdone] at hz
    refine ⟨⟨th0, hth0, hpar0, haddr0, hss0, hrepl0, ?_⟩, hothers, hmem, ⟨nodup_eraseDups _ _ (Nat.le_refl _), ?_, ?_, ?_⟩, hkeys⟩
    · rw [hdone]
      cases hz with
      | done h1 h2 => exact .done h1 h2
    · intro hnf i hi
      exact hmem.outsS hnf i (List.mem_eraseDups.1 hi)
    · intro _ kv hkv
      rw [show st.sh.files = [] from hf] at hkv; cases hkv
    · intro h0; exact absurd (List.mem_eraseDups.2 hmem.outs0) h0
  | finish hm =>
    obtain ⟨_, _, _, hz'⟩ := late (notEarly hm)
    rw [hm] at hout
    exact ⟨⟨th0, hth0, hpar0, haddr0, hss0, hrepl0, hz' _⟩, hothers, hmem, hout.2.2.2 (by simp), hkeys⟩
  | print hm hi ha hs hss hp =>
    rename_i rest i addr source' sx out
    obtain ⟨ss', h1, h2, hz'⟩ := late (notEarly hm)
    rw [hm] at hout
    obtain ⟨hnd, hnf, hin, hnot⟩ := hout
    have hmem' : MemOk env source.path source.content source.lines
        { st.sh with files := (source'.path, out) :: st.sh.files } :=
      ⟨hmem.1, hmem.2, hmem.3, hmem.4, hmem.5, hmem.6, hmem.7, hmem.8⟩
    by_cases hi0 : i = 0
    · subst hi0
      rw [hmem.idx0] at ha; cases ha
      rw [hmem.heap0] at hs; cases hs
      rw [h1] at hss; cases hss
      refine ⟨⟨th0, hth0, hpar0, haddr0, hss0, hrepl0, hz' _⟩, hothers, hmem', ⟨hnd.erase 0, ?_, ?_, ?_⟩, ?_⟩
      · exact fun hf j hj => hnf hf j (List.mem_of_mem_erase hj)
      · intro h0; exact absurd h0 (List.Nodup.not_mem_erase hnd)
      · exact fun _ => ⟨_, h2, .inl ⟨out, hp, lookupMap_cons_eq⟩⟩
      · intro hf kv hkv
        rcases List.mem_cons.1 hkv with rfl | hkv
        · rfl
        · exact hkeys hf kv hkv
    · have haddr : 1 ≤ addr := hmem.idxS _ (lookupMap_mem ha) (by show 1 ≤ i; omega)
      have hpath : source'.path ≠ source.path := hmem.heapS addr source' haddr hs
      refine ⟨⟨th0, hth0, hpar0, haddr0, hss0, hrepl0, hz' _⟩, hothers, hmem', ⟨hnd.erase i, ?_, ?_, ?_⟩, ?_⟩
      · exact fun hf j hj => hnf hf j (List.mem_of_mem_erase hj)
      · intro h0 kv hkv
        rcases List.mem_cons.1 hkv with rfl | hkv
        · exact hpath
        · exact hin (List.mem_of_mem_erase h0) kv hkv
      · intro h0
        have h0' : 0 ∉ rest := fun hh => h0 ((List.mem_erase_of_ne (fun h => hi0 h.symm)).2 hh)
        obtain ⟨sy, h3, h4 | ⟨h4, h5, h6⟩⟩ := hnot h0'
        · obtain ⟨o, h4, h5⟩ := h4
          refine ⟨sy, h3, .inl ⟨o, h4, ?_⟩⟩
          show lookupMap (_ :: _) _ = _
          rw [lookupMap_cons_ne hpath]; exact h5
        · refine ⟨sy, h3, .inr ⟨h4, ?_, h6⟩⟩
          intro kv hkv
          rcases List.mem_cons.1 hkv with rfl | hkv
          · exact hpath
          · exact h5 kv hkv
      · intro hf kv hkv
        exact absurd (hnf hf i hi) hi0
  | printFail hm hi ha hs hss hp =>
    rename_i rest i addr source' sx
    obtain ⟨ss', h1, h2, hz'⟩ := late (notEarly hm)
    rw [hm] at hout
    obtain ⟨hnd, hnf, hin, hnot⟩ := hout
    have herr : ∀ x ∈ st.sh.errors, x ∈ (st.sh.addError (.print source'.path)).errors := by
      intro x hx; simp [Shared.addError, hx]
    refine ⟨⟨th0, hth0, hpar0, haddr0, hss0, hrepl0, hz' _⟩, hothers,
      ⟨hmem.1, hmem.2, hmem.3, hmem.4, hmem.5, hmem.6, hmem.7, hmem.8⟩, ⟨hnd.erase i, ?_, ?_, ?_⟩, hkeys⟩
    · exact fun hf j hj => hnf hf j (List.mem_of_mem_erase hj)
    · exact fun h0 => hin (List.mem_of_mem_erase h0)
    · intro h0
      by_cases hi0 : i = 0
      · subst hi0
        rw [hmem.idx0] at ha; cases ha
        rw [hmem.heap0] at hs; cases hs
        rw [h1] at hss; cases hss
        exact ⟨_, h2, .inr ⟨hp, hin hi, by simp [Shared.addError]⟩⟩
      · have h0' : 0 ∉ rest := fun hh => h0 ((List.mem_erase_of_ne (fun h => hi0 h.symm)).2 hh)
        exact EntryPrinted.mono (sh := st.sh) rfl herr (hnot h0')
  | skip hm hi hn =>
    rename_i rest i
    obtain ⟨ss', h1, h2, hz'⟩ := late (notEarly hm)
    rw [hm] at hout
    obtain ⟨hnd, hnf, hin, hnot⟩ := hout
    have hi0 : i ≠ 0 := by
      rintro rfl
      rw [hmem.idx0, h1] at hn
      rcases hn with hn | hn
      · simp [hmem.heap0] at hn
      · cases hn
    refine ⟨⟨th0, hth0, hpar0, haddr0, hss0, hrepl0, hz' _⟩, hothers, hmem, ⟨hnd.erase i, ?_, ?_, ?_⟩, hkeys⟩
    · exact fun hf j hj => hnf hf j (List.mem_of_mem_erase hj)
    · exact fun h0 => hin (List.mem_of_mem_erase h0)
    · exact fun h0 => hnot fun hh => h0 ((List.mem_erase_of_ne (fun h => hi0 h.symm)).2 hh)

/-- With one entry that no file imports, the phases are all there is. -/
theorem Reached.one {env : CEnv} {e : Bytes} (he : env.entries = [e])
    (hself : ∀ r a, env.abs e = some a → Imported env r → env.abs r ≠ some a) {st : CSt} (h : Reached env st) :
    One env e st := by
  induction h with
  | init => exact .inl (.init rfl)
  | step hr hs ih =>
    rcases ih with ih | ih | ⟨a, c, ss, lines, h1, h2, h3, ih⟩
    · exact pre_step he ih hs
    · exact .inr (.inl (failed_step he ih hs))
    · refine .inr (.inr ⟨a, c, ss, lines, h1, h2, h3, ?_⟩)
      rcases cstep_act hs with h | ⟨t, th, hth, h⟩
      · exact later_main he ih h
      · rcases Nat.eq_zero_or_pos t with rfl | ht
        · exact later_zero ih hth h
        · exact later_other hr.inv1 (fun r hr => hself r a h1 hr) ih ht hth h

end Cssc
