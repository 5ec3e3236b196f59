import Verif.Proofs.HeapTransform
import Verif.Proofs.Ids

/-!
# Trees in memory and trees as values

The machine of `CompileHeap.lean` makes the same steps as the machine of `Compile.lean`, if a tree that has been
delivered is no longer changed.
-/

namespace Cssc

/-! ### Transform -/

theorem init_still {o : TOpts} {repl : Replacements} (hv : o.customProperties = false) : (TSt.init o repl).Still o := by
  refine ⟨by simp [TSt.init, hv], ?_, ?_⟩
  · unfold TSt.init
    dsimp only
    split
    · exact fun _ => ‹_›
    · exact fun h => absurd rfl h
  · intro md hmd
    unfold TSt.init at hmd
    dsimp only at hmd
    split at hmd
    · cases hmd; intro d hd; cases hd
    · cases hmd

/-- In place and on values. -/
inductive AgreeT (fo : FloatOps) (o : TOpts) (inl : Prop) (h : HSheet) (D : Nat → Prop) (mem : List Node) :
    TRes Stylesheet → TRes (HSheet × List Node) → Prop where
  | ok {h' : HSheet} {mem' : List Node} {s : TSt} : h'.imports = h.imports → InPlace h.nodes D mem (h'.nodes.map (cell mem')) h'.nodes mem' →
      (inl → ∀ p ∈ h'.nodes, Settled fo o (cell mem' p)) → AgreeT fo o inl h D mem (.ok (h'.value mem') s) (.ok (h', mem') s)
  | crash : AgreeT fo o inl h D mem .crash .crash
  | timeout : AgreeT fo o inl h D mem .timeout .timeout

theorem transform_agree {fo : FloatOps} {o : TOpts} {repl : Option (List (AtId × HSheet))} {mem : List Node} {D : Nat → Prop} {k : Nat}
    (hv : repl ≠ none → o.customProperties = false) (hr : ∀ m, repl = some m → Borrowed fo o D mem m) {h : HSheet} (hnd : h.nodes.Nodup)
    (hps : ∀ p ∈ h.nodes, p < mem.length ∧ ¬ D p) :
    AgreeT fo o (repl ≠ none) h D mem (transform fo o (repl.map (hvals mem)) k (h.value mem)) (hTransform fo o repl k h mem) := by
  unfold transform hTransform transformNodes
  have hi : TSt.init o (repl.map fun _ => []) = TSt.init o (repl.map (hvals mem)) := by
    cases repl <;> rfl
  rw [hi]
  have := own_list (k := k) hr hnd hps rfl (fun _ _ => rfl) (TSt.init o (repl.map (hvals mem))) fun hn => init_still (hv hn)
  show AgreeT fo o (repl ≠ none) h D mem (match mapConcat (transformNode fo o (repl.map (hvals mem)) k) (h.nodes.map (cell mem)) _ with | .ok nodes s => _ | .crash => _ | .timeout => _) _
  revert this
  generalize mapConcat (transformNode fo o (repl.map (hvals mem)) k) (h.nodes.map (cell mem)) (TSt.init o (repl.map (hvals mem))) = a
  generalize hList (hNode fo o repl k) h.nodes mem (TSt.init o (repl.map (hvals mem))) = b
  intro this
  cases this with
  | crash => exact .crash
  | timeout => exact .timeout
  | @ok out qs mem' s hq =>
    obtain ⟨h1, h2⟩ := hq
    have h3 := h1.out
    subst h3
    exact .ok (h' := ⟨qs, h.imports⟩) rfl h1 fun hn p hp => h2 hn _ (List.mem_map_of_mem hp)

/-! ### Identities -/

theorem parse_src {n : Nat} {src : Bytes} {i : Nat} {ss : Stylesheet} {lines : List Nat} (h : parse n src i = .ok ss lines) :
    (∀ a, Node.at a ∈ ss.nodes → a.src = i) ∧ ∀ imp ∈ ss.imports, imp.rule.src = i := by
  rw [parse_id] at h
  cases hp : parse n src 0 with
  | ok ss0 lines0 =>
    rw [hp] at h
    cases h
    constructor
    · intro a ha
      unfold Stylesheet.setId at ha
      obtain ⟨nd, _, hnd⟩ := List.mem_map.1 ha
      cases nd with
      | rule r => cases hnd
      | «at» b => unfold Node.setId at hnd; cases hnd; rfl
    · intro imp hi
      unfold Stylesheet.setId at hi
      obtain ⟨x, _, rfl⟩ := List.mem_map.1 hi
      rfl
  | error => rw [hp] at h; cases h
  | panic => rw [hp] at h; cases h
  | timeout => rw [hp] at h; cases h

/-! ### The invariant -/

/-- The goroutine has parsed its file and not yet transformed it. -/
def HPC.isOpen : HPC → Bool
  | .run (.spawn ..) => true
  | .run (.wait _) => true
  | _ => false

/-- The goroutine has not yet parsed its file. -/
def HPC.early : HPC → Bool
  | .run .done => false
  | .run (.spawn ..) => false
  | .run (.wait _) => false
  | .run _ => true
  | _ => false

/-- No stylesheet outside its own constructors. -/
def HPC.plain : HPC → Bool
  | .run (.cache ..) => false
  | .run (.deliver ..) => false
  | _ => true

/-- As a value. -/
def HPC.value (mem : List Node) : HPC → PC
  | .run pc => pc
  | .cache i h => .cache i (h.value mem)
  | .deliver r => .deliver (r.map (HSheet.value mem))

/-- The stylesheet held. -/
def HPC.sheet : HPC → Option HSheet
  | .run _ => none
  | .cache _ h => some h
  | .deliver r => r

/-- The cell is no longer changed: it belongs to no stylesheet that will be transformed, and is no import of one. -/
structure Sealed (env : CEnv) (mem : List Node) (N : Nat) (ths : List HThread) (p : Nat) : Prop where
  lt : p < mem.length
  settled : env.opts.importRules = .inline → Settled env.fo env.opts (cell mem p)
  src : ∀ a, cell mem p = .at a → a.src < N
  free : ∀ h ∈ ths, h.pc.isOpen = true → p ∉ h.ss.nodes
  other : ∀ h ∈ ths, h.pc.isOpen = true → ∀ a, cell mem p = .at a → ∀ imp ∈ h.ss.imports, imp.rule ≠ a.id

/-- No other goroutine is open than before. -/
def OpenSub (ths' ths : List HThread) : Prop := ∀ h' ∈ ths', h'.pc.isOpen = true → ∃ h ∈ ths, h.pc.isOpen = true ∧ h.ss = h'.ss

theorem Sealed.sub {env : CEnv} {mem : List Node} {N N' : Nat} {ths ths' : List HThread} {p : Nat} (h : Sealed env mem N ths p)
    (hN : N ≤ N') (hs : OpenSub ths' ths) : Sealed env mem N' ths' p := by
  refine ⟨h.lt, h.settled, fun a ha => Nat.lt_of_lt_of_le (h.src a ha) hN, fun h' hh' ho => ?_, fun h' hh' ho => ?_⟩
  · obtain ⟨x, hx, hxo, hxs⟩ := hs h' hh' ho
    rw [← hxs]
    exact h.free x hx hxo
  · obtain ⟨x, hx, hxo, hxs⟩ := hs h' hh' ho
    rw [← hxs]
    exact h.other x hx hxo

/-- All the nodes are sealed. -/
def HSheet.Sealed (env : CEnv) (mem : List Node) (N : Nat) (ths : List HThread) (h : HSheet) : Prop :=
  ∀ p ∈ h.nodes, Cssc.Sealed env mem N ths p

/-- What is known of a goroutine. -/
structure HThread.Fine (env : CEnv) (mem : List Node) (N : Nat) (ths : List HThread) (h : HThread) : Prop where
  plain : h.pc.plain = true
  sheet : ∀ x, h.pc.sheet = some x → x.Sealed env mem N ths
  repl : ∀ d ∈ h.repl, d.2.Sealed env mem N ths ∧ ∃ imp ∈ h.ss.imports, imp.rule = d.1
  early : h.pc.early = true → h.repl = []
  parent : ∀ p : Nat, h.parent = some p → ∃ par, ths[p]? = some par ∧ par.pc.early = false
  nodup : h.pc.isOpen = true → h.ss.nodes.Nodup
  lt : h.pc.isOpen = true → ∀ p ∈ h.ss.nodes, p < mem.length
  src : h.pc.isOpen = true → ∀ p ∈ h.ss.nodes, ∀ a, cell mem p = .at a → a.src < N
  imps : h.pc.isOpen = true → ∀ imp ∈ h.ss.imports, imp.rule.src < N

/-- Two goroutines that are about to transform have nothing in common. -/
def NoShare (mem : List Node) (h1 h2 : HThread) : Prop :=
  ∀ p ∈ h1.ss.nodes, p ∉ h2.ss.nodes ∧ ∀ a, cell mem p = .at a → ∀ imp ∈ h2.ss.imports, imp.rule ≠ a.id

structure HInv (env : CEnv) (hs : HSt) : Prop where
  asts : ∀ d ∈ hs.asts, d.2.Sealed env hs.mem hs.sh.parses.length hs.threads
  threads : ∀ h ∈ hs.threads, h.Fine env hs.mem hs.sh.parses.length hs.threads
  apart : ∀ (t1 t2 : Nat) (h1 h2 : HThread), t1 ≠ t2 → hs.threads[t1]? = some h1 → hs.threads[t2]? = some h2 → h1.pc.isOpen = true →
    h2.pc.isOpen = true → NoShare hs.mem h1 h2

/-- A goroutine in memory and as a value. -/
structure ThreadR (mem : List Node) (h : HThread) (th : Thread) : Prop where
  parent : th.parent = h.parent
  pc : th.pc = h.pc.value mem
  imp : th.imp = h.imp
  addr : th.addr = h.addr
  imports : th.ss.imports = h.ss.imports
  nodes : h.pc.isOpen = true → th.ss.nodes = h.ss.nodes.map (cell mem)
  repl : th.repl = hvals mem h.repl

structure HSim (hs : HSt) (st : CSt) : Prop where
  sh : st.sh = { hs.sh with asts := hvals hs.mem hs.asts }
  main : st.main = hs.main
  e : st.e = hs.e
  threads : List.Forall₂ (ThreadR hs.mem) hs.threads st.threads

/-- Both machines step, and are then in related states; or both are killed; or none can step. -/
inductive SAgree (env : CEnv) : Option SRes → Option HRes → Prop where
  | none : SAgree env none none
  | crash : SAgree env (some .crash) (some .crash)
  | ok {st : CSt} {hs : HSt} : HInv env hs → HSim hs st → SAgree env (some (.ok st)) (some (.ok hs))

/-! ### Lists -/

theorem forall2_get {R : α → β → Prop} {as : List α} {bs : List β} (h : List.Forall₂ R as bs) (i : Nat) :
    (as[i]? = none ∧ bs[i]? = none) ∨ ∃ a b, as[i]? = some a ∧ bs[i]? = some b ∧ R a b := by
  induction h generalizing i with
  | nil => exact .inl ⟨rfl, rfl⟩
  | @cons a b as bs hab _ ih =>
    cases i with
    | zero => exact .inr ⟨a, b, rfl, rfl, hab⟩
    | succ i => exact ih i

theorem forall2_set {R : α → β → Prop} {as : List α} {bs : List β} (h : List.Forall₂ R as bs) (i : Nat) {a : α} {b : β} (hab : R a b) :
    List.Forall₂ R (as.set i a) (bs.set i b) := by
  induction h generalizing i with
  | nil => exact .nil
  | cons hxy h ih =>
    cases i with
    | zero => exact .cons hab h
    | succ i => exact .cons hxy (ih i)

theorem forall2_snoc {R : α → β → Prop} {as : List α} {bs : List β} (h : List.Forall₂ R as bs) {a : α} {b : β} (hab : R a b) :
    List.Forall₂ R (as ++ [a]) (bs ++ [b]) := by
  induction h with
  | nil => exact .cons hab .nil
  | cons hxy _ ih => exact .cons hxy ih

theorem forall2_mono {R S : α → β → Prop} {as : List α} {bs : List β} (h : List.Forall₂ R as bs) (hrs : ∀ a ∈ as, ∀ b, R a b → S a b) :
    List.Forall₂ S as bs := by
  induction h with
  | nil => exact .nil
  | @cons a b as bs hab _ ih =>
    exact .cons (hrs a (List.mem_cons_self ..) b hab) (ih fun x hx => hrs x (List.mem_cons_of_mem _ hx))

theorem forall2_length {R : α → β → Prop} {as : List α} {bs : List β} (h : List.Forall₂ R as bs) : as.length = bs.length := by
  induction h with
  | nil => rfl
  | cons _ _ ih => rw [List.length_cons, List.length_cons, ih]

theorem forall2_of_get {R : α → β → Prop} : ∀ {as : List α} {bs : List β}, as.length = bs.length →
    (∀ (i : Nat) a b, as[i]? = some a → bs[i]? = some b → R a b) → List.Forall₂ R as bs
  | [], [], _, _ => .nil
  | [], _ :: _, h, _ => by cases h
  | _ :: _, [], h, _ => by cases h
  | a :: as, b :: bs, h, hR => .cons (hR 0 a b rfl rfl) (forall2_of_get (by simpa using h) fun i x y hx hy => hR (i + 1) x y hx hy)

theorem hset_cases {as : List α} {i j : Nat} {a b : α} (h : (as.set i a)[j]? = some b) :
    (j = i ∧ b = a ∧ i < as.length) ∨ (j ≠ i ∧ as[j]? = some b) := by
  by_cases hij : j = i
  · subst hij
    by_cases hl : j < as.length
    · rw [List.getElem?_set_self hl] at h
      cases h
      exact .inl ⟨rfl, rfl, hl⟩
    · rw [List.getElem?_eq_none (by simp; omega)] at h
      cases h
  · rw [List.getElem?_set_ne (Ne.symm hij)] at h
    exact .inr ⟨hij, h⟩

/-! ### Steps that change one goroutine and no tree -/

/-- The goroutine goes on with the same stylesheet. -/
structure Goes (env : CEnv) (hs : HSt) (h h' : HThread) : Prop where
  parent : h'.parent = h.parent
  ss : h'.ss = h.ss
  repl : ∀ d ∈ h'.repl, d.2.Sealed env hs.mem hs.sh.parses.length hs.threads ∧ ∃ imp ∈ h.ss.imports, imp.rule = d.1
  empty : h'.pc.early = true → h'.repl = []
  plain : h'.pc.plain = true
  opens : h'.pc.isOpen = true → h.pc.isOpen = true
  early : h'.pc.early = true → h.pc.early = true
  sheet : ∀ x, h'.pc.sheet = some x → x.Sealed env hs.mem hs.sh.parses.length hs.threads

theorem openSub_set {ths : List HThread} {t : Nat} {h h' : HThread} (ht : ths[t]? = some h) (hss : h'.ss = h.ss)
    (ho : h'.pc.isOpen = true → h.pc.isOpen = true) : OpenSub (ths.set t h') ths := by
  intro x hx hxo
  rcases List.mem_or_eq_of_mem_set hx with hx | rfl
  · exact ⟨x, hx, hxo, rfl⟩
  · exact ⟨h, List.mem_of_getElem? ht, ho hxo, hss.symm⟩

theorem HSheet.Sealed.sub {env : CEnv} {mem : List Node} {N N' : Nat} {ths ths' : List HThread} {x : HSheet} (h : x.Sealed env mem N ths)
    (hN : N ≤ N') (hs : OpenSub ths' ths) : x.Sealed env mem N' ths' := fun p hp => (h p hp).sub hN hs

/-- What is known of a goroutine stays known, when no other goroutine is open than before. -/
theorem HThread.Fine.sub {env : CEnv} {mem : List Node} {N N' : Nat} {ths ths' : List HThread} {h : HThread}
    (hf : h.Fine env mem N ths) (hN : N ≤ N') (hs : OpenSub ths' ths)
    (hp : ∀ (p : Nat) (par : HThread), ths[p]? = some par → par.pc.early = false → ∃ par', ths'[p]? = some par' ∧ par'.pc.early = false) :
    h.Fine env mem N' ths' := by
  refine ⟨hf.plain, fun x hx => (hf.sheet x hx).sub hN hs, fun d hd => ?_, hf.early, fun p h1 => ?_, hf.nodup, hf.lt, fun ho p hp a ha =>
    Nat.lt_of_lt_of_le (hf.src ho p hp a ha) hN, fun ho imp hi => Nat.lt_of_lt_of_le (hf.imps ho imp hi) hN⟩
  · obtain ⟨h1, h2⟩ := hf.repl d hd
    exact ⟨h1.sub hN hs, h2⟩
  · obtain ⟨par, h2, h3⟩ := hf.parent p h1
    exact hp p par h2 h3

theorem HInv.go {env : CEnv} {hs : HSt} (hI : HInv env hs) {t : Nat} {h h' : HThread} (ht : hs.threads[t]? = some h)
    (hg : Goes env hs h h') {hs' : HSt} (hm : hs'.mem = hs.mem) (ha : ∀ d ∈ hs'.asts, d ∈ hs.asts ∨ d.2.Sealed env hs.mem hs.sh.parses.length hs.threads)
    (hN : hs.sh.parses.length ≤ hs'.sh.parses.length) (hth : hs'.threads = hs.threads.set t h') : HInv env hs' := by
  have hsub : OpenSub hs'.threads hs.threads := by rw [hth]; exact openSub_set ht hg.ss hg.opens
  have hpar : ∀ (p : Nat) (par : HThread), hs.threads[p]? = some par → par.pc.early = false → ∃ par', hs'.threads[p]? = some par' ∧ par'.pc.early = false := by
    intro p par h1 h2
    rw [hth]
    by_cases hpt : p = t
    · subst hpt
      rw [ht] at h1
      cases h1
      refine ⟨h', List.getElem?_set_self (List.getElem?_eq_some_iff.1 ht).1, ?_⟩
      cases he : h'.pc.early with
      | false => rfl
      | true => rw [hg.early he] at h2; cases h2
    · exact ⟨par, by rw [List.getElem?_set_ne (Ne.symm hpt)]; exact h1, h2⟩
  have hf := hI.threads h (List.mem_of_getElem? ht)
  refine ⟨fun d hd => ?_, fun x hx => ?_, ?_⟩
  · rw [hm]
    rcases ha d hd with h1 | h1
    · exact (hI.asts d h1).sub hN hsub
    · exact h1.sub hN hsub
  · rw [hm]
    rw [hth] at hx
    rcases List.mem_or_eq_of_mem_set hx with hx | rfl
    · exact (hI.threads x hx).sub hN hsub hpar
    · refine HThread.Fine.sub ?_ hN hsub hpar
      refine ⟨hg.plain, hg.sheet, ?_, hg.empty, ?_, fun ho => ?_, fun ho => ?_, fun ho => ?_, fun ho => ?_⟩
      · rw [hg.ss]; exact hg.repl
      · rw [hg.parent]; exact hf.parent
      · rw [hg.ss]; exact hf.nodup (hg.opens ho)
      · rw [hg.ss]; exact hf.lt (hg.opens ho)
      · rw [hg.ss]; exact hf.src (hg.opens ho)
      · rw [hg.ss]; exact hf.imps (hg.opens ho)
  · intro t1 t2 h1 h2 hne e1 e2 o1 o2
    rw [hm]
    rw [hth] at e1 e2
    rcases hset_cases e1 with ⟨rfl, rfl, _⟩ | ⟨n1, e1'⟩
    · rcases hset_cases e2 with ⟨rfl, rfl, _⟩ | ⟨n2, e2⟩
      · exact absurd rfl hne
      · have := hI.apart _ _ _ _ hne ht e2 (hg.opens o1) o2
        unfold NoShare at this ⊢
        rw [hg.ss]
        exact this
    · rcases hset_cases e2 with ⟨rfl, rfl, _⟩ | ⟨n2, e2⟩
      · have := hI.apart _ _ _ _ hne e1' ht o1 (hg.opens o2)
        unfold NoShare at this ⊢
        rw [hg.ss]
        exact this
      · exact hI.apart _ _ _ _ hne e1' e2 o1 o2

theorem HSim.set {hs : HSt} {st : CSt} (hS : HSim hs st) {t : Nat} {h' : HThread} {th' : Thread} (hR : ThreadR hs.mem h' th')
    {sh : Shared} {sh' : Shared} {asts : List (Nat × HSheet)} (hsh : sh' = { sh with asts := hvals hs.mem asts }) :
    HSim { hs with sh := sh, asts := asts, threads := hs.threads.set t h' } { st with sh := sh', threads := st.threads.set t th' } :=
  ⟨hsh, hS.main, hS.e, forall2_set hS.threads t hR⟩

/-- `goto` in both machines. -/
theorem agree_goto {env : CEnv} {hs : HSt} {st : CSt} (hI : HInv env hs) (hS : HSim hs st) {t : Nat} {h : HThread} {th : Thread}
    (ht : hs.threads[t]? = some h) (hR : ThreadR hs.mem h th) {sh sh' : Shared} {pc : HPC} {pc' : PC}
    (hsh : sh' = { sh with asts := hvals hs.mem hs.asts }) (hpc : pc' = pc.value hs.mem)
    (hN : hs.sh.parses.length ≤ sh.parses.length) (hplain : pc.plain = true) (ho : pc.isOpen = true → h.pc.isOpen = true)
    (he : pc.early = true → h.pc.early = true)
    (hx : ∀ x, pc.sheet = some x → x.Sealed env hs.mem hs.sh.parses.length hs.threads) :
    SAgree env (st.goto t th sh' pc') (hs.goto t h sh pc) := by
  unfold CSt.goto HSt.goto
  have hf := hI.threads h (List.mem_of_getElem? ht)
  refine .ok (hI.go ht (h' := { h with pc := pc }) ⟨rfl, rfl, hf.repl, fun h1 => hf.early (he h1), hplain, ho, he, hx⟩ rfl
    (fun d hd => .inl hd) hN rfl) ?_
  exact HSim.set hS (h' := { h with pc := pc }) (th' := { th with pc := pc' }) ⟨hR.parent, hpc, hR.imp, hR.addr, hR.imports, fun h1 => hR.nodes (ho h1), hR.repl⟩ hsh

/-! ### Steps that change the memory -/

theorem Sealed.move {env : CEnv} {mem mem' : List Node} {N N' : Nat} {ths ths' : List HThread} {p : Nat} (h : Sealed env mem N ths p)
    (hc : cell mem' p = cell mem p) (hl : mem.length ≤ mem'.length) (hN : N ≤ N')
    (ho : ∀ h' ∈ ths', h'.pc.isOpen = true → (∃ x ∈ ths, x.pc.isOpen = true ∧ x.ss = h'.ss) ∨
      (p ∉ h'.ss.nodes ∧ ∀ a, cell mem p = .at a → ∀ imp ∈ h'.ss.imports, imp.rule ≠ a.id)) : Sealed env mem' N' ths' p := by
  refine ⟨Nat.lt_of_lt_of_le h.lt hl, by rw [hc]; exact h.settled, fun a ha => ?_, fun h' hh' hop => ?_, fun h' hh' hop => ?_⟩
  · rw [hc] at ha
    exact Nat.lt_of_lt_of_le (h.src a ha) hN
  · rcases ho h' hh' hop with ⟨x, hx, hxo, hxs⟩ | h1
    · rw [← hxs]
      exact h.free x hx hxo
    · exact h1.1
  · rw [hc]
    rcases ho h' hh' hop with ⟨x, hx, hxo, hxs⟩ | h1
    · rw [← hxs]
      exact h.other x hx hxo
    · exact h1.2

theorem value_congr {mem mem' : List Node} {x : HSheet} (h : ∀ p ∈ x.nodes, cell mem' p = cell mem p) : x.value mem' = x.value mem := by
  unfold HSheet.value
  rw [map_cell_congr h]

theorem hvals_congr {mem mem' : List Node} {l : List (κ × HSheet)} (h : ∀ d ∈ l, ∀ p ∈ d.2.nodes, cell mem' p = cell mem p) :
    hvals mem' l = hvals mem l := by
  unfold hvals
  apply List.map_congr_left
  intro d hd
  rw [value_congr (h d hd)]

theorem pc_congr {mem mem' : List Node} {pc : HPC} (h : ∀ x, pc.sheet = some x → ∀ p ∈ x.nodes, cell mem' p = cell mem p) :
    pc.value mem' = pc.value mem := by
  cases pc with
  | run pc => rfl
  | cache i x =>
    show PC.cache i _ = PC.cache i _
    rw [value_congr (h x rfl)]
  | deliver r =>
    cases r with
    | none => rfl
    | some x =>
      show PC.deliver (some _) = PC.deliver (some _)
      rw [value_congr (h x rfl)]

/-- All cells that matter to a goroutine are the same. -/
theorem ThreadR.move {mem mem' : List Node} {h : HThread} {th : Thread} (hR : ThreadR mem h th)
    (h1 : ∀ x, h.pc.sheet = some x → ∀ p ∈ x.nodes, cell mem' p = cell mem p)
    (h2 : ∀ d ∈ h.repl, ∀ p ∈ d.2.nodes, cell mem' p = cell mem p)
    (h3 : h.pc.isOpen = true → ∀ p ∈ h.ss.nodes, cell mem' p = cell mem p) : ThreadR mem' h th := by
  refine ⟨hR.parent, ?_, hR.imp, hR.addr, hR.imports, fun ho => ?_, ?_⟩
  · rw [pc_congr h1]; exact hR.pc
  · rw [map_cell_congr (h3 ho)]; exact hR.nodes ho
  · rw [hvals_congr h2]; exact hR.repl

/-- A file has been parsed. -/
theorem agree_parsed {env : CEnv} {hs : HSt} {st : CSt} (hI : HInv env hs) (hS : HSim hs st) {t : Nat} {h : HThread} {th : Thread}
    (ht : hs.threads[t]? = some h) (hR : ThreadR hs.mem h th) (he : h.pc.early = true) {i addr : Nat} {ss : Stylesheet}
    (hsrc : (∀ a, Node.at a ∈ ss.nodes → a.src = hs.sh.parses.length) ∧ ∀ imp ∈ ss.imports, imp.rule.src = hs.sh.parses.length)
    {sh sh' : Shared} (hsh : sh' = { sh with asts := hvals hs.mem hs.asts }) (hN : sh.parses.length = hs.sh.parses.length + 1) :
    SAgree env (some (.ok { st with sh := sh', threads := st.threads.set t { th with pc := .spawn i 0, addr := addr, ss := ss } }))
      (some (.ok { hs with
        sh := sh
        mem := hs.mem ++ ss.nodes
        threads := hs.threads.set t
          { h with pc := .run (.spawn i 0), addr := addr, ss := ⟨List.range' hs.mem.length ss.nodes.length, ss.imports⟩ } })) := by
  have hlow : ∀ p, p < hs.mem.length → cell (hs.mem ++ ss.nodes) p = cell hs.mem p := by
    intro p hp
    unfold cell
    rw [List.getD_eq_getElem?_getD, List.getD_eq_getElem?_getD, List.getElem?_append_left hp]
  have hhigh : ∀ j, cell (hs.mem ++ ss.nodes) (hs.mem.length + j) = cell ss.nodes j := by
    intro j
    unfold cell
    rw [List.getD_eq_getElem?_getD, List.getD_eq_getElem?_getD, List.getElem?_append_right (by omega)]
    congr 2
    omega
  have hmem : ∀ {p a}, p ∈ List.range' hs.mem.length ss.nodes.length → cell (hs.mem ++ ss.nodes) p = .at a → a.src = hs.sh.parses.length := by
    intro p a hp ha
    rw [List.mem_range'_1] at hp
    obtain ⟨j, rfl⟩ : ∃ j, p = hs.mem.length + j := ⟨p - hs.mem.length, by omega⟩
    rw [hhigh] at ha
    apply hsrc.1
    rw [← ha]
    unfold cell
    rw [List.getD_eq_getElem?_getD, List.getElem?_eq_getElem (by omega)]
    exact List.getElem_mem _
  generalize hh' : ({ h with pc := .run (.spawn i 0), addr := addr, ss := ⟨List.range' hs.mem.length ss.nodes.length, ss.imports⟩ } : HThread) = h'
  have hss : h'.ss = ⟨List.range' hs.mem.length ss.nodes.length, ss.imports⟩ := by rw [← hh']
  have hpc : h'.pc = .run (.spawn i 0) := by rw [← hh']
  have hf := hI.threads h (List.mem_of_getElem? ht)
  have seals : ∀ {p}, Sealed env hs.mem hs.sh.parses.length hs.threads p →
      Sealed env (hs.mem ++ ss.nodes) sh.parses.length (hs.threads.set t h') p := by
    intro p hp
    refine hp.move (hlow p hp.lt) (by simp) (by omega) fun x hx hxo => ?_
    rcases List.mem_or_eq_of_mem_set hx with hx | rfl
    · exact .inl ⟨x, hx, hxo, rfl⟩
    · right
      rw [hss]
      refine ⟨fun h1 => ?_, fun a ha imp himp h1 => ?_⟩
      · rw [List.mem_range'_1] at h1
        have := hp.lt
        omega
      · have h2 := hp.src a ha
        have h3 := hsrc.2 imp himp
        rw [h1] at h3
        exact Nat.lt_irrefl _ (h3 ▸ h2)
  have sealS : ∀ {x : HSheet}, x.Sealed env hs.mem hs.sh.parses.length hs.threads →
      x.Sealed env (hs.mem ++ ss.nodes) sh.parses.length (hs.threads.set t h') := fun hx p hp => seals (hx p hp)
  have lowS : ∀ {x : HSheet}, x.Sealed env hs.mem hs.sh.parses.length hs.threads → ∀ p ∈ x.nodes,
      cell (hs.mem ++ ss.nodes) p = cell hs.mem p := fun hx p hp => hlow p (hx p hp).lt
  have htl : t < hs.threads.length := (List.getElem?_eq_some_iff.1 ht).1
  have hpar : ∀ (p : Nat) (par : HThread), hs.threads[p]? = some par → par.pc.early = false →
      ∃ par', (hs.threads.set t h')[p]? = some par' ∧ par'.pc.early = false := by
    intro p par h1 h2
    by_cases hpt : p = t
    · subst hpt
      exact ⟨h', List.getElem?_set_self htl, by rw [hpc]; rfl⟩
    · exact ⟨par, by rw [List.getElem?_set_ne (Ne.symm hpt)]; exact h1, h2⟩
  refine .ok ⟨fun d hd => sealS (hI.asts d hd), fun x hx => ?_, ?_⟩ ⟨?_, hS.main, hS.e, ?_⟩
  · rcases List.mem_or_eq_of_mem_set hx with hx | rfl
    · have hx := hI.threads x hx
      refine ⟨hx.plain, fun y hy => sealS (hx.sheet y hy), fun d hd => ⟨sealS (hx.repl d hd).1, (hx.repl d hd).2⟩, hx.early,
        fun p h1 => ?_, hx.nodup, fun ho p hp => ?_, fun ho p hp a ha => ?_, fun ho imp hi => ?_⟩
      · obtain ⟨par, h2, h3⟩ := hx.parent p h1
        exact hpar p par h2 h3
      · have := hx.lt ho p hp
        simp only [List.length_append]
        omega
      · rw [hlow p (hx.lt ho p hp)] at ha
        have := hx.src ho p hp a ha
        dsimp only
        omega
      · have := hx.imps ho imp hi
        dsimp only
        omega
    · have hrepl : x.repl = [] := by rw [← hh']; exact hf.early he
      refine ⟨by rw [hpc]; rfl, fun y hy => (by rw [hpc] at hy; cases hy), fun d hd => (by rw [hrepl] at hd; cases hd), fun _ => hrepl,
        fun p h1 => ?_, fun _ => by rw [hss]; exact List.nodup_range', fun _ p hp => ?_, fun _ p hp a ha => ?_, fun _ imp hi => ?_⟩
      · have h1' : h.parent = some p := by rw [← h1, ← hh']
        obtain ⟨par, h2, h3⟩ := hf.parent p h1'
        exact hpar p par h2 h3
      · rw [hss] at hp
        rw [List.mem_range'_1] at hp
        simp only [List.length_append]
        omega
      · rw [hss] at hp
        have := hmem hp ha
        dsimp only
        omega
      · rw [hss] at hi
        have := hsrc.2 imp hi
        dsimp only
        omega
  · intro t1 t2 h1 h2 hne e1 e2 o1 o2
    dsimp only at e1 e2 ⊢
    rcases hset_cases e1 with ⟨rfl, rfl, _⟩ | ⟨n1, e1'⟩
    · rcases hset_cases e2 with ⟨rfl, rfl, _⟩ | ⟨n2, e2'⟩
      · exact absurd rfl hne
      · intro p hp
        rw [hss] at hp
        have h2f := hI.threads h2 (List.mem_of_getElem? e2')
        refine ⟨fun hp2 => ?_, fun a ha imp himp h3 => ?_⟩
        · have := h2f.lt o2 p hp2
          rw [List.mem_range'_1] at hp
          omega
        · have h4 := hmem hp ha
          have h5 := h2f.imps o2 imp himp
          rw [h3] at h5
          exact Nat.lt_irrefl _ (h4 ▸ h5)
    · have h1f := hI.threads h1 (List.mem_of_getElem? e1')
      rcases hset_cases e2 with ⟨rfl, rfl, _⟩ | ⟨n2, e2'⟩
      · intro p hp
        have hp1 := h1f.lt o1 p hp
        rw [hss]
        refine ⟨fun hp2 => ?_, fun a ha imp himp h3 => ?_⟩
        · rw [List.mem_range'_1] at hp2
          omega
        · rw [hlow p hp1] at ha
          have h4 := h1f.src o1 p hp a ha
          have h5 := hsrc.2 imp himp
          rw [h3] at h5
          exact Nat.lt_irrefl _ (h5 ▸ h4)
      · intro p hp
        rw [hlow p (h1f.lt o1 p hp)]
        exact hI.apart _ _ _ _ hne e1' e2' o1 o2 p hp
  · rw [hsh]
    dsimp only
    rw [hvals_congr fun d hd => lowS (hI.asts d hd)]
  · have hother : List.Forall₂ (ThreadR (hs.mem ++ ss.nodes)) hs.threads st.threads := forall2_mono hS.threads fun x hx th hR => by
      have hxf := hI.threads x hx
      exact hR.move (fun y hy => lowS (hxf.sheet y hy)) (fun d hd => lowS (hxf.repl d hd).1) fun ho p hp => hlow p (hxf.lt ho p hp)
    refine forall2_set hother t ?_
    have hrepl : h.repl = [] := hf.early he
    subst hh'
    refine ⟨hR.parent, rfl, hR.imp, rfl, rfl, fun _ => ?_, ?_⟩
    · apply List.ext_getElem?
      intro j
      dsimp only
      rw [List.getElem?_map]
      by_cases hj : j < ss.nodes.length
      · rw [List.getElem?_range' hj]
        simp only [Option.map_some, Nat.one_mul]
        rw [hhigh]
        unfold cell
        rw [List.getD_eq_getElem?_getD, List.getElem?_eq_getElem hj]
        rfl
      · rw [List.getElem?_eq_none (by omega), List.getElem?_eq_none (by simp; omega)]
        rfl
    · dsimp only
      rw [hR.repl, hrepl]
      rfl

/-- A stylesheet has been transformed. -/
theorem agree_transformed {env : CEnv} {hs : HSt} {st : CSt} (hI : HInv env hs) (hS : HSim hs st) {t : Nat} {h : HThread} {th : Thread}
    (ht : hs.threads[t]? = some h) (hR : ThreadR hs.mem h th) (ho : h.pc.isOpen = true) {i : Nat} {x : HSheet} {mem' : List Node}
    (hran : InPlace h.ss.nodes (Sealed env hs.mem hs.sh.parses.length hs.threads) hs.mem (x.nodes.map (cell mem')) x.nodes mem')
    (hset : env.opts.importRules = .inline → ∀ p ∈ x.nodes, Settled env.fo env.opts (cell mem' p))
    {sh sh' : Shared} (hsh : sh' = { sh with asts := hvals hs.mem hs.asts }) (hN : sh.parses = hs.sh.parses) :
    SAgree env (some (.ok { st with sh := sh', threads := st.threads.set t { th with pc := .cache i (x.value mem') } }))
      (some (.ok { hs with sh := sh, mem := mem', threads := hs.threads.set t { h with pc := .cache i x } })) := by
  have htl : t < hs.threads.length := (List.getElem?_eq_some_iff.1 ht).1
  have hf := hI.threads h (List.mem_of_getElem? ht)
  have hsub : OpenSub (hs.threads.set t { h with pc := .cache i x }) hs.threads := openSub_set ht rfl fun h1 => (by cases h1)
  have hlow : ∀ {p}, Sealed env hs.mem hs.sh.parses.length hs.threads p → cell mem' p = cell hs.mem p := fun hp =>
    hran.same _ (hp.free h (List.mem_of_getElem? ht) ho)
  have seals : ∀ {p}, Sealed env hs.mem hs.sh.parses.length hs.threads p →
      Sealed env mem' sh.parses.length (hs.threads.set t { h with pc := .cache i x }) p := by
    intro p hp
    rw [hN]
    exact hp.move (hlow hp) (by rw [hran.len]) (Nat.le_refl _) fun y hy hyo => .inl (hsub y hy hyo)
  have sealS : ∀ {y : HSheet}, y.Sealed env hs.mem hs.sh.parses.length hs.threads →
      y.Sealed env mem' sh.parses.length (hs.threads.set t { h with pc := .cache i x }) := fun hy p hp => seals (hy p hp)
  have lowS : ∀ {y : HSheet}, y.Sealed env hs.mem hs.sh.parses.length hs.threads → ∀ p ∈ y.nodes,
      cell mem' p = cell hs.mem p := fun hy p hp => hlow (hy p hp)
  have hpar : ∀ (p : Nat) (par : HThread), hs.threads[p]? = some par → par.pc.early = false →
      ∃ par', (hs.threads.set t { h with pc := .cache i x })[p]? = some par' ∧ par'.pc.early = false := by
    intro p par h1 h2
    by_cases hpt : p = t
    · subst hpt
      exact ⟨_, List.getElem?_set_self htl, rfl⟩
    · exact ⟨par, by rw [List.getElem?_set_ne (Ne.symm hpt)]; exact h1, h2⟩
  -- the new stylesheet is sealed
  have hnew : x.Sealed env mem' sh.parses.length (hs.threads.set t { h with pc := .cache i x }) := by
    intro q hq
    rcases hran.from' q hq with hown | hD
    · refine ⟨by rw [hran.len]; exact hf.lt ho q hown, fun hin => hset hin q hq, fun a' ha' => ?_, fun y hy hyo => ?_, fun y hy hyo a' ha' => ?_⟩
      · obtain ⟨a, ha, hid⟩ := hran.ids q a' ha'
        have := hf.src ho q hown a ha
        rw [hN]
        rw [show a'.src = a.src from congrArg AtId.src hid.symm]
        exact this
      · obtain ⟨t2, h2⟩ := List.getElem?_of_mem hy
        rcases hset_cases h2 with ⟨rfl, rfl, _⟩ | ⟨n2, h2⟩
        · cases hyo
        · exact (hI.apart _ _ _ _ (Ne.symm n2) ht h2 ho hyo q hown).1
      · obtain ⟨t2, h2⟩ := List.getElem?_of_mem hy
        rcases hset_cases h2 with ⟨rfl, rfl, _⟩ | ⟨n2, h2⟩
        · cases hyo
        · obtain ⟨a, ha, hid⟩ := hran.ids q a' ha'
          rw [← hid]
          exact (hI.apart _ _ _ _ (Ne.symm n2) ht h2 ho hyo q hown).2 a ha
    · exact seals hD
  refine .ok ⟨fun d hd => sealS (hI.asts d hd), fun y hy => ?_, ?_⟩ ⟨?_, hS.main, hS.e, ?_⟩
  · rcases List.mem_or_eq_of_mem_set hy with hy | rfl
    · have hy := hI.threads y hy
      refine ⟨hy.plain, fun z hz => sealS (hy.sheet z hz), fun d hd => ⟨sealS (hy.repl d hd).1, (hy.repl d hd).2⟩, hy.early,
        fun p h1 => ?_, hy.nodup, fun ho p hp => ?_, fun ho p hp a' ha' => ?_, fun ho imp hi => ?_⟩
      · obtain ⟨par, h2, h3⟩ := hy.parent p h1
        exact hpar p par h2 h3
      · dsimp only
        rw [hran.len]
        exact hy.lt ho p hp
      · obtain ⟨a, ha, hid⟩ := hran.ids p a' ha'
        have := hy.src ho p hp a ha
        dsimp only
        rw [hN]
        rw [show a'.src = a.src from congrArg AtId.src hid.symm]
        exact this
      · dsimp only
        rw [hN]
        exact hy.imps ho imp hi
    · refine ⟨rfl, fun z hz => ?_, fun d hd => ⟨sealS (hf.repl d hd).1, (hf.repl d hd).2⟩, fun h1 => (by cases h1), fun p h1 => ?_,
        fun h1 => (by cases h1), fun h1 => (by cases h1), fun h1 => (by cases h1), fun h1 => (by cases h1)⟩
      · cases hz
        exact hnew
      · obtain ⟨par, h2, h3⟩ := hf.parent p h1
        exact hpar p par h2 h3
  · intro t1 t2 h1 h2 hne e1 e2 o1 o2
    dsimp only at e1 e2 ⊢
    rcases hset_cases e1 with ⟨rfl, rfl, _⟩ | ⟨n1, e1'⟩
    · cases o1
    · rcases hset_cases e2 with ⟨rfl, rfl, _⟩ | ⟨n2, e2'⟩
      · cases o2
      · intro p hp
        obtain ⟨h3, h4⟩ := hI.apart _ _ _ _ hne e1' e2' o1 o2 p hp
        refine ⟨h3, fun a' ha' => ?_⟩
        obtain ⟨a, ha, hid⟩ := hran.ids p a' ha'
        rw [← hid]
        exact h4 a ha
  · rw [hsh]
    dsimp only
    rw [hvals_congr fun d hd => lowS (hI.asts d hd)]
  · -- the goroutine itself is replaced, so it does not matter what it was
    apply forall2_of_get
    · simp only [List.length_set]
      exact forall2_length hS.threads
    · intro j a b ha hb
      rcases hset_cases ha with ⟨rfl, rfl, _⟩ | ⟨n1, ha'⟩
      · rw [List.getElem?_set_self (by rw [← forall2_length hS.threads]; exact htl)] at hb
        cases hb
        exact ⟨hR.parent, rfl, hR.imp, hR.addr, hR.imports, fun h1 => (by cases h1),
          hR.repl.trans (hvals_congr fun d hd => lowS (hf.repl d hd).1).symm⟩
      · rw [List.getElem?_set_ne (Ne.symm n1)] at hb
        have hR' : ThreadR hs.mem a b := by
          rcases forall2_get hS.threads j with ⟨h1, _⟩ | ⟨a', b', h1, h2, h3⟩
          · rw [h1] at ha'; cases ha'
          · rw [h1] at ha'; rw [h2] at hb; cases ha'; cases hb; exact h3
        have haf := hI.threads a (List.mem_of_getElem? ha')
        exact hR'.move (fun y hy => lowS (haf.sheet y hy)) (fun d hd => lowS (haf.repl d hd).1) fun hao p hp =>
          hran.same p fun hp' => (hI.apart _ _ _ _ (Ne.symm n1) ht ha' ho hao p hp').1 hp

/-- Another goroutine is started. -/
theorem HInv.new {env : CEnv} {hs : HSt} (hI : HInv env hs) (p : Option Nat)
    (hp : ∀ q : Nat, p = some q → ∃ par, hs.threads[q]? = some par ∧ par.pc.early = false) :
    HInv env { hs with threads := hs.threads ++ [HThread.new p] } := by
  have hsub : OpenSub (hs.threads ++ [HThread.new p]) hs.threads := by
    intro x hx hxo
    rcases List.mem_append.1 hx with hx | hx
    · exact ⟨x, hx, hxo, rfl⟩
    · rw [List.mem_singleton] at hx
      subst hx
      cases hxo
  have hpar : ∀ (q : Nat) (par : HThread), hs.threads[q]? = some par → par.pc.early = false →
      ∃ par', (hs.threads ++ [HThread.new p])[q]? = some par' ∧ par'.pc.early = false := fun q par h1 h2 =>
    ⟨par, by rw [List.getElem?_append_left (List.getElem?_eq_some_iff.1 h1).1]; exact h1, h2⟩
  have hget : ∀ {q : Nat} {x : HThread}, (hs.threads ++ [HThread.new p])[q]? = some x → x.pc.isOpen = true → hs.threads[q]? = some x := by
    intro q x h1 h2
    by_cases hq : q < hs.threads.length
    · rw [List.getElem?_append_left hq] at h1; exact h1
    · rw [List.getElem?_append_right (by omega)] at h1
      have := List.mem_of_getElem? h1
      rw [List.mem_singleton] at this
      subst this
      cases h2
  refine ⟨fun d hd => (hI.asts d hd).sub (Nat.le_refl _) hsub, fun x hx => ?_, fun t1 t2 h1 h2 hne e1 e2 o1 o2 =>
    hI.apart t1 t2 h1 h2 hne (hget e1 o1) (hget e2 o2) o1 o2⟩
  rcases List.mem_append.1 hx with hx | hx
  · exact (hI.threads x hx).sub (Nat.le_refl _) hsub hpar
  · rw [List.mem_singleton] at hx
    subst hx
    refine ⟨rfl, fun x hx => (by cases hx), fun d hd => (by cases hd), fun _ => rfl, fun q hq => ?_, fun h1 => (by cases h1), fun h1 => (by cases h1),
      fun h1 => (by cases h1), fun h1 => (by cases h1)⟩
    obtain ⟨par, h1, h2⟩ := hp q hq
    exact hpar q par h1 h2

theorem HSim.new {hs : HSt} {st : CSt} (hS : HSim hs st) (p : Option Nat) :
    HSim { hs with threads := hs.threads ++ [HThread.new p] } { st with threads := st.threads ++ [Thread.new p] } :=
  ⟨hS.sh, hS.main, hS.e, forall2_snoc hS.threads ⟨rfl, rfl, rfl, rfl, rfl, fun h1 => (by cases h1), rfl⟩⟩

theorem lookupMap_some_mem {α β : Type} [DecidableEq α] {m : List (α × β)} {k : α} {v : β} (e : lookupMap m k = some v) : (k, v) ∈ m := by
  induction m with
  | nil => cases e
  | cons x m ih =>
    obtain ⟨k', v'⟩ := x
    unfold lookupMap at e
    split at e
    · rename_i h1
      cases e
      subst h1
      simp
    · exact List.mem_cons_of_mem _ (ih e)

/-! ### Every step -/

theorem joined_eq {env : CEnv} {hs : HSt} {st : CSt} (hI : HInv env hs) (hS : HSim hs st) (p : Option Nat) : st.joined p = hs.joined p := by
  unfold CSt.joined HSt.joined
  have hp : ∀ h ∈ hs.threads, h.pc.plain = true := fun h hh => (hI.threads h hh).plain
  have := hS.threads
  revert hp
  generalize hs.threads = l1 at *
  generalize st.threads = l2 at *
  intro hp
  induction this with
  | nil => rfl
  | @cons a b as bs hab _ ih =>
    rw [List.all_cons, List.all_cons, ih fun h hh => hp h (List.mem_cons_of_mem _ hh), hab.parent, hab.pc]
    have hpl := hp a (List.mem_cons_self ..)
    cases hpc : a.pc with
    | run pc => cases pc <;> rfl
    | cache i x => rfl
    | deliver r => rfl

/-- Imports may be inlined only if no node that has been transformed is transformed into something else. -/
def CEnv.Steady (env : CEnv) : Prop :=
  env.opts.importRules = .inline → env.opts.customProperties = false ∧ env.opts.customMediaQueries = false

theorem agree_thread {env : CEnv} (hopt : env.Steady) {hs : HSt} {st : CSt} (hI : HInv env hs) (hS : HSim hs st) (t : Nat) :
    SAgree env (stepThread env st t) (hStepThread env hs t) := by
  unfold stepThread hStepThread
  rcases forall2_get hS.threads t with ⟨h1, h2⟩ | ⟨h, th, ht, hth, hR⟩
  · rw [h1, h2]; exact .none
  rw [ht, hth]
  simp only [Option.bind_some]
  have hf := hI.threads h (List.mem_of_getElem? ht)
  have hout : hasOutput env th = hHasOutput env h := by
    unfold hasOutput hHasOutput
    rw [hR.parent]
    rfl
  have hshc := hS.sh
  rw [hout, hR.pc]
  cases hpc : h.pc with
  | cache i x =>
    have hx : x.Sealed env hs.mem hs.sh.parses.length hs.threads := hf.sheet x (by rw [hpc]; rfl)
    dsimp only [HPC.value]
    unfold CSt.goto
    refine .ok (hI.go ht (h' := { h with pc := .deliver (some x) }) ⟨rfl, rfl, hf.repl, fun h1 => (by cases h1), rfl, fun h1 => (by cases h1),
      fun h1 => (by cases h1), fun y hy => (by cases hy; exact hx)⟩ rfl (fun d hd => ?_) (Nat.le_refl _) rfl) ?_
    · rcases List.mem_cons.1 hd with rfl | hd
      · exact .inr hx
      · exact .inl hd
    · exact HSim.set hS (h' := { h with pc := .deliver (some x) }) (th' := { th with pc := .deliver (some (x.value hs.mem)) })
        ⟨hR.parent, rfl, hR.imp, hR.addr, hR.imports, fun h1 => (by cases h1), hR.repl⟩ (by rw [hshc]; rfl)
  | deliver r =>
    have hgo : SAgree env (st.goto t th st.sh .done) (hs.goto t h hs.sh (.run .done)) :=
      agree_goto hI hS ht hR hshc rfl (Nat.le_refl _) rfl (fun h1 => (by cases h1)) (fun h1 => (by cases h1)) fun x hx => (by cases hx)
    dsimp only [HPC.value]
    unfold stepDeliver hStepDeliver
    rw [hR.parent]
    cases hp : h.parent with
    | none => exact hgo
    | some p =>
      cases r with
      | none => exact hgo
      | some x =>
        dsimp only [Option.map]
        obtain ⟨par, hpar, hlate⟩ := hf.parent p hp
        rcases forall2_get hS.threads p with ⟨h1, h2⟩ | ⟨par0, par', hpar0, hpar', hRp⟩
        · rw [h1] at hpar; cases hpar
        rw [hpar] at hpar0
        cases hpar0
        rw [hpar, hpar']
        simp only [Option.bind_some]
        rw [hRp.imports, hRp.imp]
        cases himp : par.ss.imports[par.imp]? with
        | none => exact .none
        | some imp =>
          simp only [Option.bind_some]
          have hpf := hI.threads par (List.mem_of_getElem? hpar)
          have hx : x.Sealed env hs.mem hs.sh.parses.length hs.threads := hf.sheet x (by rw [hpc]; rfl)
          have hpl : p < hs.threads.length := (List.getElem?_eq_some_iff.1 hpar).1
          have hI1 : HInv env { hs with threads := hs.threads.set p { par with repl := (imp.rule, x) :: par.repl } } := by
            refine hI.go hpar (h' := { par with repl := (imp.rule, x) :: par.repl }) ⟨rfl, rfl, fun d hd => ?_, fun h1 => ?_, hpf.plain,
              id, id, hpf.sheet⟩ rfl (fun d hd => .inl hd) (Nat.le_refl _) rfl
            · rcases List.mem_cons.1 hd with rfl | hd
              · exact ⟨hx, imp, List.mem_of_getElem? himp, rfl⟩
              · exact hpf.repl d hd
            · rw [show par.pc.early = true from h1] at hlate; cases hlate
          obtain ⟨h2, ht2, hp2, hs2, hr2⟩ : ∃ h2 : HThread, (hs.threads.set p { par with repl := (imp.rule, x) :: par.repl })[t]? = some h2 ∧
              h2.parent = h.parent ∧ h2.ss = h.ss ∧ ∀ d ∈ h.repl, d ∈ h2.repl := by
            by_cases hpt : p = t
            · subst hpt
              rw [ht] at hpar
              cases hpar
              exact ⟨_, List.getElem?_set_self hpl, rfl, rfl, fun d hd => List.mem_cons_of_mem _ hd⟩
            · exact ⟨h, by rw [List.getElem?_set_ne hpt]; exact ht, rfl, rfl, fun d hd => hd⟩
          have h2f := hI1.threads h2 (List.mem_of_getElem? ht2)
          have hS1 : HSim { hs with threads := hs.threads.set p { par with repl := (imp.rule, x) :: par.repl } }
              { st with threads := st.threads.set p { par' with repl := (imp.rule, x.value hs.mem) :: par'.repl } } := by
            refine HSim.set hS (h' := { par with repl := (imp.rule, x) :: par.repl }) (th' := { par' with repl := (imp.rule, x.value hs.mem) :: par'.repl }) (sh := hs.sh) (sh' := st.sh) (asts := hs.asts) ⟨hRp.parent, hRp.pc, hRp.imp, hRp.addr, hRp.imports, hRp.nodes, ?_⟩ hshc
            dsimp only
            rw [hRp.repl]
            rfl
          refine .ok (hI1.go ht2 (h' := { h with pc := .run .done }) ⟨hp2.symm, hs2.symm, fun d hd => h2f.repl d (hr2 d hd), fun h1 => (by cases h1),
            rfl, fun h1 => (by cases h1), fun h1 => (by cases h1), fun y hy => (by cases hy)⟩ rfl (fun d hd => .inl hd) (Nat.le_refl _) ?_) ?_
          · simp only [hp]
          · have := HSim.set hS1 (t := t) (h' := { h with pc := .run .done }) (th' := { th with pc := .done }) (sh := hs.sh) (sh' := st.sh)
              (asts := hs.asts) ⟨hR.parent, rfl, hR.imp, hR.addr, hR.imports, fun h1 => (by cases h1), hR.repl⟩ hshc
            simpa only [hp, hR.parent, hRp.imp] using this
  | run pc =>
    have go : ∀ {sh : Shared} {pc' : PC}, hs.sh.parses.length ≤ sh.parses.length → (HPC.run pc').plain = true →
        ((HPC.run pc').isOpen = true → h.pc.isOpen = true) → ((HPC.run pc').early = true → h.pc.early = true) →
        SAgree env (st.goto t th { sh with asts := hvals hs.mem hs.asts } pc') (hs.goto t h sh (.run pc')) := fun h1 h2 h3 h4 =>
      agree_goto hI hS ht hR rfl rfl h1 h2 h3 h4 fun x hx => (by cases hx)
    have fail : ∀ {sh : Shared}, hs.sh.parses.length ≤ sh.parses.length →
        SAgree env (st.goto t th { sh with asts := hvals hs.mem hs.asts } (.deliver none)) (hs.goto t h sh (.deliver none)) := fun h1 =>
      agree_goto hI hS ht hR rfl rfl h1 rfl (fun h1 => (by cases h1)) (fun h1 => (by cases h1)) fun x hx => (by cases hx)
    dsimp only [HPC.value]
    cases pc with
    | done => exact .none
    | cache i x => have := hf.plain; rw [hpc] at this; cases this
    | deliver r => have := hf.plain; rw [hpc] at this; cases this
    | start =>
      dsimp only
      unfold stepStart hStepStart
      rw [hR.parent, hS.sh]
      cases hp : h.parent with
      | none =>
        dsimp only
        rw [hS.e]
        cases env.entries[hs.e]? with
        | none => exact .none
        | some path =>
          simp only [Option.bind_some]
          (refine go (Nat.le_refl _) rfl ?_ ?_; intro h1; cases h1; intro _; rw [hpc]; rfl)
      | some p =>
        dsimp only
        rcases forall2_get hS.threads p with ⟨h1, h2⟩ | ⟨par, par', hpar, hpar', hRp⟩
        · rw [h1, h2]; exact .none
        rw [hpar, hpar']
        simp only [Option.bind_some]
        rw [hRp.imports, hRp.imp, hRp.addr]
        cases par.ss.imports[par.imp]? with
        | none => exact .none
        | some imp =>
          simp only [Option.bind_some]
          cases hs.sh.heap[par.addr]? with
          | none => exact .none
          | some source =>
            simp only [Option.bind_some]
            cases env.resolve imp.value (dirOf source.path) with
            | none =>
              exact go (sh := hs.sh.addError (.resolve imp.value (dirOf source.path))) (pc' := .done) (Nat.le_refl _) rfl
                (fun h1 => (by cases h1)) fun h1 => (by cases h1)
            | some rel =>
              (refine go (Nat.le_refl _) rfl ?_ ?_; intro h1; cases h1; intro _; rw [hpc]; rfl)
    | lookup path =>
      dsimp only
      rw [hS.sh]
      cases env.abs path with
      | none => exact fail (sh := hs.sh.addError (.abs path)) (Nat.le_refl _)
      | some abs =>
        dsimp only
        cases lookupMap hs.sh.sources abs with
        | none => (refine go (Nat.le_refl _) rfl ?_ ?_; intro h1; cases h1; intro _; rw [hpc]; rfl)
        | some i =>
          dsimp only
          split
          · (refine go (Nat.le_refl _) rfl ?_ ?_; intro h1; cases h1; intro _; rw [hpc]; rfl)
          · (refine go (Nat.le_refl _) rfl ?_ ?_; intro h1; cases h1; intro _; rw [hpc]; rfl)
    | read path abs =>
      dsimp only
      rw [hS.sh]
      cases env.read abs with
      | none => exact fail (sh := hs.sh.addError (.read path)) (Nat.le_refl _)
      | some content => (refine go (Nat.le_refl _) rfl ?_ ?_; intro h1; cases h1; intro _; rw [hpc]; rfl)
    | alloc abs content =>
      dsimp only
      rw [hS.sh]
      (refine go (sh := { hs.sh with sources := (abs, hs.sh.nextIndex) :: hs.sh.sources }) (pc' := .store abs content hs.sh.nextIndex) (Nat.le_refl _) rfl ?_ ?_; intro h1; cases h1; intro _; rw [hpc]; rfl)
    | store abs content i =>
      dsimp only
      rw [hS.sh]
      (refine go (sh := { hs.sh with heap := hs.sh.heap ++ [⟨abs, content, []⟩], byIndex := (i, hs.sh.heap.length) :: hs.sh.byIndex }) (pc' := .incRead i) (Nat.le_refl _) rfl ?_ ?_; intro h1; cases h1; intro _; rw [hpc]; rfl)
    | incRead i =>
      dsimp only
      rw [hS.sh]
      (refine go (Nat.le_refl _) rfl ?_ ?_; intro h1; cases h1; intro _; rw [hpc]; rfl)
    | incWrite i v =>
      dsimp only
      rw [hS.sh]
      split
      · (refine go (sh := { hs.sh with nextIndex := v + 1 }) (pc' := .outBegin i) (Nat.le_refl _) rfl ?_ ?_; intro h1; cases h1; intro _; rw [hpc]; rfl)
      · (refine go (sh := { hs.sh with nextIndex := v + 1 }) (pc' := .cached i) (Nat.le_refl _) rfl ?_ ?_; intro h1; cases h1; intro _; rw [hpc]; rfl)
    | outBegin i =>
      dsimp only
      rw [hS.sh]
      dsimp only
      split
      · exact .crash
      · (refine go (sh := { hs.sh with writing := true }) (pc' := .outEnd i) (Nat.le_refl _) rfl ?_ ?_; intro h1; cases h1; intro _; rw [hpc]; rfl)
    | outEnd i =>
      dsimp only
      rw [hS.sh]
      (refine go (sh := { hs.sh with outputs := i :: hs.sh.outputs, writing := false }) (pc' := .cached i) (Nat.le_refl _) rfl ?_ ?_; intro h1; cases h1; intro _; rw [hpc]; rfl)
    | cached i =>
      dsimp only
      rw [hS.sh]
      dsimp only
      rw [hvals_lookup]
      cases hl : lookupMap hs.asts i with
      | none =>
        dsimp only [Option.map]
        (refine go (Nat.le_refl _) rfl ?_ ?_; intro h1; cases h1; intro _; rw [hpc]; rfl)
      | some x =>
        dsimp only [Option.map]
        refine agree_goto hI hS ht hR rfl rfl (Nat.le_refl _) rfl (fun h1 => (by cases h1)) (fun h1 => (by cases h1)) fun y hy => ?_
        cases hy
        exact hI.asts (i, x) (lookupMap_some_mem hl)
    | source i =>
      dsimp only
      rw [hS.sh]
      dsimp only
      cases lookupMap hs.sh.byIndex i with
      | none => exact .crash
      | some addr => (refine go (Nat.le_refl _) rfl ?_ ?_; intro h1; cases h1; intro _; rw [hpc]; rfl)
    | parse i addr =>
      dsimp only
      unfold stepParse hStepParse
      rw [hS.sh]
      dsimp only
      cases hs.sh.heap[addr]? with
      | none => exact .none
      | some source =>
        simp only [Option.bind_some]
        cases hpr : parse env.fuel source.content hs.sh.parses.length with
        | panic => exact .crash
        | timeout => exact .none
        | error e lines => 
          exact fail (sh := Shared.addError { hs.sh with
              heap := hs.sh.heap.set addr { source with lines := source.lines ++ lines }
              parses := source.path :: hs.sh.parses } (.parse source.path e)) (by show _ ≤ (source.path :: hs.sh.parses).length; simp)
        | ok ss lines => exact agree_parsed hI hS ht hR (by rw [hpc]; rfl) (parse_src hpr) rfl rfl
    | spawn i k =>
      dsimp only
      rw [hR.imports]
      split
      · have hlate : h.pc.early = false := by rw [hpc]; rfl
        have hopen : h.pc.isOpen = true := by rw [hpc]; rfl
        have hI1 : HInv env { hs with threads := hs.threads.set t { h with pc := .run (.spawn i (k + 1)), imp := k } } :=
          hI.go ht (h' := { h with pc := .run (.spawn i (k + 1)), imp := k }) ⟨rfl, rfl, hf.repl, fun h1 => (by cases h1), rfl,
            fun _ => hopen, fun h1 => (by cases h1), fun y hy => (by cases hy)⟩ rfl (fun d hd => .inl hd) (Nat.le_refl _) rfl
        have hS1 : HSim { hs with threads := hs.threads.set t { h with pc := .run (.spawn i (k + 1)), imp := k } }
            { st with threads := st.threads.set t { th with pc := .spawn i (k + 1), imp := k } } :=
          HSim.set hS (h' := { h with pc := .run (.spawn i (k + 1)), imp := k }) (th' := { th with pc := .spawn i (k + 1), imp := k }) (sh := hs.sh) (sh' := st.sh) (asts := hs.asts) ⟨hR.parent, rfl, rfl, hR.addr, hR.imports, fun _ => hR.nodes hopen, hR.repl⟩ hS.sh
        refine .ok (hI1.new (some t) fun p hp => ?_) (hS1.new (some t))
        cases hp
        exact ⟨_, List.getElem?_set_self (List.getElem?_eq_some_iff.1 ht).1, rfl⟩
      · rw [hS.sh]
        (refine go (Nat.le_refl _) rfl ?_ ?_; intro h1; rw [hpc]; rfl; intro h1; cases h1)
    | wait i =>
      dsimp only
      have hopen : h.pc.isOpen = true := by rw [hpc]; rfl
      unfold stepWait hStepWait
      rw [joined_eq hI hS]
      split
      case isFalse => exact .none
      rw [hS.sh, hR.addr]
      dsimp only
      cases hs.sh.heap[h.addr]? with
      | none => exact .none
      | some source =>
        simp only [Option.bind_some]
        generalize hrp : (if env.opts.importRules = .inline then some h.repl else none) = rp
        have hrp' : (if env.opts.importRules = .inline then some th.repl else none) = rp.map (hvals hs.mem) := by
          rw [← hrp, hR.repl]
          split <;> rfl
        have hin : rp ≠ none ↔ env.opts.importRules = .inline := by
          rw [← hrp]
          split <;> simp [*]
        have hss : th.ss = h.ss.value hs.mem := by
          have h1 := hR.nodes hopen
          have h2 := hR.imports
          cases hths : th.ss
          rw [hths] at h1 h2
          dsimp only at h1 h2
          rw [h1, h2]
          rfl
        rw [hrp', hss]
        have hm : h ∈ hs.threads := List.mem_of_getElem? ht
        have hag := transform_agree (fo := env.fo) (o := env.opts) (repl := rp) (mem := hs.mem)
          (D := Sealed env hs.mem hs.sh.parses.length hs.threads) (k := env.fuel) (fun hn => (hopt (hin.1 hn)).1) (fun m he => ?_)
          (h := h.ss) (hf.nodup hopen) fun p hp => ⟨hf.lt hopen p hp, fun hD => hD.free h hm hopen hp⟩
        · revert hag
          generalize transform env.fo env.opts (rp.map (hvals hs.mem)) env.fuel (h.ss.value hs.mem) = a
          generalize hTransform env.fo env.opts rp env.fuel h.ss hs.mem = b
          intro hag
          cases hag with
          | crash => exact .crash
          | timeout => exact .none
          | ok hi hran hset => exact agree_transformed hI hS ht hR hopen hran (fun hn => hset (hin.2 hn)) rfl rfl
        · have hil := hin.1 (by rw [he]; simp)
          rw [if_pos hil, he] at hrp
          cases hrp
          refine ⟨(hopt hil).2, fun d hd => (hf.repl d hd).1, fun p hp => ⟨hp.lt, hp.settled hil, fun a ha => ?_⟩⟩
          cases hl : hLookupImport h.repl a.id with
          | none => rfl
          | some x =>
            obtain ⟨_, imp, himp, h1⟩ := hf.repl _ (hLookupImport_mem hl)
            exact absurd h1 (hp.other h hm hopen a ha imp himp)

theorem agree_step {env : CEnv} (hopt : env.Steady) {hs : HSt} {st : CSt} (hI : HInv env hs) (hS : HSim hs st) (c : Choice) :
    SAgree env (cstep env st c) (hStep env hs c) := by
  cases c with
  | thread t => exact agree_thread hopt hI hS t
  | main =>
    show SAgree env (stepMain env st) (hStepMain env hs)
    unfold stepMain hStepMain
    rw [hS.main]
    cases hm : hs.main with
    | spawn k =>
      dsimp only
      split
      · refine .ok (HInv.new (hs := { hs with main := .spawn (k + 1), e := k }) ⟨hI.asts, hI.threads, hI.apart⟩ none fun p hp => (by cases hp)) ?_
        exact HSim.new (hs := { hs with main := .spawn (k + 1), e := k }) (st := { st with main := .spawn (k + 1), e := k })
          ⟨hS.sh, rfl, rfl, hS.threads⟩ none
      · exact .ok ⟨hI.asts, hI.threads, hI.apart⟩ ⟨hS.sh, rfl, hS.e, hS.threads⟩
    | wait =>
      dsimp only
      rw [joined_eq hI hS]
      split
      · refine .ok ⟨hI.asts, hI.threads, hI.apart⟩ ⟨hS.sh, ?_, hS.e, hS.threads⟩
        dsimp only
        rw [hS.sh]
      · exact .none
    | print rest =>
      dsimp only
      split
      · exact .ok ⟨hI.asts, hI.threads, hI.apart⟩ ⟨hS.sh, rfl, hS.e, hS.threads⟩
      · exact .none
    | done => exact .none
  | print i =>
    show SAgree env (stepPrint st i) (hStepPrint hs i)
    unfold stepPrint hStepPrint
    rw [hS.main]
    cases hm : hs.main with
    | spawn k => exact .none
    | wait => exact .none
    | done => exact .none
    | print rest =>
      dsimp only
      split
      · rw [hS.sh]
        dsimp only
        rw [hvals_lookup]
        cases (lookupMap hs.sh.byIndex i).bind (hs.sh.heap[·]?) with
        | none => exact .ok ⟨hI.asts, hI.threads, hI.apart⟩ ⟨rfl, rfl, hS.e, hS.threads⟩
        | some source =>
          cases lookupMap hs.asts i with
          | none => exact .ok ⟨hI.asts, hI.threads, hI.apart⟩ ⟨rfl, rfl, hS.e, hS.threads⟩
          | some x =>
            dsimp only [Option.map]
            cases print (some source) (x.value hs.mem) with
            | panic => exact .crash
            | error => exact .ok ⟨hI.asts, hI.threads, hI.apart⟩ ⟨rfl, rfl, hS.e, hS.threads⟩
            | ok out => exact .ok ⟨hI.asts, hI.threads, hI.apart⟩ ⟨rfl, rfl, hS.e, hS.threads⟩
      · exact .none

theorem init_inv (env : CEnv) : HInv env HSt.init :=
  ⟨fun d hd => (by cases hd), fun h hh => (by cases hh), fun t1 _ _ _ _ h1 => (by cases h1)⟩

theorem init_sim : HSim HSt.init CSt.init := ⟨rfl, rfl, rfl, .nil⟩

/-- Whole schedules. -/
inductive RAgree (env : CEnv) : SRes → HRes → Prop where
  | crash : RAgree env .crash .crash
  | ok {st : CSt} {hs : HSt} : HInv env hs → HSim hs st → RAgree env (.ok st) (.ok hs)

theorem agree_run {env : CEnv} (hopt : env.Steady) (cs : List Choice) : ∀ {hs : HSt} {st : CSt}, HInv env hs → HSim hs st →
    RAgree env (runSched env st cs) (hRunSched env hs cs) := by
  induction cs with
  | nil => exact fun hI hS => .ok hI hS
  | cons c cs ih =>
    intro hs st hI hS
    unfold runSched hRunSched
    have := agree_step hopt hI hS c
    revert this
    generalize cstep env st c = a
    generalize hStep env hs c = b
    intro this
    cases this with
    | none => exact ih hI hS
    | crash => exact .crash
    | ok hI' hS' => exact ih hI' hS'

end Cssc
