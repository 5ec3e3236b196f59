import Verif.Proofs.CompileTab
import Verif.Proofs.Renumber

/-!
# Compile, sequentially: it ends if the imports have no cycle
-/

namespace Cssc

/-- No file makes the parser, the transformer or the printer panic or loop.  `T` is what is known of transformed
stylesheets.  The imports replaced are those of the stylesheet that is transformed, and no replacement has at-rules of that
stylesheet. -/
structure Tame (env : CEnv) (T : Stylesheet → Prop) : Prop where
  parse : ∀ {a c}, env.read a = some c → (∃ ss l, parse env.fuel c = .ok ss l) ∨ ∃ e l, parse env.fuel c = .error e l
  transform : ∀ {a c id ss l repl}, env.read a = some c → Cssc.parse env.fuel c id = .ok ss l →
    (∀ x ∈ repl, T x.2 ∧ x.1.src = id ∧ ∀ r, Node.at r ∈ x.2.nodes → r.src ≠ id) →
    ∃ ss' s, transform env.fo env.opts (if env.opts.importRules = .inline then some repl else none) env.fuel ss =
      .ok ss' s ∧ T ss'
  print : ∀ {source ss}, T ss → print (some source) ss ≠ .panic

/-- All compilations so far satisfy `T`. -/
def AllT (T : Stylesheet → Prop) (sh : Shared) : Prop := ∀ {i ss}, lookupMap sh.asts i = some ss → T ss

/-- A transformed stylesheet with at-rules of earlier parses, none of which is in `U`. -/
def Clear (T : Stylesheet → Prop) (U : Nat → Prop) (N : Nat) (ss : Stylesheet) : Prop :=
  T ss ∧ ∀ r, Node.at r ∈ ss.nodes → r.src < N ∧ ¬ U r.src

theorem Clear.mono {T : Stylesheet → Prop} {U U' : Nat → Prop} {N N' : Nat} {ss : Stylesheet} (h : Clear T U N ss) (hN : N ≤ N')
    (hU : ∀ i, i < N → U' i → U i) : Clear T U' N' ss :=
  ⟨h.1, fun r hr => ⟨Nat.lt_of_lt_of_le (h.2 r hr).1 hN, fun hu => (h.2 r hr).2 (hU _ (h.2 r hr).1 hu)⟩⟩

/-- The at-rules of a transformed stylesheet are its own, or those of the replacements. -/
theorem transform_from {fo : FloatOps} {o : TOpts} {repl : List (AtId × Stylesheet)} {c : Prop} [Decidable c] {n : Nat}
    {ss ss' : Stylesheet} {s : TSt} (h : transform fo o (if c then some repl else none) n ss = .ok ss' s) {Q : Nat → Prop}
    (hss : ∀ r, Node.at r ∈ ss.nodes → Q r.src) (hr : ∀ x ∈ repl, ∀ r, Node.at r ∈ x.2.nodes → Q r.src) :
    ∀ r, Node.at r ∈ ss'.nodes → Q r.src := by
  unfold transform transformNodes at h
  cases e : mapConcat (transformNode fo o (if c then some repl else none) n) ss.nodes (TSt.init o (if c then some repl else none)) with
  | ok ns s1 =>
    rw [e] at h
    cases h
    refine mapConcat_from (fun x hx s s' out hx' => transformNode_from ?_ ?_ hx') e
    · intro m hm kv hkv a ha
      split at hm
      · cases hm; exact hr kv hkv a ha
      · cases hm
    · rintro a rfl
      exact hss a hx
  | crash => rw [e] at h; cases h
  | timeout => rw [e] at h; cases h

theorem parse_all_id {n : Nat} {c : Bytes} (i : Nat)
    (h : (∃ ss l, parse n c = .ok ss l) ∨ ∃ e l, parse n c = .error e l) :
    (∃ ss l, parse n c i = .ok ss l) ∨ ∃ e l, parse n c i = .error e l := by
  rw [parse_id]
  rcases h with ⟨ss, l, h⟩ | ⟨e, l, h⟩ <;> rw [show parse n c 0 = _ from h]
  · exact .inl ⟨_, _, rfl⟩
  · exact .inr ⟨_, _, rfl⟩

/-- All compilations so far are clear of `U`. -/
def AllC (T : Stylesheet → Prop) (U : Nat → Prop) (sh : Shared) : Prop := AllT (Clear T U sh.parses.length) sh

/-- What holds at the end. -/
def EndC (T : Stylesheet → Prop) (U : Nat → Prop) (sh sh' : Shared) : Prop := AllC T U sh' ∧ sh.parses.length ≤ sh'.parses.length

/-- `rec` ends for all ranks below `N`. -/
def Ends (env : CEnv) (rank : Bytes → Nat) (T : Stylesheet → Prop) (N : Nat)
    (rec : Bool → Shared → Bytes → Option (Shared × Option Stylesheet)) : Prop :=
  ∀ {R out sh path}, Tab env sh → Fresh env rank R sh → Asked env path →
    (out = true → ∀ {a}, env.abs path = some a → ToPrint env a) → (∀ {a}, env.abs path = some a → rank a < R) →
    (∀ {a}, env.abs path = some a → rank a < N) → ∀ {U : Nat → Prop}, (∀ i, U i → i < sh.parses.length) → AllC T U sh →
    ∃ sh' res, rec out sh path = some (sh', res) ∧ EndC T U sh sh' ∧ ∀ ss, res = some ss → Clear T U sh'.parses.length ss

theorem seqImports_ends {env : CEnv} {rank : Bytes → Nat} {T : Stylesheet → Prop} {N R : Nat} (hRN : R ≤ N)
    {rec : Bool → Shared → Bytes → Option (Shared × Option Stylesheet)} (hrec : FileSpec env rank R rec)
    (hend : Ends env rank T N rec) {dir : Bytes} {U : Nat → Prop} {id : Nat} :
    ∀ {imps : List ImportSpec} {sh : Shared} {repl : List (AtId × Stylesheet)}, Tab env sh → Fresh env rank R sh →
      (∀ i, U i → i < sh.parses.length) → AllC T U sh → (∀ x ∈ repl, x.1.src = id ∧ Clear T U sh.parses.length x.2) →
      (∀ imp ∈ imps, ImportOf env rank R dir imp) → (∀ imp ∈ imps, imp.rule.src = id) →
      ∃ sh' repl', seqImports env (rec (decide (env.opts.importRules = .follow))) dir imps sh repl = some (sh', repl') ∧
        EndC T U sh sh' ∧ ∀ x ∈ repl', x.1.src = id ∧ Clear T U sh'.parses.length x.2 := by
  intro imps
  induction imps with
  | nil => intro sh repl _ _ _ ha hr _ _; exact ⟨sh, repl, rfl, ⟨ha, Nat.le_refl _⟩, hr⟩
  | cons imp imps ih =>
    intro sh repl ht hf hU ha hr hi hk
    have hk' : ∀ x ∈ imps, x.rule.src = id := fun x hx => hk x (List.mem_cons_of_mem _ hx)
    have hi' : ∀ x ∈ imps, ImportOf env rank R dir x := fun x hx => hi x (List.mem_cons_of_mem _ hx)
    unfold seqImports
    cases hx : env.resolve imp.value dir with
    | none => exact ih (ht.addError _) (hf.same rfl rfl rfl) hU ha hr hi' hk'
    | some rel =>
      obtain ⟨hi1, hi2⟩ := hi imp List.mem_cons_self hx
      have hout : decide (env.opts.importRules = .follow) = true → ∀ {a}, env.abs rel = some a → ToPrint env a :=
        fun hfo {a} ha => .inr ⟨of_decide_eq_true hfo, rel, hi1, ha⟩
      obtain ⟨sh1, res, h1, h2, h3⟩ := hend ht hf hi1.asked hout hi2
        (fun {a} h => Nat.lt_of_lt_of_le (hi2 h) hRN) hU ha
      have ho := hrec ht hf hi1.asked hout hi2 h1
      dsimp only
      rw [h1]
      have hU1 : ∀ i, U i → i < sh1.parses.length := fun i h => Nat.lt_of_lt_of_le (hU i h) h2.2
      have hr1 : ∀ x ∈ repl, x.1.src = id ∧ Clear T U sh1.parses.length x.2 := fun x hx => ⟨(hr x hx).1, (hr x hx).2.mono h2.2 fun _ _ h => h⟩
      suffices h : ∀ repl1 : List (AtId × Stylesheet), (∀ x ∈ repl1, x.1.src = id ∧ Clear T U sh1.parses.length x.2) →
          ∃ sh' repl', seqImports env (rec (decide (env.opts.importRules = .follow))) dir imps sh1 repl1 = some (sh', repl') ∧
            EndC T U sh sh' ∧ ∀ x ∈ repl', x.1.src = id ∧ Clear T U sh'.parses.length x.2 by
        cases res with
        | none => exact h repl hr1
        | some ss =>
          refine h _ ?_
          intro x hx
          rcases List.mem_cons.1 hx with e | hx
          · subst e; exact ⟨hk imp List.mem_cons_self, h3 ss rfl⟩
          · exact hr1 x hx
      intro repl1 hr2
      obtain ⟨sh', repl', h4, h5, h6⟩ := ih ho.tab ho.fresh hU1 h2.1 hr2 hi' hk'
      exact ⟨sh', repl', h4, ⟨h5.1, Nat.le_trans h2.2 h5.2⟩, h6⟩

theorem seqParsed_ends {env : CEnv} {rank : Bytes → Nat} (hac : Acyclic env rank) {T : Stylesheet → Prop}
    (htm : Tame env T) {N R : Nat} {rec : Bool → Shared → Bytes → Option (Shared × Option Stylesheet)}
    (hrec : ∀ {R'}, FileSpec env rank R' rec) (hend : Ends env rank T N rec)
    {sh : Shared} {i : Nat} {s : Source} {path : Bytes} (ht : Tab env sh)
    (hf : Fresh env rank R sh) (hs : sh.heap[i]? = some s) (hR : rank s.path < R) (hN : rank s.path ≤ N)
    (hask : Asked env path) (hab : env.abs path = some s.path) {U : Nat → Prop} (hU : ∀ i, U i → i < sh.parses.length)
    (hall : AllC T U sh) :
    ∃ sh' res, seqParsed env (rec (decide (env.opts.importRules = .follow))) sh i = some (sh', res) ∧ EndC T U sh sh' ∧
      ∀ ss, res = some ss → Clear T U sh'.parses.length ss := by
  obtain ⟨hsrc, hidx, hread⟩ := ht.heap hs
  unfold seqParsed
  cases ha : lookupMap sh.asts i with
  | some ss => exact ⟨sh, some ss, rfl, ⟨hall, Nat.le_refl _⟩, fun x hx => by cases hx; exact hall ha⟩
  | none =>
    rw [hidx]
    dsimp only [Option.bind]
    rw [hs]
    dsimp only [Option.bind]
    rcases parse_all_id sh.parses.length (htm.parse hread) with ⟨ss, lines, hp⟩ | ⟨e, lines, hp⟩
    · rw [hp]
      dsimp only
      obtain ⟨ss0, hp0, hss0⟩ := parse_ok_id hp
      obtain ⟨hl, hnp⟩ := hf hs hR ha ⟨ss0, lines, hp0⟩
      have ht1 : Tab env (sh.parsed i s lines) := ht.parsed' hs ha fun hm => (hnp hm).elim
      have hlt : i < sh.heap.length := (List.getElem?_eq_some_iff.1 hs).1
      have hfr : Fresh env rank (rank s.path) (sh.parsed i s lines) := by
        intro j x hj hxr hja hxp
        have hij : i ≠ j := by
          rintro rfl
          unfold Shared.parsed at hj
          dsimp only at hj
          rw [List.getElem?_set_self hlt] at hj
          cases hj
          exact Nat.lt_irrefl _ hxr
        unfold Shared.parsed at hj
        dsimp only at hj
        rw [List.getElem?_set_ne hij] at hj
        obtain ⟨h3, h4⟩ := hf hj (Nat.lt_trans hxr hR) hja hxp
        refine ⟨h3, fun hm => ?_⟩
        rcases List.mem_cons.1 hm with h5 | h5
        · have := (ht.heap hj).1
          rw [h5, hsrc] at this
          cases this
          exact hij rfl
        · exact h4 h5
      have himp : ∀ imp ∈ ss.imports, ImportOf env rank (rank s.path) (dirOf s.path) imp := by
        intro imp him rel hrel
        refine ⟨.imp hask hab hread hp him hrel, fun {b} hb => ?_⟩
        rw [hss0] at him
        obtain ⟨imp0, h3, h4⟩ := List.mem_map.1 him
        refine hac hask hab hread hp0 h3 (rel := rel) ?_ hb
        rw [← hrel, ← h4]
        rfl
      have hlen : (sh.parsed i s lines).parses.length = sh.parses.length + 1 := rfl
      obtain ⟨sh2, repl, h1, h2, h3⟩ := seqImports_ends hN hrec hend ht1 hfr (U := fun j => U j ∨ j = sh.parses.length)
        (id := sh.parses.length) (repl := [])
        (by
          rintro j (hj | rfl)
          · have := hU j hj; omega
          · omega)
        (by
          intro j ss hj
          refine (hall hj).mono (Nat.le_succ _) fun k hk => ?_
          rintro (h | rfl)
          · exact h
          · exact absurd hk (Nat.lt_irrefl _))
        (fun _ h => by cases h) himp (parse_src hp).2
      obtain ⟨ss', t, h4, h5⟩ := htm.transform hread hp fun x hx =>
        ⟨(h3 x hx).2.1, (h3 x hx).1, fun r hr he => ((h3 x hx).2.2 r hr).2 (.inr he)⟩
      have hlen2 : sh.parses.length < sh2.parses.length := by have := h2.2; omega
      have h6 : Clear T U sh2.parses.length ss' := by
        refine ⟨h5, transform_from (Q := fun j => j < sh2.parses.length ∧ ¬ U j) h4 (fun r hr => ?_) ?_⟩
        · rw [(parse_src hp).1 r hr]
          exact ⟨hlen2, fun h => absurd (hU _ h) (Nat.lt_irrefl _)⟩
        · exact fun x hx r hr => ⟨((h3 x hx).2.2 r hr).1, fun h => ((h3 x hx).2.2 r hr).2 (.inl h)⟩
      unfold Shared.parsed at h1
      rw [h1]
      dsimp only [Option.bind]
      rw [h4]
      refine ⟨_, _, rfl, ⟨?_, Nat.le_of_lt hlen2⟩, fun x hx => by cases hx; exact h6⟩
      intro j x hj
      dsimp only at hj
      by_cases hij : i = j
      · subst hij; rw [lookupMap_cons_eq] at hj; cases hj; exact h6
      · rw [lookupMap_cons_ne hij] at hj; exact (h2.1 hj).mono (Nat.le_refl _) fun _ _ h => .inl h
    · rw [hp]
      refine ⟨_, none, rfl, ⟨?_, Nat.le_succ _⟩, fun _ h => by cases h⟩
      intro j ss hj
      exact (hall hj).mono (Nat.le_succ _) fun _ _ h => h

theorem seqFile_ends {env : CEnv} {rank : Bytes → Nat} (hac : Acyclic env rank) {T : Stylesheet → Prop}
    (htm : Tame env T) : ∀ {n}, Ends env rank T n (seqFile env (n + 1)) := by
  intro n
  induction n with
  | zero =>
    intro R out sh path ht hf hask hout hR hN U hU hall
    unfold seqFile
    cases hab : env.abs path with
    | none => exact ⟨_, none, rfl, ⟨hall, Nat.le_refl _⟩, fun _ h => by cases h⟩
    | some a => exact absurd (hN hab) (Nat.not_lt_zero _)
  | succ n ih =>
    intro R out sh path ht hf hask hout hR hN U hU hall
    unfold seqFile
    cases hab : env.abs path with
    | none => exact ⟨_, none, rfl, ⟨hall, Nat.le_refl _⟩, fun _ h => by cases h⟩
    | some a =>
      have hRa := hR hab
      have hrest : ∀ {sh1 : Shared} {i : Nat} {s : Source}, Tab env sh1 → Fresh env rank R sh1 → AllC T U sh1 →
          sh1.parses = sh.parses → sh1.heap[i]? = some s → s.path = a →
          ∃ sh' res, seqParsed env (seqFile env (n + 1) (decide (env.opts.importRules = .follow)))
            (if out then { sh1 with outputs := i :: sh1.outputs } else sh1) i = some (sh', res) ∧ EndC T U sh sh' ∧
              ∀ ss, res = some ss → Clear T U sh'.parses.length ss := by
        intro sh1 i s ht1 hf1 ha1 hps hs hsa
        generalize hsh2 : (if out then ({ sh1 with outputs := i :: sh1.outputs } : Shared) else sh1) = sh2
        have hall : Tab env sh2 ∧ Fresh env rank R sh2 ∧ AllC T U sh2 ∧ sh2.heap = sh1.heap ∧ sh2.parses = sh.parses := by
          rw [← hsh2]
          cases out with
          | false => exact ⟨ht1, hf1, ha1, rfl, hps⟩
          | true =>
            refine ⟨ht1.same rfl rfl rfl rfl rfl rfl (fun _ => id) ?_ fun _ => List.mem_cons_of_mem _, hf1.same rfl rfl rfl, ha1, rfl, hps⟩
            intro j hj
            rcases List.mem_cons.1 hj with h1 | h1
            · subst h1
              exact .inr ⟨s, hs, hsa ▸ hout rfl hab⟩
            · exact .inl h1
        obtain ⟨ht2, hf2, ha2, hh2, hp2⟩ := hall
        have hs2 : sh2.heap[i]? = some s := by rw [hh2]; exact hs
        obtain ⟨sh', res, h1, h2, h3⟩ := seqParsed_ends hac htm (rec := seqFile env (n + 1)) (fun {R'} => seqFile_tab hac) ih ht2 hf2 hs2 (hsa ▸ hRa)
          (by have := hN hab; rw [hsa]; omega) hask (hsa ▸ hab) (U := U) (by rw [hp2]; exact hU) ha2
        exact ⟨sh', res, h1, ⟨h2.1, by rw [← hp2]; exact h2.2⟩, h3⟩
      dsimp only
      unfold seqAdd
      cases hl : lookupMap sh.sources a with
      | some i =>
        obtain ⟨s, h1, h2⟩ := ht.srcs hl
        exact hrest ht hf hall rfl h1 h2
      | none =>
        cases hr : env.read a with
        | none => exact ⟨_, none, rfl, ⟨hall, Nat.le_refl _⟩, fun _ h => by cases h⟩
        | some c =>
          have hnew : (sh.withSource a c).heap[sh.nextIndex]? = some ⟨a, c, []⟩ := by
            rw [ht.next]; exact List.getElem?_concat_length
          exact hrest (ht.withSource hl hr) (hf.withSource ht hl) (show AllC T U (sh.withSource a c) from hall) rfl hnew rfl

theorem seqEntries_ends {env : CEnv} {rank : Bytes → Nat} (hac : Acyclic env rank) {T : Stylesheet → Prop}
    (htm : Tame env T) {R : Nat} : ∀ {es : List Bytes} {sh : Shared}, (∀ e ∈ es, e ∈ env.entries) →
      (∀ e ∈ es, ∀ {a}, env.abs e = some a → rank a < R) → Tab env sh → Fresh env rank R sh → AllC T (fun _ => False) sh →
      ∃ sh', seqEntries env (R + 1) es sh = some sh' ∧ AllC T (fun _ => False) sh' := by
  intro es
  induction es with
  | nil => intro sh _ _ _ _ h; exact ⟨sh, rfl, h⟩
  | cons e es ih =>
    intro sh hes hR ht hf hall
    have hme := hes e List.mem_cons_self
    have hout : true = true → ∀ {a}, env.abs e = some a → ToPrint env a := fun _ {a} ha => .inl ⟨e, hme, ha⟩
    obtain ⟨sh1, res, h1, h2, -⟩ := seqFile_ends hac htm ht hf (.entry hme) hout (hR e List.mem_cons_self)
      (hR e List.mem_cons_self) (fun _ h => h.elim) hall
    have ho := seqFile_tab hac ht hf (.entry hme) hout (hR e List.mem_cons_self) h1
    unfold seqEntries
    rw [h1]
    exact ih (fun x hx => hes x (List.mem_cons_of_mem _ hx)) (fun x hx => hR x (List.mem_cons_of_mem _ hx)) ho.tab ho.fresh h2.1

theorem seqPrint_ends {env : CEnv} {T : Stylesheet → Prop} (htm : Tame env T) : ∀ {is : List Nat} {sh : Shared}, AllT T sh →
    ∃ sh', seqPrint is sh = some sh' := by
  intro is
  induction is with
  | nil => intro sh _; exact ⟨sh, rfl⟩
  | cons i is ih =>
    intro sh hall
    unfold seqPrint
    cases hs : (lookupMap sh.byIndex i).bind (sh.heap[·]?) with
    | none => exact ih hall
    | some source =>
      cases ha : lookupMap sh.asts i with
      | none => exact ih hall
      | some ss =>
        dsimp only
        cases hp : print (some source) ss with
        | ok out => exact ih (sh := { sh with files := (source.path, out) :: sh.files }) hall
        | error => exact ih (sh := sh.addError _) hall
        | panic => exact (htm.print (hall ha) hp).elim

/-- A sequential compilation ends. -/
theorem seqCompile_ends {env : CEnv} {rank : Bytes → Nat} (hac : Acyclic env rank) {T : Stylesheet → Prop}
    (htm : Tame env T) : ∃ n sh, seqCompile env n = some sh := by
  obtain ⟨R, hR⟩ := entries_rank (env := env) rank env.entries
  obtain ⟨sh1, h1, h2⟩ := seqEntries_ends hac htm (fun _ => id) hR Tab.init Fresh.init
    (show AllC T (fun _ => False) Shared.init from fun h => by cases h)
  obtain ⟨sh2, h3⟩ := seqPrint_ends htm (is := sh1.outputs.eraseDups) fun h => (h2 h).1
  exact ⟨R + 1, sh2, by unfold seqCompile; rw [h1]; exact h3⟩

end Cssc
