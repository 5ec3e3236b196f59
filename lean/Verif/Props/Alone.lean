import Verif.Proofs.Renumber
import Verif.Props.Frame
import Verif.Props.Schedules

/-!
# C77: what becomes of an entry does not depend on the other entries
-/

namespace Cssc

/-- The compilation of the entry `e` only. -/
def CEnv.only (env : CEnv) (e : Bytes) : CEnv := { env with entries := [e] }

theorem Asked.of_only {env : CEnv} {e p : Bytes} (he : e ∈ env.entries) (h : Asked (env.only e) p) : Asked env p := by
  induction h with
  | entry h => cases List.mem_singleton.1 h; exact .entry he
  | imp _ h1 h2 h3 h4 h5 ih => exact .imp ih h1 h2 h3 h4 h5

theorem SameAsked.asked {env env' : CEnv} (h : SameAsked env env') {p : Bytes} (hp : Asked env p) : Asked env' p := by
  induction hp with
  | entry he => exact .entry (h.entries ▸ he)
  | @imp q a c id ss lines imp r hq ha hr hpar him hres ih =>
    refine .imp ih ((h.abs q).trans ha) ((h.read hq ha).trans hr) (h.fuel.symm ▸ hpar) him ?_
    rw [h.resolve hq ha hr hpar him]
    exact hres

/-! ### Numbers -/

theorem forall2_append {α β : Type} {R : α → β → Prop} {a c : List α} {b d : List β} (h : List.Forall₂ R a b) (g : List.Forall₂ R c d) :
    List.Forall₂ R (a ++ c) (b ++ d) := by
  induction h with
  | nil => exact g
  | cons h1 _ ih => exact .cons h1 ih

/-- A replacement is the compilation of the file that the import is resolved to. -/
theorem replOf_entry {env : CEnv} {tab : Bytes → Option Stylesheet} {dir : Bytes} {imps : List ImportSpec} {kv : AtId × Stylesheet}
    (h : kv ∈ replOf env tab dir imps) : ∃ imp rel b, imp ∈ imps ∧ kv.1 = imp.rule ∧ env.resolve imp.value dir = some rel ∧
      env.abs rel = some b ∧ tab b = some kv.2 := by
  unfold replOf at h
  obtain ⟨imp, h1, h2⟩ := List.mem_filterMap.1 (List.mem_reverse.1 h)
  cases hr : env.resolve imp.value dir with
  | none => rw [hr] at h2; cases h2
  | some rel =>
    rw [hr, Option.bind_some] at h2
    cases ha : env.abs rel with
    | none => rw [ha] at h2; cases h2
    | some b =>
      rw [ha, Option.bind_some] at h2
      cases ht : tab b with
      | none => rw [ht] at h2; cases h2
      | some ss =>
        rw [ht] at h2
        cases h2
        exact ⟨imp, rel, b, h1, rfl, hr, ha, ht⟩

/-- The rank of an import, when the importing file was parsed with any number. -/
theorem Acyclic.lt {env : CEnv} {rank : Bytes → Nat} (hac : Acyclic env rank) {p a c : Bytes} {id : Nat} {ss : Stylesheet}
    {lines : List Nat} {imp : ImportSpec} {rel b : Bytes} (hp : Asked env p) (ha : env.abs p = some a) (hr : env.read a = some c)
    (hpar : parse env.fuel c id = .ok ss lines) (him : imp ∈ ss.imports) (hres : env.resolve imp.value (dirOf a) = some rel)
    (hb : env.abs rel = some b) : rank b < rank a := by
  obtain ⟨ss0, h0, rfl⟩ := parse_ok_id hpar
  obtain ⟨imp0, h3, rfl⟩ := List.mem_map.1 him
  exact hac hp ha hr h0 h3 hres hb

/-- The at-rules of a compilation come from parses of the file itself and of files of lower rank. -/
theorem SeqDone.numbers {env : CEnv} {rank : Bytes → Nat} (hac : Acyclic env rank) {sh : Shared} (hd : SeqDone env sh sh.tab) :
    ∀ {R : Nat} {p a : Bytes} {ss' : Stylesheet}, rank a < R → Asked env p → env.abs p = some a → sh.tab a = some ss' →
      ∀ x, Node.at x ∈ ss'.nodes → ∃ b, sh.NumberOf x.src b ∧ rank b ≤ rank a := by
  intro R
  induction R with
  | zero => intro p a ss' h; omega
  | succ R ih =>
    intro p a ss' hR hp ha ht
    obtain ⟨c, id, ss, lines, t, h1, h2, h3, h4⟩ := hd.numbered ht
    unfold transform at h3
    split at h3
    · rename_i nodes s hn
      cases h3
      refine mapConcat_from (P := fun x => ∃ b, sh.NumberOf x.src b ∧ rank b ≤ rank a) (fun x hx s s' out e => ?_) hn
      refine transformNode_from (Q := fun n => ∃ b, sh.NumberOf n b ∧ rank b ≤ rank a) ?_ ?_ e
      · intro m hm kv hkv y hy
        split at hm
        · cases hm
          obtain ⟨imp, rel, b, h5, -, h6, h7, h8⟩ := replOf_entry hkv
          have hlt := hac.lt hp ha h1 h2 h5 h6 h7
          obtain ⟨b', h9, h10⟩ := ih (by omega) (.imp hp ha h1 h2 h5 h6) h7 h8 y hy
          exact ⟨b', h9, by omega⟩
        · cases hm
      · rintro y rfl
        rw [(parse_src h2).1 y hx]
        exact ⟨a, h4, Nat.le_refl _⟩
    · cases h3
    · cases h3

/-! ### Two compilations -/

/-- Replacements that correspond. -/
def SameKv (id id' : Nat) (kv kv' : AtId × Stylesheet) : Prop :=
  kv.1.src = id ∧ kv'.1.src = id' ∧ kv.1.start = kv'.1.start ∧ plainIds kv.2.nodes = plainIds kv'.2.nodes

theorem SameKv.lookup {id id' : Nat} {m m' : List (AtId × Stylesheet)} (h : List.Forall₂ (SameKv id id') m m') (st : Nat) :
    (lookupImport m ⟨id, st⟩ = none ∧ lookupImport m' ⟨id', st⟩ = none) ∨
      ∃ ss ss', lookupImport m ⟨id, st⟩ = some ss ∧ lookupImport m' ⟨id', st⟩ = some ss' ∧ plainIds ss.nodes = plainIds ss'.nodes := by
  induction h with
  | nil => exact .inl ⟨rfl, rfl⟩
  | @cons x y m m' h1 _ ih =>
    obtain ⟨⟨i, st1⟩, ss⟩ := x
    obtain ⟨⟨j, st2⟩, ss'⟩ := y
    obtain ⟨h2, h3, h4, h5⟩ := h1
    dsimp only at h2 h3 h4 h5
    subst h2 h3 h4
    unfold lookupImport
    by_cases he : st1 = st
    · subst he
      rw [if_pos rfl, if_pos rfl]
      exact .inr ⟨ss, ss', rfl, rfl, h5⟩
    · rw [if_neg (fun h => he (by cases h; rfl)), if_neg (fun h => he (by cases h; rfl))]
      exact ih

theorem lookup_other {id : Nat} {m : List (AtId × Stylesheet)} (h : ∀ kv ∈ m, kv.1.src = id) {k : AtId} (hk : k.src ≠ id) :
    lookupImport m k = none := by
  cases hl : lookupImport m k with
  | none => rfl
  | some ss => exact (hk (h _ (lookupImport_key hl))).elim

theorem replOf_src {env : CEnv} {tab : Bytes → Option Stylesheet} {dir : Bytes} {imps : List ImportSpec} {id : Nat}
    (h : ∀ imp ∈ imps, imp.rule.src = id) : ∀ kv ∈ replOf env tab dir imps, kv.1.src = id := by
  intro kv hkv
  obtain ⟨imp, _, _, h1, h2, _⟩ := replOf_entry hkv
  rw [h2]
  exact h imp h1

/-- Corresponding lists. -/
theorem forall2_of_plain {R : Node → Node → Prop} : ∀ {xs ys : List Node}, plainIds xs = plainIds ys →
    (∀ x ∈ xs, ∀ y ∈ ys, x.setId 0 = y.setId 0 → R x y) → List.Forall₂ R xs ys
  | [], [], _, _ => .nil
  | [], _ :: _, h, _ => by cases h
  | _ :: _, [], h, _ => by cases h
  | x :: xs, y :: ys, h, hR => by
    injection h with h1 h2
    exact .cons (hR x List.mem_cons_self y List.mem_cons_self h1)
      (forall2_of_plain h2 fun a ha b hb => hR a (List.mem_cons_of_mem _ ha) b (List.mem_cons_of_mem _ hb))

/-- What is compiled for a file is the same up to the numbers of the parses. -/
theorem same_compiled {env env' : CEnv} {e : Bytes} (h : SameAsked (env.only e) (env'.only e)) (he : e ∈ env.entries)
    (he' : e ∈ env'.entries) {rank rank' : Bytes → Nat} (hac : Acyclic env rank) (hac' : Acyclic env' rank') {sh sh' : Shared}
    (hd : SeqDone env sh sh.tab) (hd' : SeqDone env' sh' sh'.tab) :
    ∀ {R : Nat} {p a : Bytes}, rank a < R → Asked (env.only e) p → env.abs p = some a →
      (sh.tab a = none ∧ sh'.tab a = none) ∨
        ∃ (ss ss' : Stylesheet) (c : Bytes) (id id' : Nat) (s0 : Stylesheet) (lines : List Nat), sh.tab a = some ss ∧ sh'.tab a = some ss' ∧ plainIds ss.nodes = plainIds ss'.nodes ∧
          env.read a = some c ∧ env'.read a = some c ∧ parse env.fuel c id = .ok (s0.setId id) lines ∧
          parse env'.fuel c id' = .ok (s0.setId id') lines := by
  have hopts : env'.opts = env.opts := h.opts
  have hfo : env'.fo = env.fo := h.fo
  have hfuel : env'.fuel = env.fuel := h.fuel
  have habs : ∀ p, env'.abs p = env.abs p := h.abs
  intro R
  induction R with
  | zero => intro p a hR; omega
  | succ R ih =>
    intro p a hR hp ha
    have hp1 := hp.of_only he
    have hp' := h.asked hp
    have hp1' := hp'.of_only he'
    have ha' : env'.abs p = some a := (habs p).trans ha
    have hread : env'.read a = env.read a := h.read hp ha
    cases ht : sh.tab a with
    | none =>
      refine .inl ⟨rfl, ?_⟩
      cases ht' : sh'.tab a with
      | none => rfl
      | some ss' =>
        obtain ⟨c, id', s', lines, t, h1, h2, -⟩ := hd'.numbered ht'
        obtain ⟨s0, h3, -⟩ := parse_ok_id h2
        rw [hread] at h1
        rw [hfuel] at h3
        rcases hd.asked hp1 with ⟨er, -, hf⟩ | ⟨b, ss, h4, h5⟩
        · exact (failsWith_ok hf ha ⟨c, s0, lines, h1, h3⟩).elim
        · rw [ha] at h4; cases h4; rw [ht] at h5; cases h5
    | some ss1 =>
      right
      obtain ⟨c, id, ss, lines, t, h1, h2, h3, h4⟩ := hd.numbered ht
      obtain ⟨s0, h5, rfl⟩ := parse_ok_id h2
      have h1' : env'.read a = some c := hread.trans h1
      have ht' : ∃ ss2, sh'.tab a = some ss2 := by
        rcases hd'.asked hp1' with ⟨er, -, hf⟩ | ⟨b, ss, h6, h7⟩
        · exact (failsWith_ok hf ha' ⟨c, s0, lines, h1', hfuel ▸ h5⟩).elim
        · rw [ha'] at h6; cases h6; exact ⟨_, h7⟩
      obtain ⟨ss2, ht'⟩ := ht'
      obtain ⟨c', id', s', lines', t', k1, k2, k3, k4⟩ := hd'.numbered ht'
      rw [h1'] at k1
      cases k1
      obtain ⟨s1, k5, rfl⟩ := parse_ok_id k2
      rw [hfuel, h5] at k5
      cases k5
      refine ⟨ss1, ss2, c, id, id', s0, lines, rfl, ht', ?_, h1, h1', h2, k2⟩
      -- the transformations
      have hnodes : ∀ {repl repl' : Replacements}, TSt.init env.opts repl = TSt.init env.opts repl' →
          (∀ x y, x ∈ (s0.setId id).nodes → y ∈ (s0.setId id').nodes → x.setId 0 = y.setId 0 →
            SameIds (transformNode env.fo env.opts repl env.fuel x) (transformNode env.fo env.opts repl' env.fuel y)) →
          transform env.fo env.opts repl env.fuel (s0.setId id) = .ok ss1 t →
          transform env.fo env.opts repl' env.fuel (s0.setId id') = .ok ss2 t' → plainIds ss1.nodes = plainIds ss2.nodes := by
        intro repl repl' hi hn e1 e2
        have hall : List.Forall₂ (fun x y => SameIds (transformNode env.fo env.opts repl env.fuel x)
            (transformNode env.fo env.opts repl' env.fuel y)) (s0.setId id).nodes (s0.setId id').nodes := by
          refine forall2_of_plain ?_ fun x hx y hy => hn x y hx hy
          unfold plainIds Stylesheet.setId
          simp [setId_setId]
        have := SameIds.mapConcat (R := fun x y => SameIds (transformNode env.fo env.opts repl env.fuel x)
            (transformNode env.fo env.opts repl' env.fuel y)) (fun h => h) hall (TSt.init env.opts repl)
        unfold transform transformNodes at e1 e2
        rw [← hi] at e2
        revert this e1 e2
        generalize mapConcat (transformNode env.fo env.opts repl env.fuel) (s0.setId id).nodes (TSt.init env.opts repl) = r1
        generalize mapConcat (transformNode env.fo env.opts repl' env.fuel) (s0.setId id').nodes (TSt.init env.opts repl) = r2
        intro e1 e2 e0
        cases r1 with
        | crash => cases e1
        | timeout => cases e1
        | ok n1 u1 =>
          cases r2 with
          | crash => cases e2
          | timeout => cases e2
          | ok n2 u2 =>
            cases e1
            cases e2
            injection e0
      rw [hopts, hfo, hfuel] at k3
      by_cases hinl : env.opts.importRules = .inline
      · rw [if_pos hinl] at h3 k3
        have hsrc := (parse_src h2).2
        have hsrc' := (parse_src k2).2
        have hown := (parse_src h2).1
        have hown' := (parse_src k2).1
        -- the replacements correspond
        have hkv : ∀ imps : List ImportSpec, (∀ imp ∈ imps, imp ∈ s0.imports) →
            List.Forall₂ (SameKv id id') (replOf env sh.tab (dirOf a) (imps.map (ImportSpec.setId id)))
              (replOf env' sh'.tab (dirOf a) (imps.map (ImportSpec.setId id'))) := by
          intro imps
          induction imps with
          | nil => exact fun _ => .nil
          | cons imp imps ihi =>
            intro hmem
            rw [List.map_cons, List.map_cons, replOf_cons, replOf_cons (env := env')]
            refine forall2_append (ihi fun x hx => hmem x (List.mem_cons_of_mem _ hx)) ?_
            have him : imp.setId id ∈ (s0.setId id).imports := List.mem_map_of_mem (hmem imp List.mem_cons_self)
            have hres : env'.resolve imp.value (dirOf a) = env.resolve imp.value (dirOf a) :=
              h.resolve (imp := imp.setId id) hp ha h1 h2 him
            unfold replOf
            rw [List.filterMap_cons, List.filterMap_cons]
            rw [show (imp.setId id).value = imp.value from rfl, show (imp.setId id').value = imp.value from rfl, hres]
            cases hr : env.resolve imp.value (dirOf a) with
            | none => exact .nil
            | some rel =>
              rw [Option.bind_some, Option.bind_some, habs]
              cases hb : env.abs rel with
              | none => exact .nil
              | some b =>
                rw [Option.bind_some, Option.bind_some]
                have hlt := hac.lt hp1 ha h1 h2 him hr hb
                rcases ih (by omega) (.imp hp ha h1 h2 him hr) hb with ⟨g1, g2⟩ | ⟨t1, t2, _, _, _, _, _, g1, g2, g3, -⟩
                · rw [g1, g2]; exact .nil
                · rw [g1, g2]
                  exact .cons ⟨rfl, rfl, rfl, g3⟩ .nil
        have hkv := hkv s0.imports fun _ hx => hx
        refine hnodes (repl := some (replOf env sh.tab (dirOf a) (s0.setId id).imports))
          (repl' := some (replOf env' sh'.tab (dirOf a) (s0.setId id').imports)) rfl ?_ h3 k3
        intro x y hx hy hxy
        refine sameIds_node ⟨hxy, ?_⟩
        rintro x' y' rfl rfl
        have hx' : x'.id = ⟨id, x'.sp.start⟩ := by unfold AtRule.id; rw [hown x' hx]
        have hy' : y'.id = ⟨id', x'.sp.start⟩ := by
          obtain ⟨i, hi⟩ := setId_at hxy
          have h9 := hown' y' hy
          cases hi
          unfold AtRule.id
          rw [h9]
        rw [hx', hy']
        rcases SameKv.lookup hkv x'.sp.start with h9 | ⟨t1, t2, h9, h10, h11⟩
        · exact .inl h9
        · refine .inr ⟨t1, t2, h9, h10, forall2_of_plain h11 fun u hu v hv huv => ⟨huv, ?_⟩⟩
          rintro u' v' rfl rfl
          constructor
          · refine lookup_other (replOf_src hsrc) ?_
            obtain ⟨imp, rel, b, g1, -, g2, g3, g4⟩ := replOf_entry (lookupImport_key h9)
            have hlt := hac.lt hp1 ha h1 h2 g1 g2 g3
            obtain ⟨b', g5, g6⟩ := hd.numbers hac (R := rank b + 1) (by omega) (.imp hp1 ha h1 h2 g1 g2) g3 g4 u' hu
            intro hid
            rw [show u'.src = id from hid] at g5
            have : some a = some b' := h4.symm.trans g5
            cases this
            omega
          · refine lookup_other (replOf_src hsrc') ?_
            obtain ⟨imp, rel, b, g1, -, g2, g3, g4⟩ := replOf_entry (lookupImport_key h10)
            have hlt := hac'.lt hp1' ha' h1' k2 g1 g2 g3
            obtain ⟨b', g5, g6⟩ := hd'.numbers hac' (R := rank' b + 1) (by omega) (.imp hp1' ha' h1' k2 g1 g2) g3 g4 v' hv
            intro hid
            rw [show v'.src = id' from hid] at g5
            have : some a = some b' := k4.symm.trans g5
            cases this
            omega
      · rw [if_neg hinl] at h3 k3
        exact hnodes rfl (fun x y _ _ hxy => sameIds_none hxy) h3 k3

/-- **C77** for sequential compilations: what is written for an entry, or a file it imports, depends on nothing but
the entry and the files that are looked at for its sake.  Other entries, their order and other files do not matter. -/
theorem alone_partial {env env' : CEnv} {e : Bytes} (h : SameAsked (env.only e) (env'.only e)) (he : e ∈ env.entries)
    (he' : e ∈ env'.entries) {rank rank' : Bytes → Nat} (hac : Acyclic env rank) (hac' : Acyclic env' rank') {n n' : Nat}
    {sh sh' : Shared} (hs : seqCompile env n = some sh) (hs' : seqCompile env' n' = some sh') {p a : Bytes}
    (hp : Asked (env.only e) p) (ha : env.abs p = some a) (ht : ToPrint env a) (ht' : ToPrint env' a) :
    lookupMap sh'.files a = lookupMap sh.files a := by
  have hd := seqCompile_done hac hs
  have hd' := seqCompile_done hac' hs'
  rcases same_compiled h he he' hac hac' hd hd' (R := rank a + 1) (by omega) hp ha with ⟨h1, h2⟩ |
    ⟨ss, ss', c, id, id', s0, lines, h1, h2, h3, h4, h5, h6, h7⟩
  · have hn : ∀ {env : CEnv} {sh : Shared}, SeqDone env sh sh.tab → sh.tab a = none → lookupMap sh.files a = none := by
      intro env sh hd hn
      cases hl : lookupMap sh.files a with
      | none => rfl
      | some out =>
        obtain ⟨-, ss, h3⟩ := hd.files hl
        rw [hn] at h3
        cases h3
    rw [hn hd h1, hn hd' h2]
  · have hpr : ∀ {env : CEnv} {sh : Shared} {ss : Stylesheet} {id : Nat}, SeqDone env sh sh.tab → ToPrint env a → sh.tab a = some ss →
        env.read a = some c → parse env.fuel c id = .ok (s0.setId id) lines → Printed ⟨a, c, lines⟩ ss sh := by
      intro env sh ss id hd ht h1 hr hpar
      obtain ⟨c2, lines2, log, ⟨id2, ss2, s, g1, g2, -⟩, -, g3⟩ := hd.compiled h1
      rw [hr] at g1
      cases g1
      obtain ⟨x, g4, -⟩ := parse_ok_id hpar
      obtain ⟨y, g5, -⟩ := parse_ok_id g2
      rw [g4] at g5
      cases g5
      exact g3 ht
    have q := hpr hd ht h1 h4 h6
    have q' := hpr hd' ht' h2 h5 h7
    unfold Printed at q q'
    rw [← print_plainIds _ h3] at q'
    rcases q with ⟨o1, q1, q2⟩ | ⟨q1, q2, -⟩
    · rcases q' with ⟨o2, q3, q4⟩ | ⟨q3, -⟩
      · rw [q1] at q3; cases q3; rw [q2, q4]
      · rw [q1] at q3; cases q3
    · rcases q' with ⟨o2, q3, -⟩ | ⟨-, q4, -⟩
      · rw [q1] at q3; cases q3
      · rw [q2, q4]

/-- Of the same files. -/
theorem SameAsked.entries_only (env : CEnv) (es : List Bytes) (e : Bytes) :
    SameAsked (env.only e) ({ env with entries := es }.only e) := ⟨rfl, rfl, rfl, rfl, rfl, fun _ _ => rfl, fun _ _ _ _ _ => rfl⟩

/-- The entry `e` alone. -/
theorem alone_entry_partial {env : CEnv} {e a : Bytes} (he : e ∈ env.entries) {rank : Bytes → Nat} (hac : Acyclic env rank) {n n' : Nat}
    {sh sh' : Shared} (hs : seqCompile env n = some sh) (hs' : seqCompile (env.only e) n' = some sh') (ha : env.abs e = some a) :
    lookupMap sh'.files a = lookupMap sh.files a := by
  have hac' : Acyclic (env.only e) rank := fun h1 h2 => hac (h1.of_only he) h2
  exact alone_partial (env' := env.only e) (SameAsked.entries_only env [e] e) he List.mem_cons_self hac hac' hs hs'
    (.entry List.mem_cons_self) ha (.inl ⟨e, he, ha⟩) (.inl ⟨e, List.mem_cons_self, ha⟩)

/-- C77 without assuming that the compilations return: they do, if there are no cycles and the files are legible. -/
theorem alone_returns_partial {env : CEnv} {e a : Bytes} (he : e ∈ env.entries) {rank : Bytes → Nat} (hac : Acyclic env rank)
    (hrd : Legible env) (ha : env.abs e = some a) : ∃ n sh n' sh', seqCompile env n = some sh ∧
      seqCompile (env.only e) n' = some sh' ∧ lookupMap sh'.files a = lookupMap sh.files a := by
  have hac' : Acyclic (env.only e) rank := fun h1 h2 => hac (h1.of_only he) h2
  have hrd' : Legible (env.only e) := ⟨hrd.fuel, hrd.parse, hrd.complete⟩
  obtain ⟨n, sh, h⟩ := seqCompile_ends hac hrd.tame
  obtain ⟨n', sh', h'⟩ := seqCompile_ends hac' hrd'.tame
  exact ⟨n, sh, n', sh', h, h', alone_entry_partial he hac h h' ha⟩

theorem Asked.some_entry {env : CEnv} {p : Bytes} (h : Asked env p) : ∃ e ∈ env.entries, Asked (env.only e) p := by
  induction h with
  | entry he => exact ⟨_, he, .entry List.mem_cons_self⟩
  | imp _ h1 h2 h3 h4 h5 ih =>
    obtain ⟨e, he, h⟩ := ih
    exact ⟨e, he, .imp h h1 h2 h3 h4 h5⟩

theorem Asked.entries {env : CEnv} {es : List Bytes} (hes : ∀ e, e ∈ es ↔ e ∈ env.entries) {p : Bytes} :
    Asked { env with entries := es } p ↔ Asked env p := by
  constructor
  · intro h
    induction h with
    | entry he => exact .entry ((hes _).1 he)
    | imp _ h1 h2 h3 h4 h5 ih => exact .imp ih h1 h2 h3 h4 h5
  · intro h
    induction h with
    | entry he => exact .entry ((hes _).2 he)
    | imp _ h1 h2 h3 h4 h5 ih => exact .imp (env := { env with entries := es }) ih h1 h2 h3 h4 h5

theorem ToPrint.entries {env : CEnv} {es : List Bytes} (hes : ∀ e, e ∈ es ↔ e ∈ env.entries) {a : Bytes} :
    ToPrint { env with entries := es } a ↔ ToPrint env a := by
  unfold ToPrint
  refine or_congr ⟨fun ⟨e, h1, h2⟩ => ⟨e, (hes e).1 h1, h2⟩, fun ⟨e, h1, h2⟩ => ⟨e, (hes e).2 h1, h2⟩⟩ (and_congr Iff.rfl ?_)
  refine ⟨fun ⟨p, ⟨h1, h2, h3, h4, h5, h6⟩, hp⟩ => ⟨p, ⟨(Asked.entries hes).1 h1, h2, h3, h4, h5, h6⟩, hp⟩, fun ⟨p, h, hp⟩ => ?_⟩
  obtain ⟨h1, h2, h3, h4, h5, h6⟩ := h
  exact ⟨p, .imp (env := { env with entries := es }) ((Asked.entries hes).2 h1) h2 h3 h4 h5 h6, hp⟩

/-- The order of the entries does not matter, nor how often they are given: the same files are written. -/
theorem entries_order_partial {env : CEnv} {es : List Bytes} (hes : ∀ e, e ∈ es ↔ e ∈ env.entries) {rank : Bytes → Nat}
    (hac : Acyclic env rank) {n n' : Nat} {sh sh' : Shared} (hs : seqCompile env n = some sh)
    (hs' : seqCompile { env with entries := es } n' = some sh') (a : Bytes) : lookupMap sh'.files a = lookupMap sh.files a := by
  have hac' : Acyclic { env with entries := es } rank := fun h1 h2 => hac ((Asked.entries hes).1 h1) h2
  by_cases ht : ToPrint env a
  · have hp : ∃ p, Asked env p ∧ env.abs p = some a := by
      rcases ht with ⟨e, h1, h2⟩ | ⟨-, p, h1, h2⟩
      · exact ⟨e, .entry h1, h2⟩
      · exact ⟨p, h1.asked, h2⟩
    obtain ⟨p, hp, ha⟩ := hp
    obtain ⟨e, he, hp⟩ := hp.some_entry
    exact alone_partial (env' := { env with entries := es }) (SameAsked.entries_only env es e) he ((hes e).2 he) hac hac' hs hs'
      hp ha ht ((ToPrint.entries hes).2 ht)
  · have h1 : lookupMap sh.files a = none := by
      cases hl : lookupMap sh.files a with
      | none => rfl
      | some out => exact (ht ((seqCompile_done hac hs).files hl).1).elim
    have h2 : lookupMap sh'.files a = none := by
      cases hl : lookupMap sh'.files a with
      | none => rfl
      | some out => exact (ht ((ToPrint.entries hes).1 ((seqCompile_done hac' hs').files hl).1)).elim
    rw [h1, h2]

/-- Three entries; two of them import the third. -/
def threeFiles : List (Bytes × Bytes) :=
  [(b!"/m", b!"@import \"a\"; p{q:r}"), (b!"/b", b!"@import \"a\";u{v:w}"), (b!"/a", b!"x{y:z}")]

def threeEntries : CEnv := exEnv [b!"m", b!"b", b!"a"] .inline threeFiles

/-- The hypotheses of the three theorems are met.  The numbers of the parses are not the same, and the output is not
empty. -/
example : Acyclic threeEntries (fun a => if a = b!"/a" then 0 else 1) ∧
    ((seqCompile threeEntries 10).map fun sh => (sh.parses, (lookupMap sh.files b!"/b").map cssLine)) =
      some ([b!"/b", b!"/a", b!"/m"], some b!"x{y:z}u{v:w}") ∧
    ((seqCompile { threeEntries with entries := [b!"a", b!"b", b!"m", b!"b"] } 10).map fun sh =>
      (sh.parses, (lookupMap sh.files b!"/b").map cssLine)) = some ([b!"/m", b!"/b", b!"/a"], some b!"x{y:z}u{v:w}") ∧
    ((seqCompile (threeEntries.only b!"b") 10).map fun sh => (sh.parses, (lookupMap sh.files b!"/b").map cssLine)) =
      some ([b!"/a", b!"/b"], some b!"x{y:z}u{v:w}") :=
  ⟨acyclic_of_test (env := threeEntries) (files := threeFiles) (rank := fun a => if a = b!"/a" then 0 else 1) rfl (by decide +kernel),
    by decide +kernel, by decide +kernel,
    by decide +kernel⟩

/-- C77 is false for other schedules: with the entries `a` and `b` nothing may be written for `a`, with `a` alone something
is. -/
theorem alone_refuted : ∃ st st', Reached twoEntries st ∧ Reached (twoEntries.only b!"a") st' ∧ st.main = .done ∧ st'.main = .done ∧
    lookupMap st.sh.files b!"/a" = none ∧ lookupMap st'.sh.files b!"/a" ≠ none := by
  obtain ⟨st, h1, h2, h3, -⟩ := entries_output_refuted
  have : (match seqCompile (twoEntries.only b!"a") 10 with
      | some sh => (lookupMap sh.files b!"/a").isSome
      | none => false) = true := by decide +kernel
  cases h : seqCompile (twoEntries.only b!"a") 10 with
  | none => rw [h] at this; cases this
  | some sh =>
    rw [h] at this
    obtain ⟨st', h4, h5, h6⟩ := seqCompile_reach h
    refine ⟨st, st', h1, h4, h2, h5, h3, ?_⟩
    rw [h6]
    intro hn
    dsimp only at this
    rw [hn] at this
    cases this

end Cssc
