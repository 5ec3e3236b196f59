import Verif.Proofs.Project
import Verif.Props.Whole

/-!
# C89: what is written says what the project says
-/

namespace Cssc

/-- Definitions that `incl` can be read with: of all names that it defines, and all of them are those of files. -/
def Fits (env : CEnv) (incl : List Node) (D : List (Bytes × MQ)) : Prop :=
  (∀ d ∈ mediaDefs incl, lastDef D d.1 ≠ none) ∧
    ∀ name q, lastDef D name = some q → ∃ a ss q', IsFile env a ss ∧ lastDef (mediaDefs ss.nodes) name = some q' ∧ q'.bare = q

theorem Fits.mono {env : CEnv} {incl incl' : List Node} {D : List (Bytes × MQ)} (h : Fits env incl D)
    (hs : ∀ d ∈ mediaDefs incl', d ∈ mediaDefs incl) : Fits env incl' D := ⟨fun d hd => h.1 d (hs d hd), h.2⟩

/-- What was made of files says what they say together. -/
def Says (B : Browser) (env : CEnv) (out incl : List Node) : Prop :=
  (∀ name q, lastDef (mediaDefs incl) name = some q → ∃ a ss, IsFile env a ss ∧ lastDef (mediaDefs ss.nodes) name = some q) ∧
    ∀ D, Fits env incl D → ∀ e : B.doc.Elem,
      (out.map Node.bare).flatMap (Node.offers B [] e) = (incl.map Node.bare).flatMap (Node.offers B D e)

/-- The offers of what is left after lowering do not depend on the definitions of any file. -/
theorem rest_offers {B : Browser} {env : CEnv} {c : List Node} (h : Rest B env c) {own : List (Bytes × MQ)}
    (ho : ∀ name, (∀ a ss, IsFile env a ss → lastDef (mediaDefs ss.nodes) name = none) → lastDef own name = none) (e : B.doc.Elem) :
    (c.map Node.bare).flatMap (Node.offers B own e) = (c.map Node.bare).flatMap (Node.offers B [] e) := by
  rw [List.flatMap_map, List.flatMap_map]
  refine List.flatMap_congr fun n hn => offers_congr fun name hu => ?_
  obtain ⟨a, l, rest, q, p, rfl, h1, h2, h3, h4, h5⟩ := hu
  rw [ho name ((h.queries a l rest hn h1 h2 q h3).unknown p h4 name h5)]
  rfl

theorem inlined_says {B : Browser} {env : CEnv} {dir : Bytes} {m : List (AtId × Stylesheet)} {ns flat : List Node} (h : Inlined m ns flat) :
    (∀ r, .at r ∈ ns → r.name = b!"import" → ∃ ss2 incl2 sp v rel b c id ss3 lines, replacement m r = some ss2 ∧ Rest B env ss2.nodes ∧
      r.preludes = [.str sp v] ∧ env.resolve v dir = some rel ∧ env.abs rel = some b ∧ env.read b = some c ∧
      parse env.fuel c id = .ok ss3 lines ∧ Included env (dirOf b) ss3.nodes incl2 ∧ Says B env ss2.nodes incl2) →
    ∃ incl, Included env dir ns incl ∧ (∀ d ∈ mediaDefs ns, d ∈ mediaDefs incl) ∧
      (∀ name q, lastDef (mediaDefs incl) name = some q →
        lastDef (mediaDefs ns) name = some q ∨ ∃ a ss, IsFile env a ss ∧ lastDef (mediaDefs ss.nodes) name = some q) ∧
      ∀ own D, Fits env incl D → (∀ n ∈ ns, ∀ name, n.Uses name → lastDef own name = lastDef D name) →
        (∀ name, (∀ a ss, IsFile env a ss → lastDef (mediaDefs ss.nodes) name = none) → lastDef own name = none) → ∀ e : B.doc.Elem,
        (flat.map Node.bare).flatMap (Node.offers B own e) = (incl.map Node.bare).flatMap (Node.offers B D e) := by
  have stay : ∀ {n : Node} {ns flat : List Node}, n.isImport = false →
    (∃ incl, Included env dir ns incl ∧ (∀ d ∈ mediaDefs ns, d ∈ mediaDefs incl) ∧
      (∀ name q, lastDef (mediaDefs incl) name = some q →
        lastDef (mediaDefs ns) name = some q ∨ ∃ a ss, IsFile env a ss ∧ lastDef (mediaDefs ss.nodes) name = some q) ∧
      ∀ own D, Fits env incl D → (∀ n ∈ ns, ∀ name, n.Uses name → lastDef own name = lastDef D name) →
        (∀ name, (∀ a ss, IsFile env a ss → lastDef (mediaDefs ss.nodes) name = none) → lastDef own name = none) → ∀ e : B.doc.Elem,
        (flat.map Node.bare).flatMap (Node.offers B own e) = (incl.map Node.bare).flatMap (Node.offers B D e)) →
    ∃ incl, Included env dir (n :: ns) incl ∧ (∀ d ∈ mediaDefs (n :: ns), d ∈ mediaDefs incl) ∧
      (∀ name q, lastDef (mediaDefs incl) name = some q →
        lastDef (mediaDefs (n :: ns)) name = some q ∨ ∃ a ss, IsFile env a ss ∧ lastDef (mediaDefs ss.nodes) name = some q) ∧
      ∀ own D, Fits env incl D → (∀ x ∈ n :: ns, ∀ name, x.Uses name → lastDef own name = lastDef D name) →
        (∀ name, (∀ a ss, IsFile env a ss → lastDef (mediaDefs ss.nodes) name = none) → lastDef own name = none) → ∀ e : B.doc.Elem,
        ((n :: flat).map Node.bare).flatMap (Node.offers B own e) = (incl.map Node.bare).flatMap (Node.offers B D e) := by
    rintro n ns flat hn ⟨incl, h1, h2, h3, h4⟩
    refine ⟨n :: incl, .keep hn h1, fun d hd => ?_, fun name q hq => ?_, fun own D hD hu ho e => ?_⟩
    · rw [mediaDefs_cons] at hd ⊢
      rcases List.mem_append.1 hd with hd | hd
      · exact List.mem_append_left _ hd
      · exact List.mem_append_right _ (h2 d hd)
    · rw [mediaDefs_cons, lastDef_or] at hq ⊢
      cases hi : lastDef (mediaDefs incl) name with
      | some q' =>
        rw [hi, Option.some_or] at hq
        cases hq
        rcases h3 name q hi with k | k
        · exact .inl (by rw [k, Option.some_or])
        · exact .inr k
      | none =>
        rw [hi, Option.none_or] at hq
        have : lastDef (mediaDefs ns) name = none := by
          cases hk : lastDef (mediaDefs ns) name with
          | none => rfl
          | some d => exact (lastDef_some (h2 _ (lastDef_key hk)) hi).elim
        exact .inl (by rw [this, Option.none_or, hq])
    · rw [List.map_cons, List.map_cons, List.flatMap_cons, List.flatMap_cons,
        h4 own D (hD.mono fun d hd => by rw [mediaDefs_cons]; exact List.mem_append_right _ hd) (fun x hx => hu x (List.mem_cons_of_mem _ hx)) ho e,
        offers_congr (hu n (List.mem_cons_self ..))]
  induction h with
  | nil => exact fun _ => ⟨[], .nil, fun d hd => hd, fun _ _ h => .inl h, fun _ _ _ _ _ _ => rfl⟩
  | rule _ ih => exact fun H => stay rfl (ih fun r hr => H r (List.mem_cons_of_mem _ hr))
  | @keep a ns flat ha _ ih =>
    intro H
    refine stay ?_ (ih fun r hr => H r (List.mem_cons_of_mem _ hr))
    by_cases hn : a.name = b!"import"
    · obtain ⟨ss, _, _, _, _, _, _, _, _, _, h1, _⟩ := H a (List.mem_cons_self ..) hn
      rw [ha hn] at h1
      cases h1
    · simpa [Node.isImport] using hn
  | @replace a ss ns f1 f2 ha hr hf _ _ ih =>
    intro H
    obtain ⟨ss2, incl2, sp, v, rel, b, c, id, ss3, lines, g1, g2, g3, g4, g5, g6, g7, g8, g9, g10⟩ := H a (List.mem_cons_self ..) ha
    rw [hr] at g1
    cases g1
    have hs := inlined_same hf g2.imports
    subst hs
    obtain ⟨incl, h1, h2, h3, h4⟩ := ih fun r hr => H r (List.mem_cons_of_mem _ hr)
    have hno : mediaDefs [Node.at a] = [] := by
      simp [mediaDefs, Node.customMedia?, AtRule.customMedia?, ha]
    refine ⟨incl2 ++ incl, .imp ha g3 g4 g5 g6 g7 g8 h1, fun d hd => ?_, fun name q hq => ?_, fun own D hD hu ho e => ?_⟩
    · rw [mediaDefs_cons, hno, List.nil_append] at hd
      rw [mediaDefs_append]
      exact List.mem_append_right _ (h2 d hd)
    · rw [mediaDefs_append, lastDef_or] at hq
      rw [mediaDefs_cons, hno, List.nil_append]
      cases hi : lastDef (mediaDefs incl) name with
      | some q' =>
        rw [hi, Option.some_or] at hq
        cases hq
        exact h3 name q hi
      | none =>
        rw [hi, Option.none_or] at hq
        exact .inr (g9 name q hq)
    · rw [List.map_append, List.map_append, List.flatMap_append, List.flatMap_append, rest_offers g2 ho,
        g10 D (hD.mono fun d hd => by rw [mediaDefs_append]; exact List.mem_append_left _ hd) e,
        h4 own D (hD.mono fun d hd => by rw [mediaDefs_append]; exact List.mem_append_right _ hd) (fun x hx => hu x (List.mem_cons_of_mem _ hx)) ho e]

theorem replacement_mem {m : List (AtId × Stylesheet)} {r : AtRule} {ss : Stylesheet} (h : replacement m r = some ss) : (r.id, ss) ∈ m := by
  unfold replacement at h
  rw [Option.map_eq_some_iff] at h
  obtain ⟨d, h1, h2⟩ := h
  have h3 := List.find?_some h1
  have h4 : d.1 = r.id := by simpa using h3
  rw [← h4, ← h2]
  exact List.mem_of_find?_eq_some h1

theorem replacement_some {m : List (AtId × Stylesheet)} {r : AtRule} {kv : AtId × Stylesheet} (h : kv ∈ m) (he : kv.1 = r.id) :
    ∃ ss, replacement m r = some ss := by
  unfold replacement
  cases hf : m.find? (fun e => e.1 == r.id) with
  | some d => exact ⟨_, rfl⟩
  | none => exact (List.find?_eq_none.1 hf kv h (by simp [he])).elim

/-- The whole compilation of a file of a lucid project says what the files say together. -/
theorem full_says {B : Browser} {env : CEnv} (hr : RoundTrip env.fo) (hC : B.KnowsCalc env.fo) (hL : B.KnowsLinks) (hw : Lucid B env)
    (ho : env.opts.customProperties = false) (hin : env.opts.importRules = .inline) {ps : List Bytes} {a : Bytes} {ss' : Stylesheet}
    {log : List Report} (h : Full env ps a ss' log) :
    Rest B env ss'.nodes ∧ ∃ c id ss lines incl, env.read a = some c ∧ parse env.fuel c id = .ok ss lines ∧
      Included env (dirOf a) ss.nodes incl ∧ Says B env ss'.nodes incl := by
  induction h with
  | @mk p a c id ss ss' lines repl s fileOf logOf h1 h2 h3 h4 h5 h6 h7 h8 h9 ih =>
    have hfile : IsFile env a ss := ⟨p, c, id, lines, h1, h2, h3, h4⟩
    rw [if_pos hin] at h9
    obtain ⟨-, flat, hflat, hpieces⟩ := transform_pieces h9
    have hflat : Inlined repl ss.nodes flat := hflat
    have hs := parse_sheetOk h4
    have himp : ∀ r, .at r ∈ ss.nodes → r.name = b!"import" → ∃ ss2 incl2 sp v rel b c id ss3 lines, replacement repl r = some ss2 ∧
        Rest B env ss2.nodes ∧ r.preludes = [.str sp v] ∧ env.resolve v (dirOf a) = some rel ∧ env.abs rel = some b ∧ env.read b = some c ∧
        parse env.fuel c id = .ok ss3 lines ∧ Included env (dirOf b) ss3.nodes incl2 ∧ Says B env ss2.nodes incl2 := by
      intro r hr hn
      obtain ⟨sp, v, rel0, hv, hres⟩ := hw.imports a ss r hfile hr hn
      have himp : (⟨v, r.id⟩ : ImportSpec) ∈ ss.imports := by
        rw [hs.imports]
        unfold importsOf
        rw [List.mem_filterMap]
        refine ⟨_, hr, ?_⟩
        dsimp only
        rw [if_pos hn, hv]
      have hfound : ∃ ss2, replacement repl r = some ss2 := by
        rcases h8 hin _ himp with ⟨kv, h11, h12⟩ | hno
        · exact replacement_some h11 h12
        · exfalso
          rcases hno with hno | ⟨rel, e, h11, h12⟩
          · rw [show env.resolve v (dirOf a) = none from hno] at hres
            cases hres
          · obtain ⟨a2, c2, ss2, l2, d1, d2, d3⟩ := hw.files _ (.imp h1 h2 h3 h4 himp h11)
            exact failsWith_ok h12 d1 ⟨_, _, _, d2, d3⟩
      obtain ⟨ss2, hl⟩ := hfound
      have hmem := replacement_mem hl
      obtain ⟨imp, i1, i2, rel, i3, i4⟩ := h6 hin _ hmem
      obtain ⟨j0, c2, id2, ss3, l2, incl2, j1, j2, j3, j4⟩ := ih hin _ hmem
      have hval : imp.value = v := by
        rw [hs.imports] at i1
        unfold importsOf at i1
        rw [List.mem_filterMap] at i1
        obtain ⟨nd, hnd, h14⟩ := i1
        cases nd with
        | rule _ => cases h14
        | «at» q =>
          dsimp only at h14
          split at h14
          · rename_i hq
            split at h14
            · rename_i sp2 v2 ps2 hv2
              cases h14
              have := import_unique hs.nodes hs.order hnd hr hq hn i2
              subst this
              rw [hv2] at hv
              cases hv
              rfl
            · cases h14
          · cases h14
      rw [hval] at i3
      exact ⟨ss2, incl2, sp, v, rel, _, c2, id2, ss3, l2, hl, j0, hv, i3, i4, j1, j2, j3, j4⟩
    have hF := lucid_fore hw hfile hflat fun r hr hn => by
      obtain ⟨ss2, _, _, _, _, _, _, _, _, _, k1, k2, _⟩ := himp r hr hn
      exact ⟨ss2, k1, k2⟩
    obtain ⟨incl, k1, k2, k3, k4⟩ := inlined_says (dir := dirOf a) hflat himp
    have hdefs : mediaDefs flat = mediaDefs ss.nodes := (inlined_from (B := B) (env := env) hflat fun r hr hn => by
      obtain ⟨ss2, _, _, _, _, _, _, _, _, _, k1, k2, _⟩ := himp r hr hn
      exact ⟨ss2, k1, k2⟩).1
    refine ⟨hF.rest hpieces, c, id, ss, lines, incl, h3, h4, k1, fun name q hq => ?_, fun D hD e => ?_⟩
    · rcases k3 name q hq with k | k
      · exact ⟨a, ss, hfile, k⟩
      · exact k
    · rw [nodes_lowered hr hC hL ho hpieces hF.lowerable e, List.nil_append, hdefs]
      refine k4 _ D hD (fun n hn name hu => ?_) (fun name hno => ?_) e
      · rw [lastDef_bare]
        cases hd : lastDef D name with
        | some q =>
          obtain ⟨b, ss2, q', d1, d2, d3⟩ := hD.2 name q hd
          obtain ⟨q'', d4, d5⟩ := hw.own a ss b ss2 n name q' hfile d1 hn hu d2
          rw [d4, Option.map_some, d5, d3]
        | none =>
          cases hd2 : lastDef (mediaDefs ss.nodes) name with
          | none => rfl
          | some q => exact (hD.1 _ (k2 _ (lastDef_key hd2)) hd).elim
      · rw [lastDef_bare, hno a ss hfile]
        rfl

/-- The same for the definitions of the files themselves. -/
theorem Says.applied {B : Browser} {env : CEnv} {out incl : List Node} (h : Says B env out incl) (hd : mediaDefs out = []) (e : B.doc.Elem) :
    applied B e out = applied B e incl := by
  unfold Cssc.applied offersOf
  rw [mediaDefs_bare, hd]
  refine h.2 _ ⟨fun d hd => ?_, fun name q hq => ?_⟩ e
  · rw [mediaDefs_bare, lastDef_bare]
    intro k
    rw [Option.map_eq_none_iff] at k
    exact lastDef_some hd k
  · rw [mediaDefs_bare, lastDef_bare, Option.map_eq_some_iff] at hq
    obtain ⟨q', h1, h2⟩ := hq
    obtain ⟨a, ss, h3, h4⟩ := h.1 name q' h1
    exact ⟨a, ss, q', h3, h4, h2⟩

theorem Full.compiled {env : CEnv} {P : Stylesheet → Prop}
    (hP : ∀ {p a c : Bytes} {id : Nat} {ss : Stylesheet} {lines : List Nat}, Asked env p → env.abs p = some a → env.read a = some c →
      parse env.fuel c id = .ok ss lines → P ss) {ps : List Bytes} {a : Bytes} {ss : Stylesheet} {log : List Report}
    (h : Full env ps a ss log) : Compiled env.fo P ss := by
  induction h with
  | mk fileOf logOf h1 h2 h3 h4 _ _ _ _ h9 ih =>
    refine .transformed (.parsed h4 (hP h1 h2 h3 h4)) (fun m e d hd => ?_) h9
    split at e
    · cases e
      exact ih (by assumption) d hd
    · cases e

/-- **C89, partial**: take a project that is lucid (its files are all there and can be lowered, each by
itself: `Lucid`) and ready (printing loses nothing of them), and compile it with imports inlined and any features but custom
properties.  When a schedule has ended in which the loop variables are read in time and no number is given twice, then every
file that is written, if its numbers and what is left of its arithmetic can be written, is parsed as a stylesheet that
says about every element what the files say that are included in one another, in every browser that knows `:any-link` and
`calc()`.  A file is written for every entry, unless its numbers or its arithmetic cannot be. -/
theorem project_says_partial {B : Browser} {env : CEnv} (hr : RoundTrip env.fo)
    (hC : B.KnowsCalc env.fo) (hL : B.KnowsLinks) (hw : Lucid B env) (ho : env.opts.customProperties = false)
    (hin : env.opts.importRules = .inline)
    (hready : ∀ {p a c ss lines}, Asked env p → env.abs p = some a → env.read a = some c → parse env.fuel c = .ok ss lines → ss.Ready)
    {st : CSt} (h : ReachedTidy env st) (hD : Distinct st.sh) (hd : st.main = .done) :
    (∀ {a out}, (a, out) ∈ st.sh.files → ∃ c id ss lines incl ss' log, env.read a = some c ∧ parse env.fuel c id = .ok ss lines ∧
      Included env (dirOf a) ss.nodes incl ∧ Full env st.sh.parses a ss' log ∧
      (ss'.Reckoned → ∀ i, ∃ k ss2 lines2, (∀ n, k ≤ n → parse n out i = .ok ss2 lines2) ∧
        ∀ e : B.doc.Elem, applied B e ss2.nodes = applied B e incl)) ∧
    ∀ {e a}, e ∈ env.entries → env.abs e = some a →
      (∃ out, (a, out) ∈ st.sh.files) ∨ ∃ ss' log, Full env st.sh.parses a ss' log ∧ ¬ ss'.Reckoned := by
  have hcomp : ∀ {a ss' log}, Full env st.sh.parses a ss' log → Compiled env.fo Stylesheet.Ready ss' := fun hf =>
    hf.compiled fun h1 h2 h3 h4 => by
      obtain ⟨ss0, h5, rfl⟩ := parse_ok_id h4
      exact ready_setId (hready h1 h2 h3 h5) _
  refine ⟨fun {a out} hf => ?_, fun {e a} he ha => ?_⟩
  · obtain ⟨-, c', ss', log, k, k1, k2, -, -, k3⟩ := (h.inv hD).files _ _ hf
    obtain ⟨g0, c, id, ss, lines, incl, g1, g2, g3, g4⟩ := full_says hr hC hL hw ho hin k2
    refine ⟨c, id, ss, lines, incl, ss', log, g1, g2, g3, k2, fun hn i => ?_⟩
    obtain ⟨j, ss2, l2, d1, d2, -⟩ := output_map_parses (hcomp k2) (sources_fit (hcomp k2) hn) k3 i
    refine ⟨j, ss2, l2, d1, fun e => ?_⟩
    rw [← g4.applied g0.defs e]
    unfold applied
    rw [d2]
  · obtain ⟨a', c, ss0, lines, b1, b2, b3⟩ := hw.files _ (.entry he)
    rw [ha] at b1
    cases b1
    rcases printed_whole (h.inv hD) hD hd (.inl ⟨e, he, ha⟩) b2 b3 with k | k
    · exact .inl k
    · cases (h.inv hD).errors _ k with
      | fails _ hf => cases hf
      | @print _ ss' log _ k2 k3 =>
        refine .inr ⟨ss', log, k2, fun hn => ?_⟩
        obtain ⟨css, _, _, _, d1, -⟩ := sources_output_parses (hcomp k2) hn 0
        rw [k3] at d1
        cases d1

/-- C89 for the sequential compilation, which returns if the files are legible. -/
theorem project_says_seq {B : Browser} {env : CEnv} {rank : Bytes → Nat} (hac : Acyclic env rank) (hleg : Legible env) (hr : RoundTrip env.fo)
    (hC : B.KnowsCalc env.fo) (hL : B.KnowsLinks) (hw : Lucid B env) (ho : env.opts.customProperties = false)
    (hin : env.opts.importRules = .inline)
    (hready : ∀ {p a c ss lines}, Asked env p → env.abs p = some a → env.read a = some c → parse env.fuel c = .ok ss lines → ss.Ready) :
    ∃ n sh, seqCompile env n = some sh ∧ ∀ {a out}, (a, out) ∈ sh.files → ∃ c id ss lines incl ss' log, env.read a = some c ∧
      parse env.fuel c id = .ok ss lines ∧ Included env (dirOf a) ss.nodes incl ∧ Full env sh.parses a ss' log ∧
      (ss'.Reckoned → ∀ i, ∃ k ss2 lines2, (∀ n, k ≤ n → parse n out i = .ok ss2 lines2) ∧
        ∀ e : B.doc.Elem, applied B e ss2.nodes = applied B e incl) := by
  obtain ⟨n, sh, h1⟩ := seqCompile_ends hac hleg.tame
  obtain ⟨st, h2, h3, rfl⟩ := seqCompile_tidy h1
  exact ⟨n, _, h1, (project_says_partial hr hC hL hw ho hin hready h2 (seqCompile_distinct h1) h3).1⟩

/-! ### A test for `Lucid` -/

theorem mediaDefs_setId (i : Nat) (ns : List Node) : mediaDefs (ns.map (Node.setId i)) = mediaDefs ns := by
  unfold mediaDefs
  rw [List.filterMap_map]
  congr 1
  funext n
  cases n <;> rfl

/-- The custom media queries that nodes ask for. -/
def usesOf (ns : List Node) : List Bytes :=
  ns.flatMap fun
    | .at r => if r.name = b!"media" then (match r.preludes with
        | .mql (some l) :: _ => l.queries.flatMap fun q => q.parts.filterMap MQPart.custom?
        | _ => []) else []
    | .rule _ => []

theorem usesOf_mem {ns : List Node} {n : Node} {name : Bytes} (hn : n ∈ ns) (h : n.Uses name) : name ∈ usesOf ns := by
  obtain ⟨a, l, rest, q, p, rfl, h1, h2, h3, h4, h5⟩ := h
  refine List.mem_flatMap.2 ⟨_, hn, ?_⟩
  dsimp only
  rw [if_pos h1, h2]
  exact List.mem_flatMap.2 ⟨q, h3, List.mem_filterMap.2 ⟨p, h4, h5⟩⟩

/-- Media queries without `or` and `not (…)`. -/
def joinTest : Node → Bool
  | .at r => if r.name = b!"media" then (match r.preludes with
      | .mql (some l) :: _ => l.queries.all MQ.joinableB
      | _ => true) else true
  | .rule _ => true

/-- Imports without conditions, of files that are there. -/
def importTest (env : CEnv) (files : List (Bytes × Bytes)) (dir : Bytes) : Node → Bool
  | .at r => if r.name = b!"import" then (match r.preludes with
      | [.str _ v] => (match env.resolve v dir with
        | some rel => foundTest env files rel
        | none => false)
      | _ => false) else true
  | .rule _ => true

/-- A test for `Lucid`. -/
def lucidTest (env : CEnv) (files : List (Bytes × Bytes)) : Bool :=
  env.entries.all (foundTest env files) && files.all fun f => match parse env.fuel f.2 with
    | .ok ss _ => lowerableB env.opts ss.nodes && ss.nodes.all joinTest && ss.nodes.all (importTest env files (dirOf f.1)) &&
        (mediaDefs ss.nodes).all (fun d => d.2.parts.all MQPart.intervalB) &&
        files.all fun g => g.1 == f.1 || match parse env.fuel g.2 with
          | .ok s2 _ => (usesOf ss.nodes).all fun name => (lastDef (mediaDefs s2.nodes) name).isNone
          | _ => false
    | _ => false

theorem lucid_of_test {env : CEnv} {files : List (Bytes × Bytes)} (hr : env.read = lookupMap files) (h : lucidTest env files = true)
    (B : Browser) : Lucid B env := by
  obtain ⟨h1, h2⟩ := Bool.and_eq_true_iff.1 h
  have hf : ∀ {p}, foundTest env files p = true → ∃ a c, env.abs p = some a ∧ env.read a = some c := by
    intro p hp
    unfold foundTest at hp
    cases ha : env.abs p with
    | none => rw [ha] at hp; cases hp
    | some a =>
      rw [ha] at hp
      obtain ⟨c, hc⟩ := Option.isSome_iff_exists.1 hp
      exact ⟨a, c, rfl, by rw [hr]; exact hc⟩
  have hfile : ∀ {a c}, env.read a = some c → ∃ ss lines, parse env.fuel c = .ok ss lines ∧ lowerableB env.opts ss.nodes = true ∧
      (∀ n ∈ ss.nodes, joinTest n = true) ∧ (∀ n ∈ ss.nodes, importTest env files (dirOf a) n = true) ∧
      (∀ d ∈ mediaDefs ss.nodes, ∀ p ∈ d.2.parts, p.intervalB = true) ∧
      ∀ b c2 s2 l2, b ≠ a → env.read b = some c2 → parse env.fuel c2 = .ok s2 l2 → ∀ name ∈ usesOf ss.nodes, lastDef (mediaDefs s2.nodes) name = none := by
    intro a c hc
    rw [hr] at hc
    have := List.all_eq_true.1 h2 (a, c) (lookupMap_mem hc)
    dsimp only at this
    cases hp : parse env.fuel c with
    | ok ss l =>
      rw [hp] at this
      simp only [Bool.and_eq_true] at this
      obtain ⟨⟨⟨⟨h3, h4⟩, h5⟩, h6⟩, h7⟩ := this
      refine ⟨ss, l, rfl, h3, List.all_eq_true.1 h4, List.all_eq_true.1 h5, fun d hd => List.all_eq_true.1 (List.all_eq_true.1 h6 d hd), ?_⟩
      intro b c2 s2 l2 hb hc2 hp2 name hname
      rw [hr] at hc2
      have h8 := List.all_eq_true.1 h7 (b, c2) (lookupMap_mem hc2)
      dsimp only at h8
      rw [hp2] at h8
      rcases Bool.or_eq_true_iff.1 h8 with h8 | h8
      · exact (hb (by simpa using h8)).elim
      · simpa using List.all_eq_true.1 h8 name hname
    | _ => rw [hp] at this; cases this
  have hthere : ∀ p, Asked env p → ∃ a c, env.abs p = some a ∧ env.read a = some c := by
    intro p hp
    cases hp with
    | entry he => exact hf (List.all_eq_true.1 h1 _ he)
    | @imp _ _ _ _ _ _ imp _ _ _ h5 h6 h7 h8 =>
      obtain ⟨ss, l, g1, -, -, g2, -⟩ := hfile h5
      rw [(parse_sheetOk h6).imports] at h7
      obtain ⟨ss1, g3, rfl⟩ := parse_ok_id h6
      rw [g1] at g3; cases g3
      unfold importsOf at h7
      rw [List.mem_filterMap] at h7
      obtain ⟨nd, hnd, h14⟩ := h7
      obtain ⟨n0, hn0, rfl⟩ := List.mem_map.1 (show nd ∈ ss.nodes.map (Node.setId _) from hnd)
      cases n0 with
      | rule _ => cases h14
      | «at» q =>
        have k := g2 _ hn0
        simp only [Node.setId] at h14
        by_cases hq : q.name = b!"import"
        · rw [if_pos hq] at h14
          unfold importTest at k
          dsimp only at k
          rw [if_pos hq] at k
          split at k
          · rename_i sp v hv
            rw [hv] at h14
            cases h14
            rw [show env.resolve v _ = _ from h8] at k
            exact hf k
          · cases k
        · rw [if_neg hq] at h14
          cases h14
  have hid : ∀ {a ss}, IsFile env a ss → ∃ c ss0 lines id, env.read a = some c ∧ parse env.fuel c = .ok ss0 lines ∧ ss = ss0.setId id := by
    rintro a ss ⟨p, c, id, lines, -, -, h3, h4⟩
    obtain ⟨ss0, h5, rfl⟩ := parse_ok_id h4
    exact ⟨c, ss0, lines, id, h3, h5, rfl⟩
  have hsplit : ∀ {i : Nat} {ns pre post : List Node} {r : AtRule}, ns.map (Node.setId i) = pre ++ .at r :: post →
      ∃ p q r0, ns = p ++ .at r0 :: q ∧ pre = p.map (Node.setId i) ∧ r0.name = r.name ∧ r0.preludes = r.preludes := by
    intro i ns pre post r e
    obtain ⟨p, q, e1, e2, e3⟩ := List.map_eq_append_iff.1 e
    cases q with
    | nil => cases e3
    | cons n q =>
      rw [List.map_cons] at e3
      injection e3 with e4 e5
      cases n with
      | rule _ => cases e4
      | «at» r0 =>
        cases e4
        exact ⟨p, q, r0, e1, e2.symm, rfl, rfl⟩
  refine ⟨fun p hp => ?_, fun a ss r hF hn hi => ?_, ?_, fun a ss r l hF hn hl => ?_, fun a ss hF d hd => ?_,
    fun a ss pre r post l rest hF e hn hp q hq => ?_, fun a ss b ss2 n name q hF hF2 hn hu hq => ?_⟩
  · obtain ⟨a, c, k1, k2⟩ := hthere p hp
    obtain ⟨ss, l, k3, -⟩ := hfile k2
    exact ⟨a, c, ss, l, k1, k2, k3⟩
  · obtain ⟨c, ss0, l, i, k1, k2, rfl⟩ := hid hF
    obtain ⟨ss1, l1, g1, -, -, g2, -⟩ := hfile k1
    rw [k2] at g1; cases g1
    obtain ⟨n0, hn0, e0⟩ := List.mem_map.1 (show _ ∈ ss0.nodes.map (Node.setId _) from hn)
    cases n0 with
    | rule _ => cases e0
    | «at» q =>
      cases e0
      have k := g2 _ hn0
      unfold importTest at k
      dsimp only at k
      rw [if_pos (show q.name = b!"import" from hi)] at k
      split at k
      · rename_i sp v hv
        cases hres : env.resolve v (dirOf a) with
        | none => rw [hres] at k; cases k
        | some rel => exact ⟨sp, v, rel, hv, hres⟩
      · cases k
  · cases hc : env.opts.customMediaQueries with
    | true => exact .inl rfl
    | false =>
      refine .inr fun a ss hF => ?_
      obtain ⟨c, ss0, l, i, k1, k2, rfl⟩ := hid hF
      obtain ⟨ss1, l1, g1, g2, -⟩ := hfile k1
      rw [k2] at g1; cases g1
      rcases (lowerableB_sound g2 B env.fo).custom with k | k
      · rw [hc] at k; cases k
      · show mediaDefs (ss0.nodes.map _) = []
        rw [mediaDefs_setId, k]
  · obtain ⟨c, ss0, l0, i, k1, k2, rfl⟩ := hid hF
    obtain ⟨ss1, l1, g1, g2, -⟩ := hfile k1
    rw [k2] at g1; cases g1
    obtain ⟨n0, hn0, e0⟩ := List.mem_map.1 (show _ ∈ ss0.nodes.map (Node.setId _) from hn)
    cases n0 with
    | «at» q => cases e0
    | rule q =>
      cases e0
      exact (lowerableB_sound g2 B env.fo).links r l hn0 hl
  · obtain ⟨c, ss0, l0, i, k1, k2, rfl⟩ := hid hF
    obtain ⟨ss1, l1, g1, g2, -, -, g3, -⟩ := hfile k1
    rw [k2] at g1; cases g1
    have hd : d ∈ mediaDefs (ss0.nodes.map (Node.setId i)) := hd
    rw [mediaDefs_setId] at hd
    exact ⟨(lowerableB_sound g2 B env.fo).definitions d hd, fun p hp => intervalB_sound (g3 d hd p hp) B env.fo⟩
  · obtain ⟨c, ss0, l0, i, k1, k2, rfl⟩ := hid hF
    obtain ⟨ss1, l1, g1, g2, g3, -⟩ := hfile k1
    rw [k2] at g1; cases g1
    obtain ⟨p0, q0, r0, e1, rfl, e3, e4⟩ := hsplit (show ss0.nodes.map (Node.setId i) = _ from e)
    rw [← e3] at hn
    rw [← e4] at hp
    have k := (lowerableB_sound g2 B env.fo).queries p0 r0 q0 l rest e1 hn hp q hq
    refine ⟨k.interval, ?_, fun p hp name hc => ?_⟩
    · have k2 := g3 (.at r0) (by rw [e1]; simp)
      unfold joinTest at k2
      dsimp only at k2
      rw [if_pos hn, hp] at k2
      have k := List.all_eq_true.1 k2 q hq
      rw [MQ.joinableB, Bool.and_eq_true] at k
      refine ⟨fun p hp => by simpa using List.all_eq_true.1 k.1 p hp, fun sp p e => ?_⟩
      have := k.2
      rw [e] at this
      simpa using this
    · show lastDef (mediaDefs (p0.map (Node.setId i))) name = lastDef (mediaDefs (ss0.nodes.map (Node.setId i))) name
      rw [mediaDefs_setId, mediaDefs_setId]
      exact k.known p hp name hc
  · obtain ⟨c, ss0, l0, i, k1, k2, rfl⟩ := hid hF
    obtain ⟨c', ss0', l0', i', k1', k2', rfl⟩ := hid hF2
    obtain ⟨ss1, l1, g1, -, -, -, -, g2⟩ := hfile k1
    rw [k2] at g1; cases g1
    have hq : lastDef (mediaDefs (ss0'.nodes.map (Node.setId i'))) name = some q := hq
    rw [mediaDefs_setId] at hq
    show ∃ q', lastDef (mediaDefs (ss0.nodes.map (Node.setId i))) name = some q' ∧ _
    rw [mediaDefs_setId]
    by_cases hb : b = a
    · subst hb
      rw [k1] at k1'; cases k1'
      rw [k2] at k2'; cases k2'
      exact ⟨q, hq, rfl⟩
    · have hname : name ∈ usesOf ss0.nodes := by
        obtain ⟨n0, hn0, rfl⟩ := List.mem_map.1 (show n ∈ ss0.nodes.map (Node.setId _) from hn)
        refine usesOf_mem hn0 ?_
        obtain ⟨a1, l1, r1, q1, p1, e0, d1, d2, d3, d4, d5⟩ := hu
        cases n0 with
        | rule _ => cases e0
        | «at» a0 =>
          cases e0
          exact ⟨a0, l1, r1, q1, p1, rfl, d1, d2, d3, d4, d5⟩
      rw [g2 b c' ss0' l0' hb k1' k2' name hname] at hq
      cases hq

/-! ### Such a project, and one that says something else -/

def sayFiles : List (Bytes × Bytes) :=
  [(b!"/m", b!"@import 'a'; @custom-media --w (11px <= width); a:any-link { w: calc(11px + 1px) } @media screen and (--w), (11px <= width <= 1111px) and (color) { b { c: d } }"),
    (b!"/a", b!"@import 'b'; @media (width >= 1px) { b { c: d } }"), (b!"/b", b!"@custom-media --w2 (height <= 11px); @media (--w2) { x { y: z } }")]

/-- Three files, with all features but custom properties. -/
def sayEnv : CEnv :=
  ⟨[b!"m"], lowering, some b!"/", lookupMap sayFiles, fun spec dir => some (joinPath [dir, spec]), unaryOps, 400⟩

/-- All hypotheses of `project_says_seq` are met, and this is written. -/
example : (∃ rank, Acyclic sayEnv rank) ∧ Legible sayEnv ∧ RoundTrip sayEnv.fo ∧ smallBrowser.KnowsCalc sayEnv.fo ∧ smallBrowser.KnowsLinks ∧
    Lucid smallBrowser sayEnv ∧ sayEnv.opts.customProperties = false ∧ sayEnv.opts.importRules = .inline ∧
    (∀ {p a c ss lines}, Asked sayEnv p → sayEnv.abs p = some a → sayEnv.read a = some c → parse sayEnv.fuel c = .ok ss lines → ss.Ready) ∧
    (seqCompile sayEnv 20).map (fun sh => (sh.errors, (lookupMap sh.files b!"/m").map cssLine)) = some ([], some
      b!"@media (max-height:11px){x{y:z}}@media (min-width:1px){b{c:d}}a:visited,a:link{w:111px}@media screen and (11px<=width),(min-width:11px) and (max-width:1111px) and (color){b{c:d}}") :=
  ⟨⟨_, acyclic_of_test (env := sayEnv) (files := sayFiles) (rank := fun a => if a = b!"/m" then 2 else if a = b!"/a" then 1 else 0) rfl (by decide +kernel)⟩,
    legible_of_test (files := sayFiles) rfl (by decide) (by decide +kernel), unary_roundTrip, smallBrowser_calc, smallBrowser_links,
    lucid_of_test (files := sayFiles) rfl (by decide +kernel) _, rfl, rfl,
    fun _ _ hc hp => ready_of_test (env := sayEnv) (files := sayFiles) rfl (by decide +kernel) hc hp, by decide +kernel⟩

/-- `@custom-media --x (min-width:1px);` -/
def defSheet : Stylesheet :=
  ⟨[.at ⟨1, ⟨0, 0⟩, b!"custom-media", [.ident ⟨0, 0⟩ b!"--x", .mq ⟨⟨0, 0⟩, [.plain ⟨0, 0⟩ ⟨0, 0⟩ b!"min-width" (.dim ⟨0, 0⟩ b!"1" b!"px")]⟩], .none⟩], []⟩

/-- `@media (--x){a{b:c}}` -/
def useNode : Node :=
  .at ⟨0, ⟨1, 1⟩, b!"media", [.mql (some ⟨⟨0, 0⟩, [⟨⟨0, 0⟩, [.plain ⟨0, 0⟩ ⟨0, 0⟩ b!"--x" .nil]⟩]⟩)],
    .rules ⟨0, 0⟩ [⟨⟨0, 0⟩, .sels ⟨⟨0, 0⟩, [.mk ⟨0, 0⟩ [.type ⟨0, 0⟩ b!"a"]]⟩, some ⟨⟨0, 0⟩, [.decl ⟨0, 0⟩ b!"b" [.ident ⟨0, 0⟩ b!"c"] false]⟩⟩]⟩

/-- `@import "d";` -/
def impRule : AtRule := ⟨0, ⟨0, 0⟩, b!"import", [.str ⟨0, 0⟩ b!"d"], .none⟩

theorem defSheet_out : transform unaryOps lowering (some []) 3 defSheet = .ok ⟨[], []⟩ ⟨none, some [(b!"--x", ⟨⟨0, 0⟩, [.plain ⟨0, 0⟩ ⟨0, 0⟩ b!"min-width" (.dim ⟨0, 0⟩ b!"1" b!"px")]⟩)], []⟩ := by rfl

theorem useSheet_out : transform unaryOps lowering (some [(impRule.id, ⟨[], []⟩)]) 3 ⟨[.at impRule, useNode], []⟩ =
    .ok ⟨[useNode], []⟩ ⟨none, some [], []⟩ := by rfl

/-- The two files. -/
def lostEnv : CEnv :=
  ⟨[b!"m"], lowering, some b!"/", lookupMap [(b!"/m", b!"@import \"d\";@media (--x){a{b:c}}"), (b!"/d", b!"@custom-media --x (min-width:1px);")],
    fun spec dir => some (joinPath [dir, spec]), unaryOps, 200⟩

/-- **C89, refuted in general**: what an imported file defines (here a custom media query) is lost to the file that imports it,
because the imported file is transformed by itself; nothing is reported. -/
theorem project_says_refuted :
    (¬ ∀ (B : Browser) (fo : FloatOps) (o : TOpts) (n : Nat) (d d' m' : Stylesheet) (imp : AtRule) (rest : List Node) (s s' : TSt),
      RoundTrip fo → B.KnowsCalc fo → B.KnowsLinks → o.customProperties = false → Lowerable B fo o d.nodes → Lowerable B fo o rest →
      Lowerable B fo o (d.nodes ++ rest) → imp.name = b!"import" → transform fo o (some []) n d = .ok d' s →
      transform fo o (some [(imp.id, d')]) n ⟨.at imp :: rest, []⟩ = .ok m' s' → ∀ e : B.doc.Elem, applied B e m'.nodes = applied B e (d.nodes ++ rest)) ∧
    (seqCompile lostEnv 20).map (fun sh => (sh.errors, (lookupMap sh.files b!"/m").map cssLine)) = some ([], some b!"@media (--x){a{b:c}}") := by
  refine ⟨fun hall => ?_, by decide +kernel⟩
  have h := hall smallBrowser unaryOps lowering 3 defSheet ⟨[], []⟩ ⟨[useNode], []⟩ impRule [useNode] _ _ unary_roundTrip smallBrowser_calc
    smallBrowser_links rfl (lowerableB_sound (by decide +kernel) _ _) (lowerableB_sound (by decide +kernel) _ _)
    (lowerableB_sound (by decide +kernel) _ _) rfl defSheet_out useSheet_out false
  have h1 : (MediaHold smallBrowser [] [⟨⟨0, 0⟩, [.plain ⟨0, 0⟩ ⟨0, 0⟩ b!"--x" .nil]⟩] ∧
      Weights smallBrowser false [.mk ⟨0, 0⟩ [.type ⟨0, 0⟩ b!"a"]] [(1 : Nat)]) =
    (MediaHold smallBrowser [(b!"--x", ⟨⟨0, 0⟩, [.plain ⟨0, 0⟩ ⟨0, 0⟩ b!"min-width" (.dim ⟨0, 0⟩ b!"1" b!"px")]⟩)]
      [⟨⟨0, 0⟩, [.plain ⟨0, 0⟩ ⟨0, 0⟩ b!"--x" .nil]⟩] ∧ Weights smallBrowser false [.mk ⟨0, 0⟩ [.type ⟨0, 0⟩ b!"a"]] [(1 : Nat)]) :=
    congrArg (fun l : List (Offer smallBrowser) => match l with | .decl c _ _ _ :: _ => c [(1 : Nat)] | _ => True) h
  have h2 : MediaHold smallBrowser [(b!"--x", ⟨⟨0, 0⟩, [.plain ⟨0, 0⟩ ⟨0, 0⟩ b!"min-width" (.dim ⟨0, 0⟩ b!"1" b!"px")]⟩)]
      [⟨⟨0, 0⟩, [.plain ⟨0, 0⟩ ⟨0, 0⟩ b!"--x" .nil]⟩] := by
    refine .inr ⟨_, List.mem_singleton_self _, .inl ⟨rfl, fun p hp _ => ?_⟩⟩
    rw [List.mem_singleton] at hp
    subst hp
    refine .inl ⟨rfl, fun p hp _ => ?_⟩
    rw [List.mem_singleton] at hp
    subst hp
    exact Nat.le_refl 1
  have h3 : Weights smallBrowser false [.mk ⟨0, 0⟩ [.type ⟨0, 0⟩ b!"a"]] [(1 : Nat)] :=
    ⟨_, List.mem_singleton_self _, ⟨false, rfl, rfl⟩, rfl⟩
  have h4 : _ ∧ _ := h1.mpr ⟨h2, h3⟩
  rcases h4.1 with h5 | ⟨q, hq, h5⟩
  · cases h5
  · rw [List.mem_singleton] at hq
    subst hq
    rcases h5 with ⟨_, h5⟩ | ⟨_, p, hp, _, h5⟩
    · exact h5 _ (List.mem_singleton_self _) rfl
    · rw [List.mem_singleton] at hp
      subst hp
      exact h5

end Cssc
