import Verif.Props.Follow
import Verif.Props.ProjectShared

/-!
# C93: what is inlined says what browsers would load
-/

namespace Cssc

variable {B : Browser}

/-- What imports in the directory `dir` stand for, to the depth `d`. -/
def importSaid (B : Browser) (env : CEnv) (e : B.doc.Elem) (sheet : Bytes → Option (List Node)) (d : Nat) (dir : Bytes) (r : AtRule) : List (Offer B) :=
  match r.preludes with
  | .str _ v :: rest => ((((env.resolve v dir).bind env.abs).bind fun f =>
      (sheet f).map (saidBy B env e sheet d (dirOf f))).getD []).map (Offer.under (ImportHolds B rest))
  | _ => []

theorem saidBy_succ (env : CEnv) (e : B.doc.Elem) (sheet : Bytes → Option (List Node)) (d : Nat) (dir : Bytes) (ns : List Node) :
    saidBy B env e sheet (d + 1) dir ns = withImports (importSaid B env e sheet d dir) (applied B e ns) := by
  rw [saidBy]
  rfl

theorem withImports_append (imp : AtRule → List (Offer B)) (u v : List (Offer B)) :
    withImports imp (u ++ v) = withImports imp u ++ withImports imp v := by
  unfold withImports; rw [List.flatMap_append]

theorem withImports_none {imp : AtRule → List (Offer B)} : ∀ {u : List (Offer B)}, (∀ r, .other r ∈ u → r.name ≠ b!"import") → withImports imp u = u
  | [], _ => rfl
  | o :: u, h => by
    have ih := withImports_none (imp := imp) (u := u) fun r hr => h r (List.mem_cons_of_mem _ hr)
    unfold withImports at ih ⊢
    rw [List.flatMap_cons, ih]
    cases o with
    | other r => dsimp only; rw [if_neg (h r (List.mem_cons_self ..))]; rfl
    | _ => rfl

theorem decl_offer_other {c : List B.W → Prop} {d : Decl} {r : AtRule} : d.offer B c ≠ .other r := by
  unfold Decl.offer
  split <;> exact fun h => by cases h

theorem qrule_offers_other {e : B.doc.Elem} {c : Prop} {q : QRule} {r : AtRule} : .other r ∉ q.offers B e c := by
  unfold QRule.offers
  intro h
  split at h
  all_goals simp [decl_offer_other] at h

theorem node_offers_other {D : List (Bytes × MQ)} {e : B.doc.Elem} {n : Node} (hn : n.isImport = false) {r : AtRule}
    (h : .other r ∈ n.bare.offers B D e) : r.name ≠ b!"import" := by
  cases n with
  | rule q => exact absurd h qrule_offers_other
  | «at» a =>
    have hn' : a.bare.name ≠ b!"import" := by
      have : a.name ≠ b!"import" := by simpa [Node.isImport] using hn
      exact this
    simp only [Node.bare, Node.offers] at h
    split at h
    · cases h
    · split at h
      · split at h
        · unfold Block.offers at h
          split at h
          all_goals simp [qrule_offers_other, decl_offer_other] at h
        · cases h
      · rw [List.mem_singleton] at h
        cases h
        exact hn'

/-- The definitions of a file are in what it includes. -/
theorem included_defs {env : CEnv} {dir : Bytes} {ns incl : List Node} (h : Included env dir ns incl) : ∀ d ∈ mediaDefs ns, d ∈ mediaDefs incl := by
  induction h with
  | nil => exact fun d hd => hd
  | keep _ _ ih =>
    intro d hd
    rw [mediaDefs_cons] at hd ⊢
    rcases List.mem_append.1 hd with hd | hd
    · exact List.mem_append_left _ hd
    · exact List.mem_append_right _ (ih d hd)
  | @imp dir rel a c v r sp id ss lines ns f1 f2 ha _ _ _ _ _ _ _ _ ih =>
    intro d hd
    have hno : mediaDefs [Node.at r] = [] := by simp [mediaDefs, Node.customMedia?, AtRule.customMedia?, ha]
    rw [mediaDefs_cons, hno, List.nil_append] at hd
    rw [mediaDefs_append]
    exact List.mem_append_right _ (ih d hd)

/-- An imported file is a file of the project. -/
theorem isFile_imp {env : CEnv} {a rel b c v : Bytes} {ss ss2 : Stylesheet} {r : AtRule} {sp : Span} {id : Nat} {lines : List Nat} {rest : List AtPrelude}
    (hf : IsFile env a ss) (hr : .at r ∈ ss.nodes) (hn : r.name = b!"import") (hv : r.preludes = .str sp v :: rest)
    (h1 : env.resolve v (dirOf a) = some rel) (h2 : env.abs rel = some b) (h3 : env.read b = some c)
    (h4 : parse env.fuel c id = .ok ss2 lines) : IsFile env b ss2 := by
  obtain ⟨p, c0, id0, l0, k1, k2, k3, k4⟩ := hf
  have himp : (⟨v, r.id⟩ : ImportSpec) ∈ ss.imports := by
    rw [(parse_sheetOk k4).imports]
    unfold importsOf
    rw [List.mem_filterMap]
    refine ⟨_, hr, ?_⟩
    dsimp only
    rw [if_pos hn, hv]
  exact ⟨rel, c, id, lines, .imp k1 k2 k3 k4 himp h1, h2, h3, h4⟩

/-- What is defined last in what a file includes is what is defined last in one of the files. -/
theorem included_files {env : CEnv} {dir : Bytes} {ns incl : List Node} (h : Included env dir ns incl) :
    ∀ {a ss pre}, IsFile env a ss → dir = dirOf a → ss.nodes = pre ++ ns →
    ∀ name q, lastDef (mediaDefs incl) name = some q → ∃ a ss, IsFile env a ss ∧ lastDef (mediaDefs ss.nodes) name = some q := by
  induction h with
  | nil => intro _ _ _ _ _ _ name q hq; cases hq
  | @keep dir n ns flat hn hi ih =>
    intro a ss pre hf hd he name q hq
    rw [mediaDefs_cons, lastDef_or] at hq
    cases hk : lastDef (mediaDefs flat) name with
    | some q' =>
      rw [hk, Option.some_or] at hq
      cases hq
      exact ih (pre := pre ++ [n]) hf hd (by rw [he]; simp) name q hk
    | none =>
      rw [hk, Option.none_or] at hq
      refine ⟨a, ss, hf, ?_⟩
      have hno : lastDef (mediaDefs ns) name = none := by
        cases hk2 : lastDef (mediaDefs ns) name with
        | none => rfl
        | some d => exact (lastDef_some (included_defs hi _ (lastDef_key hk2)) hk).elim
      rw [he, mediaDefs_append, lastDef_or, mediaDefs_cons, lastDef_or, hno, Option.none_or, hq, Option.some_or]
  | @imp dir rel b c v r sp id ss2 lines ns f1 f2 ha hv h1 h2 h3 h4 _ _ ih1 ih2 =>
    intro a ss pre hf hd he name q hq
    subst hd
    rw [mediaDefs_append, lastDef_or] at hq
    cases hk : lastDef (mediaDefs f2) name with
    | some q' =>
      rw [hk, Option.some_or] at hq
      cases hq
      exact ih2 (pre := pre ++ [.at r]) hf rfl (by rw [he]; simp) name q hk
    | none =>
      rw [hk, Option.none_or] at hq
      exact ih1 (pre := []) (isFile_imp hf (by rw [he]; simp) ha hv h1 h2 h3 h4) rfl rfl name q hq

theorem included_said {env : CEnv} (hw : Lucid B env) {dir : Bytes} {ns incl : List Node} (h : Included env dir ns incl) :
    ∀ {a ss pre}, IsFile env a ss → dir = dirOf a → ss.nodes = pre ++ ns → ∃ d0, ∀ d, d0 ≤ d → ∀ D, Fits env incl D →
      (∀ x ∈ mediaDefs ss.nodes, lastDef D x.1 ≠ none) → ∀ e : B.doc.Elem,
      withImports (importSaid B env e (sourceOf env) d dir) ((ns.map Node.bare).flatMap (Node.offers B (mediaDefs (ss.nodes.map Node.bare)) e)) =
        (incl.map Node.bare).flatMap (Node.offers B D e) := by
  induction h with
  | nil => intro a ss pre _ _ _; exact ⟨0, fun _ _ _ _ _ _ => rfl⟩
  | @keep dir n ns flat hn hi ih =>
    intro a ss pre hf hd he
    obtain ⟨d0, k⟩ := ih (pre := pre ++ [n]) hf hd (by rw [he]; simp)
    refine ⟨d0, fun d hle D hD hx e => ?_⟩
    rw [List.map_cons, List.map_cons, List.flatMap_cons, List.flatMap_cons, withImports_append,
      k d hle D (hD.mono fun d hd => by rw [mediaDefs_cons]; exact List.mem_append_right _ hd) hx e,
      withImports_none fun r hr => node_offers_other hn hr]
    congr 1
    refine offers_congr fun name hu => ?_
    rw [mediaDefs_bare, lastDef_bare]
    cases hd2 : lastDef D name with
    | some q =>
      obtain ⟨b, ss2, q', d1, d2, d3⟩ := hD.2 name q hd2
      obtain ⟨q'', d4, d5⟩ := hw.own a ss b ss2 n name q' hf d1 (by rw [he]; simp) hu d2
      rw [d4, Option.map_some, d5, d3]
    | none =>
      cases hd3 : lastDef (mediaDefs ss.nodes) name with
      | none => rfl
      | some q => exact (hx _ (lastDef_key hd3) hd2).elim
  | @imp dir rel b c v r sp id ss2 lines ns f1 f2 ha hv h1 h2 h3 h4 hi1 _ ih1 ih2 =>
    intro a ss pre hf hd he
    subst hd
    obtain ⟨d1, k1⟩ := ih1 (pre := []) (isFile_imp hf (by rw [he]; simp) ha hv h1 h2 h3 h4) rfl rfl
    obtain ⟨d2, k2⟩ := ih2 (pre := pre ++ [.at r]) hf rfl (by rw [he]; simp)
    refine ⟨max (d1 + 1) d2, fun d hle D hD hx e => ?_⟩
    have hD1 : Fits env f1 D := hD.mono fun d hd => by rw [mediaDefs_append]; exact List.mem_append_left _ hd
    rw [List.map_cons, List.flatMap_cons, withImports_append, List.map_append, List.flatMap_append,
      k2 d ((le_max_right ..).trans hle) D (hD.mono fun d hd => by rw [mediaDefs_append]; exact List.mem_append_right _ hd) hx e]
    congr 1
    obtain ⟨d', rfl⟩ : ∃ d', d = d' + 1 := ⟨d - 1, by have := (le_max_left (d1 + 1) d2).trans hle; omega⟩
    have hle' : d1 ≤ d' := by have := (le_max_left (d1 + 1) d2).trans hle; omega
    have hoff : (Node.at r).bare.offers B (mediaDefs (ss.nodes.map Node.bare)) e = [.other r.bare] := by
      have hb : r.bare.name = b!"import" := ha
      simp only [Node.bare, Node.offers]
      rw [if_neg (by rw [hb]; decide), if_neg (by rw [hb]; decide)]
    have hpre : ∃ sp', r.bare.preludes = [.str sp' v] := by
      unfold AtRule.bare
      rw [hv]
      exact ⟨_, rfl⟩
    obtain ⟨sp', hpre⟩ := hpre
    have hsrc : ∃ ns0, sourceOf env b = some ns0 ∧ applied B e ns0 = applied B e ss2.nodes := by
      obtain ⟨ss0, h5, rfl⟩ := parse_ok_id h4
      refine ⟨ss0.nodes, ?_, (applied_setId e ss0 id).symm⟩
      unfold sourceOf
      rw [h3]
      simp only [Option.bind_some, h5]
    obtain ⟨ns0, hs1, hs2⟩ := hsrc
    have hun : (Offer.under True : Offer B → Offer B) = fun o => o := funext under_true
    rw [hoff]
    unfold withImports
    rw [List.flatMap_cons, List.flatMap_nil, List.append_nil]
    dsimp only
    rw [if_pos (show r.bare.name = b!"import" from ha)]
    unfold importSaid
    rw [hpre]
    dsimp only
    rw [h1, Option.bind_some, h2, Option.bind_some, hs1, Option.map_some, Option.getD_some, saidBy_congr hs2, saidBy_succ,
      show ImportHolds B [] = True from rfl, hun, List.map_id']
    exact k1 d' hle' D hD1 (fun x hx => hD1.1 x (included_defs hi1 x hx)) e

/-- **The one file that a lucid project stands for**: it says about every element what a browser is told that loads the files of
the project by their imports, if it loads them deep enough. -/
theorem included_loaded {env : CEnv} (hw : Lucid B env) {a : Bytes} {ss : Stylesheet} {incl : List Node} (hf : IsFile env a ss)
    (h : Included env (dirOf a) ss.nodes incl) :
    ∃ d0, ∀ d, d0 ≤ d → ∀ e : B.doc.Elem, saidBy B env e (sourceOf env) d (dirOf a) ss.nodes = applied B e incl := by
  obtain ⟨d0, k⟩ := included_said hw h (pre := []) hf rfl rfl
  refine ⟨d0 + 1, fun d hle e => ?_⟩
  obtain ⟨d', rfl⟩ : ∃ d', d = d' + 1 := ⟨d - 1, by omega⟩
  have hl : ∀ x ∈ mediaDefs incl, lastDef (mediaDefs (incl.map Node.bare)) x.1 ≠ none := fun x hx => by
    rw [mediaDefs_bare, lastDef_bare]
    intro k
    rw [Option.map_eq_none_iff] at k
    exact lastDef_some hx k
  rw [saidBy_succ]
  refine k d' (by omega) _ ⟨hl, fun name q hq => ?_⟩ (fun x hx => hl x (included_defs h x hx)) e
  rw [mediaDefs_bare, lastDef_bare, Option.map_eq_some_iff] at hq
  obtain ⟨q', h1, h2⟩ := hq
  obtain ⟨b, ss2, h3, h4⟩ := included_files h (pre := []) hf rfl rfl name q' h1
  exact ⟨b, ss2, q', h3, h4, h2⟩

/-- The file `a` that is written says, in one, what a browser is told that loads the source of `a` and, by their imports, the other
sources. -/
def LoadedAs (B : Browser) (env : CEnv) (ps : List Bytes) (a out : Bytes) : Prop :=
  ∃ ns ss' log, sourceOf env a = some ns ∧ Full env ps a ss' log ∧
    (ss'.Reckoned → ∃ d0, ∀ i, ∃ k ss2 lines2, (∀ n, k ≤ n → parse n out i = .ok ss2 lines2) ∧
      ∀ d, d0 ≤ d → ∀ e : B.doc.Elem, applied B e ss2.nodes = saidBy B env e (sourceOf env) d (dirOf a) ns)

theorem loadedAs_of {env : CEnv} (hw : Lucid B env) {ps : List Bytes} {a out : Bytes}
    (h : ∃ c id ss lines incl ss' log, env.read a = some c ∧ parse env.fuel c id = .ok ss lines ∧
      Included env (dirOf a) ss.nodes incl ∧ Full env ps a ss' log ∧
      (ss'.Reckoned → ∀ i, ∃ k ss2 lines2, (∀ n, k ≤ n → parse n out i = .ok ss2 lines2) ∧
        ∀ e : B.doc.Elem, applied B e ss2.nodes = applied B e incl)) : LoadedAs B env ps a out := by
  obtain ⟨c, id, ss, lines, incl, ss', log, h1, h2, h3, h4, h5⟩ := h
  have hf : IsFile env a ss := by
    cases h4 with
    | mk _ _ k1 k2 _ _ => exact ⟨_, c, id, lines, k1, k2, h1, h2⟩
  obtain ⟨d0, k⟩ := included_loaded hw hf h3
  obtain ⟨ss0, h6, rfl⟩ := parse_ok_id h2
  refine ⟨ss0.nodes, ss', log, by unfold sourceOf; rw [h1]; simp only [Option.bind_some, h6], h4, fun hn => ⟨d0, fun i => ?_⟩⟩
  obtain ⟨j, ss2, l2, g1, g2⟩ := h5 hn i
  exact ⟨j, ss2, l2, g1, fun d hd e => by rw [g2 e, ← k d hd e, saidBy_congr (applied_setId e ss0 id)]⟩

/-- **C93, partial**: compile a lucid and ready project with imports inlined and any features but custom properties.  When a
schedule has ended in which the loop variables are read in time and no number is given twice, then every file that is written,
if its numbers and what is left of its arithmetic can be written, says in one, about every element, what a browser is told that
loads the sources by their imports. -/
theorem inlined_loaded_partial {env : CEnv} (hr : RoundTrip env.fo) (hC : B.KnowsCalc env.fo) (hL : B.KnowsLinks) (hw : Lucid B env)
    (ho : env.opts.customProperties = false) (hin : env.opts.importRules = .inline)
    (hready : ∀ {p a c ss lines}, Asked env p → env.abs p = some a → env.read a = some c → parse env.fuel c = .ok ss lines → ss.Ready)
    {st : CSt} (h : ReachedTidy env st) (hD : Distinct st.sh) (hd : st.main = .done) {a out : Bytes} (hf : (a, out) ∈ st.sh.files) :
    LoadedAs B env st.sh.parses a out :=
  loadedAs_of hw ((project_says_partial hr hC hL hw ho hin hready h hD hd).1 hf)

/-- C93 for the sequential compilation, which returns if the files are legible and imports have no cycles. -/
theorem inlined_loaded_seq {env : CEnv} {rank : Bytes → Nat} (hac : Acyclic env rank) (hleg : Legible env) (hr : RoundTrip env.fo)
    (hC : B.KnowsCalc env.fo) (hL : B.KnowsLinks) (hw : Lucid B env) (ho : env.opts.customProperties = false)
    (hin : env.opts.importRules = .inline)
    (hready : ∀ {p a c ss lines}, Asked env p → env.abs p = some a → env.read a = some c → parse env.fuel c = .ok ss lines → ss.Ready) :
    ∃ n sh, seqCompile env n = some sh ∧ ∀ {a out}, (a, out) ∈ sh.files → LoadedAs B env sh.parses a out := by
  obtain ⟨n, sh, h1, h2⟩ := project_says_seq hac hleg hr hC hL hw ho hin hready
  exact ⟨n, sh, h1, fun hf => loadedAs_of hw (h2 hf)⟩

/-- C93 with nodes shared in memory, without custom media queries. -/
theorem inlined_loaded_shared_partial {env : CEnv} (hr : RoundTrip env.fo) (hC : B.KnowsCalc env.fo) (hL : B.KnowsLinks) (hw : Lucid B env)
    (ho : env.opts.customProperties = false) (hq : env.opts.customMediaQueries = false) (hin : env.opts.importRules = .inline)
    (hready : ∀ {p a c ss lines}, Asked env p → env.abs p = some a → env.read a = some c → parse env.fuel c = .ok ss lines → ss.Ready)
    {cs : List Choice} {st : CSt} (h : Along env CSt.init cs st) (hD : Distinct st.sh) (hd : st.main = .done) :
    ∃ hs, hRunSched env HSt.init cs = .ok hs ∧ hs.main = .done ∧
      ∀ {a out}, (a, out) ∈ hs.sh.files → LoadedAs B env hs.sh.parses a out := by
  obtain ⟨hs, h1, h2, -, h3, -⟩ := project_shared_partial hr hC hL hw ho hq hin hready h hD hd
  exact ⟨hs, h1, h2, fun hf => loadedAs_of hw (h3 hf)⟩

/-! ### Inlining and following -/

theorem saidBy_opts (env : CEnv) (o : TOpts) (e : B.doc.Elem) (sheet : Bytes → Option (List Node)) :
    ∀ d, saidBy B { env with opts := o } e sheet d = saidBy B env e sheet d
  | 0 => by funext dir ns; rw [saidBy, saidBy]
  | d + 1 => by
    funext dir ns
    rw [saidBy_succ, saidBy_succ]
    congr 1
    funext r
    unfold importSaid
    rw [saidBy_opts env o e sheet d]
    rfl

theorem asked_opts {env : CEnv} (o : TOpts) {p : Bytes} (h : Asked env p) : Asked { env with opts := o } p := by
  induction h with
  | entry h => exact .entry h
  | imp _ h1 h2 h3 h4 h5 ih => exact .imp (env := { env with opts := o }) ih h1 h2 h3 h4 h5

/-- The file `a` that is written when inlining and the files that are written when following: the same declarations win. -/
def ModesAgree (B : Browser) (lt : List B.W → List B.W → Prop) (env : CEnv) (ps : List Bytes) (filesF : List (Bytes × Bytes)) (a out : Bytes) : Prop :=
  ∃ ss' log, Full env ps a ss' log ∧
    (ss'.Reckoned → ∃ d0 k ss2 lines2 ns', (∀ n, k ≤ n → parse n out = .ok ss2 lines2) ∧ writtenOf filesF a = some ns' ∧
      ∀ d, d0 ≤ d → ∀ e : B.doc.Elem, SameWins lt (applied B e ss2.nodes) (saidBy B env e (writtenOf filesF) d (dirOf a) ns'))

theorem modes_agree {lt : List B.W → List B.W → Prop} {env : CEnv} {o : TOpts} {ps : List Bytes} {filesF : List (Bytes × Bytes)} {a out : Bytes}
    (h : LoadedAs B env ps a out)
    (hF : ∀ (d : Nat) {p f : Bytes} {ns : List Node}, Asked { env with opts := o } p → CEnv.abs { env with opts := o } p = some f →
      sourceOf { env with opts := o } f = some ns → ∃ ns', writtenOf filesF f = some ns' ∧ ∀ e : B.doc.Elem,
        SameWins lt (saidBy B { env with opts := o } e (writtenOf filesF) d (dirOf f) ns')
          (saidBy B { env with opts := o } e (sourceOf { env with opts := o }) d (dirOf f) ns)) : ModesAgree B lt env ps filesF a out := by
  obtain ⟨ns, ss', log, g1, g2, g3⟩ := h
  refine ⟨ss', log, g2, fun hn => ?_⟩
  obtain ⟨p, hp, ha⟩ : ∃ p, Asked { env with opts := o } p ∧ CEnv.abs { env with opts := o } p = some a := by
    cases g2 with
    | mk _ _ k1 k2 _ _ => exact ⟨_, asked_opts o k1, k2⟩
  obtain ⟨d0, g4⟩ := g3 hn
  obtain ⟨k, ss2, l2, g5, g6⟩ := g4 0
  obtain ⟨ns', w1, -⟩ := hF 0 hp ha g1
  refine ⟨d0, k, ss2, l2, ns', g5, w1, fun d hd e => ?_⟩
  obtain ⟨ns'', w2, w3⟩ := hF d hp ha g1
  rw [w1] at w2
  cases w2
  have w4 : SameWins lt _ _ := w3 e
  rw [show sourceOf { env with opts := o } = sourceOf env from rfl, saidBy_opts env o e (writtenOf filesF), saidBy_opts env o e (sourceOf env)] at w4
  rw [g6 d hd e]
  exact fun p q o => (w4 p q o).symm

/-- **Inlining and following agree**: compile a lucid and ready project once with imports inlined and once with imports followed (`o`),
in any schedules in which loop variables are read in time and no number is given twice.  Then for every file that is written
when inlining, if its numbers and what is left of its arithmetic can be written, the same declarations win for every element
in it as in the files that are written when following, loaded by their imports. -/
theorem modes_agree_partial {lt : List B.W → List B.W → Prop} {env : CEnv} {o : TOpts} (hr : RoundTrip env.fo)
    (hC : B.KnowsCalc env.fo) (hL : B.KnowsLinks) (has : ∀ a b, lt a b → ¬ lt b a) (hw : Lucid B env)
    (ho : env.opts.customProperties = false) (hin : env.opts.importRules = .inline)
    (hoF : o.customProperties = false) (hinF : o.importRules = .follow)
    (hready : ∀ {a c ss lines}, env.read a = some c → parse env.fuel c = .ok ss lines → ss.Ready)
    (hlow : ∀ {a c id ss lines}, env.read a = some c → parse env.fuel c id = .ok ss lines → Lowerable B env.fo o ss.nodes)
    (hrk : ∀ {a ss' log}, Made { env with opts := o } True a ss' log → ss'.Reckoned)
    {st : CSt} (h : ReachedTidy env st) (hD : Distinct st.sh) (hd : st.main = .done)
    {cs : List Choice} {stF : CSt} (hF : Along { env with opts := o } CSt.init cs stF) (hDF : Distinct stF.sh) (hdF : stF.main = .done) :
    ∃ hs, hRunSched { env with opts := o } HSt.init cs = .ok hs ∧ hs.main = .done ∧
      ∀ {a out}, (a, out) ∈ st.sh.files → ModesAgree B lt env st.sh.parses hs.sh.files a out := by
  obtain ⟨hs, k1, k2, k3⟩ := followed_project_partial (lt := lt) (env := { env with opts := o }) hr hC hL has hoF hinF
    (fun _ _ h3 h4 => hready h3 h4) (fun _ _ h3 h4 => hlow h3 h4) hrk hF hDF hdF
  exact ⟨hs, k1, k2, fun hf => modes_agree (inlined_loaded_partial hr hC hL hw ho hin (fun _ _ h3 h4 => hready h3 h4) h hD hd hf) k3⟩

/-- The same for the sequential compilation. -/
theorem modes_agree_seq {lt : List B.W → List B.W → Prop} {env : CEnv} {o : TOpts} {rank : Bytes → Nat} (hac : Acyclic env rank) (hleg : Legible env)
    (hacF : Acyclic { env with opts := o } rank) (hlegF : Legible { env with opts := o }) (hr : RoundTrip env.fo)
    (hC : B.KnowsCalc env.fo) (hL : B.KnowsLinks) (has : ∀ a b, lt a b → ¬ lt b a) (hw : Lucid B env)
    (ho : env.opts.customProperties = false) (hin : env.opts.importRules = .inline)
    (hoF : o.customProperties = false) (hinF : o.importRules = .follow)
    (hready : ∀ {a c ss lines}, env.read a = some c → parse env.fuel c = .ok ss lines → ss.Ready)
    (hlow : ∀ {a c id ss lines}, env.read a = some c → parse env.fuel c id = .ok ss lines → Lowerable B env.fo o ss.nodes)
    (hrk : ∀ {a ss' log}, Made { env with opts := o } True a ss' log → ss'.Reckoned) :
    ∃ n sh m shF, seqCompile env n = some sh ∧ seqCompile { env with opts := o } m = some shF ∧
      ∀ {a out}, (a, out) ∈ sh.files → ModesAgree B lt env sh.parses shF.files a out := by
  obtain ⟨n, sh, h1, h2⟩ := inlined_loaded_seq hac hleg hr hC hL hw ho hin fun _ _ h3 h4 => hready h3 h4
  obtain ⟨m, shF, k1, k2⟩ := followed_project_seq (lt := lt) (env := { env with opts := o }) hacF hlegF hr hC hL has hoF hinF
    (fun _ _ h3 h4 => hready h3 h4) (fun _ _ h3 h4 => hlow h3 h4) hrk
  exact ⟨n, sh, m, shF, h1, k1, fun hf => modes_agree (h2 hf) k2⟩

def shareRank (a : Bytes) : Nat := if a = b!"/m" then 2 else if a = b!"/a" then 1 else 0

/-- All hypotheses of `modes_agree_seq` are met. -/
example : ∃ n sh m shF, seqCompile shareEnv n = some sh ∧ seqCompile { shareEnv with opts := { shareEnv.opts with importRules := .follow } } m = some shF ∧
    ∀ {a out}, (a, out) ∈ sh.files → ModesAgree smallBrowser sumLess shareEnv sh.parses shF.files a out :=
  modes_agree_seq (env := shareEnv) (o := { shareEnv.opts with importRules := .follow }) (rank := shareRank)
    (acyclic_of_test (env := shareEnv) (files := shareFiles) (rank := shareRank) rfl (by decide +kernel))
    (legible_of_test (files := shareFiles) rfl (by decide) (by decide +kernel))
    (acyclic_of_test (env := { shareEnv with opts := { shareEnv.opts with importRules := .follow } }) (rank := shareRank) (files := shareFiles) rfl (by decide +kernel)) (legible_of_test (files := shareFiles) rfl (by decide) (by decide +kernel))
    unary_roundTrip smallBrowser_calc smallBrowser_links (fun _ _ h k => absurd h (Nat.lt_asymm k))
    (lucid_of_test (files := shareFiles) rfl (by decide +kernel) _) rfl rfl rfl rfl
    (fun hc hp => ready_of_test (env := shareEnv) (files := shareFiles) rfl (by decide +kernel) hc hp)
    (fun hc hp => low_of_test (env := { shareEnv with opts := { shareEnv.opts with importRules := .follow } }) (files := shareFiles) rfl (by decide +kernel) _ hc hp)
    (fun hm => reckoned_of_test (files := shareFiles) rfl (by decide) (by decide +kernel) hm)

/-! ### What is false -/

/-- `a{b:c}` -/
def plainSheet : Stylesheet :=
  ⟨[.rule ⟨⟨0, 0⟩, .sels ⟨⟨0, 0⟩, [.mk ⟨0, 0⟩ [.type ⟨0, 0⟩ b!"a"]]⟩, some ⟨⟨0, 0⟩, [.decl ⟨0, 0⟩ b!"b" [.ident ⟨0, 0⟩ b!"c"] false]⟩⟩], []⟩

/-- `@import "d" print;` -/
def printedImp : AtRule := ⟨0, ⟨0, 0⟩, b!"import", [.str ⟨0, 0⟩ b!"d", .mql (some ⟨⟨0, 0⟩, [⟨⟨0, 0⟩, [.ident ⟨0, 0⟩ b!"print"]⟩]⟩)], .none⟩

/-- The two files. -/
def printEnv : CEnv :=
  ⟨[b!"m"], lowering, some b!"/", lookupMap [(b!"/m", b!"@import \"d\" print;"), (b!"/d", b!"a{b:c}")],
    fun spec dir => some (joinPath [dir, spec]), unaryOps, 200⟩

/-- **C93, refuted in general**: the condition of an import is lost when the imported file is inlined, and what is said for one
medium is written for all. -/
theorem inlined_loaded_refuted :
    (¬ ∀ (B : Browser) (fo : FloatOps) (o : TOpts) (n : Nat) (d d' m' : Stylesheet) (imp : AtRule) (sp : Span) (v : Bytes) (conds : List AtPrelude)
        (rest : List Node) (s s' : TSt),
      RoundTrip fo → B.KnowsCalc fo → B.KnowsLinks → o.customProperties = false → Lowerable B fo o d.nodes → Lowerable B fo o rest →
      imp.name = b!"import" → imp.preludes = .str sp v :: conds → transform fo o (some []) n d = .ok d' s →
      transform fo o (some [(imp.id, d')]) n ⟨.at imp :: rest, []⟩ = .ok m' s' → ∀ e : B.doc.Elem,
        applied B e m'.nodes = withImports (fun _ => (applied B e d.nodes).map (Offer.under (ImportHolds B conds))) (applied B e (.at imp :: rest))) ∧
    (seqCompile printEnv 20).map (fun sh => (sh.errors.length, (lookupMap sh.files b!"/m").map cssLine)) = some (1, some b!"a{b:c}") := by
  refine ⟨fun hall => ?_, by decide +kernel⟩
  have h := hall smallBrowser unaryOps lowering 3 plainSheet plainSheet plainSheet printedImp ⟨0, 0⟩ b!"d" _ [] _ _ unary_roundTrip smallBrowser_calc
    smallBrowser_links rfl (lowerableB_sound (by decide +kernel) _ _) (lowerableB_sound (by decide +kernel) _ _) rfl rfl
    (show transform unaryOps lowering (some []) 3 plainSheet = .ok plainSheet _ by rfl)
    (show transform unaryOps lowering (some [(printedImp.id, plainSheet)]) 3 ⟨[.at printedImp], []⟩ = .ok plainSheet _ by rfl) false
  have h1 : (True ∧ Weights smallBrowser false [.mk ⟨0, 0⟩ [.type ⟨0, 0⟩ b!"a"]] [(1 : Nat)]) =
      (MediaHold smallBrowser [] [⟨⟨0, 0⟩, [.ident ⟨0, 0⟩ b!"print"]⟩] ∧ True ∧ Weights smallBrowser false [.mk ⟨0, 0⟩ [.type ⟨0, 0⟩ b!"a"]] [(1 : Nat)]) :=
    congrArg (fun l : List (Offer smallBrowser) => match l with | .decl c _ _ _ :: _ => c [(1 : Nat)] | _ => True) h
  have h3 : Weights smallBrowser false [.mk ⟨0, 0⟩ [.type ⟨0, 0⟩ b!"a"]] [(1 : Nat)] :=
    ⟨_, List.mem_singleton_self _, ⟨false, rfl, rfl⟩, rfl⟩
  have h4 := (h1.mp ⟨trivial, h3⟩).1
  rcases h4 with h5 | ⟨q, hq, h5⟩
  · cases h5
  · rw [List.mem_singleton] at hq
    subst hq
    have h6 : (b!"print" : Bytes) = b!"screen" := h5.2.1
    revert h6
    decide

end Cssc
