import Verif.Proofs.CompileTidy
import Verif.Props.Alone

/-!
# There is one whole compilation of a file, up to the numbers of the parses
-/

namespace Cssc

/-! ### The imports of a file can be told apart -/

theorem Ordered.ge {lo hi : Nat} {l : List Span} (h : Ordered lo hi l) : ∀ sp ∈ l, lo ≤ sp.start := by
  induction l generalizing lo with
  | nil => intro sp h; cases h
  | cons x l ih =>
    obtain ⟨h1, h2, h3⟩ := h
    intro sp hsp
    rcases List.mem_cons.1 hsp with rfl | hsp
    · exact h1
    · have := ih h3 sp hsp
      omega

theorem Ordered.inj {lo hi : Nat} {ns : List Node} (h : Ordered lo hi (ns.map Node.loc)) {x y : Node} (hx : x ∈ ns) (hy : y ∈ ns)
    (hxs : x.loc.start < x.loc.stop) (hys : y.loc.start < y.loc.stop) (e : x.loc.start = y.loc.start) : x = y := by
  induction ns generalizing lo with
  | nil => cases hx
  | cons z ns ih =>
    rw [List.map_cons] at h
    obtain ⟨h1, h2, h3⟩ := h
    rcases List.mem_cons.1 hx with hx1 | hx1 <;> rcases List.mem_cons.1 hy with hy1 | hy1
    · rw [hx1, hy1]
    · have := h3.ge _ (List.mem_map_of_mem hy1)
      rw [hx1] at hxs e
      omega
    · have := h3.ge _ (List.mem_map_of_mem hx1)
      rw [hy1] at hys e
      omega
    · exact ih h3 hx1 hy1

theorem import_inj {n : Nat} {src : Bytes} {id : Nat} {ss : Stylesheet} {lines : List Nat} (h : parse n src id = .ok ss lines)
    {x y : ImportSpec} (hx : x ∈ ss.imports) (hy : y ∈ ss.imports) (e : x.rule = y.rule) : x = y := by
  have hs := parse_sheetOk h
  have key : ∀ {z : ImportSpec}, z ∈ ss.imports → ∃ a sp v ps, Node.at a ∈ ss.nodes ∧ a.preludes = .str sp v :: ps ∧ z = ⟨v, a.id⟩ ∧
      a.sp.start < a.sp.stop := by
    intro z hz
    rw [hs.imports] at hz
    obtain ⟨nd, h1, h2⟩ := List.mem_filterMap.1 hz
    cases nd with
    | rule r => cases h2
    | «at» a =>
      dsimp only at h2
      split at h2
      · rename_i hn
        split at h2
        · rename_i sp v ps hp
          cases h2
          obtain ⟨_, ⟨i, j, t1, t2, t3, t4⟩, _⟩ := show AtOk src a from hs.nodes _ h1
          refine ⟨a, sp, v, ps, h1, hp, rfl, ?_⟩
          rw [hn] at t4
          have hlen := congrArg List.length t4
          have : (sub src i j).length ≤ j - i := by unfold sub; simp
          have h6 : (b!"import").length = 6 := rfl
          rw [h6] at hlen
          omega
        · cases h2
      · cases h2
  obtain ⟨a, sp, v, ps, a1, a2, rfl, a4⟩ := key hx
  obtain ⟨b, sp', v', ps', b1, b2, rfl, b4⟩ := key hy
  have he : a.sp.start = b.sp.start := congrArg AtId.start e
  have := hs.order.inj a1 b1 a4 b4 he
  cases this
  rw [a2] at b2
  cases b2
  rfl

/-! ### The numbers in a compilation -/

theorem Full.numbers {env : CEnv} {rank : Bytes → Nat} (hac : Acyclic env rank) {ps : List Bytes} {a : Bytes} {ss' : Stylesheet}
    {log : List Report} (h : Full env ps a ss' log) :
    ∀ x, Node.at x ∈ ss'.nodes → ∃ b, ps.reverse[x.src]? = some b ∧ rank b ≤ rank a := by
  induction h with
  | @mk p a c id ss ss' lines repl s fileOf logOf h1 h2 h3 h4 h5 h6 h7 h8 h9 ih =>
    unfold transform at h9
    split at h9
    · rename_i nodes s hn
      cases h9
      refine mapConcat_from (P := fun x => ∃ b, ps.reverse[x.src]? = some b ∧ rank b ≤ rank a) (fun x hx s s' out e => ?_) hn
      refine transformNode_from (Q := fun n => ∃ b, ps.reverse[n]? = some b ∧ rank b ≤ rank a) ?_ ?_ e
      · intro m hm kv hkv y hy
        split at hm
        · rename_i hinl
          cases hm
          obtain ⟨imp, k1, -, rel, k2, k3⟩ := h6 hinl kv hkv
          have hlt := hac.lt h1 h2 h3 h4 k1 k2 k3
          obtain ⟨b', h9, h10⟩ := ih hinl kv hkv y hy
          exact ⟨b', h9, by omega⟩
        · cases hm
      · rintro y rfl
        rw [(parse_src h4).1 y hx]
        exact ⟨a, h5, Nat.le_refl _⟩
    · cases h9
    · cases h9

/-! ### Two compilations -/

/-- Two environments with the same files under the names in `A`. -/
structure Agrees (env env' : CEnv) (A : Bytes → Prop) : Prop where
  opts : env'.opts = env.opts
  fo : env'.fo = env.fo
  fuel : env'.fuel = env.fuel
  abs : ∀ p, env'.abs p = env.abs p
  read : ∀ {p a}, A p → env.abs p = some a → env'.read a = env.read a
  resolve : ∀ {p a c id ss lines imp}, A p → env.abs p = some a → env.read a = some c → parse env.fuel c id = .ok ss lines →
    imp ∈ ss.imports → env'.resolve imp.value (dirOf a) = env.resolve imp.value (dirOf a)
  closed : ∀ {p a c id ss lines imp rel}, A p → env.abs p = some a → env.read a = some c → parse env.fuel c id = .ok ss lines →
    imp ∈ ss.imports → env.resolve imp.value (dirOf a) = some rel → A rel

theorem Agrees.refl (env : CEnv) : Agrees env env fun _ => True :=
  ⟨rfl, rfl, rfl, fun _ => rfl, fun _ _ => rfl, fun _ _ _ _ _ => rfl, fun _ _ _ _ _ _ => trivial⟩

theorem Agrees.symm {env env' : CEnv} {A : Bytes → Prop} (h : Agrees env env' A) : Agrees env' env A := by
  refine ⟨h.opts.symm, h.fo.symm, h.fuel.symm, fun p => (h.abs p).symm, fun hp ha => ?_, fun hp ha hr hpar him => ?_,
    fun hp ha hr hpar him hrel => ?_⟩
  · rw [h.abs] at ha; exact (h.read hp ha).symm
  · rw [h.abs] at ha; rw [h.read hp ha] at hr; rw [h.fuel] at hpar; exact (h.resolve hp ha hr hpar him).symm
  · rw [h.abs] at ha; rw [h.read hp ha] at hr; rw [h.fuel] at hpar; rw [h.resolve hp ha hr hpar him] at hrel
    exact h.closed hp ha hr hpar him hrel

theorem Agrees.fails {env env' : CEnv} {A : Bytes → Prop} (h : Agrees env env' A) {p : Bytes} (hp : A p) {e : CompErr}
    (hf : FailsWith env p e) : FailsWith env' p e := by
  cases hf with
  | abs h1 => exact .abs (by rw [h.abs]; exact h1)
  | read h1 h2 => exact .read (by rw [h.abs]; exact h1) (by rw [h.read hp h1]; exact h2)
  | parse h1 h2 h3 => exact .parse (by rw [h.abs]; exact h1) (by rw [h.read hp h1]; exact h2) (by rw [h.fuel]; exact h3)

/-- A file that has been compiled does not fail. -/
theorem Full.not_noFile {env : CEnv} {ps : List Bytes} {b rel value dir : Bytes} {ss : Stylesheet} {log : List Report}
    (h : Full env ps b ss log) (hr : env.resolve value dir = some rel) (hb : env.abs rel = some b) : ¬ NoFile env value dir := by
  rintro (h1 | ⟨rel', e, h1, h2⟩)
  · rw [hr] at h1; cases h1
  · rw [hr] at h1; cases h1
    cases h with
    | mk fileOf logOf i1 i2 i3 i4 =>
      obtain ⟨ss0, i4, -⟩ := parse_ok_id i4
      exact failsWith_ok h2 hb ⟨_, _, _, i3, i4⟩

/-- What is put in for an import in one compilation is put in for it in the other. -/
theorem repl_has {env : CEnv} {ps : List Bytes} {a c : Bytes} {id : Nat} {ss : Stylesheet} {lines : List Nat}
    {repl : List (AtId × Stylesheet)} {fileOf : AtId × Stylesheet → Bytes} {logOf : AtId × Stylesheet → List Report}
    (hpar : parse env.fuel c id = .ok ss lines)
    (h6 : ∀ kv ∈ repl, ∃ imp ∈ ss.imports, imp.rule = kv.1 ∧ ∃ rel, env.resolve imp.value (dirOf a) = some rel ∧
      env.abs rel = some (fileOf kv))
    (h7 : ∀ kv ∈ repl, Full env ps (fileOf kv) kv.2 (logOf kv))
    {k : AtId} {t : Stylesheet} (hl : lookupImport repl k = some t) {imp : ImportSpec} (him : imp ∈ ss.imports) (hk : imp.rule = k) :
    ∃ rel b log, env.resolve imp.value (dirOf a) = some rel ∧ env.abs rel = some b ∧ Full env ps b t log ∧
      (k, t) ∈ repl ∧ b = fileOf (k, t) ∧ log = logOf (k, t) := by
  have hm := lookupImport_key hl
  obtain ⟨imp', g1, g2, rel, g3, g4⟩ := h6 _ hm
  cases import_inj hpar g1 him (g2.trans hk.symm)
  exact ⟨rel, _, _, g3, g4, h7 _ hm, hm, rfl, rfl⟩

theorem lookupImport_of {m : List (AtId × Stylesheet)} {k : AtId} (h : ∃ kv ∈ m, kv.1 = k) : ∃ t, lookupImport m k = some t := by
  obtain ⟨kv, h1, h2⟩ := h
  induction m with
  | nil => cases h1
  | cons x m ih =>
    obtain ⟨k', t⟩ := x
    unfold lookupImport
    by_cases he : k' = k
    · rw [if_pos he]; exact ⟨t, rfl⟩
    · rw [if_neg he]
      rcases List.mem_cons.1 h1 with rfl | h1
      · exact absurd h2 he
      · exact ih h1

/-- The whole compilation of a file is the same up to the numbers of the parses. -/
theorem Full.same {env env' : CEnv} {A : Bytes → Prop} (hag : Agrees env env' A) {rank rank' : Bytes → Nat} (hac : Acyclic env rank)
    (hac' : Acyclic env' rank') {ps ps' : List Bytes} {a : Bytes} {ss1 : Stylesheet} {log : List Report}
    (h : Full env ps a ss1 log) : ∀ {q ss2 log'}, A q → env.abs q = some a → Full env' ps' a ss2 log' →
      plainIds ss1.nodes = plainIds ss2.nodes ∧ log = log' := by
  induction h with
  | @mk p a c id ss ss1 lines repl t fileOf logOf h1 h2 h3 h4 h5 h6 h7 h8 h9 ih =>
    intro q ss2 log' hq hqa h'
    have hfull : Full env ps a ss1 t.log := .mk fileOf logOf h1 h2 h3 h4 h5 h6 h7 h8 h9
    cases h' with
    | @mk p' _ c' id' ss' _ lines' repl' t' fileOf' logOf' k1 k2 k3 k4 k5 k6 k7 k8 k9 =>
      have hread := hag.read hq hqa
      rw [hread, h3] at k3
      cases k3
      obtain ⟨s0, j1, rfl⟩ := parse_ok_id h4
      obtain ⟨s1, j2, rfl⟩ := parse_ok_id k4
      rw [hag.fuel, j1] at j2
      cases j2
      -- the transformations
      have hnodes : ∀ {repl repl' : Replacements}, TSt.init env.opts repl = TSt.init env.opts repl' →
          (∀ x y, x ∈ (s0.setId id).nodes → y ∈ (s0.setId id').nodes → x.setId 0 = y.setId 0 →
            SameIds (transformNode env.fo env.opts repl env.fuel x) (transformNode env.fo env.opts repl' env.fuel y)) →
          transform env.fo env.opts repl env.fuel (s0.setId id) = .ok ss1 t →
          transform env.fo env.opts repl' env.fuel (s0.setId id') = .ok ss2 t' → plainIds ss1.nodes = plainIds ss2.nodes ∧ t.log = t'.log := by
        intro repl repl' hi hn e1 e2
        have hall : List.Forall₂ (fun x y => SameIds (transformNode env.fo env.opts repl env.fuel x)
            (transformNode env.fo env.opts repl' env.fuel y)) (s0.setId id).nodes (s0.setId id').nodes := by
          refine forall2_of_plain ?_ fun x hx y hy => hn x y hx hy
          unfold plainIds Stylesheet.setId
          simp [setId_setId]
        have := SameIds.mapConcat (R := fun x y => SameIds (transformNode env.fo env.opts repl env.fuel x)
            (transformNode env.fo env.opts repl' env.fuel y)) (fun h => h) hall (TSt.init env.opts repl)
        unfold transform transformNodes at e1 e2
        rw [← hi] at e2
        revert this e1 e2
        generalize mapConcat (transformNode env.fo env.opts repl env.fuel) (s0.setId id).nodes (TSt.init env.opts repl) = r1
        generalize mapConcat (transformNode env.fo env.opts repl' env.fuel) (s0.setId id').nodes (TSt.init env.opts repl) = r2
        intro e1 e2 e0
        cases r1 with
        | crash => cases e1
        | timeout => cases e1
        | ok n1 u1 =>
          cases r2 with
          | crash => cases e2
          | timeout => cases e2
          | ok n2 u2 =>
            cases e1
            cases e2
            injection e0 with e3 e4
            exact ⟨e3, by rw [e4]⟩
      rw [hag.opts, hag.fo, hag.fuel] at k9
      by_cases hinl : env.opts.importRules = .inline
      · have h6 := h6 hinl
        have h7 := h7 hinl
        have h8 := h8 hinl
        have ih := ih hinl
        have hinl' : env'.opts.importRules = .inline := by rw [hag.opts]; exact hinl
        have k6 := k6 hinl'
        have k7 := k7 hinl'
        have k8 := k8 hinl'
        rw [if_pos hinl] at h9 k9
        have hsrc := (parse_src h4).2
        have hsrc' := (parse_src k4).2
        have hown := (parse_src h4).1
        have hown' := (parse_src k4).1
        have hksrc : ∀ kv ∈ repl, kv.1.src = id := fun kv hkv => by
          obtain ⟨imp, g1, g2, -⟩ := h6 kv hkv
          rw [← g2]; exact hsrc imp g1
        have hksrc' : ∀ kv ∈ repl', kv.1.src = id' := fun kv hkv => by
          obtain ⟨imp, g1, g2, -⟩ := k6 kv hkv
          rw [← g2]; exact hsrc' imp g1
        -- the replacements correspond
        have hlook : ∀ st : Nat, (lookupImport repl ⟨id, st⟩ = none ∧ lookupImport repl' ⟨id', st⟩ = none) ∨
            ∃ t1 t2, lookupImport repl ⟨id, st⟩ = some t1 ∧ lookupImport repl' ⟨id', st⟩ = some t2 ∧ plainIds t1.nodes = plainIds t2.nodes := by
          intro st
          have him : ∀ {imp0 : ImportSpec}, imp0 ∈ s0.imports → imp0.rule.start = st →
              imp0.setId id ∈ (s0.setId id).imports ∧ (imp0.setId id).rule = ⟨id, st⟩ ∧
              imp0.setId id' ∈ (s0.setId id').imports ∧ (imp0.setId id').rule = ⟨id', st⟩ := fun h0 hs =>
            ⟨List.mem_map_of_mem h0, by rw [← hs]; rfl, List.mem_map_of_mem h0, by rw [← hs]; rfl⟩
          cases hl : lookupImport repl ⟨id, st⟩ with
          | some t1 =>
            right
            obtain ⟨imp, g1, g2, -⟩ := h6 _ (lookupImport_key hl)
            obtain ⟨imp0, g0, rfl⟩ := List.mem_map.1 g1
            have hst : imp0.rule.start = st := congrArg AtId.start g2
            obtain ⟨i1, i2, i3, i4⟩ := him g0 hst
            obtain ⟨rel, b, lg, r1, r2, r3, r4, rfl, rfl⟩ := repl_has h4 h6 h7 hl i1 i2
            have hres : env'.resolve imp0.value (dirOf a) = some rel := (hag.resolve hq hqa h3 h4 i1).trans r1
            have hA := hag.closed hq hqa h3 h4 i1 r1
            have hnot : ¬ NoFile env' imp0.value (dirOf a) := by
              rintro (h10 | ⟨rel', e, h10, h11⟩)
              · rw [hres] at h10; cases h10
              · rw [hres] at h10; cases h10
                exact r3.not_noFile r1 r2 (.inr ⟨rel, e, r1, hag.symm.fails hA h11⟩)
            obtain ⟨t2, hl2⟩ := lookupImport_of ((k8 _ i3).resolve_right hnot)
            rw [i4] at hl2
            obtain ⟨rel2, b2, lg2, q1, q2, q3, -⟩ := repl_has k4 k6 k7 hl2 i3 i4
            have : some rel = some rel2 := hres.symm.trans q1
            cases this
            rw [hag.abs, r2] at q2
            cases q2
            exact ⟨t1, t2, rfl, hl2, (ih _ r4 hA r2 q3).1⟩
          | none =>
            left
            refine ⟨rfl, ?_⟩
            cases hl2 : lookupImport repl' ⟨id', st⟩ with
            | none => rfl
            | some t2 =>
              exfalso
              obtain ⟨imp, g1, g2, -⟩ := k6 _ (lookupImport_key hl2)
              obtain ⟨imp0, g0, rfl⟩ := List.mem_map.1 g1
              have hst : imp0.rule.start = st := congrArg AtId.start g2
              obtain ⟨i1, i2, i3, i4⟩ := him g0 hst
              obtain ⟨rel, b, lg, r1, r2, r3, -⟩ := repl_has k4 k6 k7 hl2 i3 i4
              have hres : env.resolve imp0.value (dirOf a) = some rel := (hag.resolve hq hqa h3 h4 i1).symm.trans r1
              have hA := hag.closed hq hqa h3 h4 i1 hres
              have hnot : ¬ NoFile env imp0.value (dirOf a) := by
                rintro (h10 | ⟨rel', e, h10, h11⟩)
                · rw [hres] at h10; cases h10
                · rw [hres] at h10; cases h10
                  exact r3.not_noFile r1 r2 (.inr ⟨rel, e, r1, hag.fails hA h11⟩)
              obtain ⟨t1, hl1⟩ := lookupImport_of ((h8 _ i1).resolve_right hnot)
              rw [i2, hl] at hl1
              cases hl1
        refine hnodes (repl := some repl) (repl' := some repl') rfl ?_ h9 k9
        intro x y hx hy hxy
        refine sameIds_node ⟨hxy, ?_⟩
        rintro x' y' rfl rfl
        have hx' : x'.id = ⟨id, x'.sp.start⟩ := by unfold AtRule.id; rw [hown x' hx]
        have hy' : y'.id = ⟨id', x'.sp.start⟩ := by
          obtain ⟨i, hi⟩ := setId_at hxy
          have h9 := hown' y' hy
          cases hi
          unfold AtRule.id
          rw [h9]
        rw [hx', hy']
        rcases hlook x'.sp.start with h9 | ⟨t1, t2, h9, h10, h11⟩
        · exact .inl h9
        · refine .inr ⟨t1, t2, h9, h10, forall2_of_plain h11 fun u hu v hv huv => ⟨huv, ?_⟩⟩
          rintro u' v' rfl rfl
          constructor
          · refine lookup_other hksrc ?_
            obtain ⟨imp, g1, -, rel, g2, g3⟩ := h6 _ (lookupImport_key h9)
            have hlt := hac.lt h1 h2 h3 h4 g1 g2 g3
            obtain ⟨b', g5, g6⟩ := (h7 _ (lookupImport_key h9)).numbers hac u' hu
            intro hid
            rw [show u'.src = id from hid, h5] at g5
            cases g5
            omega
          · refine lookup_other hksrc' ?_
            obtain ⟨imp, g1, -, rel, g2, g3⟩ := k6 _ (lookupImport_key h10)
            have hlt := hac'.lt k1 k2 (hread.trans h3) k4 g1 g2 g3
            obtain ⟨b', g5, g6⟩ := (k7 _ (lookupImport_key h10)).numbers hac' v' hv
            intro hid
            rw [show v'.src = id' from hid, k5] at g5
            cases g5
            omega
      · rw [if_neg hinl] at h9 k9
        exact hnodes rfl (fun x y _ _ hxy => sameIds_none hxy) h9 k9

end Cssc
