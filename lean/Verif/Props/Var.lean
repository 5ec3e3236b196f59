import Verif.Proofs.Var

/-!
# C90: custom properties are put in where browsers would put them in
-/

namespace Cssc

/-! ### The transformer puts custom properties in first -/

theorem rootDefs_append (a b : List Node) : rootDefs (a ++ b) = rootDefs a ++ rootDefs b := by
  unfold rootDefs
  rw [List.flatMap_append]

theorem rootDefs_rule {r : QRule} {b : DeclBlock} (h : r.block = some b) : rootDefs [.rule r] = b.decls.filterMap Decl.custom? := by
  obtain ⟨sp, p, bl⟩ := r
  cases h
  simp [rootDefs]

theorem custom?_some {d : Decl} (h : d.custom? ≠ none) : ∃ sp prop vals imp, d = .decl sp prop vals imp ∧ prop.take 2 = b!"--" := by
  cases d with
  | decl sp prop vals imp =>
    by_cases hp : prop.take 2 = b!"--"
    · exact ⟨_, _, _, _, rfl, hp⟩
    · exact absurd (by unfold Decl.custom?; dsimp only; rw [if_neg hp]) h
  | raw => exact absurd rfl h

theorem Rooted.takes {ns : List Node} (h : Rooted ns) {r : QRule} {b : DeclBlock} (hr : .rule r ∈ ns) (hb : r.block = some b) {d : Decl}
    (hd : d ∈ b.decls) (hc : d.custom? ≠ none) : r.takes := by
  obtain ⟨sp, prop, vals, imp, rfl, hp⟩ := custom?_some hc
  exact (h.defs r b sp prop vals imp hr hb hd hp).1

theorem varDefs_root {ns : List Node} {ds : List (Bytes × List Value)} (h : VarDefs ns ds)
    (hn : ∀ r b d, .rule r ∈ ns → r.block = some b → d ∈ b.decls → d.custom? ≠ none → r.takes) : ds = rootDefs ns := by
  induction h with
  | nil => rfl
  | @«at» ns ds a _ ih =>
    rw [rootDefs_append, ← ih fun r b d hr => hn r b d (List.mem_append_left _ hr)]
    simp [rootDefs]
  | @rule ns ds e r _ he ih =>
    rw [rootDefs_append, ← ih fun r b d hr => hn r b d (List.mem_append_left _ hr)]
    obtain ⟨b, hb, ⟨_, rfl⟩ | ⟨h1, rfl⟩⟩ := he
    · rw [rootDefs_rule hb]
    · rw [rootDefs_rule hb, List.filterMap_eq_nil_iff.2]
      intro d hd
      by_contra hc
      exact h1 (hn r b d (List.mem_append_right _ (List.mem_singleton_self _)) hb hd hc)

theorem varDefs_some {ns : List Node} : (∀ r, .rule r ∈ ns → ∃ b, r.block = some b) → ∃ ds, VarDefs ns ds := by
  induction ns using List.reverseRecOn with
  | nil => exact fun _ => ⟨[], .nil⟩
  | append_singleton ns n ih =>
    intro h
    obtain ⟨ds, hds⟩ := ih fun r hr => h r (List.mem_append_left _ hr)
    cases n with
    | «at» a => exact ⟨ds, .at hds⟩
    | rule r =>
      obtain ⟨b, hb⟩ := h r (List.mem_append_right _ (List.mem_singleton_self _))
      by_cases ht : r.takes
      · exact ⟨_, .rule hds ⟨b, hb, .inl ⟨ht, rfl⟩⟩⟩
      · exact ⟨_, .rule hds ⟨b, hb, .inr ⟨ht, rfl⟩⟩⟩

theorem mediaDefs_subst (D : List (Bytes × List Value)) (ns : List Node) : mediaDefs (ns.map (Node.subst D)) = mediaDefs ns := by
  unfold mediaDefs
  rw [List.filterMap_map]
  congr 1
  funext n
  cases n <;> rfl

theorem kept_filter {o : TOpts} (ho : o.customProperties = true) {r : QRule} {b : DeclBlock} {ds : List Decl} (h : RuleKept o r b ds)
    (hn : ∀ d ∈ b.decls, d.custom? ≠ none → r.takes) : ds = b.decls.filter fun d => d.custom?.isNone := by
  rcases h with ⟨_, _, h⟩ | ⟨h1, h⟩
  · exact h
  · rw [h]
    symm
    rw [List.filter_eq_self]
    intro d hd
    cases hc : d.custom? with
    | none => rfl
    | some _ => exact (h1 ⟨ho, hn d hd (by rw [hc]; simp)⟩).elim

theorem rootDefs_free {ns : List Node} (h : Rooted ns) : ∀ d ∈ rootDefs ns, noVars d.2 = true := by
  intro d hd
  unfold rootDefs at hd
  rw [List.mem_flatMap] at hd
  obtain ⟨n, hn, hd⟩ := hd
  split at hd
  · rename_i sp p b
    rw [List.mem_filterMap] at hd
    obtain ⟨c, hc, hd⟩ := hd
    cases c with
    | raw => cases hd
    | decl csp prop vals imp =>
      by_cases hp : prop.take 2 = b!"--"
      · unfold Decl.custom? at hd
        dsimp only at hd
        rw [if_pos hp] at hd
        cases hd
        exact (h.defs _ b csp prop vals imp hn rfl hc hp).2.2.2
      · unfold Decl.custom? at hd
        dsimp only at hd
        rw [if_neg hp] at hd
        cases hd
  · cases hd

/-- The transformer does with a stylesheet what it does, without custom properties, with the stylesheet in which they have been put in. -/
theorem nodes_subst {fo : FloatOps} {o : TOpts} (ho : o.customProperties = true) {D : List (Bytes × List Value)} {pre ns out : List Node}
    (h : NodePieces fo o pre ns out) : Rooted (pre ++ ns) → D = rootDefs (pre ++ ns) → (∀ r, .rule r ∈ pre → ∃ b, r.block = some b) →
    NodePieces fo o.noCustom (pre.map (Node.subst D)) (ns.map (Node.subst D)) out := by
  induction h with
  | nil => exact fun _ _ _ => .nil
  | @cons pre ns o1 o2 n hn _ ih =>
    intro hR hD hb
    have hfree : ∀ d ∈ D, noVars d.2 = true := hD ▸ rootDefs_free hR
    rw [List.append_assoc, List.singleton_append, List.map_append] at ih
    have hblock : ∀ r, n = .rule r → ∃ b, r.block = some b := by
      rintro r rfl
      cases hn with
      | rule => exact ⟨_, rfl⟩
      | emptyRule h => exact ⟨_, h⟩
    have hb' : ∀ r, .rule r ∈ pre ++ [n] → ∃ b, r.block = some b := by
      intro r hr
      rcases List.mem_append.1 hr with hr | hr
      · exact hb r hr
      · exact hblock r (List.mem_singleton.1 hr).symm
    rw [List.map_cons]
    refine .cons ?_ (ih hR hD hb')
    have hmem : n ∈ pre ++ n :: ns := List.mem_append_right _ (List.mem_cons_self ..)
    have hblocks : ∀ r, .rule r ∈ (pre ++ [n]).map (Node.subst D) → ∃ b, r.block = some b := by
      intro r hr
      obtain ⟨m, hm, he⟩ := List.mem_map.1 hr
      cases m with
      | «at» a => cases he
      | rule r' =>
        cases he
        obtain ⟨b, h⟩ := hb' r' hm
        exact ⟨_, by rw [h]; rfl⟩
    cases hn with
    | @rule sp bsp lsp sels sels' decls ds ds' defs h1 h2 h3 h4 h5 =>
      have htakes : ∀ d ∈ decls, d.custom? ≠ none → QRule.takes ⟨sp, .sels ⟨lsp, sels⟩, some ⟨bsp, decls⟩⟩ := fun d hd hc => hR.takes hmem rfl hd hc
      have hds := kept_filter ho h2 htakes
      have hdefs := varDefs_root h1 fun r b d hr hbl hd hc => hR.takes
        (by rcases List.mem_append.1 hr with hr | hr
            · exact List.mem_append_left _ hr
            · rw [List.mem_singleton.1 hr]; exact hmem) hbl hd hc
      obtain ⟨defs', hd'⟩ := varDefs_some hblocks
      rw [List.map_append] at hd'
      have hp := decls_subst ho hfree (defs' := defs') h3 fun d hd v hv => by
        rw [hds] at hd
        rcases hR.uses pre _ ns ⟨bsp, decls⟩ d v rfl rfl (List.mem_of_mem_filter hd) hv with h | ⟨x, h, h'⟩
        · exact .inl h
        · exact .inr ⟨x, h, by rw [hdefs, hD, h']⟩
      rw [hds] at hp h5
      exact .rule (decls := (decls.filter fun d => d.custom?.isNone).map (Decl.subst D)) hd' (.inr ⟨fun h => (by cases h.1), rfl⟩) hp
        (pieces_mono h4 fun _ _ _ => selPiece_noCustom) (by simpa using h5)
    | @emptyRule r b h1 h2 =>
      have hds := kept_filter ho h2 fun d hd hc => hR.takes hmem h1 hd hc
      exact .emptyRule (b := b.subst D) (by rw [h1]; rfl) (.inr ⟨fun h => (by cases h.1), by
        unfold DeclBlock.subst
        rw [← hds]
        rfl⟩)
    | customMedia h => exact .customMedia h
    | media h =>
      refine .media ?_
      rw [mediaDefs_subst]
      exact pieces_mono h fun _ _ _ => mqPiece_noCustom
    | other h1 h2 => exact .other h1 h2

theorem lowerable_subst {B : Browser} {fo : FloatOps} {o : TOpts} {ns : List Node} (h : Lowerable B fo o ns) (D : List (Bytes × List Value))
    {B' : Browser} (hB : ∀ p : MQPart, p.Interval B fo → p.Interval B' fo) : Lowerable B' fo o.noCustom (ns.map (Node.subst D)) := by
  constructor
  · rw [mediaDefs_subst]; exact h.custom
  · intro r l hr hp
    obtain ⟨m, hm, he⟩ := List.mem_map.1 hr
    cases m with
    | «at» a => cases he
    | rule r' =>
      cases he
      exact h.links r' l hm hp
  · rw [mediaDefs_subst]; exact h.definitions
  · intro pre a post l rest he ha hp q hq
    obtain ⟨p1, p2, rfl, h1, h2⟩ := List.map_eq_append_iff.1 he
    obtain ⟨n, p3, rfl, h3, h4⟩ := List.map_eq_cons_iff.1 h2
    cases n with
    | rule => cases h3
    | «at» a' =>
      cases h3
      have := h.queries p1 a p3 l rest rfl ha hp q hq
      rw [← h1, mediaDefs_subst, mediaDefs_subst]
      exact ⟨fun p hp => hB p (this.interval p hp), this.known, this.shape⟩

/-! ### Putting in custom properties keeps what is said -/

theorem expandVals_bare_noVars {vs : List Value} (h : noVars vs = true) (ρ : Bytes → Option (List Value)) :
    expandVals ρ (bareVals vs) = some (bareVals vs) := expandVals_noVars ρ _ (by rw [noVars_bare, h])

/-- What a value means for an element with the custom properties `ρ`. -/
def uval (B : Browser) (ρ : Bytes → Option (List Value)) (v : Value) : Option (List B.X) := (v.expand ρ).map (List.map B.value)

theorem joined_noVars {B : Browser} (ρ : Bytes → Option (List Value)) : ∀ {vs : List Value}, noVars vs = true →
    joined ((bareVals vs).map (uval B ρ)) = some ((bareVals vs).map B.value)
  | [], _ => rfl
  | v :: vs, h => by
    rw [noVars, Bool.and_eq_true] at h
    rw [bareVals, List.map_cons, joined_cons, joined_noVars ρ h.2]
    have : (uval B ρ) v.bare = some [B.value v.bare] := by
      show (Value.expand ρ v.bare).map _ = _
      rw [expand_noVar ρ _ (by rw [noVar_bare]; exact h.1)]
      rfl
    rw [this]
    rfl

theorem joined_single (v : Option (List α)) : joined [v] = v := by
  rw [joined_cons, joined]
  cases v <;> simp

/-- The values of the custom properties `D`. -/
def rho (D : List (Bytes × List Value)) (x : Bytes) : Option (List Value) := (lastDef D x).map bareVals

/-- The custom properties `ρ` of this value are those of `D`, and `ρ'` knows none of the others. -/
def Value.Agrees (D : List (Bytes × List Value)) (ρ' ρ : Bytes → Option (List Value)) (v : Value) : Prop :=
  v.noVar = true ∨ ∃ x, v.varOf? = some x ∧ ρ x = rho D x ∧ (rho D x = none → ρ' x = none)

theorem value_joined {B : Browser} {D : List (Bytes × List Value)} {ρ' ρ : Bytes → Option (List Value)} (hD : ∀ d ∈ D, noVars d.2 = true) {v : Value}
    (hv : v.Agrees D ρ' ρ) : joined ((bareVals (substVal D v)).map (uval B ρ')) = uval B ρ v.bare := by
  rcases hv with hv | ⟨x, hx, hρ, hρ'⟩
  · rw [substVal_noVar hv, joined_noVars (vs := [v]) _ (by rw [noVars, noVars, hv]; rfl)]
    show _ = (Value.expand ρ v.bare).map _
    rw [expand_noVar _ _ (by rw [noVar_bare]; exact hv)]
    rfl
  · obtain ⟨sp, isp, rest, rfl, hr⟩ := varOf_eq hx
    have hs : substVal D (.func sp b!"var" (.ident isp x :: rest)) =
        (varResult D (.ident isp x :: rest)).getD [.func sp b!"var" (.ident isp x :: rest)] := by
      rw [substVal, if_pos rfl]
    have he : ∀ ρ : Bytes → Option (List Value), Value.expand ρ (Value.bare (.func sp b!"var" (.ident isp x :: rest))) =
        match ρ x with
        | some vs => some vs
        | none => expandFallback ρ (bareVals rest) := by
      intro ρ
      rw [Value.bare, Value.expand, if_pos rfl, bareVals, Value.bare, expandVar]
      rfl
    show _ = (Value.expand ρ (Value.bare (.func sp b!"var" (.ident isp x :: rest)))).map (List.map B.value)
    rw [he, hs, hρ]
    unfold varResult
    unfold rho at hρ' ⊢
    dsimp only
    cases hl : lastDef D x with
    | some vals =>
      obtain ⟨d, h3, h4⟩ := lastDef_mem hl
      exact joined_noVars _ (h4 ▸ hD d h3)
    | none =>
      rw [hl] at hρ'
      have keep : rest.length ≤ 1 → joined ((bareVals [.func sp b!"var" (.ident isp x :: rest)]).map (uval B ρ')) =
          (expandFallback ρ (bareVals rest)).map (List.map B.value) := by
        intro hlen
        rw [bareVals, bareVals, List.map_cons, List.map_nil, joined_single]
        show (Value.expand ρ' (Value.bare (.func sp b!"var" (.ident isp x :: rest)))).map (List.map B.value) = _
        rw [he, hρ' rfl]
        match rest, hlen with
        | [], _ => rfl
        | [_], _ => rfl
      match rest, hr, keep with
      | [], _, keep => exact keep (by simp)
      | [c], _, keep => exact keep (by simp)
      | c :: f :: fs, hr, _ =>
        rw [noVars, Bool.and_eq_true] at hr
        show joined ((bareVals (f :: fs)).map _) = (expandFallback _ (bareVals (c :: f :: fs))).map _
        rw [joined_noVars _ hr.2, show expandFallback ρ (bareVals (c :: f :: fs)) = expandVals _ (bareVals (f :: fs)) from rfl,
          expandVals_bare_noVars hr.2]
        rfl

theorem values_joined {B : Browser} {D : List (Bytes × List Value)} {ρ' ρ : Bytes → Option (List Value)} (hD : ∀ d ∈ D, noVars d.2 = true) : ∀ {vs : List Value},
    (∀ v ∈ vs, v.Agrees D ρ' ρ) →
    joined ((bareVals (vs.flatMap (substVal D))).map (uval B ρ')) = joined ((bareVals vs).map (uval B ρ))
  | [], _ => rfl
  | v :: vs, h => by
    rw [List.flatMap_cons, bareVals_append, List.map_append, joined_append, value_joined hD (h v (List.mem_cons_self ..)),
      values_joined hD fun w hw => h w (List.mem_cons_of_mem _ hw), bareVals, List.map_cons, joined_cons]

theorem decls_sayings {B : Browser} {D : List (Bytes × List Value)} {ρ' ρ : Bytes → Option (List Value)} (hD : ∀ d ∈ D, noVars d.2 = true) (c : List B.W → Prop) {ds : List Decl}
    (h : ∀ d ∈ ds, ∀ v ∈ d.vals, v.Agrees D ρ' ρ) :
    ((((ds.filter fun d => d.custom?.isNone).map (Decl.subst D)).map Decl.bare).map (Decl.offer (B.under ρ') c)).filterMap
      (Offer.saying (B := B) ρ') =
    ((ds.map Decl.bare).map (Decl.offer (B.under ρ) c)).filterMap (Offer.saying (B := B) ρ) := by
  induction ds with
  | nil => rfl
  | cons d ds ih =>
    have ih := ih fun d hd => h d (List.mem_cons_of_mem _ hd)
    cases d with
    | raw sp v =>
      show Saying.raw c v :: _ = Saying.raw c v :: _
      rw [← ih]
    | decl sp prop vals imp =>
      by_cases hp : prop.take 2 = b!"--"
      · rw [List.filter_cons_of_neg (by simp [Decl.custom?, hp]), ih, List.map_cons, List.map_cons, List.filterMap_cons]
        have : Offer.saying (B := B) ρ (Decl.offer (B.under ρ) c (Decl.bare (.decl sp prop vals imp))) = none := by
          show (if prop.take 2 = b!"--" then none else some (Saying.decl c prop _ imp)) = none
          rw [if_pos hp]
        rw [this]
      · rw [List.filter_cons_of_pos (by simp [Decl.custom?, hp]), List.map_cons, List.map_cons, List.map_cons, List.map_cons, List.map_cons,
          List.filterMap_cons, List.filterMap_cons, ih]
        have h1 : Offer.saying (B := B) ρ (Decl.offer (B.under ρ) c (Decl.bare (.decl sp prop vals imp))) =
            some (.decl c prop (joined ((bareVals vals).map (uval B ρ))) imp) := by
          show (if prop.take 2 = b!"--" then none else some (Saying.decl c prop _ imp)) = _
          rw [if_neg hp]
          rfl
        have h2 : Offer.saying (B := B) (ρ') (Decl.offer (B.under ρ') c (Decl.bare (Decl.subst D (.decl sp prop vals imp)))) =
            some (.decl c prop (joined ((bareVals (vals.flatMap (substVal D))).map (uval B ρ'))) imp) := by
          show (if prop.take 2 = b!"--" then none else some (Saying.decl c prop _ imp)) = _
          rw [if_neg hp]
          rfl
        rw [h1, h2, values_joined hD (vs := vals) (h _ (List.mem_cons_self ..))]

theorem decls_free {B : Browser} (ρ ρ' : Bytes → Option (List Value)) (c : List B.W → Prop) {ds : List Decl} (h : ∀ d ∈ ds, noVars d.vals = true) :
    ((ds.map Decl.bare).map (Decl.offer (B.under ρ) c)).filterMap (Offer.saying (B := B) ρ) =
    ((ds.map Decl.bare).map (Decl.offer (B.under ρ') c)).filterMap (Offer.saying (B := B) ρ') := by
  rw [List.filterMap_map, List.filterMap_map, List.filterMap_map, List.filterMap_map]
  refine List.filterMap_congr fun d hd => ?_
  cases d with
  | raw => rfl
  | decl sp prop vals imp =>
    show (if prop.take 2 = b!"--" then none else some (Saying.decl c prop (joined ((bareVals vals).map (uval B ρ))) imp)) =
      (if prop.take 2 = b!"--" then none else some (Saying.decl c prop (joined ((bareVals vals).map (uval B ρ'))) imp))
    rw [joined_noVars ρ (vs := vals) (h _ hd), joined_noVars ρ' (vs := vals) (h _ hd)]

theorem rule_free {B : Browser} (ρ ρ' : Bytes → Option (List Value)) (e : B.doc.Elem) (c : Prop) {r : QRule}
    (h : ∀ b, r.block = some b → ∀ d ∈ b.decls, noVars d.vals = true) :
    (QRule.offers (B.under ρ) e c r.bare).filterMap (Offer.saying (B := B) ρ) =
    (QRule.offers (B.under ρ') e c r.bare).filterMap (Offer.saying (B := B) ρ') := by
  obtain ⟨sp, p, b⟩ := r
  cases b with
  | none => cases p <;> rfl
  | some b =>
    cases p with
    | sels l => exact decls_free ρ ρ' _ (h b rfl)
    | _ => rfl

theorem block_free {B : Browser} (ρ ρ' : Bytes → Option (List Value)) (e : B.doc.Elem) (c : Prop) {b : Block}
    (h : ∀ d ∈ b.allDecls, noVars d.vals = true) :
    (Block.offers (B.under ρ) e c b.bare).filterMap (Offer.saying (B := B) ρ) =
    (Block.offers (B.under ρ') e c b.bare).filterMap (Offer.saying (B := B) ρ') := by
  cases b with
  | none => rfl
  | decls b => exact decls_free ρ ρ' _ h
  | rules sp rs =>
    show ((rs.map QRule.bare).flatMap _).filterMap _ = ((rs.map QRule.bare).flatMap _).filterMap _
    rw [List.filterMap_flatMap, List.filterMap_flatMap, List.flatMap_map, List.flatMap_map]
    refine List.flatMap_congr fun r hr => rule_free ρ ρ' e c fun b hb d hd => h d ?_
    unfold Block.allDecls
    rw [List.mem_flatMap]
    exact ⟨r, hr, by rw [hb]; exact hd⟩

theorem allDecls_bare (b : Block) : b.bare.allDecls = b.allDecls.map Decl.bare := by
  cases b with
  | none => rfl
  | decls b => rfl
  | rules sp rs =>
    show (rs.map QRule.bare).flatMap _ = (rs.flatMap _).map _
    rw [List.flatMap_map, List.map_flatMap]
    refine List.flatMap_congr fun r _ => ?_
    obtain ⟨sp, p, b⟩ := r
    cases b <;> rfl

theorem vals_bare (d : Decl) : d.bare.vals = bareVals d.vals := by cases d <;> rfl

/-- A node with custom properties put in says what it says with them. -/
theorem node_sayings {B : Browser} {D : List (Bytes × List Value)} {ρ' ρ : Bytes → Option (List Value)} (hD : ∀ d ∈ D, noVars d.2 = true) (e : B.doc.Elem) (defs : List (Bytes × MQ))
    {n : Node} (hr : ∀ r b, n = .rule r → r.block = some b → ∀ d ∈ b.decls, ∀ v ∈ d.vals, v.Agrees D ρ' ρ)
    (ha : ∀ a, n = .at a → ∀ d ∈ a.block.allDecls, d.Free) :
    (Node.offers (B.under ρ') defs e (n.subst D).bare).filterMap (Offer.saying (B := B) ρ') =
    (Node.offers (B.under ρ) defs e n.bare).filterMap (Offer.saying (B := B) ρ) := by
  cases n with
  | rule r =>
    obtain ⟨sp, p, b⟩ := r
    cases b with
    | none => cases p <;> rfl
    | some b =>
      cases p with
      | sels l => exact decls_sayings hD _ (hr _ b rfl rfl)
      | _ => rfl
  | «at» a =>
    have ha := ha a rfl
    have hf : ∀ d ∈ a.block.allDecls, noVars d.vals = true := fun d hd => (ha d hd).2.1
    simp only [Node.subst, Node.bare, Node.offers]
    by_cases h1 : a.bare.name = b!"custom-media"
    · rw [if_pos h1, if_pos h1]; rfl
    rw [if_neg h1, if_neg h1]
    by_cases h2 : a.bare.name = b!"media"
    · rw [if_pos h2, if_pos h2]
      split
      · exact block_free _ _ e _ hf
      · rfl
    · rw [if_neg h2, if_neg h2]
      show [Saying.other a.bare _] = [Saying.other a.bare _]
      congr 2
      refine List.map_congr_left fun d hd => ?_
      rw [show a.bare.block = a.block.bare from rfl, allDecls_bare] at hd
      obtain ⟨d', hd', rfl⟩ := List.mem_map.1 hd
      rw [vals_bare, expandVals_bare_noVars (hf d' hd'), expandVals_bare_noVars (hf d' hd')]

theorem sayings_subst {B : Browser} {ns : List Node} (h : Rooted ns) (e : B.doc.Elem) :
    sayings B (fun _ => none) e (ns.map (Node.subst (rootDefs ns))) = sayings B (rho (rootDefs ns)) e ns := by
  unfold sayings applied offersOf
  rw [mediaDefs_bare, mediaDefs_bare, mediaDefs_subst, List.filterMap_flatMap, List.filterMap_flatMap, List.flatMap_map, List.flatMap_map,
    List.flatMap_map]
  refine List.flatMap_congr fun n hn => node_sayings (rootDefs_free h) e _ ?_ ?_
  · rintro r b rfl hb d hd v hv
    obtain ⟨pre, post, rfl⟩ := List.append_of_mem hn
    rcases h.uses pre r post b d v rfl hb hd hv with k | ⟨x, k, _⟩
    · exact .inl k
    · exact .inr ⟨x, k, rfl, fun _ => rfl⟩
  · rintro a rfl
    exact h.ats a hn

/-! ### Finding custom properties -/

/-- Custom properties in rules `:root` only, none in at-rules. -/
structure RootOnly (ns : List Node) : Prop where
  defs : ∀ r b sp prop vals imp, .rule r ∈ ns → r.block = some b → .decl sp prop vals imp ∈ b.decls → prop.take 2 = b!"--" →
    (∃ l s, r.prelude = .sels l ∧ l.sels = [s] ∧ s.bare.parts = [.pclass ⟨0, 0⟩ b!"root" .nil]) ∧ imp = false
  raws : ∀ r b sp v, .rule r ∈ ns → r.block = some b → .raw sp v ∈ b.decls → v.take 2 ≠ b!"--"
  ats : ∀ a, .at a ∈ ns → ∀ d ∈ a.block.allDecls, d.Free

theorem Rooted.only {ns : List Node} (h : Rooted ns) : RootOnly ns :=
  ⟨fun r b sp prop vals imp h1 h2 h3 h4 => ⟨(h.defs r b sp prop vals imp h1 h2 h3 h4).2.1, (h.defs r b sp prop vals imp h1 h2 h3 h4).2.2.1⟩, h.raws, h.ats⟩

theorem subst_only {ns : List Node} (h : RootOnly ns) (D : List (Bytes × List Value)) :
    RootOnly (ns.map (Node.subst D)) ∧ rootDefs (ns.map (Node.subst D)) = [] := by
  have hno : ∀ b : DeclBlock, ∀ d ∈ (b.subst D).decls, d.custom? = none := by
    intro b d hd
    unfold DeclBlock.subst at hd
    obtain ⟨d', hd', rfl⟩ := List.mem_map.1 hd
    have := (List.mem_filter.1 hd').2
    cases d' with
    | raw => rfl
    | decl sp prop vals imp =>
      simp only [Decl.custom?, Decl.subst] at this ⊢
      by_cases hp : prop.take 2 = b!"--"
      · rw [if_pos hp] at this; cases this
      · rw [if_neg hp]
  refine ⟨⟨?_, ?_, ?_⟩, ?_⟩
  · intro r b sp prop vals imp hr hb hd hp
    obtain ⟨m, hm, he⟩ := List.mem_map.1 hr
    cases m with
    | «at» a => cases he
    | rule r' =>
      cases he
      obtain ⟨b', h1, h2⟩ := Option.map_eq_some_iff.1 hb
      subst h2
      have := hno b' _ hd
      simp only [Decl.custom?] at this
      rw [if_pos hp] at this
      cases this
  · intro r b sp v hr hb hd
    obtain ⟨m, hm, he⟩ := List.mem_map.1 hr
    cases m with
    | «at» a => cases he
    | rule r' =>
      cases he
      obtain ⟨b', h1, h2⟩ := Option.map_eq_some_iff.1 hb
      subst h2
      unfold DeclBlock.subst at hd
      obtain ⟨d', hd', he⟩ := List.mem_map.1 hd
      cases d' with
      | decl => cases he
      | raw =>
        cases he
        exact h.raws r' b' sp v hm h1 (List.mem_of_mem_filter hd')
  · intro a ha
    obtain ⟨m, hm, he⟩ := List.mem_map.1 ha
    cases m with
    | rule => cases he
    | «at» a' =>
      cases he
      exact h.ats a hm
  · unfold rootDefs
    rw [List.flatMap_eq_nil_iff]
    intro n hn
    obtain ⟨m, hm, rfl⟩ := List.mem_map.1 hn
    cases m with
    | «at» a => rfl
    | rule r =>
      obtain ⟨sp, p, b⟩ := r
      cases b with
      | none => rfl
      | some b => exact List.filterMap_eq_nil_iff.2 (hno b)

theorem decl_custom {B : Browser} (c : List B.W → Prop) (d : Decl) :
    Offer.custom? (B := B) (Decl.offer B.raw c d.bare) = d.custom?.map fun x => (x.1, bareVals x.2) := by
  cases d with
  | raw => rfl
  | decl sp prop vals imp =>
    show (if prop.take 2 = b!"--" then some (prop, (bareVals vals).map id) else none) = _
    rw [List.map_id]
    unfold Decl.custom?
    dsimp only
    by_cases hp : prop.take 2 = b!"--"
    · rw [if_pos hp, if_pos hp]; rfl
    · rw [if_neg hp, if_neg hp]; rfl

theorem free_bare {d : Decl} (h : d.Free) : d.bare.custom? = none ∧ ∀ sp v, d.bare = .raw sp v → v.take 2 ≠ b!"--" := by
  cases d with
  | raw sp v =>
    refine ⟨rfl, fun sp2 v2 h2 => ?_⟩
    cases h2
    exact h.2.2 _ _ rfl
  | decl sp prop vals imp =>
    refine ⟨?_, fun sp2 v2 h2 => by cases h2⟩
    have := h.1
    unfold Decl.custom? Decl.bare at *
    dsimp only at *
    by_cases hp : prop.take 2 = b!"--"
    · rw [if_pos hp] at this; cases this
    · rw [if_neg hp]

theorem block_offer {B : Browser} {e : B.doc.Elem} {c : Prop} {b : Block} {x : Offer B} (h : x ∈ b.offers B e c) :
    ∃ d ∈ b.allDecls, ∃ c', x = Decl.offer B c' d := by
  cases b with
  | none => cases h
  | decls b =>
    obtain ⟨d, hd, rfl⟩ := List.mem_map.1 h
    exact ⟨d, hd, _, rfl⟩
  | rules sp rs =>
    obtain ⟨r, hr, h⟩ := List.mem_flatMap.1 h
    unfold QRule.offers at h
    split at h
    · rename_i l b h1 h2
      obtain ⟨d, hd, rfl⟩ := List.mem_map.1 h
      refine ⟨d, ?_, _, rfl⟩
      unfold Block.allDecls
      rw [List.mem_flatMap]
      exact ⟨r, hr, by rw [h2]; exact hd⟩
    · cases h

theorem free_offer {B : Browser} {e : B.doc.Elem} {c : List B.W → Prop} {d : Decl} (h : d.Free) :
    Offer.custom? (B := B) (Decl.offer B.raw c d.bare) = none ∧ Offer.FromRoot (B := B) e (Decl.offer B.raw c d.bare) := by
  refine ⟨by rw [decl_custom, h.1]; rfl, ?_⟩
  cases d with
  | raw sp v => exact h.2.2 _ _ rfl
  | decl sp prop vals imp =>
    intro hp
    have := h.1
    unfold Decl.custom? at this
    dsimp only at this
    rw [if_pos hp] at this
    cases this

/-- What at-rules say. -/
theorem at_offer {B : Browser} {e : B.doc.Elem} {defs : List (Bytes × MQ)} {a : AtRule} (h : ∀ d ∈ a.block.allDecls, d.Free) {x : Offer B.raw}
    (hx : x ∈ Node.offers B.raw defs e (Node.bare (.at a))) : x.custom? = none ∧ x.FromRoot e := by
  simp only [Node.bare, Node.offers] at hx
  by_cases h1 : a.bare.name = b!"custom-media"
  · rw [if_pos h1] at hx; cases hx
  rw [if_neg h1] at hx
  by_cases h2 : a.bare.name = b!"media"
  · rw [if_pos h2] at hx
    split at hx
    · obtain ⟨d, hd, c, rfl⟩ := block_offer hx
      rw [show a.bare.block = a.block.bare from rfl, allDecls_bare] at hd
      obtain ⟨d', hd', rfl⟩ := List.mem_map.1 hd
      exact free_offer (h d' hd')
    · cases hx
  · rw [if_neg h2] at hx
    rw [List.mem_singleton] at hx
    subst hx
    refine ⟨rfl, fun d hd => ?_⟩
    rw [show a.bare.block = a.block.bare from rfl, allDecls_bare] at hd
    obtain ⟨d', hd', rfl⟩ := List.mem_map.1 hd
    exact free_bare (h d' hd')

theorem root_weights {B : Browser} (e : B.doc.Elem) {s : Sel} (h : s.bare.parts = [.pclass ⟨0, 0⟩ b!"root" .nil]) (w : List B.W) :
    (True ∧ Weights B.raw e (bareSels [s]) w) ↔
      B.doc.has e (.pclass ⟨0, 0⟩ b!"root" .nil) ∧ w = [B.weigh (.pclass ⟨0, 0⟩ b!"root" .nil)] := by
  rw [true_and]
  unfold Weights
  rw [bareSels, bareSels]
  constructor
  · rintro ⟨t, ht, ⟨a, hm⟩, hw⟩
    rw [List.mem_singleton] at ht
    subst ht
    rw [h] at hm hw
    have h1 : B.doc.has a (.pclass ⟨0, 0⟩ b!"root" .nil) ∧ a = e := hm
    exact ⟨h1.2 ▸ h1.1, hw.symm⟩
  · rintro ⟨h1, rfl⟩
    refine ⟨_, List.mem_singleton_self _, ⟨e, ?_⟩, by rw [h]; rfl⟩
    rw [h]
    exact (show B.doc.has e (.pclass ⟨0, 0⟩ b!"root" .nil) ∧ e = e from ⟨h1, rfl⟩)

theorem only_custom {B : Browser} {ns : List Node} (h : RootOnly ns) (e : B.doc.Elem) :
    (applied B.raw e ns).filterMap Offer.custom? = (rootDefs ns).map fun d => (d.1, bareVals d.2) := by
  unfold applied offersOf rootDefs
  rw [List.filterMap_flatMap, List.flatMap_map, List.map_flatMap]
  refine List.flatMap_congr fun n hn => ?_
  cases n with
  | «at» a =>
    show _ = []
    exact List.filterMap_eq_nil_iff.2 fun x hx => (at_offer (h.ats a hn) hx).1
  | rule r =>
    obtain ⟨sp, p, b⟩ := r
    cases b with
    | none => cases p <;> rfl
    | some b =>
      have hno : (∀ l, p ≠ .sels l) → ([] : List (Bytes × List Value)) = (b.decls.filterMap Decl.custom?).map fun d => (d.1, bareVals d.2) := by
        intro hp
        rw [List.filterMap_eq_nil_iff.2]
        · rfl
        intro d hd
        by_contra hc
        obtain ⟨dsp, prop, vals, imp, rfl, hpp⟩ := custom?_some hc
        obtain ⟨⟨l, _, hl, _⟩, _⟩ := h.defs _ b dsp prop vals imp hn rfl hd hpp
        exact hp l hl
      cases p with
      | nil => exact hno fun l hl => by cases hl
      | keyframes => exact hno fun l hl => by cases hl
      | sels l =>
        show ((b.decls.map Decl.bare).map (Decl.offer B.raw _)).filterMap Offer.custom? = _
        rw [List.filterMap_map, List.filterMap_map, List.map_filterMap]
        exact List.filterMap_congr fun d _ => decl_custom _ d

theorem only_root {B : Browser} {ns : List Node} (h : RootOnly ns) (e : B.doc.Elem) : ∀ x ∈ applied B.raw e ns, x.FromRoot e := by
  intro x hx
  unfold applied offersOf at hx
  rw [List.flatMap_map] at hx
  obtain ⟨n, hn, hx⟩ := List.mem_flatMap.1 hx
  cases n with
  | «at» a => exact (at_offer (h.ats a hn) hx).2
  | rule r =>
    obtain ⟨sp, p, b⟩ := r
    cases b with
    | none => cases p <;> cases hx
    | some b =>
      cases p with
      | nil => cases hx
      | keyframes => cases hx
      | sels l =>
        obtain ⟨d', hd', rfl⟩ := List.mem_map.1 hx
        obtain ⟨d, hd, rfl⟩ := List.mem_map.1 hd'
        clear hd' hx
        cases d with
        | raw dsp v => exact h.raws _ b dsp v hn rfl hd
        | decl dsp prop vals imp =>
          intro hp
          obtain ⟨⟨l', s, h1, h2, h3⟩, h4⟩ := h.defs _ b dsp prop vals imp hn rfl hd hp
          cases h1
          refine ⟨h4, fun w => ?_⟩
          have := root_weights (B := B) e h3 w
          rw [← h2] at this
          exact this

theorem rho_eq (D : List (Bytes × List Value)) (x : Bytes) : lastDef (D.map fun d => (d.1, bareVals d.2)) x = rho D x := by
  unfold rho lastDef
  rw [← List.map_reverse, List.find?_map, Option.map_map, Option.map_map]
  rfl

/-- The lowered stylesheet has no custom properties. -/
theorem out_custom {B : Browser} {e : B.doc.Elem} {mid out : List Node} (h : applied B.blind e out = applied B.blind e mid) (hm : RootOnly mid)
    (h0 : rootDefs mid = []) : (applied B.raw e out).filterMap Offer.custom? = [] ∧ ∀ x ∈ applied B.raw e out, x.FromRoot e := by
  have hno := only_custom (B := B) hm e
  rw [h0] at hno
  have hx : ∀ x ∈ applied B.raw e out, ∃ y ∈ applied B.raw e mid, x.forget = y.forget := by
    intro x hx
    have := List.mem_map_of_mem (f := Offer.forget) hx
    rw [applied_forget, h, ← applied_forget] at this
    obtain ⟨y, hy, he⟩ := List.mem_map.1 this
    exact ⟨y, hy, he.symm⟩
  constructor
  · rw [List.filterMap_eq_nil_iff]
    intro x hxm
    obtain ⟨y, hy, he⟩ := hx x hxm
    exact forget_custom he (List.filterMap_eq_nil_iff.1 hno y hy)
  · intro x hxm
    obtain ⟨y, hy, he⟩ := hx x hxm
    exact forget_fromRoot he (only_root hm e y hy)

/-- **C90, partial**: with custom properties, too, the transformed stylesheet says about every element what the (inlined)
stylesheet says: the same declarations in the same order, each under the same condition and with the values that it has
when the custom properties are put in; in every browser that knows what `:any-link`, `calc()` and custom properties of
`:root` mean.  The stylesheet must be `Lowerable` and `Rooted`: custom properties are declared in `:root {…}` only, with a
space before the brace, before they are used; no `var()` within functions, fallbacks, other custom properties and at-rules. -/
theorem custom_meaning_partial {B : Browser} {fo : FloatOps} {o : TOpts} (hr : RoundTrip fo) (hC : B.KnowsCalc fo) (hL : B.KnowsLinks)
    {cs : Custom B} (hcs : B.KnowsCustom cs) (ho : o.customProperties = true) {repl : Replacements} {n : Nat} {ss ss' : Stylesheet} {s : TSt}
    (h : transform fo o repl n ss = .ok ss' s) :
    ∃ flat, Flat repl ss.nodes flat ∧ (Lowerable B fo o flat → Rooted flat → ∀ e : B.doc.Elem, understood B cs e ss'.nodes = understood B cs e flat) := by
  obtain ⟨_, flat, h1, h2⟩ := transform_pieces h
  refine ⟨flat, h1, fun hl hR e => ?_⟩
  have h3 := nodes_subst ho h2 hR rfl (by simp)
  have low : ∀ {B' : Browser}, B'.KnowsCalc fo → B'.KnowsLinks → (∀ p : MQPart, p.Interval B fo → p.Interval B' fo) → ∀ e : B'.doc.Elem,
      applied B' e ss'.nodes = applied B' e (flat.map (Node.subst (rootDefs flat))) := by
    intro B' k1 k2 k3 e
    unfold applied offersOf
    rw [mediaDefs_bare, mediaDefs_bare, pieces_noDefs h3]
    exact nodes_lowered hr k1 k2 rfl h3 (lowerable_subst hl _ k3) e
  have hint : ∀ p : MQPart, p.Interval B fo → p.Interval B.blind fo := fun p hp => by cases p <;> exact hp
  obtain ⟨m1, m2⟩ := subst_only hR.only (rootDefs flat)
  have hblind : ∀ e : B.doc.Elem, applied B.blind e ss'.nodes = applied B.blind e (flat.map (Node.subst (rootDefs flat))) :=
    fun e => low (B' := B.blind) (fun _ _ _ _ _ => rfl) hL hint e
  have hρ : ∀ e, cs (fun e => applied B.raw e flat) e = rho (rootDefs flat) := by
    intro e
    funext x
    rw [hcs _ _ (only_custom hR.only) (only_root hR.only) (fun d hd => ?_) e x, rho_eq]
    obtain ⟨d', hd', rfl⟩ := List.mem_map.1 hd
    rw [noVars_bare]
    exact rootDefs_free hR d' hd'
  have hρ' : ∀ e, cs (fun e => applied B.raw e ss'.nodes) e = fun _ => none := by
    intro e
    funext x
    rw [hcs _ [] (fun e => (out_custom (hblind e) m1 m2).1) (fun e => (out_custom (hblind e) m1 m2).2) (by simp) e x]
    rfl
  unfold understood
  rw [hρ, hρ', ← sayings_subst hR e]
  unfold sayings
  rw [low (B' := B.under fun _ => none) (under_calc hC _) hL (fun p hp => by cases p <;> exact hp) e]

/-! ### A test for `Rooted` -/

/-- `:root {`, with a space. -/
def QRule.rootB (r : QRule) : Bool :=
  match r.prelude with
  | .sels ⟨_, [.mk _ [.pclass _ name .nil, .ws _]]⟩ => name == b!"root"
  | _ => false

/-- Declarations of a rule. -/
def declB (root : Bool) : Decl → Bool
  | .decl _ prop vals imp => if prop.take 2 = b!"--" then root && !imp && noVars vals else true
  | .raw _ v => decide (v.take 2 ≠ b!"--")

/-- Declarations in an at-rule. -/
def freeB (d : Decl) : Bool :=
  match d with
  | .decl _ prop vals _ => decide (prop.take 2 ≠ b!"--") && noVars vals
  | .raw _ v => decide (v.take 2 ≠ b!"--")

def rootedB : List Node → Bool
  | [] => true
  | .at a :: ns => a.block.allDecls.all freeB && rootedB ns
  | .rule r :: ns =>
    (match r.block with
    | none => true
    | some b => b.decls.all fun d => declB r.rootB d && d.vals.all fun v => v.noVar || match v.varOf? with
      | none => false
      | some x => (rootDefs ns).all fun d => d.1 != x) && rootedB ns

theorem freeB_sound {d : Decl} (h : freeB d = true) : d.Free := by
  cases d with
  | decl sp prop vals imp =>
    simp only [freeB, Bool.and_eq_true, decide_eq_true_eq] at h
    exact ⟨by unfold Decl.custom?; dsimp only; rw [if_neg h.1], h.2, fun _ _ h => by cases h⟩
  | raw sp v =>
    simp only [freeB, decide_eq_true_eq] at h
    exact ⟨rfl, rfl, fun _ _ k => by cases k; exact h⟩

theorem rootB_sound {r : QRule} (h : r.rootB = true) :
    r.takes ∧ ∃ l s, r.prelude = .sels l ∧ l.sels = [s] ∧ s.bare.parts = [.pclass ⟨0, 0⟩ b!"root" .nil] := by
  unfold QRule.rootB at h
  split at h
  · rename_i lsp ssp psp name wsp hp
    have : name = b!"root" := by simpa using h
    subst this
    exact ⟨⟨_, _, _, _, _, _, hp, rfl, rfl, _, List.mem_singleton_self _, by simp [Sel.parts]⟩, _, _, hp, rfl, rfl⟩
  · cases h

theorem rootedB_rule {r : QRule} {b : DeclBlock} (hb : r.block = some b) : ∀ {ns : List Node}, rootedB ns = true → .rule r ∈ ns →
    ∀ d ∈ b.decls, declB r.rootB d = true
  | [], _, h, _, _ => by cases h
  | .at a :: ns, h, hr, d, hd => by
    rw [rootedB, Bool.and_eq_true] at h
    rcases List.mem_cons.1 hr with hr | hr
    · cases hr
    · exact rootedB_rule hb h.2 hr d hd
  | .rule r' :: ns, h, hr, d, hd => by
    rw [rootedB, Bool.and_eq_true] at h
    rcases List.mem_cons.1 hr with hr | hr
    · cases hr
      rw [hb] at h
      have := List.all_eq_true.1 h.1 d hd
      rw [Bool.and_eq_true] at this
      exact this.1
    · exact rootedB_rule hb h.2 hr d hd

theorem rootedB_at {a : AtRule} : ∀ {ns : List Node}, rootedB ns = true → .at a ∈ ns → ∀ d ∈ a.block.allDecls, d.Free
  | [], _, h, _, _ => by cases h
  | .at a' :: ns, h, hr, d, hd => by
    rw [rootedB, Bool.and_eq_true] at h
    rcases List.mem_cons.1 hr with hr | hr
    · cases hr
      exact freeB_sound (List.all_eq_true.1 h.1 d hd)
    · exact rootedB_at h.2 hr d hd
  | .rule r' :: ns, h, hr, d, hd => by
    rw [rootedB, Bool.and_eq_true] at h
    rcases List.mem_cons.1 hr with hr | hr
    · cases hr
    · exact rootedB_at h.2 hr d hd

theorem rootedB_tail : ∀ {pre ns : List Node}, rootedB (pre ++ ns) = true → rootedB ns = true
  | [], _, h => h
  | .at _ :: _, _, h => by rw [List.cons_append, rootedB, Bool.and_eq_true] at h; exact rootedB_tail h.2
  | .rule _ :: _, _, h => by rw [List.cons_append, rootedB, Bool.and_eq_true] at h; exact rootedB_tail h.2

theorem lastDef_early {α : Type} {before later : List (Bytes × α)} {name : Bytes} (h : ∀ d ∈ later, d.1 ≠ name) :
    lastDef (before ++ later) name = lastDef before name := by
  unfold lastDef
  rw [List.reverse_append, List.find?_append, List.find?_eq_none.2]
  · rfl
  · intro d hd
    simpa using h d (List.mem_reverse.1 hd)

theorem rootedB_sound {ns : List Node} (h : rootedB ns = true) : Rooted ns := by
  refine ⟨fun r b sp prop vals imp hr hb hd hp => ?_, fun r b sp v hr hb hd => ?_, fun pre r post b d v he hb hd hv => ?_, fun a ha => rootedB_at h ha⟩
  · have := rootedB_rule hb h hr _ hd
    unfold declB at this
    dsimp only at this
    rw [if_pos hp, Bool.and_eq_true, Bool.and_eq_true] at this
    obtain ⟨h1, h2⟩ := rootB_sound this.1.1
    exact ⟨h1, h2, by simpa using this.1.2, this.2⟩
  · have := rootedB_rule hb h hr _ hd
    simpa [declB] using this
  · subst he
    have ht := rootedB_tail h
    rw [rootedB, Bool.and_eq_true, hb] at ht
    have := List.all_eq_true.1 ht.1 d hd
    rw [Bool.and_eq_true] at this
    have := List.all_eq_true.1 this.2 v hv
    rw [Bool.or_eq_true] at this
    rcases this with k | k
    · exact .inl k
    · split at k
      · cases k
      · rename_i x hx
        refine .inr ⟨x, hx, ?_⟩
        rw [show pre ++ Node.rule r :: post = (pre ++ [.rule r]) ++ post by simp, rootDefs_append _ post, lastDef_early]
        intro d hd
        have := List.all_eq_true.1 k d hd
        simpa using this

/-! ### An example, and what goes wrong -/

/-- The last declaration wins. -/
def lastWins (B : Browser) : Custom B := fun said e x => lastDef ((said e).filterMap Offer.custom?) x

theorem lastWins_knows (B : Browser) : B.KnowsCustom (lastWins B) := by
  intro said defs h _ _ e x
  unfold lastWins
  rw [h]

/-- All features. -/
def allFeatures : TOpts := ⟨.inline, true, true, true, true, true⟩

/-- `custom_meaning_partial` applies to a stylesheet with two custom properties, one of them declared twice. -/
example : ((parse 400 b!":root { --x: 1px d; --y: 11px } :root { --x: e f; k: l } a:any-link { b: var(--x) g var(--y, h); c: var(--z, 1 1); d: var(--z); w: calc(1px + 1px) } @media (width >= 1px) { b { c: d } }").sheet?.map fun x =>
    (lowerableB allFeatures x.1.nodes, rootedB x.1.nodes, (transform unaryOps allFeatures (some []) 30 x.1).out?.map fun ss => (print none ss).text?)) =
    some (true, true, some (some
      b!":root{k:l}a:visited,a:link{b:e f g 11px;c:1 1;d:var(--z);w:11px}@media (min-width:1px){b{c:d}}")) := by
  decide +kernel

/-- `:root{--x:d}a{b:var(--x,1)}` -/
def varSheet : Stylesheet :=
  ⟨[.rule ⟨⟨0, 0⟩, .sels ⟨⟨0, 0⟩, [.mk ⟨0, 0⟩ [.pclass ⟨0, 0⟩ b!"root" .nil]]⟩, some ⟨⟨0, 0⟩, [.decl ⟨0, 0⟩ b!"--x" [.ident ⟨0, 0⟩ b!"d"] false]⟩⟩,
    .rule ⟨⟨0, 0⟩, .sels ⟨⟨0, 0⟩, [.mk ⟨0, 0⟩ [.type ⟨0, 0⟩ b!"a"]]⟩, some ⟨⟨0, 0⟩, [.decl ⟨0, 0⟩ b!"b"
      [.func ⟨0, 0⟩ b!"var" [.ident ⟨0, 0⟩ b!"--x", .comma ⟨0, 0⟩, .dim ⟨0, 0⟩ b!"1" []]] false]⟩⟩], []⟩

/-- What it becomes: `:root{--x:d}a{b:1}` -/
def varOut : Stylesheet :=
  ⟨[.rule ⟨⟨0, 0⟩, .sels ⟨⟨0, 0⟩, [.mk ⟨0, 0⟩ [.pclass ⟨0, 0⟩ b!"root" .nil]]⟩, some ⟨⟨0, 0⟩, [.decl ⟨0, 0⟩ b!"--x" [.ident ⟨0, 0⟩ b!"d"] false]⟩⟩,
    .rule ⟨⟨0, 0⟩, .sels ⟨⟨0, 0⟩, [.mk ⟨0, 0⟩ [.type ⟨0, 0⟩ b!"a"]]⟩, some ⟨⟨0, 0⟩, [.decl ⟨0, 0⟩ b!"b" [.dim ⟨0, 0⟩ b!"1" []] false]⟩⟩], []⟩

theorem varSheet_out : transform unaryOps { TOpts.default with customProperties := true } (some []) 3 varSheet = .ok varOut ⟨some [], none, []⟩ := by rfl

/-- The values of the first declaration. -/
def firstVals {B : Browser} : List (Saying B) → Option (List B.X)
  | .decl _ _ v _ :: _ => v
  | _ => none

/-- **C90, refuted in general**: without a space, `:root{--x:d}` is not taken, but fallbacks are used all the same.  Also:
`var()` within a function or an at-rule stays, while its definition is removed; so does `var()` in another custom property;
a declaration that overrides a custom property for some elements is ignored; a custom property that is used before it is
declared is taken to be undefined. -/
theorem custom_meaning_refuted :
    (¬ ∀ (B : Browser) (cs : Custom B) (fo : FloatOps) (o : TOpts) (n : Nat) (ss ss' : Stylesheet) (s : TSt), RoundTrip fo → B.KnowsCalc fo →
      B.KnowsLinks → B.KnowsCustom cs → Lowerable B fo o ss.nodes → o.customProperties = true → transform fo o (some []) n ss = .ok ss' s →
      ∀ e : B.doc.Elem, understood B cs e ss'.nodes = understood B cs e ss.nodes) ∧
    (print none varSheet).text? = some b!":root{--x:d}a{b:var(--x,1)}" ∧
    ([b!":root {--x:d}a{b:f(var(--x))}", b!":root {--x:d}@media screen{a{b:var(--x)}}", b!":root {--x:d;--y:var(--x)}a{b:var(--y)}",
      b!":root {--x:d}p{--x:e}a{b:var(--x)}", b!"a{b:var(--x,c)}:root {--x:d}"].map fun src =>
        (parse 300 src).sheet?.map fun x => (transform unaryOps allFeatures (some []) 30 x.1).out?.map fun ss => (print none ss).text?) =
      [some (some (some b!"a{b:f(var(--x))}")), some (some (some b!"@media screen{a{b:var(--x)}}")), some (some (some b!"a{b:var(--x)}")),
        some (some (some b!"p{--x:e}a{b:d}")), some (some (some b!"a{b:c}"))] := by
  refine ⟨fun hall => ?_, by decide +kernel, by decide +kernel⟩
  have h := hall smallBrowser (lastWins _) unaryOps { TOpts.default with customProperties := true } 3 varSheet varOut _ unary_roundTrip smallBrowser_calc
    smallBrowser_links (lastWins_knows _) (lowerableB_sound (by decide) _ _) rfl varSheet_out false
  have h1 : firstVals (understood smallBrowser (lastWins _) false varOut.nodes) = some [true] := by rfl
  have h2 : firstVals (understood smallBrowser (lastWins _) false varSheet.nodes) = some [false] := by rfl
  rw [h, h2] at h1
  cases h1

end Cssc
