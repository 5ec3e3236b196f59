import Verif.Spec.VarProject
import Verif.Props.VarWritten

/-!
# C91: what is written says what the project says, with custom properties
-/

namespace Cssc

/-! ### Files in which custom properties have been put in -/

/-- Nodes without custom properties, in which only those are asked for that no file has. -/
structure RestVars (env : CEnv) (ns : List Node) : Prop where
  defs : ∀ r b d, .rule r ∈ ns → r.block = some b → d ∈ b.decls → d.custom? = none
  raws : ∀ r b sp v, .rule r ∈ ns → r.block = some b → .raw sp v ∈ b.decls → v.take 2 ≠ b!"--"
  uses : ∀ r b d v, .rule r ∈ ns → r.block = some b → d ∈ b.decls → v ∈ d.vals →
    v.noVar = true ∨ ∃ x, v.varOf? = some x ∧ ∀ a ss, IsFile env a ss → lastDef (rootDefs ss.nodes) x = none
  ats : ∀ a, .at a ∈ ns → ∀ d ∈ a.block.allDecls, d.Free

theorem rootDefs_none {ns : List Node} (h : ∀ r b d, .rule r ∈ ns → r.block = some b → d ∈ b.decls → d.custom? = none) : rootDefs ns = [] := by
  unfold rootDefs
  rw [List.flatMap_eq_nil_iff]
  intro n hn
  cases n with
  | «at» a => rfl
  | rule r =>
    obtain ⟨sp, p, b⟩ := r
    cases b with
    | none => rfl
    | some b => exact List.filterMap_eq_nil_iff.2 fun d hd => h _ b d hn rfl hd

theorem rootDefs_cons (n : Node) (b : List Node) : rootDefs (n :: b) = rootDefs [n] ++ rootDefs b := by
  rw [← rootDefs_append]
  rfl

/-- Where the nodes of a file come from, whose imports were replaced by what is left of other files. -/
theorem inlined_vars {env : CEnv} {m : List (AtId × Stylesheet)} {ns flat : List Node} (h : Inlined m ns flat) :
    (∀ r, .at r ∈ ns → r.name = b!"import" → ∃ ss, replacement m r = some ss ∧ (∀ n ∈ ss.nodes, n.isImport = false) ∧ RestVars env ss.nodes) →
    rootDefs flat = rootDefs ns ∧ ∀ pre n post, flat = pre ++ n :: post →
      (∃ p q, ns = p ++ n :: q ∧ rootDefs pre = rootDefs p) ∨ ∃ c, RestVars env c ∧ n ∈ c := by
  have stay : ∀ {n : Node} {ns flat : List Node}, (rootDefs flat = rootDefs ns ∧ ∀ pre n post, flat = pre ++ n :: post →
      (∃ p q, ns = p ++ n :: q ∧ rootDefs pre = rootDefs p) ∨ ∃ c, RestVars env c ∧ n ∈ c) →
      rootDefs (n :: flat) = rootDefs (n :: ns) ∧ ∀ pre x post, n :: flat = pre ++ x :: post →
      (∃ p q, n :: ns = p ++ x :: q ∧ rootDefs pre = rootDefs p) ∨ ∃ c, RestVars env c ∧ x ∈ c := by
    rintro n ns flat ⟨h1, h2⟩
    refine ⟨by rw [rootDefs_cons, h1, ← rootDefs_cons], fun pre x post e => ?_⟩
    cases pre with
    | nil =>
      cases e
      exact .inl ⟨[], ns, rfl, rfl⟩
    | cons y pre =>
      rw [List.cons_append] at e
      injection e with e1 e2
      subst e1
      rcases h2 pre x post e2 with ⟨p, q, g2, g3⟩ | g
      · exact .inl ⟨n :: p, q, by rw [g2]; rfl, by rw [rootDefs_cons, g3, ← rootDefs_cons]⟩
      · exact .inr g
  induction h with
  | nil => exact fun _ => ⟨rfl, fun pre n post e => by simp at e⟩
  | rule _ ih => exact fun H => stay (ih fun r hr => H r (List.mem_cons_of_mem _ hr))
  | keep _ _ ih => exact fun H => stay (ih fun r hr => H r (List.mem_cons_of_mem _ hr))
  | @replace a ss ns f1 f2 ha hr hf _ _ ih =>
    intro H
    obtain ⟨ss', h1, h2, h3⟩ := H a (List.mem_cons_self ..) ha
    rw [hr] at h1
    cases h1
    have hs := inlined_same hf h2
    subst hs
    obtain ⟨g1, g2⟩ := ih fun r hr => H r (List.mem_cons_of_mem _ hr)
    have hno : rootDefs [Node.at a] = [] := rfl
    have hno2 := rootDefs_none h3.defs
    refine ⟨by rw [rootDefs_append, hno2, g1, rootDefs_cons, hno], fun pre n post e => ?_⟩
    rcases List.append_eq_append_iff.1 e with ⟨as, e1, e2⟩ | ⟨bs, e1, e2⟩
    · rcases g2 as n post e2 with ⟨p, q, k2, k3⟩ | k
      · exact .inl ⟨.at a :: p, q, by rw [k2]; rfl, by rw [e1, rootDefs_append, hno2, rootDefs_cons, hno, k3]⟩
      · exact .inr k
    · cases bs with
      | nil =>
        rw [List.append_nil] at e1
        rw [List.nil_append] at e2
        rcases g2 [] n post e2.symm with ⟨p, q, k2, k3⟩ | k
        · exact .inl ⟨.at a :: p, q, by rw [k2]; rfl, by rw [← e1, hno2, rootDefs_cons, hno, ← k3]; rfl⟩
        · exact .inr k
      | cons b bs =>
        rw [List.cons_append] at e2
        injection e2 with e3 e4
        subst e3
        exact .inr ⟨_, h3, by rw [e1]; simp⟩

/-- A file that asks for a custom property that it does not define: no file defines it. -/
theorem OwnVars.unknown {env : CEnv} (h : OwnVars env) {a : Bytes} {ss : Stylesheet} (hf : IsFile env a ss) {n : Node} (hn : n ∈ ss.nodes)
    {x : Bytes} (hx : n.Asks x) (hno : lastDef (rootDefs ss.nodes) x = none) : ∀ b ss2, IsFile env b ss2 → lastDef (rootDefs ss2.nodes) x = none := by
  intro b ss2 hb
  cases hd : lastDef (rootDefs ss2.nodes) x with
  | none => rfl
  | some vs =>
    obtain ⟨_, h1, _⟩ := h.own a ss b ss2 n x vs hf hb hn hx hd
    rw [hno] at h1
    cases h1

/-- The file with its imports replaced: what it asks for. -/
structure ForeVars (env : CEnv) (flat : List Node) : Prop where
  rooted : Rooted flat
  unknown : ∀ r b d v x, .rule r ∈ flat → r.block = some b → d ∈ b.decls → v ∈ d.vals → v.varOf? = some x → lastDef (rootDefs flat) x = none →
    ∀ a ss, IsFile env a ss → lastDef (rootDefs ss.nodes) x = none

theorem varOf_not {v : Value} {x : Bytes} (h : v.varOf? = some x) : v.noVar ≠ true := by
  obtain ⟨sp, isp, rest, rfl, _⟩ := varOf_eq h
  simp [Value.noVar]

theorem fore_vars {env : CEnv} (hw : OwnVars env) {a : Bytes} {ss : Stylesheet} (hf : IsFile env a ss) {m : List (AtId × Stylesheet)} {flat : List Node}
    (h : Inlined m ss.nodes flat)
    (H : ∀ r, .at r ∈ ss.nodes → r.name = b!"import" → ∃ ss, replacement m r = some ss ∧ (∀ n ∈ ss.nodes, n.isImport = false) ∧ RestVars env ss.nodes) :
    ForeVars env flat := by
  obtain ⟨h1, h2⟩ := inlined_vars (env := env) h H
  have hR := hw.rooted a ss hf
  have hmem : ∀ n ∈ flat, n ∈ ss.nodes ∨ ∃ c, RestVars env c ∧ n ∈ c := by
    intro n hn
    obtain ⟨pre, post, e⟩ := List.append_of_mem hn
    rcases h2 pre n post e with ⟨p, q, k2, -⟩ | k
    · exact .inl (by rw [k2]; simp)
    · exact .inr k
  refine ⟨⟨fun r b sp prop vals imp hr hb hd hp => ?_, fun r b sp v hr hb hd => ?_, fun pre r post b d v e hb hd hv => ?_, fun at' ha d hd => ?_⟩,
    fun r b d v x hr hb hd hv hx hno => ?_⟩
  · rcases hmem _ hr with k | ⟨c, k1, k2⟩
    · exact hR.defs r b sp prop vals imp k hb hd hp
    · have := k1.defs r b _ k2 hb hd
      simp only [Decl.custom?] at this
      rw [if_pos hp] at this
      cases this
  · rcases hmem _ hr with k | ⟨c, k1, k2⟩
    · exact hR.raws r b sp v k hb hd
    · exact k1.raws r b sp v k2 hb hd
  · rw [h1]
    rcases h2 pre _ post e with ⟨p, q, k2, k3⟩ | ⟨c, k1, k2⟩
    · rcases hR.uses p r q b d v k2 hb hd hv with g | ⟨x, g1, g2⟩
      · exact .inl g
      · exact .inr ⟨x, g1, by rw [rootDefs_append, k3, ← rootDefs_append, g2]⟩
    · rcases k1.uses r b d v k2 hb hd hv with g | ⟨x, g1, g2⟩
      · exact .inl g
      · refine .inr ⟨x, g1, ?_⟩
        have hown := g2 a ss hf
        rw [hown]
        cases hpre : lastDef (rootDefs (pre ++ [.rule r])) x with
        | none => rfl
        | some w =>
          exfalso
          have hin : (x, w) ∈ rootDefs ss.nodes := by
            rw [← h1, e, show pre ++ Node.rule r :: post = (pre ++ [.rule r]) ++ post by simp, rootDefs_append _ post]
            exact List.mem_append_left _ (lastDef_key hpre)
          exact lastDef_some hin hown
  · rcases hmem _ ha with k | ⟨c, k1, k2⟩
    · exact hR.ats at' k d hd
    · exact k1.ats at' k2 d hd
  · rw [h1] at hno
    rcases hmem _ hr with k | ⟨c, k1, k2⟩
    · exact hw.unknown hf k ⟨r, b, d, v, rfl, hb, hd, hv, hx⟩ hno
    · rcases k1.uses r b d v k2 hb hd hv with g | ⟨y, g1, g2⟩
      · exact (varOf_not hx g).elim
      · rw [hx] at g1
        cases g1
        exact g2

/-- After putting in. -/
theorem ForeVars.subst {env : CEnv} {flat : List Node} (h : ForeVars env flat) : RestVars env (flat.map (Node.subst (rootDefs flat))) := by
  obtain ⟨h1, -⟩ := subst_only h.rooted.only (rootDefs flat)
  have back : ∀ {r b}, .rule r ∈ flat.map (Node.subst (rootDefs flat)) → r.block = some b →
      ∃ r' b', .rule r' ∈ flat ∧ r'.block = some b' ∧ b.decls = (b'.decls.filter fun d => d.custom?.isNone).map (Decl.subst (rootDefs flat)) := by
    intro r b hr hb
    obtain ⟨n, hn, e⟩ := List.mem_map.1 hr
    cases n with
    | «at» a => cases e
    | rule r' =>
      cases e
      obtain ⟨b', e1, rfl⟩ := Option.map_eq_some_iff.1 hb
      exact ⟨r', b', hn, e1, rfl⟩
  refine ⟨fun r b d hr hb hd => ?_, h1.raws, fun r b d v hr hb hd hv => ?_, h1.ats⟩
  · obtain ⟨r', b', k1, k2, k3⟩ := back hr hb
    rw [k3] at hd
    obtain ⟨d', hd', rfl⟩ := List.mem_map.1 hd
    have := (List.mem_filter.1 hd').2
    cases d' with
    | raw => rfl
    | decl sp prop vals imp =>
      simp only [Decl.custom?, Decl.subst] at this ⊢
      by_cases hp : prop.take 2 = b!"--"
      · rw [if_pos hp] at this; cases this
      · rw [if_neg hp]
  · obtain ⟨r', b', k1, k2, k3⟩ := back hr hb
    rw [k3] at hd
    obtain ⟨d', hd', rfl⟩ := List.mem_map.1 hd
    have hd' := List.mem_of_mem_filter hd'
    cases d' with
    | raw => cases hv
    | decl sp prop vals imp =>
      obtain ⟨w, hw, hv⟩ := List.mem_flatMap.1 (show v ∈ vals.flatMap (substVal (rootDefs flat)) from hv)
      obtain ⟨pre, post, e⟩ := List.append_of_mem k1
      rcases h.rooted.uses pre r' post b' _ w e k2 hd' hw with g | ⟨x, g, -⟩
      · rw [substVal_noVar g, List.mem_singleton] at hv
        subst hv
        exact .inl g
      · have hun := h.unknown r' b' _ w x k1 k2 hd' hw g
        obtain ⟨vsp, isp, rest, rfl, hr⟩ := varOf_eq g
        rw [substVal, if_pos rfl] at hv
        unfold varResult at hv
        dsimp only at hv
        cases hl : lastDef (rootDefs flat) x with
        | some vals =>
          rw [hl] at hv
          obtain ⟨d, h3, h4⟩ := lastDef_mem hl
          exact .inl (noVars_mem (h4 ▸ rootDefs_free h.rooted d h3) v hv)
        | none =>
          rw [hl] at hv
          match rest, hr, hv with
          | [], _, hv =>
            rw [List.mem_singleton.1 hv]
            exact .inr ⟨x, g, hun hl⟩
          | [c], _, hv =>
            rw [List.mem_singleton.1 hv]
            exact .inr ⟨x, g, hun hl⟩
          | c :: f :: fs, hr, hv =>
            rw [noVars, Bool.and_eq_true] at hr
            exact .inl (noVars_mem hr.2 v hv)

/-- Lowering without custom properties keeps this. -/
theorem RestVars.pieces {env : CEnv} {fo : FloatOps} {o : TOpts} (ho : o.customProperties = false) {pre ns out : List Node}
    (h : RestVars env ns) (hp : NodePieces fo o pre ns out) : RestVars env out := by
  have val : ∀ {defs vals vals'}, Pieces (ValuePiece fo o defs) vals vals' → ∀ v ∈ vals', v.noVar = true ∨ v ∈ vals := by
    intro defs vals vals' hv v hm
    obtain ⟨x, hx, o1, k1, k2⟩ := pieces_mem hv v hm
    cases k1 with
    | other => rw [List.mem_singleton] at k2; subst k2; exact .inr hx
    | varOff => rw [List.mem_singleton] at k2; subst k2; exact .inr hx
    | varDefined h => rw [ho] at h; cases h
    | varFallback h => rw [ho] at h; cases h
    | varUndefined h => rw [ho] at h; cases h
    | varBad => rw [List.mem_singleton] at k2; subst k2; exact .inr hx
    | calcKept => rw [List.mem_singleton] at k2; subst k2; exact .inr hx
    | calcReduced => rw [List.mem_singleton] at k2; subst k2; exact .inl rfl
  have back : ∀ {r b}, .rule r ∈ out → r.block = some b → ∃ r' b', .rule r' ∈ ns ∧ r'.block = some b' ∧ ∃ defs, Pieces (DeclPiece fo o defs) b'.decls b.decls := by
    intro r b hr hb
    obtain ⟨p, n, post, o1, e, h1, h2⟩ := pieces_at hp _ hr
    cases h1 with
    | emptyRule => cases h2
    | customMedia => cases h2
    | other => simp at h2
    | media => simp at h2
    | @rule sp bsp lsp sels sels' decls ds ds' defs _ k2 k3 _ _ =>
      rw [List.mem_singleton] at h2
      cases h2
      cases hb
      refine ⟨_, ⟨bsp, decls⟩, by rw [e]; exact List.mem_append_right _ (List.mem_cons_self ..), rfl, defs, ?_⟩
      rcases k2 with ⟨k, _⟩ | ⟨_, k⟩
      · rw [ho] at k; cases k
      · rw [k] at k3
        exact k3
  have at' : ∀ {a}, .at a ∈ out → ∃ a', .at a' ∈ ns ∧ a'.block = a.block := by
    intro a ha
    obtain ⟨p, n, post, o1, e, h1, h2⟩ := pieces_at hp _ ha
    have hn : n ∈ ns := by rw [e]; exact List.mem_append_right _ (List.mem_cons_self ..)
    cases h1 with
    | emptyRule => cases h2
    | customMedia => cases h2
    | rule => simp at h2
    | other => rw [List.mem_singleton] at h2; cases h2; exact ⟨_, hn, rfl⟩
    | media => rw [List.mem_singleton] at h2; cases h2; exact ⟨_, hn, rfl⟩
  refine ⟨fun r b d hr hb hd => ?_, fun r b sp v hr hb hd => ?_, fun r b d v hr hb hd hv => ?_, fun a ha => ?_⟩
  · obtain ⟨r', b', k1, k2, defs, k3⟩ := back hr hb
    obtain ⟨x, hx, o1, k4, k5⟩ := pieces_mem k3 d hd
    have := h.defs r' b' x k1 k2 hx
    cases k4 with
    | decl => rw [List.mem_singleton] at k5; subst k5; 
              simp only [Decl.custom?] at this ⊢
              split at this
              · cases this
              · rename_i hp; rw [if_neg hp]
    | raw => rw [List.mem_singleton] at k5; subst k5; rfl
  · obtain ⟨r', b', k1, k2, defs, k3⟩ := back hr hb
    obtain ⟨x, hx, o1, k4, k5⟩ := pieces_mem k3 _ hd
    cases k4 with
    | decl => simp at k5
    | raw => rw [List.mem_singleton] at k5; cases k5; exact h.raws r' b' sp v k1 k2 hx
  · obtain ⟨r', b', k1, k2, defs, k3⟩ := back hr hb
    obtain ⟨x, hx, o1, k4, k5⟩ := pieces_mem k3 d hd
    cases k4 with
    | decl k6 =>
      rw [List.mem_singleton] at k5
      subst k5
      rcases val k6 v hv with k | k
      · exact .inl k
      · exact h.uses r' b' _ v k1 k2 hx k
    | raw => rw [List.mem_singleton] at k5; subst k5; cases hv
  · obtain ⟨a', k1, k2⟩ := at' ha
    rw [← k2]
    exact h.ats a' k1

/-! ### What files say together -/

/-- Custom properties that `incl` can be read with: of all names that it defines, and all of them are those of files. -/
def FitsVars (env : CEnv) (incl : List Node) (ρ : Bytes → Option (List Value)) : Prop :=
  (∀ d ∈ rootDefs incl, ρ d.1 ≠ none) ∧
    ∀ x vs, ρ x = some vs → ∃ a ss vs', IsFile env a ss ∧ lastDef (rootDefs ss.nodes) x = some vs' ∧ bareVals vs' = vs

theorem FitsVars.mono {env : CEnv} {incl incl' : List Node} {ρ : Bytes → Option (List Value)} (h : FitsVars env incl ρ)
    (hs : ∀ d ∈ rootDefs incl', d ∈ rootDefs incl) : FitsVars env incl' ρ := ⟨fun d hd => h.1 d (hs d hd), h.2⟩

theorem FitsVars.unknown {env : CEnv} {incl : List Node} {ρ : Bytes → Option (List Value)} (h : FitsVars env incl ρ) {x : Bytes}
    (hx : ∀ a ss, IsFile env a ss → lastDef (rootDefs ss.nodes) x = none) : ρ x = none := by
  cases hρ : ρ x with
  | none => rfl
  | some vs =>
    obtain ⟨a, ss, vs', h1, h2, -⟩ := h.2 x vs hρ
    rw [hx a ss h1] at h2
    cases h2

/-- What nodes say about an element with the custom properties `ρ`, with the custom media queries `defs`. -/
def told (B : Browser) (ρ : Bytes → Option (List Value)) (defs : List (Bytes × MQ)) (e : B.doc.Elem) (ns : List Node) : List (Saying B) :=
  ((ns.map Node.bare).flatMap (Node.offers (B.under ρ) defs e)).filterMap (Offer.saying ρ)

theorem told_append {B : Browser} {ρ : Bytes → Option (List Value)} {defs : List (Bytes × MQ)} {e : B.doc.Elem} (a b : List Node) :
    told B ρ defs e (a ++ b) = told B ρ defs e a ++ told B ρ defs e b := by
  unfold told
  rw [List.map_append, List.flatMap_append, List.filterMap_append]

theorem told_cons {B : Browser} {ρ : Bytes → Option (List Value)} {defs : List (Bytes × MQ)} {e : B.doc.Elem} (n : Node) (b : List Node) :
    told B ρ defs e (n :: b) = told B ρ defs e [n] ++ told B ρ defs e b := told_append [n] b

theorem told_congr {B : Browser} {ρ : Bytes → Option (List Value)} {defs defs' : List (Bytes × MQ)} {e : B.doc.Elem} {n : Node}
    (h : ∀ name, n.Uses name → lastDef defs name = lastDef defs' name) : told B ρ defs e [n] = told B ρ defs' e [n] := by
  unfold told
  simp only [List.map_cons, List.map_nil, List.flatMap_cons, List.flatMap_nil]
  exact congrArg (fun l => (l ++ []).filterMap (Offer.saying ρ)) (offers_congr (B := B.under ρ) (e := e) h)

/-- What was made of files says what they say together. -/
structure SaysVars (B : Browser) (env : CEnv) (out incl : List Node) : Prop where
  media : ∀ name q, lastDef (mediaDefs incl) name = some q → ∃ a ss, IsFile env a ss ∧ lastDef (mediaDefs ss.nodes) name = some q
  vars : ∀ x vs, lastDef (rootDefs incl) x = some vs → ∃ a ss, IsFile env a ss ∧ lastDef (rootDefs ss.nodes) x = some vs
  nodes : ∀ n ∈ incl, ∃ a ss, IsFile env a ss ∧ n ∈ ss.nodes
  tells : ∀ D ρ, Fits env incl D → FitsVars env incl ρ → ∀ e : B.doc.Elem, told B ρ [] e out = told B ρ D e incl

/-- The same of a file whose imports were replaced; `own` are its custom media queries. -/
structure FlatVars (B : Browser) (env : CEnv) (ns flat incl : List Node) : Prop where
  subMedia : ∀ d ∈ mediaDefs ns, d ∈ mediaDefs incl
  subVars : ∀ d ∈ rootDefs ns, d ∈ rootDefs incl
  media : ∀ name q, lastDef (mediaDefs incl) name = some q →
    lastDef (mediaDefs ns) name = some q ∨ ∃ a ss, IsFile env a ss ∧ lastDef (mediaDefs ss.nodes) name = some q
  vars : ∀ x vs, lastDef (rootDefs incl) x = some vs →
    lastDef (rootDefs ns) x = some vs ∨ ∃ a ss, IsFile env a ss ∧ lastDef (rootDefs ss.nodes) x = some vs
  nodes : ∀ n ∈ incl, n ∈ ns ∨ ∃ a ss, IsFile env a ss ∧ n ∈ ss.nodes
  tells : ∀ own D ρ, Fits env incl D → FitsVars env incl ρ → (∀ n ∈ ns, ∀ name, n.Uses name → lastDef own name = lastDef D name) →
    (∀ name, (∀ a ss, IsFile env a ss → lastDef (mediaDefs ss.nodes) name = none) → lastDef own name = none) → ∀ e : B.doc.Elem,
    told B ρ own e flat = told B ρ D e incl

/-- Definitions of one node before others. -/
theorem lastDef_before {env : CEnv} {α : Type} {f : Stylesheet → List (Bytes × α)} {one ns incl : List (Bytes × α)} (h2 : ∀ d ∈ ns, d ∈ incl)
    (h3 : ∀ name q, lastDef incl name = some q → lastDef ns name = some q ∨ ∃ a ss, IsFile env a ss ∧ lastDef (f ss) name = some q)
    {name : Bytes} {q : α} (hq : lastDef (one ++ incl) name = some q) :
    lastDef (one ++ ns) name = some q ∨ ∃ a ss, IsFile env a ss ∧ lastDef (f ss) name = some q := by
  rw [lastDef_or] at hq ⊢
  cases hi : lastDef incl name with
  | some q' =>
    rw [hi, Option.some_or] at hq
    cases hq
    rcases h3 name q hi with k | k
    · exact .inl (by rw [k, Option.some_or])
    · exact .inr k
  | none =>
    rw [hi, Option.none_or] at hq
    have : lastDef ns name = none := by
      cases hk : lastDef ns name with
      | none => rfl
      | some d => exact (lastDef_some (h2 _ (lastDef_key hk)) hi).elim
    exact .inl (by rw [this, Option.none_or, hq])

theorem FlatVars.keep {B : Browser} {env : CEnv} {ns flat incl : List Node} (h : FlatVars B env ns flat incl) (n : Node) :
    FlatVars B env (n :: ns) (n :: flat) (n :: incl) where
  subMedia d hd := by
    rw [mediaDefs_cons] at hd ⊢
    rcases List.mem_append.1 hd with hd | hd
    · exact List.mem_append_left _ hd
    · exact List.mem_append_right _ (h.subMedia d hd)
  subVars d hd := by
    rw [rootDefs_cons] at hd ⊢
    rcases List.mem_append.1 hd with hd | hd
    · exact List.mem_append_left _ hd
    · exact List.mem_append_right _ (h.subVars d hd)
  media name q hq := by
    rw [mediaDefs_cons] at hq ⊢
    exact lastDef_before (f := fun ss => mediaDefs ss.nodes) h.subMedia h.media hq
  vars x vs hq := by
    rw [rootDefs_cons] at hq ⊢
    exact lastDef_before (f := fun ss => rootDefs ss.nodes) h.subVars h.vars hq
  nodes x hx := by
    rcases List.mem_cons.1 hx with rfl | hx
    · exact .inl (List.mem_cons_self ..)
    · exact (h.nodes x hx).imp_left (List.mem_cons_of_mem _)
  tells own D ρ hD hρ hu ho e := by
    rw [told_cons n flat, told_cons n incl,
      h.tells own D ρ (hD.mono fun d hd => by rw [mediaDefs_cons]; exact List.mem_append_right _ hd)
        (hρ.mono fun d hd => by rw [rootDefs_cons]; exact List.mem_append_right _ hd) (fun x hx => hu x (List.mem_cons_of_mem _ hx)) ho e,
      told_congr (hu n (List.mem_cons_self ..))]

theorem rest_told {B : Browser} {env : CEnv} {c : List Node} (h : Rest B env c) {own : List (Bytes × MQ)} {ρ : Bytes → Option (List Value)}
    (ho : ∀ name, (∀ a ss, IsFile env a ss → lastDef (mediaDefs ss.nodes) name = none) → lastDef own name = none) (e : B.doc.Elem) :
    told B ρ own e c = told B ρ [] e c := by
  unfold told
  congr 1
  rw [List.flatMap_map, List.flatMap_map]
  refine List.flatMap_congr fun n hn => offers_congr (B := B.under ρ) fun name hu => ?_
  obtain ⟨a, l, rest, q, p, rfl, h1, h2, h3, h4, h5⟩ := hu
  rw [ho name ((h.queries a l rest hn h1 h2 q h3).unknown p h4 name h5)]
  rfl

theorem inlined_told {B : Browser} {env : CEnv} {dir : Bytes} {m : List (AtId × Stylesheet)} {ns flat : List Node} (h : Inlined m ns flat) :
    (∀ r, .at r ∈ ns → r.name = b!"import" → ∃ ss2 incl2 sp v rel b c id ss3 lines, replacement m r = some ss2 ∧ Rest B env ss2.nodes ∧
      r.preludes = [.str sp v] ∧ env.resolve v dir = some rel ∧ env.abs rel = some b ∧ env.read b = some c ∧
      parse env.fuel c id = .ok ss3 lines ∧ Included env (dirOf b) ss3.nodes incl2 ∧ SaysVars B env ss2.nodes incl2) →
    ∃ incl, Included env dir ns incl ∧ FlatVars B env ns flat incl := by
  induction h with
  | nil => exact fun _ => ⟨[], .nil, fun d hd => hd, fun d hd => hd, fun _ _ h => .inl h, fun _ _ h => .inl h, fun _ h => .inl h, fun _ _ _ _ _ _ _ _ => rfl⟩
  | rule _ ih =>
    intro H
    obtain ⟨incl, h1, h2⟩ := ih fun r hr => H r (List.mem_cons_of_mem _ hr)
    exact ⟨_, .keep rfl h1, h2.keep _⟩
  | @keep a ns flat ha _ ih =>
    intro H
    obtain ⟨incl, h1, h2⟩ := ih fun r hr => H r (List.mem_cons_of_mem _ hr)
    refine ⟨_, .keep ?_ h1, h2.keep _⟩
    by_cases hn : a.name = b!"import"
    · obtain ⟨ss, _, _, _, _, _, _, _, _, _, h1, _⟩ := H a (List.mem_cons_self ..) hn
      rw [ha hn] at h1
      cases h1
    · simpa [Node.isImport] using hn
  | @replace a ss ns f1 f2 ha hr hf _ _ ih =>
    intro H
    obtain ⟨ss2, incl2, sp, v, rel, b, c, id, ss3, lines, g1, g2, g3, g4, g5, g6, g7, g8, g9⟩ := H a (List.mem_cons_self ..) ha
    rw [hr] at g1
    cases g1
    have hs := inlined_same hf g2.imports
    subst hs
    obtain ⟨incl, h1, h2⟩ := ih fun r hr => H r (List.mem_cons_of_mem _ hr)
    have hno : mediaDefs [Node.at a] = [] := by
      simp [mediaDefs, Node.customMedia?, AtRule.customMedia?, ha]
    have hno2 : rootDefs [Node.at a] = [] := rfl
    refine ⟨incl2 ++ incl, .imp ha g3 g4 g5 g6 g7 g8 h1, fun d hd => ?_, fun d hd => ?_, fun name q hq => ?_, fun x vs hq => ?_, fun n hn => ?_,
      fun own D ρ hD hρ hu ho e => ?_⟩
    · rw [mediaDefs_cons, hno, List.nil_append] at hd
      rw [mediaDefs_append]
      exact List.mem_append_right _ (h2.subMedia d hd)
    · rw [rootDefs_cons, hno2, List.nil_append] at hd
      rw [rootDefs_append]
      exact List.mem_append_right _ (h2.subVars d hd)
    · rw [mediaDefs_append, lastDef_or] at hq
      rw [mediaDefs_cons, hno, List.nil_append]
      cases hi : lastDef (mediaDefs incl) name with
      | some q' =>
        rw [hi, Option.some_or] at hq
        cases hq
        exact h2.media name q hi
      | none =>
        rw [hi, Option.none_or] at hq
        exact .inr (g9.media name q hq)
    · rw [rootDefs_append, lastDef_or] at hq
      rw [rootDefs_cons, hno2, List.nil_append]
      cases hi : lastDef (rootDefs incl) x with
      | some q' =>
        rw [hi, Option.some_or] at hq
        cases hq
        exact h2.vars x vs hi
      | none =>
        rw [hi, Option.none_or] at hq
        exact .inr (g9.vars x vs hq)
    · rcases List.mem_append.1 hn with hn | hn
      · exact .inr (g9.nodes n hn)
      · exact (h2.nodes n hn).imp_left (List.mem_cons_of_mem _)
    · rw [told_append, told_append, rest_told g2 ho,
        g9.tells D ρ (hD.mono fun d hd => by rw [mediaDefs_append]; exact List.mem_append_left _ hd)
          (hρ.mono fun d hd => by rw [rootDefs_append]; exact List.mem_append_left _ hd) e,
        h2.tells own D ρ (hD.mono fun d hd => by rw [mediaDefs_append]; exact List.mem_append_right _ hd)
          (hρ.mono fun d hd => by rw [rootDefs_append]; exact List.mem_append_right _ hd) (fun x hx => hu x (List.mem_cons_of_mem _ hx)) ho e]

/-- Putting in the custom properties of a file. -/
theorem told_subst {B : Browser} {ns : List Node} (h : Rooted ns) {ρ' ρ : Bytes → Option (List Value)} {D : List (Bytes × List Value)}
    (hD : ∀ d ∈ D, noVars d.2 = true)
    (hu : ∀ r b d v x, .rule r ∈ ns → r.block = some b → d ∈ b.decls → v ∈ d.vals → v.varOf? = some x →
      ρ x = rho D x ∧ (rho D x = none → ρ' x = none)) (defs : List (Bytes × MQ)) (e : B.doc.Elem) :
    told B ρ' defs e (ns.map (Node.subst D)) = told B ρ defs e ns := by
  unfold told
  rw [List.filterMap_flatMap, List.filterMap_flatMap, List.flatMap_map, List.flatMap_map, List.flatMap_map]
  refine List.flatMap_congr fun n hn => node_sayings hD e _ ?_ ?_
  · rintro r b rfl hb d hd v hv
    obtain ⟨pre, post, rfl⟩ := List.append_of_mem hn
    rcases h.uses pre r post b d v rfl hb hd hv with k | ⟨x, k, _⟩
    · exact .inl k
    · exact .inr ⟨x, k, hu r b d v x hn hb hd hv k⟩
  · rintro a rfl
    exact h.ats a hn

/-- The whole compilation of a file says what the files say together, custom properties put in. -/
theorem full_told {B : Browser} {env : CEnv} (hr : RoundTrip env.fo) (hC : B.KnowsCalc env.fo) (hL : B.KnowsLinks) (hw : Lucid B env) (hv : OwnVars env)
    (ho : env.opts.customProperties = true) (hin : env.opts.importRules = .inline) {ps : List Bytes} {a : Bytes} {ss' : Stylesheet}
    {log : List Report} (h : Full env ps a ss' log) :
    Rest B env ss'.nodes ∧ RestVars env ss'.nodes ∧ ∃ c id ss lines incl, env.read a = some c ∧ parse env.fuel c id = .ok ss lines ∧
      Included env (dirOf a) ss.nodes incl ∧ SaysVars B env ss'.nodes incl := by
  induction h with
  | @mk p a c id ss ss' lines repl s fileOf logOf h1 h2 h3 h4 h5 h6 h7 h8 h9 ih =>
    have hfile : IsFile env a ss := ⟨p, c, id, lines, h1, h2, h3, h4⟩
    rw [if_pos hin] at h9
    obtain ⟨-, flat, hflat, hpieces⟩ := transform_pieces h9
    have hflat : Inlined repl ss.nodes flat := hflat
    have hs := parse_sheetOk h4
    have himp' : ∀ r, .at r ∈ ss.nodes → r.name = b!"import" → ∃ ss2 incl2 sp v rel b c id ss3 lines, RestVars env ss2.nodes ∧ replacement repl r = some ss2 ∧
        Rest B env ss2.nodes ∧ r.preludes = [.str sp v] ∧ env.resolve v (dirOf a) = some rel ∧ env.abs rel = some b ∧ env.read b = some c ∧
        parse env.fuel c id = .ok ss3 lines ∧ Included env (dirOf b) ss3.nodes incl2 ∧ SaysVars B env ss2.nodes incl2 := by
      intro r hr hn
      obtain ⟨sp, v, rel0, hv, hres⟩ := hw.imports a ss r hfile hr hn
      have himp : (⟨v, r.id⟩ : ImportSpec) ∈ ss.imports := by
        rw [hs.imports]
        unfold importsOf
        rw [List.mem_filterMap]
        refine ⟨_, hr, ?_⟩
        dsimp only
        rw [if_pos hn, hv]
      have hfound : ∃ ss2, replacement repl r = some ss2 := by
        rcases h8 hin _ himp with ⟨kv, h11, h12⟩ | hno
        · exact replacement_some h11 h12
        · exfalso
          rcases hno with hno | ⟨rel, e, h11, h12⟩
          · rw [show env.resolve v (dirOf a) = none from hno] at hres
            cases hres
          · obtain ⟨a2, c2, ss2, l2, d1, d2, d3⟩ := hw.files _ (.imp h1 h2 h3 h4 himp h11)
            exact failsWith_ok h12 d1 ⟨_, _, _, d2, d3⟩
      obtain ⟨ss2, hl⟩ := hfound
      have hmem := replacement_mem hl
      obtain ⟨imp, i1, i2, rel, i3, i4⟩ := h6 hin _ hmem
      obtain ⟨j0, j0', c2, id2, ss3, l2, incl2, j1, j2, j3, j4⟩ := ih hin _ hmem
      have hval : imp.value = v := by
        rw [hs.imports] at i1
        unfold importsOf at i1
        rw [List.mem_filterMap] at i1
        obtain ⟨nd, hnd, h14⟩ := i1
        cases nd with
        | rule _ => cases h14
        | «at» q =>
          dsimp only at h14
          split at h14
          · rename_i hq
            split at h14
            · rename_i sp2 v2 ps2 hv2
              cases h14
              have := import_unique hs.nodes hs.order hnd hr hq hn i2
              subst this
              rw [hv2] at hv
              cases hv
              rfl
            · cases h14
          · cases h14
      rw [hval] at i3
      exact ⟨ss2, incl2, sp, v, rel, _, c2, id2, ss3, l2, j0', hl, j0, hv, i3, i4, j1, j2, j3, j4⟩
    have hF := lucid_fore hw hfile hflat fun r hr hn => by
      obtain ⟨ss2, _, _, _, _, _, _, _, _, _, _, k1, k2, _⟩ := himp' r hr hn
      exact ⟨ss2, k1, k2⟩
    have himpV : ∀ r, .at r ∈ ss.nodes → r.name = b!"import" →
        ∃ ss, replacement repl r = some ss ∧ (∀ n ∈ ss.nodes, n.isImport = false) ∧ RestVars env ss.nodes := fun r hr hn => by
      obtain ⟨ss2, _, _, _, _, _, _, _, _, _, k0, k1, k2, _⟩ := himp' r hr hn
      exact ⟨ss2, k1, k2.imports, k0⟩
    have hV := fore_vars hv hfile hflat himpV
    obtain ⟨incl, k1, k2⟩ := inlined_told (dir := dirOf a) hflat fun r hr hn => by
      obtain ⟨ss2, incl2, sp, v, rel, b, c, id, ss3, lines, _, k⟩ := himp' r hr hn
      exact ⟨ss2, incl2, sp, v, rel, b, c, id, ss3, lines, k⟩
    have hdefs : mediaDefs flat = mediaDefs ss.nodes := (inlined_from (B := B) (env := env) hflat fun r hr hn => by
      obtain ⟨ss2, _, _, _, _, _, _, _, _, _, _, k1, k2, _⟩ := himp' r hr hn
      exact ⟨ss2, k1, k2⟩).1
    obtain ⟨hroot, hfrom⟩ := inlined_vars (env := env) hflat himpV
    have hsub := nodes_subst ho hpieces hV.rooted rfl (by simp)
    refine ⟨hF.rest hpieces, hV.subst.pieces rfl hsub, c, id, ss, lines, incl, h3, h4, k1, fun name q hq => ?_, fun x vs hq => ?_, fun n hn => ?_,
      fun D ρ hD hρ e => ?_⟩
    · rcases k2.media name q hq with k | k
      · exact ⟨a, ss, hfile, k⟩
      · exact k
    · rcases k2.vars x vs hq with k | k
      · exact ⟨a, ss, hfile, k⟩
      · exact k
    · rcases k2.nodes n hn with k | k
      · exact ⟨a, ss, hfile, k⟩
      · exact k
    · have hlow := nodes_lowered (B := B.under ρ) hr (under_calc hC ρ) hL rfl hsub
        (lowerable_subst hF.lowerable _ (B' := B.under ρ) fun p hp => by cases p <;> exact hp) e
      have e1 : told B ρ [] e ss'.nodes = told B ρ ((mediaDefs ss.nodes).map fun d => (d.1, d.2.bare)) e (flat.map (Node.subst (rootDefs flat))) := by
        unfold told
        rw [hlow, List.map_nil, List.nil_append, List.nil_append, mediaDefs_subst, hdefs]
      rw [e1, told_subst hV.rooted (ρ := ρ) (rootDefs_free hV.rooted)]
      · refine k2.tells _ D ρ hD hρ (fun n hn name hu => ?_) (fun name hno => ?_) e
        · rw [lastDef_bare]
          cases hd : lastDef D name with
          | some q =>
            obtain ⟨b, ss2, q', d1, d2, d3⟩ := hD.2 name q hd
            obtain ⟨q'', d4, d5⟩ := hw.own a ss b ss2 n name q' hfile d1 hn hu d2
            rw [d4, Option.map_some, d5, d3]
          | none =>
            cases hd2 : lastDef (mediaDefs ss.nodes) name with
            | none => rfl
            | some q => exact (hD.1 _ (k2.subMedia _ (lastDef_key hd2)) hd).elim
        · rw [lastDef_bare, hno a ss hfile]
          rfl
      · intro r b d v x hr hb hd hvv hx
        have hsame : ρ x = rho (rootDefs flat) x := by
          unfold rho
          cases hl : lastDef (rootDefs flat) x with
          | none => exact hρ.unknown (hV.unknown r b d v x hr hb hd hvv hx hl)
          | some vs =>
            rw [hroot] at hl
            have h10 := hρ.1 _ (k2.subVars _ (lastDef_key hl))
            cases hρx : ρ x with
            | none => exact (h10 hρx).elim
            | some ws =>
              obtain ⟨b2, ss2, vs', d1, d2, d3⟩ := hρ.2 x ws hρx
              obtain ⟨pre, post, e⟩ := List.append_of_mem hr
              rcases hfrom pre _ post e with ⟨p, q, g, -⟩ | ⟨c, g1, g2⟩
              · obtain ⟨vs'', d4, d5⟩ := hv.own a ss b2 ss2 (.rule r) x vs' hfile d1 (by rw [g]; simp) ⟨r, b, d, v, rfl, hb, hd, hvv, hx⟩ d2
                rw [hl] at d4
                cases d4
                rw [Option.map_some, d5, d3]
              · rcases g1.uses r b d v g2 hb hd hvv with g | ⟨y, g3, g4⟩
                · exact (varOf_not hx g).elim
                · rw [hx] at g3
                  cases g3
                  rw [g4 a ss hfile] at hl
                  cases hl
        exact ⟨hsame, fun hno => by rw [hsame, hno]⟩

/-- What is left asks for no custom property of any file. -/
theorem RestVars.same {B : Browser} {env : CEnv} {ns : List Node} (h : RestVars env ns) {ρ ρ' : Bytes → Option (List Value)}
    (h1 : ∀ x, (∀ a ss, IsFile env a ss → lastDef (rootDefs ss.nodes) x = none) → ρ x = none)
    (h2 : ∀ x, (∀ a ss, IsFile env a ss → lastDef (rootDefs ss.nodes) x = none) → ρ' x = none) (defs : List (Bytes × MQ)) (e : B.doc.Elem) :
    told B ρ defs e ns = told B ρ' defs e ns := by
  have key : ∀ {ρ : Bytes → Option (List Value)}, (∀ x, (∀ a ss, IsFile env a ss → lastDef (rootDefs ss.nodes) x = none) → ρ x = none) →
      told B (fun _ => none) defs e (ns.map (Node.subst [])) = told B ρ defs e ns := by
    intro ρ hρ
    unfold told
    rw [List.filterMap_flatMap, List.filterMap_flatMap, List.flatMap_map, List.flatMap_map, List.flatMap_map]
    refine List.flatMap_congr fun n hn => node_sayings (by simp) e _ ?_ ?_
    · rintro r b rfl hb d hd v hv
      rcases h.uses r b d v hn hb hd hv with k | ⟨x, k1, k2⟩
      · exact .inl k
      · exact .inr ⟨x, k1, hρ x k2, fun _ => rfl⟩
    · rintro a rfl
      exact h.ats a hn
  rw [← key h1, key h2]

theorem RestVars.only {env : CEnv} {ns : List Node} (h : RestVars env ns) : RootOnly ns :=
  ⟨fun r b sp prop vals imp h1 h2 h3 h4 => (by
    have := h.defs r b _ h1 h2 h3
    unfold Decl.custom? at this
    dsimp only at this
    rw [if_pos h4] at this
    cases this), h.raws, h.ats⟩

/-- The same as browsers understand it. -/
theorem SaysVars.understood {B : Browser} {env : CEnv} {out incl : List Node} (h : SaysVars B env out incl) (hv : OwnVars env) {cs : Custom B}
    (hcs : B.KnowsCustom cs) (hd : mediaDefs out = []) (hr : RestVars env out) (e : B.doc.Elem) :
    understood B cs e out = understood B cs e incl := by
  have hI : RootOnly incl := by
    refine ⟨fun r b sp prop vals imp h1 h2 h3 h4 => ?_, fun r b sp v h1 h2 h3 => ?_, fun a h1 => ?_⟩
    · obtain ⟨a, ss, g1, g2⟩ := h.nodes _ h1
      exact (hv.rooted a ss g1).only.defs r b sp prop vals imp g2 h2 h3 h4
    · obtain ⟨a, ss, g1, g2⟩ := h.nodes _ h1
      exact (hv.rooted a ss g1).only.raws r b sp v g2 h2 h3
    · obtain ⟨f, ss, g1, g2⟩ := h.nodes _ h1
      exact (hv.rooted f ss g1).only.ats a g2
  have hfree : ∀ d ∈ rootDefs incl, noVars d.2 = true := by
    intro d hd
    unfold rootDefs at hd
    obtain ⟨n, hn, hd⟩ := List.mem_flatMap.1 hd
    obtain ⟨f, ss, g1, g2⟩ := h.nodes _ hn
    exact rootDefs_free (hv.rooted f ss g1) d (List.mem_flatMap.2 ⟨n, g2, hd⟩)
  have hρ : ∀ e, cs (fun e => applied B.raw e incl) e = rho (rootDefs incl) := by
    intro e
    funext x
    rw [hcs _ _ (only_custom hI) (only_root hI) (fun d hd => ?_) e x, rho_eq]
    obtain ⟨d', hd', rfl⟩ := List.mem_map.1 hd
    rw [noVars_bare]
    exact hfree d' hd'
  have hρ' : ∀ e, cs (fun e => applied B.raw e out) e = fun _ => none := by
    intro e
    funext x
    rw [hcs _ [] (fun e => ?_) (only_root hr.only) (by simp) e x]
    · rfl
    · rw [only_custom hr.only, rootDefs_none hr.defs]
      rfl
  have hfit : FitsVars env incl (rho (rootDefs incl)) := by
    refine ⟨fun d hd k => ?_, fun x vs hx => ?_⟩
    · exact lastDef_some hd (Option.map_eq_none_iff.1 k)
    · obtain ⟨vs', k1, k2⟩ := Option.map_eq_some_iff.1 hx
      obtain ⟨a, ss, k3, k4⟩ := h.vars x vs' k1
      exact ⟨a, ss, vs', k3, k4, k2⟩
  have hmed : Fits env incl (mediaDefs (incl.map Node.bare)) := by
    refine ⟨fun d hd => ?_, fun name q hq => ?_⟩
    · rw [mediaDefs_bare, lastDef_bare]
      intro k
      rw [Option.map_eq_none_iff] at k
      exact lastDef_some hd k
    · rw [mediaDefs_bare, lastDef_bare, Option.map_eq_some_iff] at hq
      obtain ⟨q', h1, h2⟩ := hq
      obtain ⟨a, ss, h3, h4⟩ := h.media name q' h1
      exact ⟨a, ss, q', h3, h4, h2⟩
  have e1 := (hr.same (B := B) (ρ := fun _ => none) (fun _ _ => rfl) (fun x hx => hfit.unknown hx) [] e).trans (h.tells _ _ hmed hfit e)
  unfold Cssc.understood
  rw [hρ, hρ']
  unfold sayings applied offersOf
  rw [mediaDefs_bare out, hd]
  exact e1

/-- **C91, partial**: take a project that is lucid (its files are all there and can be lowered, each by
itself: `Lucid`; each has the custom properties that it asks for: `OwnVars`) and ready (printing loses nothing of them), and
compile it with imports inlined, custom properties and any other features.  When a schedule has ended in which the loop
variables are read in time and no number is given twice, then every file that is written, if its numbers and what is left of
its arithmetic can be written, is parsed as a stylesheet that says about every element what the files say that are included
in one another, custom properties put in. -/
theorem project_custom_partial {B : Browser} {env : CEnv} {cs : Custom B} (hr : RoundTrip env.fo)
    (hC : B.KnowsCalc env.fo) (hL : B.KnowsLinks) (hcs : B.KnowsCustom cs) (hw : Lucid B env) (hv : OwnVars env)
    (ho : env.opts.customProperties = true) (hin : env.opts.importRules = .inline)
    (hready : ∀ {p a c ss lines}, Asked env p → env.abs p = some a → env.read a = some c → parse env.fuel c = .ok ss lines → ss.Ready)
    {st : CSt} (h : ReachedTidy env st) (hD : Distinct st.sh) (hd : st.main = .done) :
    (∀ {a out}, (a, out) ∈ st.sh.files → ∃ c id ss lines incl ss' log, env.read a = some c ∧ parse env.fuel c id = .ok ss lines ∧
      Included env (dirOf a) ss.nodes incl ∧ Full env st.sh.parses a ss' log ∧
      (ss'.Reckoned → ∀ i, ∃ k ss2 lines2, (∀ n, k ≤ n → parse n out i = .ok ss2 lines2) ∧
        ∀ e : B.doc.Elem, understood B cs e ss2.nodes = understood B cs e incl)) ∧
    ∀ {e a}, e ∈ env.entries → env.abs e = some a →
      (∃ out, (a, out) ∈ st.sh.files) ∨ ∃ ss' log, Full env st.sh.parses a ss' log ∧ ¬ ss'.Reckoned := by
  have hcomp : ∀ {a ss' log}, Full env st.sh.parses a ss' log → Compiled env.fo Stylesheet.Ready ss' := fun hf =>
    hf.compiled fun h1 h2 h3 h4 => by
      obtain ⟨ss0, h5, rfl⟩ := parse_ok_id h4
      exact ready_setId (hready h1 h2 h3 h5) _
  refine ⟨fun {a out} hf => ?_, fun {e a} he ha => ?_⟩
  · obtain ⟨-, c', ss', log, k, k1, k2, -, -, k3⟩ := (h.inv hD).files _ _ hf
    obtain ⟨g0, g0', c, id, ss, lines, incl, g1, g2, g3, g4⟩ := full_told hr hC hL hw hv ho hin k2
    refine ⟨c, id, ss, lines, incl, ss', log, g1, g2, g3, k2, fun hn i => ?_⟩
    obtain ⟨j, ss2, l2, d1, d2, -⟩ := output_map_parses (hcomp k2) (sources_fit (hcomp k2) hn) k3 i
    refine ⟨j, ss2, l2, d1, fun e => ?_⟩
    rw [← g4.understood hv hcs g0.defs g0' e]
    exact understood_bare d2 e
  · obtain ⟨a', c, ss0, lines, b1, b2, b3⟩ := hw.files _ (.entry he)
    rw [ha] at b1
    cases b1
    rcases printed_whole (h.inv hD) hD hd (.inl ⟨e, he, ha⟩) b2 b3 with k | k
    · exact .inl k
    · cases (h.inv hD).errors _ k with
      | fails _ hf => cases hf
      | @print _ ss' log _ k2 k3 =>
        refine .inr ⟨ss', log, k2, fun hn => ?_⟩
        obtain ⟨css, _, _, _, d1, -⟩ := sources_output_parses (hcomp k2) hn 0
        rw [k3] at d1
        cases d1

/-- C91 for the sequential compilation, which returns if the files are legible. -/
theorem project_custom_seq {B : Browser} {env : CEnv} {cs : Custom B} {rank : Bytes → Nat} (hac : Acyclic env rank) (hleg : Legible env)
    (hr : RoundTrip env.fo) (hC : B.KnowsCalc env.fo) (hL : B.KnowsLinks) (hcs : B.KnowsCustom cs) (hw : Lucid B env) (hv : OwnVars env)
    (ho : env.opts.customProperties = true) (hin : env.opts.importRules = .inline)
    (hready : ∀ {p a c ss lines}, Asked env p → env.abs p = some a → env.read a = some c → parse env.fuel c = .ok ss lines → ss.Ready) :
    ∃ n sh, seqCompile env n = some sh ∧ ∀ {a out}, (a, out) ∈ sh.files → ∃ c id ss lines incl ss' log, env.read a = some c ∧
      parse env.fuel c id = .ok ss lines ∧ Included env (dirOf a) ss.nodes incl ∧ Full env sh.parses a ss' log ∧
      (ss'.Reckoned → ∀ i, ∃ k ss2 lines2, (∀ n, k ≤ n → parse n out i = .ok ss2 lines2) ∧
        ∀ e : B.doc.Elem, understood B cs e ss2.nodes = understood B cs e incl) := by
  obtain ⟨n, sh, h1⟩ := seqCompile_ends hac hleg.tame
  obtain ⟨st, h2, h3, rfl⟩ := seqCompile_tidy h1
  exact ⟨n, _, h1, (project_custom_partial hr hC hL hcs hw hv ho hin hready h2 (seqCompile_distinct h1) h3).1⟩

/-! ### A test for `OwnVars` -/

theorem rootDefs_setId (i : Nat) (ns : List Node) : rootDefs (ns.map (Node.setId i)) = rootDefs ns := by
  unfold rootDefs
  rw [List.flatMap_map]
  congr 1
  funext n
  cases n <;> rfl

theorem rootedB_setId (i : Nat) : ∀ ns : List Node, rootedB (ns.map (Node.setId i)) = rootedB ns
  | [] => rfl
  | n :: ns => by
    have ih := rootedB_setId i ns
    cases n with
    | «at» a =>
      show (_ && rootedB (ns.map (Node.setId i))) = (_ && rootedB ns)
      rw [ih]
    | rule r =>
      show (_ && rootedB (ns.map (Node.setId i))) = (_ && rootedB ns)
      rw [ih, rootDefs_setId]

/-- The custom properties that nodes ask for. -/
def asksOf (ns : List Node) : List Bytes :=
  ns.flatMap fun
    | .rule ⟨_, _, some b⟩ => b.decls.flatMap fun d => d.vals.filterMap Value.varOf?
    | _ => []

theorem asksOf_mem {ns : List Node} {n : Node} {x : Bytes} (hn : n ∈ ns) (h : n.Asks x) : x ∈ asksOf ns := by
  obtain ⟨⟨sp, p, _⟩, b, d, v, rfl, rfl, h2, h3, h4⟩ := h
  exact List.mem_flatMap.2 ⟨_, hn, List.mem_flatMap.2 ⟨d, h2, List.mem_filterMap.2 ⟨v, h3, h4⟩⟩⟩

/-- The same identifiers and numbers. -/
def sameVals : List Value → List Value → Bool
  | [], [] => true
  | .ident _ a :: vs, .ident _ b :: ws => a == b && sameVals vs ws
  | .dim _ a u :: vs, .dim _ b w :: ws => a == b && u == w && sameVals vs ws
  | _, _ => false

theorem sameVals_sound (vs ws : List Value) (h : sameVals vs ws = true) : bareVals vs = bareVals ws := by
  fun_induction sameVals vs ws with
  | case1 => rfl
  | case2 _ a vs _ b ws ih =>
    rw [Bool.and_eq_true] at h
    rw [bareVals, bareVals, ih h.2, show a = b by simpa using h.1]
    rfl
  | case3 _ a u vs _ b w ws ih =>
    rw [Bool.and_eq_true, Bool.and_eq_true] at h
    rw [bareVals, bareVals, ih h.2, show a = b by simpa using h.1.1, show u = w by simpa using h.1.2]
    rfl
  | case4 => cases h

/-- A test for `OwnVars`. -/
def ownTest (env : CEnv) (files : List (Bytes × Bytes)) : Bool :=
  files.all fun f => match parse env.fuel f.2 with
    | .ok ss _ => rootedB ss.nodes && files.all fun g => g.1 == f.1 || match parse env.fuel g.2 with
      | .ok s2 _ => (asksOf ss.nodes).all fun x => match lastDef (rootDefs s2.nodes) x, lastDef (rootDefs ss.nodes) x with
        | none, _ => true
        | some ws, some vs => sameVals vs ws
        | some _, none => false
      | _ => false
    | _ => false

theorem own_of_test {env : CEnv} {files : List (Bytes × Bytes)} (hr : env.read = lookupMap files) (h : ownTest env files = true) : OwnVars env := by
  have hid : ∀ {a ss}, IsFile env a ss → ∃ c ss0 lines id, (a, c) ∈ files ∧ parse env.fuel c = .ok ss0 lines ∧ ss = ss0.setId id := by
    rintro a ss ⟨p, c, id, lines, -, -, h3, h4⟩
    obtain ⟨ss0, h5, rfl⟩ := parse_ok_id h4
    rw [hr] at h3
    exact ⟨c, ss0, lines, id, lookupMap_mem h3, h5, rfl⟩
  have hone : ∀ {a c ss lines}, (a, c) ∈ files → parse env.fuel c = .ok ss lines → rootedB ss.nodes = true ∧
      ∀ b c2 s2 l2, b ≠ a → (b, c2) ∈ files → parse env.fuel c2 = .ok s2 l2 → ∀ x ∈ asksOf ss.nodes, ∀ vs, lastDef (rootDefs s2.nodes) x = some vs →
        ∃ vs', lastDef (rootDefs ss.nodes) x = some vs' ∧ bareVals vs' = bareVals vs := by
    intro a c ss lines hf hp
    have h1 := List.all_eq_true.1 h _ hf
    dsimp only at h1
    rw [hp] at h1
    obtain ⟨h2, h3⟩ := Bool.and_eq_true_iff.1 h1
    refine ⟨h2, fun b c2 s2 l2 hb hf2 hp2 x hx vs hvs => ?_⟩
    have h4 := List.all_eq_true.1 h3 _ hf2
    dsimp only at h4
    rw [hp2] at h4
    rcases Bool.or_eq_true_iff.1 h4 with h4 | h4
    · exact (hb (by simpa using h4)).elim
    · have h5 := List.all_eq_true.1 h4 x hx
      rw [hvs] at h5
      cases hl : lastDef (rootDefs ss.nodes) x with
      | none => rw [hl] at h5; cases h5
      | some ws =>
        rw [hl] at h5
        exact ⟨ws, rfl, sameVals_sound _ _ h5⟩
  refine ⟨fun a ss hF => ?_, fun a ss b ss2 n x vs hF hF2 hn hu hx => ?_⟩
  · obtain ⟨c, ss0, l, i, k1, k2, rfl⟩ := hid hF
    refine rootedB_sound ?_
    show rootedB (ss0.nodes.map (Node.setId i)) = true
    rw [rootedB_setId]
    exact (hone k1 k2).1
  · by_cases hb : b = a
    · subst hb
      obtain ⟨p, c, i, l, -, -, d3, d4⟩ := hF
      obtain ⟨p', c', i', l', -, -, d3', d4'⟩ := hF2
      rw [d3] at d3'; cases d3'
      obtain ⟨s0, e1, rfl⟩ := parse_ok_id d4
      obtain ⟨s1, e2, rfl⟩ := parse_ok_id d4'
      rw [e1] at e2; cases e2
      have hx : lastDef (rootDefs (s0.nodes.map (Node.setId i'))) x = some vs := hx
      rw [rootDefs_setId] at hx
      show ∃ vs', lastDef (rootDefs (s0.nodes.map (Node.setId i))) x = some vs' ∧ _
      rw [rootDefs_setId]
      exact ⟨vs, hx, rfl⟩
    · obtain ⟨c, ss0, l, i, k1, k2, rfl⟩ := hid hF
      obtain ⟨c', ss0', l', i', k1', k2', rfl⟩ := hid hF2
      have hx : lastDef (rootDefs (ss0'.nodes.map (Node.setId i'))) x = some vs := hx
      rw [rootDefs_setId] at hx
      show ∃ vs', lastDef (rootDefs (ss0.nodes.map (Node.setId i))) x = some vs' ∧ _
      rw [rootDefs_setId]
      refine (hone k1 k2).2 b c' ss0' l' hb k1' k2' x ?_ vs hx
      obtain ⟨n0, hn0, rfl⟩ := List.mem_map.1 (show n ∈ ss0.nodes.map (Node.setId _) from hn)
      refine asksOf_mem hn0 ?_
      obtain ⟨r, b, d, v, e0, d1, d2, d3, d4⟩ := hu
      cases n0 with
      | «at» _ => cases e0
      | rule r0 =>
        cases e0
        exact ⟨r, b, d, v, rfl, d1, d2, d3, d4⟩

/-! ### Such a project, and one that says something else -/

def ownFiles : List (Bytes × Bytes) :=
  [(b!"/m", b!"@import 'a'; :root { --x: 1px d } a:any-link { b: var(--x) g var(--y, h) }"),
    (b!"/a", b!"@import 'b'; @media (width >= 1px) { b { c: d } } p { q: var(--y, k) }"),
    (b!"/b", b!":root { --x: e; --x: 1px d; --z: 11px } x { y: var(--x) var(--z); w: calc(1px + 1px) }")]

/-- Three files, with all features; two of them ask for `--x` and define it. -/
def ownEnv : CEnv :=
  ⟨[b!"m"], allFeatures, some b!"/", lookupMap ownFiles, fun spec dir => some (joinPath [dir, spec]), unaryOps, 400⟩

/-- All hypotheses of `project_custom_seq` are met, and this is written. -/
example : (∃ rank, Acyclic ownEnv rank) ∧ Legible ownEnv ∧ RoundTrip ownEnv.fo ∧ smallBrowser.KnowsCalc ownEnv.fo ∧ smallBrowser.KnowsLinks ∧
    smallBrowser.KnowsCustom (lastWins _) ∧ Lucid smallBrowser ownEnv ∧ OwnVars ownEnv ∧ ownEnv.opts.customProperties = true ∧
    ownEnv.opts.importRules = .inline ∧
    (∀ {p a c ss lines}, Asked ownEnv p → ownEnv.abs p = some a → ownEnv.read a = some c → parse ownEnv.fuel c = .ok ss lines → ss.Ready) ∧
    (seqCompile ownEnv 20).map (fun sh => (sh.errors, (lookupMap sh.files b!"/m").map cssLine)) = some ([], some
      b!"x{y:1px d 11px;w:11px}@media (min-width:1px){b{c:d}}p{q:k}a:visited,a:link{b:1px d g h}") :=
  ⟨⟨_, acyclic_of_test (env := ownEnv) (files := ownFiles) (rank := fun a => if a = b!"/m" then 2 else if a = b!"/a" then 1 else 0) rfl (by decide +kernel)⟩,
    legible_of_test (files := ownFiles) rfl (by decide) (by decide +kernel), unary_roundTrip, smallBrowser_calc, smallBrowser_links,
    lastWins_knows _, lucid_of_test (files := ownFiles) rfl (by decide +kernel) _, own_of_test (files := ownFiles) rfl (by decide +kernel), rfl, rfl,
    fun _ _ hc hp => ready_of_test (env := ownEnv) (files := ownFiles) rfl (by decide +kernel) hc hp, by decide +kernel⟩

/-- `:root {--x:d}` -/
def rootSheet : Stylesheet :=
  ⟨[.rule ⟨⟨0, 0⟩, .sels ⟨⟨0, 0⟩, [.mk ⟨0, 0⟩ [.pclass ⟨0, 0⟩ b!"root" .nil, .ws ⟨0, 0⟩]]⟩,
    some ⟨⟨0, 0⟩, [.decl ⟨0, 0⟩ b!"--x" [.ident ⟨0, 0⟩ b!"d"] false]⟩⟩], []⟩

/-- `a{b:var(--x,1)}` -/
def askNode : Node :=
  .rule ⟨⟨0, 0⟩, .sels ⟨⟨0, 0⟩, [.mk ⟨0, 0⟩ [.type ⟨0, 0⟩ b!"a"]]⟩, some ⟨⟨0, 0⟩, [.decl ⟨0, 0⟩ b!"b"
    [.func ⟨0, 0⟩ b!"var" [.ident ⟨0, 0⟩ b!"--x", .comma ⟨0, 0⟩, .dim ⟨0, 0⟩ b!"1" []]] false]⟩⟩

/-- What it becomes: `a{b:1}` -/
def askOut : Node :=
  .rule ⟨⟨0, 0⟩, .sels ⟨⟨0, 0⟩, [.mk ⟨0, 0⟩ [.type ⟨0, 0⟩ b!"a"]]⟩, some ⟨⟨0, 0⟩, [.decl ⟨0, 0⟩ b!"b" [.dim ⟨0, 0⟩ b!"1" []] false]⟩⟩

theorem rootSheet_out : ∃ s, transform unaryOps allFeatures (some []) 3 rootSheet = .ok ⟨[], []⟩ s := ⟨_, rfl⟩

theorem askSheet_out : ∃ s, transform unaryOps allFeatures (some [(impRule.id, ⟨[], []⟩)]) 3 ⟨[.at impRule, askNode], []⟩ =
    .ok ⟨[askOut], []⟩ s := ⟨_, rfl⟩

/-- The two files. -/
def lostVarEnv : CEnv :=
  ⟨[b!"m"], allFeatures, some b!"/", lookupMap [(b!"/m", b!"@import \"d\";a{b:var(--x,1)}"), (b!"/d", b!":root {--x:d}")],
    fun spec dir => some (joinPath [dir, spec]), unaryOps, 200⟩

/-- **C91, refuted in general**: the custom properties of an imported file are lost to the file that imports it, because the
imported file is transformed by itself: they are removed there, and fallbacks are used here; nothing is reported. -/
theorem project_custom_refuted :
    (¬ ∀ (B : Browser) (cs : Custom B) (fo : FloatOps) (o : TOpts) (n : Nat) (d d' m' : Stylesheet) (imp : AtRule) (rest : List Node) (s s' : TSt),
      RoundTrip fo → B.KnowsCalc fo → B.KnowsLinks → B.KnowsCustom cs → o.customProperties = true → Lowerable B fo o (d.nodes ++ rest) →
      Rooted d.nodes → Rooted rest → Rooted (d.nodes ++ rest) → imp.name = b!"import" → transform fo o (some []) n d = .ok d' s →
      transform fo o (some [(imp.id, d')]) n ⟨.at imp :: rest, []⟩ = .ok m' s' →
      ∀ e : B.doc.Elem, understood B cs e m'.nodes = understood B cs e (d.nodes ++ rest)) ∧
    (seqCompile lostVarEnv 20).map (fun sh => (sh.errors, (lookupMap sh.files b!"/m").map cssLine)) = some ([], some b!"a{b:1}") := by
  refine ⟨fun hall => ?_, by decide +kernel⟩
  obtain ⟨s1, o1⟩ := rootSheet_out
  obtain ⟨s2, o2⟩ := askSheet_out
  have h := hall smallBrowser (lastWins _) unaryOps allFeatures 3 rootSheet ⟨[], []⟩ ⟨[askOut], []⟩ impRule [askNode] _ _ unary_roundTrip
    smallBrowser_calc smallBrowser_links (lastWins_knows _) rfl (lowerableB_sound (by decide +kernel) _ _) (rootedB_sound (by decide +kernel))
    (rootedB_sound (by decide +kernel)) (rootedB_sound (by decide +kernel)) rfl o1 o2 false
  have h1 : firstVals (understood smallBrowser (lastWins _) false [askOut]) = some [true] := by rfl
  have h2 : firstVals (understood smallBrowser (lastWins _) false (rootSheet.nodes ++ [askNode])) = some [false] := by rfl
  rw [show (⟨[askOut], []⟩ : Stylesheet).nodes = [askOut] from rfl] at h
  rw [h, h2] at h1
  cases h1

end Cssc
