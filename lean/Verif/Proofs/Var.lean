import Verif.Spec.Var
import Verif.Props.Cascade

/-!
# Putting in custom properties: values
-/

namespace Cssc

/-! ### Values without `var()` -/

mutual

theorem expand_noVar (ρ : Bytes → Option (List Value)) : ∀ (v : Value), v.noVar = true → v.expand ρ = some [v]
  | .func sp name args, h => by
    rw [Value.noVar, Bool.and_eq_true, bne_iff_ne] at h
    rw [Value.expand, if_neg h.1, expandVals_noVars ρ args h.2]
    rfl
  | .brackets sp vs, h => by
    rw [Value.noVar] at h
    rw [Value.expand, expandVals_noVars ρ vs h]
    rfl
  | .paren sp v, h => by
    rw [Value.noVar] at h
    rw [Value.expand, expand_noVar ρ v h]
  | .math sp op l r, h => by
    rw [Value.noVar, Bool.and_eq_true] at h
    rw [Value.expand, expand_noVar ρ l h.1, expand_noVar ρ r h.2]
  | .nil, _ => rfl
  | .str .., _ => rfl
  | .dim .., _ => rfl
  | .ident .., _ => rfl
  | .hex .., _ => rfl
  | .raw .., _ => rfl
  | .comma .., _ => rfl

theorem expandVals_noVars (ρ : Bytes → Option (List Value)) : ∀ (vs : List Value), noVars vs = true → expandVals ρ vs = some vs
  | [], _ => rfl
  | v :: vs, h => by
    rw [noVars, Bool.and_eq_true] at h
    rw [expandVals, expand_noVar ρ v h.1, expandVals_noVars ρ vs h.2]
    rfl

end

mutual

theorem noVar_bare : ∀ (v : Value), v.bare.noVar = v.noVar
  | .func sp name args => by rw [Value.bare, Value.noVar, Value.noVar, noVars_bare args]
  | .brackets sp vs => by rw [Value.bare, Value.noVar, Value.noVar, noVars_bare vs]
  | .paren sp v => by rw [Value.bare, Value.noVar, Value.noVar, noVar_bare v]
  | .math sp op l r => by rw [Value.bare, Value.noVar, Value.noVar, noVar_bare l, noVar_bare r]
  | .nil => rfl
  | .str .. => rfl
  | .dim .. => rfl
  | .ident .. => rfl
  | .hex .. => rfl
  | .raw .. => rfl
  | .comma .. => rfl

theorem noVars_bare : ∀ (vs : List Value), noVars (bareVals vs) = noVars vs
  | [] => rfl
  | v :: vs => by rw [bareVals, noVars, noVars, noVar_bare v, noVars_bare vs]

end

theorem noVars_mem {vs : List Value} (h : noVars vs = true) : ∀ v ∈ vs, v.noVar = true := by
  induction vs with
  | nil => simp
  | cons v vs ih =>
    rw [noVars, Bool.and_eq_true] at h
    intro w hw
    rcases List.mem_cons.1 hw with rfl | hw
    · exact h.1
    · exact ih h.2 w hw

theorem denotes_noVar {fo : FloatOps} {v : Value} {f : fo.F} {u : Bytes} (h : Denotes fo none v f u) : v.noVar = true := by
  generalize hd : (none : Option (List (Bytes × List Value))) = d at h
  revert hd
  induction h with
  | dim => exact fun _ => rfl
  | add _ _ ih1 ih2 => intro hd; rw [Value.noVar, ih1 hd, ih2 hd]; rfl
  | sub _ _ ih1 ih2 => intro hd; rw [Value.noVar, ih1 hd, ih2 hd]; rfl
  | mulNum _ _ ih1 ih2 => intro hd; rw [Value.noVar, ih1 hd, ih2 hd]; rfl
  | numMul _ _ ih1 ih2 => intro hd; rw [Value.noVar, ih1 hd, ih2 hd]; rfl
  | div _ _ _ ih1 ih2 => intro hd; rw [Value.noVar, ih1 hd, ih2 hd]; rfl
  | «calc» _ ih => intro hd; rw [Value.noVar, noVars, noVars, ih hd]; rfl
  | var h => intro hd; rw [h] at hd; cases hd
  | fallback h => intro hd; rw [h] at hd; cases hd

theorem denotes_none {fo : FloatOps} {defs : Option (List (Bytes × List Value))} {v : Value} {f : fo.F} {u : Bytes}
    (h : Denotes fo defs v f u) (hv : v.noVar = true) : Denotes fo none v f u := by
  induction h with
  | dim h => exact .dim h
  | add _ _ ih1 ih2 => rw [Value.noVar, Bool.and_eq_true] at hv; exact .add (ih1 hv.1) (ih2 hv.2)
  | sub _ _ ih1 ih2 => rw [Value.noVar, Bool.and_eq_true] at hv; exact .sub (ih1 hv.1) (ih2 hv.2)
  | mulNum _ _ ih1 ih2 => rw [Value.noVar, Bool.and_eq_true] at hv; exact .mulNum (ih1 hv.1) (ih2 hv.2)
  | numMul _ _ ih1 ih2 => rw [Value.noVar, Bool.and_eq_true] at hv; exact .numMul (ih1 hv.1) (ih2 hv.2)
  | div _ _ h ih1 ih2 => rw [Value.noVar, Bool.and_eq_true] at hv; exact .div (ih1 hv.1) (ih2 hv.2) h
  | «calc» _ ih =>
    rw [Value.noVar, Bool.and_eq_true] at hv
    exact .calc (ih (noVars_mem hv.2 _ (List.mem_cons_self ..)))
  | var => exact absurd hv (by simp [Value.noVar])
  | fallback => exact absurd hv (by simp [Value.noVar])

/-! ### Browsers -/

theorem under_calc {B : Browser} {fo : FloatOps} (h : B.KnowsCalc fo) (ρ : Bytes → Option (List Value)) : (B.under ρ).KnowsCalc fo := by
  intro sp args f unit hd
  show (Value.expand ρ (Value.bare (.func sp b!"calc" args))).map (List.map B.value) =
    (Value.expand ρ (.dim ⟨0, 0⟩ (fo.fmt f) unit)).map (List.map B.value)
  rw [expand_noVar ρ _ (by rw [noVar_bare]; exact denotes_noVar hd), expand_noVar ρ (.dim ⟨0, 0⟩ _ _) rfl]
  show some [B.value _] = some [B.value _]
  rw [h _ _ _ _ hd]

/-- A browser that does not look at values. -/
def Browser.blind (B : Browser) : Browser := { B with X := Unit, value := fun _ => () }

/-- An offer without its values. -/
def Offer.forget {B : Browser} : Offer B.raw → Offer B.blind
  | .decl c prop vals imp => .decl c prop (vals.map fun _ => ()) imp
  | .raw c t => .raw c t
  | .other a => .other a

theorem decl_forget {B : Browser} (c : List B.W → Prop) (ds : List Decl) :
    (ds.map (Decl.offer B.raw c)).map Offer.forget = ds.map (Decl.offer B.blind c) := by
  rw [List.map_map]
  refine List.map_congr_left fun d _ => ?_
  cases d with
  | decl sp prop vals imp =>
    show @Offer.decl B.blind c prop ((vals.map id).map fun _ => ()) imp = @Offer.decl B.blind c prop (vals.map fun _ => ()) imp
    rw [List.map_id]
  | raw => rfl

theorem rule_forget {B : Browser} (e : B.doc.Elem) (c : Prop) (r : QRule) :
    (QRule.offers B.raw e c r).map Offer.forget = QRule.offers B.blind e c r := by
  unfold QRule.offers
  cases r.prelude <;> cases r.block <;> first | rfl | exact decl_forget _ _

theorem node_forget {B : Browser} (e : B.doc.Elem) (defs : List (Bytes × MQ)) (n : Node) :
    (Node.offers B.raw defs e n).map Offer.forget = Node.offers B.blind defs e n := by
  cases n with
  | rule r => exact rule_forget e _ r
  | «at» a =>
    unfold Node.offers
    dsimp only
    by_cases h1 : a.name = b!"custom-media"
    · rw [if_pos h1, if_pos h1]; rfl
    rw [if_neg h1, if_neg h1]
    by_cases h2 : a.name = b!"media"
    · rw [if_pos h2, if_pos h2]
      split
      · cases a.block with
        | none => rfl
        | decls b => exact decl_forget _ _
        | rules sp rs =>
          show (rs.flatMap _).map _ = rs.flatMap _
          rw [List.map_flatMap]
          exact List.flatMap_congr fun r _ => rule_forget e _ r
      · rfl
    · rw [if_neg h2, if_neg h2]; rfl

theorem applied_forget {B : Browser} (e : B.doc.Elem) (ns : List Node) :
    (applied B.raw e ns).map Offer.forget = applied B.blind e ns := by
  unfold applied offersOf
  rw [List.map_flatMap]
  exact List.flatMap_congr fun n _ => node_forget e _ n

theorem forget_fromRoot {B : Browser} {e : B.doc.Elem} {x y : Offer B.raw} (h : x.forget = y.forget) (hy : y.FromRoot e) : x.FromRoot e := by
  cases x with
  | decl c prop vals imp =>
    cases y with
    | decl c2 prop2 vals2 imp2 =>
      have h1 : c = c2 := (Offer.decl.inj h).1
      have h2 : prop = prop2 := (Offer.decl.inj h).2.1
      have h3 : imp = imp2 := (Offer.decl.inj h).2.2.2
      subst h1 h2 h3
      exact hy
    | raw => cases h
    | other => cases h
  | raw c t =>
    cases y with
    | decl => cases h
    | raw c2 t2 =>
      have h2 : t = t2 := (Offer.raw.inj h).2
      subst h2
      exact hy
    | other => cases h
  | other a =>
    cases y with
    | decl => cases h
    | raw => cases h
    | other a2 =>
      have h2 : a = a2 := Offer.other.inj h
      subst h2
      exact hy

theorem forget_custom {B : Browser} {x y : Offer B.raw} (h : x.forget = y.forget) (hy : y.custom? = none) : x.custom? = none := by
  cases x with
  | decl c prop vals imp =>
    cases y with
    | decl c2 prop2 vals2 imp2 =>
      have h2 : prop = prop2 := (Offer.decl.inj h).2.1
      subst h2
      change (if prop.take 2 = b!"--" then some (prop, (vals2 : List Value)) else none) = none at hy
      show (if prop.take 2 = b!"--" then some (prop, (vals : List Value)) else none) = none
      by_cases hp : prop.take 2 = b!"--"
      · rw [if_pos hp] at hy; cases hy
      · rw [if_neg hp]
    | raw => cases h
    | other => cases h
  | raw => rfl
  | other => rfl

/-! ### Joining -/

theorem joined_cons (v : Option (List α)) (vs : List (Option (List α))) :
    joined (v :: vs) = v.bind fun a => (joined vs).map fun b => a ++ b := by
  cases v with
  | none => rfl
  | some a =>
    show (match some a, joined vs with | some a, some b => some (a ++ b) | _, _ => none) = _
    cases joined vs <;> rfl

theorem joined_append (a b : List (Option (List α))) : joined (a ++ b) = (joined a).bind fun x => (joined b).map fun y => x ++ y := by
  induction a with
  | nil => simp [joined]
  | cons v vs ih =>
    rw [List.cons_append, joined_cons, joined_cons, ih]
    cases v <;> cases joined vs <;> cases joined b <;> simp

/-! ### The stylesheet with custom properties put in -/

/-- A declaration with `var()` replaced by the definitions `D`. -/
def Decl.subst (D : List (Bytes × List Value)) : Decl → Decl
  | .decl sp prop vals imp => .decl sp prop (vals.flatMap (substVal D)) imp
  | d => d

/-- Declarations without custom properties, and with `var()` replaced. -/
def DeclBlock.subst (D : List (Bytes × List Value)) (b : DeclBlock) : DeclBlock :=
  ⟨b.sp, (b.decls.filter fun d => d.custom?.isNone).map (Decl.subst D)⟩

def Node.subst (D : List (Bytes × List Value)) : Node → Node
  | .at a => .at a
  | .rule r => .rule ⟨r.sp, r.prelude, r.block.map (DeclBlock.subst D)⟩

/-- The same options, without custom properties. -/
def TOpts.noCustom (o : TOpts) : TOpts := { o with customProperties := false }

theorem pieces_append {R : α → List β → Prop} {a b : List α} {o1 o2 : List β} (h : Pieces R a o1) (h2 : Pieces R b o2) :
    Pieces R (a ++ b) (o1 ++ o2) := by
  induction h with
  | nil => exact h2
  | @cons x xs p q hx _ ih => rw [List.cons_append, List.append_assoc]; exact .cons hx ih

theorem pieces_mono {R S : α → List β → Prop} {a : List α} {out : List β} (h : Pieces R a out) (hS : ∀ x ∈ a, ∀ o, R x o → S x o) : Pieces S a out := by
  induction h with
  | nil => exact .nil
  | @cons x xs p q hx _ ih => exact .cons (hS _ (List.mem_cons_self ..) _ hx) (ih fun y hy => hS y (List.mem_cons_of_mem _ hy))

theorem pieces_one {R : α → List β → Prop} {a : α} {out : List β} (h : R a out) : Pieces R [a] out := by
  have := Pieces.cons h Pieces.nil
  rwa [List.append_nil] at this

theorem selPiece_noCustom {o : TOpts} {s : Sel} {out : List Sel} (h : SelPiece o s out) : SelPiece o.noCustom s out := by
  cases h with
  | same h => exact .same h
  | split h1 h2 h3 h4 h5 => exact .split h1 h2 h3 h4 h5

theorem mqPiece_noCustom {fo : FloatOps} {o : TOpts} {defs : List (Bytes × MQ)} {q : MQ} {out : List MQ} (h : MQPiece fo o defs q out) :
    MQPiece fo o.noCustom defs q out := by
  cases h with
  | mk h =>
    refine .mk (pieces_mono h fun p _ out hp => ?_)
    cases hp with
    | custom h1 h2 h3 => exact .custom h1 h2 h3
    | same h1 h2 => exact .same h1 h2
    | range h1 h2 => exact .range h1 h2

/-- Values without `var()` stay, or are reduced. -/
theorem valuePiece_id {fo : FloatOps} {o : TOpts} {defs : List (Bytes × List Value)} {v : Value} (h : v.noVar = true) :
    ValuePiece fo o defs v [v] := by
  by_cases hc : ∃ sp args, v = .func sp b!"calc" args
  · obtain ⟨sp, args, rfl⟩ := hc
    exact .calcKept
  · refine .other (fun sp args hv => ?_) fun sp args hv => hc ⟨sp, args, hv⟩
    subst hv
    simp [Value.noVar] at h

theorem valuePieces_id {fo : FloatOps} {o : TOpts} {defs : List (Bytes × List Value)} {vs : List Value} (h : noVars vs = true) :
    Pieces (ValuePiece fo o defs) vs vs := by
  induction vs with
  | nil => exact .nil
  | cons v vs ih =>
    rw [noVars, Bool.and_eq_true] at h
    exact .cons (o1 := [v]) (valuePiece_id h.1) (ih h.2)

theorem substVal_noVar {D : List (Bytes × List Value)} {v : Value} (h : v.noVar = true) : substVal D v = [v] := by
  cases v with
  | func sp name args =>
    rw [Value.noVar, Bool.and_eq_true, bne_iff_ne] at h
    rw [substVal, if_neg h.1]
  | _ => rfl

theorem varOf_eq {v : Value} {x : Bytes} (h : v.varOf? = some x) :
    ∃ sp isp rest, v = .func sp b!"var" (.ident isp x :: rest) ∧ noVars rest = true := by
  unfold Value.varOf? at h
  split at h
  · rename_i sp name isp y rest
    by_cases hn : name = b!"var" ∧ noVars rest = true
    · rw [if_pos hn] at h
      cases h
      exact ⟨sp, isp, rest, by rw [hn.1], hn.2⟩
    · rw [if_neg hn] at h; cases h
  · cases h

theorem noVars_drop {vs : List Value} (h : noVars vs = true) : noVars (vs.drop 1) = true := by
  cases vs with
  | nil => rfl
  | cons v vs => rw [noVars, Bool.and_eq_true] at h; exact h.2

/-- One value: what the transformer makes of it, it makes of the value with `var()` put in. -/
theorem value_subst {fo : FloatOps} {o : TOpts} (ho : o.customProperties = true) {defs D defs' : List (Bytes × List Value)} (hD : ∀ d ∈ D, noVars d.2 = true)
    {v : Value} {out : List Value} (h : ValuePiece fo o defs v out)
    (hv : v.noVar = true ∨ ∃ x, v.varOf? = some x ∧ lastDef defs x = lastDef D x) :
    Pieces (ValuePiece fo o.noCustom defs') (substVal D v) out := by
  rcases hv with hv | ⟨x, hx, hd⟩
  · rw [substVal_noVar hv]
    refine pieces_one ?_
    cases h with
    | other h1 h2 => exact .other h1 h2
    | varOff h => rw [ho] at h; cases h
    | varDefined => simp [Value.noVar] at hv
    | varFallback => simp [Value.noVar] at hv
    | varUndefined => simp [Value.noVar] at hv
    | varBad => simp [Value.noVar] at hv
    | calcKept => exact .calcKept
    | calcReduced h1 h2 =>
      refine .calcReduced h1 fun hr => ?_
      obtain ⟨f, h3, h4⟩ := h2 hr
      exact ⟨f, h3, denotes_none h4 hv⟩
  · obtain ⟨sp, isp, rest, rfl, hr⟩ := varOf_eq hx
    have hs : substVal D (.func sp b!"var" (.ident isp x :: rest)) =
        (varResult D (.ident isp x :: rest)).getD [.func sp b!"var" (.ident isp x :: rest)] := by
      rw [substVal, if_pos rfl]
    rw [hs]
    unfold varResult
    dsimp only
    cases h with
    | other h1 => exact absurd rfl (h1 _ _)
    | varOff h => rw [ho] at h; cases h
    | varDefined _ h2 =>
      rw [hd] at h2
      obtain ⟨d, h3, h4⟩ := lastDef_mem h2
      rw [h2]
      exact valuePieces_id (h4 ▸ hD d h3)
    | varFallback _ h2 =>
      rw [hd] at h2
      rw [h2]
      dsimp only
      rw [if_pos (by simp)]
      exact valuePieces_id (noVars_drop hr)
    | varUndefined _ h2 h3 =>
      rw [hd] at h2
      rw [h2]
      dsimp only
      rw [if_neg (by omega)]
      exact pieces_one (.varOff rfl)
    | varBad h1 => exact absurd rfl (h1 _ _ _)

theorem values_subst {fo : FloatOps} {o : TOpts} (ho : o.customProperties = true) {defs D defs' : List (Bytes × List Value)} (hD : ∀ d ∈ D, noVars d.2 = true)
    {vs out : List Value} (h : Pieces (ValuePiece fo o defs) vs out)
    (hv : ∀ v ∈ vs, v.noVar = true ∨ ∃ x, v.varOf? = some x ∧ lastDef defs x = lastDef D x) :
    Pieces (ValuePiece fo o.noCustom defs') (vs.flatMap (substVal D)) out := by
  induction h with
  | nil => exact .nil
  | @cons x xs p q hx _ ih =>
    rw [List.flatMap_cons]
    exact pieces_append (value_subst ho hD hx (hv _ (List.mem_cons_self ..))) (ih fun v h => hv v (List.mem_cons_of_mem _ h))

theorem decls_subst {fo : FloatOps} {o : TOpts} (ho : o.customProperties = true) {defs D defs' : List (Bytes × List Value)} (hD : ∀ d ∈ D, noVars d.2 = true)
    {ds out : List Decl} (h : Pieces (DeclPiece fo o defs) ds out)
    (hv : ∀ d ∈ ds, ∀ v ∈ d.vals, v.noVar = true ∨ ∃ x, v.varOf? = some x ∧ lastDef defs x = lastDef D x) :
    Pieces (DeclPiece fo o.noCustom defs') (ds.map (Decl.subst D)) out := by
  induction h with
  | nil => exact .nil
  | @cons x xs p q hx _ ih =>
    rw [List.map_cons]
    refine .cons ?_ (ih fun d h => hv d (List.mem_cons_of_mem _ h))
    cases hx with
    | raw => exact .raw
    | decl h => exact .decl (values_subst ho hD h (hv _ (List.mem_cons_self ..)))

end Cssc
