import Verif.Spec.Lit
import Verif.Proofs.TransformEnds
import Verif.Proofs.TransformNodes
import Verif.Proofs.KeepsRule
import Verif.Props.TransformSafe

/-!
# The transformer makes well-formed trees

The literals and the shapes of a transformed tree are those of `Spec/Lit.lean`, computed numbers and vanishing ranges
apart (`Item.Whole`).
-/

namespace Cssc

/-- The unit of a well-formed dimension. -/
def UnitLit (unit : Bytes) : Prop :=
  Clean unit → unit = [] ∨ unit = b!"%" ∨ IsWord unit ∧ ∀ b t, unit = b :: t → isAD b = false

/-- A well-formed value, or a computed one. -/
def VMade (v : Value) : Prop := VLit v ∨ ∃ sp num unit, v = .dim sp num unit ∧ UnitLit unit

/-- The unit of a value, if it has one, is well-formed. -/
def Value.UnitOk (v : Value) : Prop := ∀ sp num unit, v = .dim sp num unit → UnitLit unit

theorem VMade.unit {v : Value} (h : VMade v) : v.UnitOk := by
  rintro sp num unit rfl
  rcases h with h | ⟨_, _, _, e, h⟩
  · unfold VLit at h; exact h.2
  · cases e; exact h

/-- What may stand in a declaration. -/
def Value.isFlat (v : Value) : Bool := v.isComp || v.isSep || v.isRaw

/-- A value that may be missing. -/
def OptVMade (v : Value) : Prop := v = .nil ∨ VMade v ∧ v.isComp = true

/-- A part of a media query, with computed values. -/
def MQPartMade : MQPart → Prop
  | .ident _ v => IdentLit v
  | .plain _ _ prop value => OptVMade value ∧ IdentLit prop
  | .range _ _ prop left op right => OptVMade left ∧ OptVMade right ∧ op ∈ [b!"<", b!"<=", b!">", b!">="] ∧ IdentLit prop
  | .inParens _ _ => False

/-- A declaration with computed values. -/
def DeclMade : Decl → Prop
  | .decl _ prop vals _ => (∃ w, (prop = w ∨ prop = 42 :: w) ∧ IdentLit w) ∧ vals ≠ [] ∧ ∀ v ∈ vals, VMade v ∧ v.isFlat = true
  | .raw _ _ => True

/-- The prelude of an at-rule with computed values. -/
def AtPreludeMade : AtPrelude → Prop
  | .str _ v => StrLit v ∨ UrlLit v
  | .ident _ v => IdentLit v
  | .mql none => True
  | .mql (some l) => l.queries ≠ [] ∧ ∀ q ∈ l.queries, ∀ p ∈ q.parts, MQPartMade p
  | .mq q => ∀ p ∈ q.parts, MQPartMade p

/-- A node with computed values. -/
def NodeMade : Node → Prop
  | .rule r => PreludeLit false r.prelude ∧ ∃ b, r.block = some b ∧ ∀ d ∈ b.decls, DeclMade d
  | .at a => (∀ p ∈ a.preludes, AtPreludeMade p) ∧ BlockLit (keyframesNames.contains a.name) a.block ∧
      AtShape a.name a.preludes a.block ∧ WordLit a.name

/-- What the transformer has collected is well-formed. -/
structure LitSt (s : TSt) : Prop where
  vars : ∀ vars, s.vars = some vars → ∀ d ∈ vars, d.2 ≠ [] ∧ ∀ v ∈ d.2, VMade v ∧ v.isFlat = true
  media : ∀ media, s.media = some media → ∀ d ∈ media, ∀ p ∈ d.2.parts, MQPartMade p

theorem LitSt.framed {s s' : TSt} (h : LitSt s) (f : Framed s s') : LitSt s' :=
  ⟨fun vars e => h.vars vars (f.vars ▸ e), fun media e => h.media media (f.media ▸ e)⟩

/-! ### Values -/

theorem mathResult_unit {fo : FloatOps} {l : Value} {a b op u : Bytes} {s : TSt} (hu : UnitLit u) :
    tw True (mathResult fo l a b op u) (fun v _ => v = .nil ∨ ∃ num unit, v = .dim ⟨0, 0⟩ num unit ∧ UnitLit unit) s := by
  unfold mathResult
  split
  · exact tw_seq tw_any fun _ _ _ => tw_pure (.inl rfl)
  · exact tw_pure (.inr ⟨_, _, rfl, hu⟩)

theorem applyOp_unit {fo : FloatOps} {op : Bytes} {l r : Value} {s : TSt} (hl : l.UnitOk) (hr : r.UnitOk) :
    tw True (applyOp fo op l r) (fun v _ => v = .nil ∨ ∃ num unit, v = .dim ⟨0, 0⟩ num unit ∧ UnitLit unit) s := by
  have nil : ∀ s, tw True (pure Value.nil : T Value) (fun v _ => v = .nil ∨ ∃ num unit, v = .dim ⟨0, 0⟩ num unit ∧ UnitLit unit) s :=
    fun s => tw_pure (.inl rfl)
  unfold applyOp
  split
  · split
    · split
      · split
        · exact tw_seq tw_any fun _ _ _ => tw_seq tw_any fun _ _ _ => nil _
        · exact mathResult_unit (hl _ _ _ rfl)
      · exact nil _
    · exact tw_seq tw_any fun _ _ _ => nil _
  · split
    · split
      · split
        · exact tw_seq tw_any fun _ _ _ => nil _
        · split
          · exact mathResult_unit (hr _ _ _ rfl)
          · exact mathResult_unit (hl _ _ _ rfl)
      · exact nil _
    · split
      · split
        · split
          · exact mathResult_unit (hl _ _ _ rfl)
          · exact tw_seq tw_any fun _ _ _ => nil _
        · exact tw_seq tw_any fun _ _ _ => nil _
      · exact tw_seq tw_any fun _ _ _ => nil _

theorem evalOperand_unit {fo : FloatOps} : ∀ {v : Value} {s : TSt}, VMade v → tw True (evalOperand fo v) (fun w _ => w.UnitOk) s
  | .math sp op l r, s, h => by
    have h : VLit (.math sp op l r) := by
      rcases h with h | ⟨_, _, _, e, _⟩
      · exact h
      · cases e
    unfold VLit at h
    rw [evalOperand]
    refine tw_seq (evalOperand_unit (.inl h.1)) fun _ _ hl => tw_seq (evalOperand_unit (.inl h.2.1)) fun _ _ hr =>
      tw_seq (applyOp_unit hl hr) fun v _ hv => ?_
    split
    · exact tw_pure fun _ _ _ e => by cases e
    · rcases hv with rfl | ⟨_, _, rfl, hv⟩
      · exact tw_pure fun _ _ _ e => by cases e
      · refine tw_pure fun _ _ _ e => ?_
        cases e; exact hv
  | .nil, _, h | .str _ _, _, h | .dim _ _ _, _, h | .ident _ _, _, h | .hex _ _, _, h | .brackets _ _, _, h
  | .func _ _ _, _, h | .paren _ _, _, h | .raw _ _, _, h | .comma _, _, h => by
    rw [evalOperand]
    · exact tw_pure h.unit
    · simp

theorem vlit_flat_var {sp : Span} {name : Bytes} {args : List Value} (h : VLit (.func sp name args)) (hn : name = b!"var") :
    VsLit args ∧ ∀ v ∈ args, v.isFlat = true := by
  unfold VLit at h
  rcases h with ⟨rfl, _⟩ | ⟨h1, _, h3⟩
  · exact absurd hn (by decide)
  · refine ⟨h1, fun v hv => ?_⟩
    rcases h3 v hv with h | h
    · simp [Value.isFlat, h]
    · subst hn
      rw [if_neg (by decide)] at h
      simp [Value.isFlat, h]

theorem substVar_lit {sp : Span} {name : Bytes} {args : List Value} {s : TSt} (hv : VLit (.func sp name args)) (hs : LitSt s) :
    tw True (substVar (.func sp name args) name args) (fun vs _ => vs ≠ [] ∧ ∀ w ∈ vs, VMade w ∧ w.isFlat = true) s := by
  have self : ∀ s, tw True (pure [.func sp name args] : T (List Value)) (fun vs _ => vs ≠ [] ∧ ∀ w ∈ vs, VMade w ∧ w.isFlat = true) s :=
    fun s => tw_pure ⟨by simp, by simpa using ⟨.inl hv, rfl⟩⟩
  unfold substVar
  split
  · exact self _
  · rename_i hn
    have ha := vlit_flat_var hv (by simpa using hn)
    refine tw_bind (tw_get ?_)
    rcases hvars : s.vars with _ | vars
    · exact self _
    · dsimp only
      split
      · exact tw_seq tw_any fun _ _ _ => self _
      · split
        · exact tw_pure (hs.vars _ hvars _ (assoc_mem ‹_›))
        · split
          · refine tw_pure ⟨by simp, fun w hw => ?_⟩
            exact ⟨.inl (vsLit_mem ha.1 (List.mem_cons_of_mem _ (List.mem_cons_of_mem _ hw))),
              ha.2 w (List.mem_cons_of_mem _ (List.mem_cons_of_mem _ hw))⟩
          · exact tw_seq tw_any fun _ _ _ => self _
      · exact tw_seq tw_any fun _ _ _ => self _

/-- What values become. -/
def MadeList (vs : List Value) : Prop := vs ≠ [] ∧ ∀ w ∈ vs, VMade w

theorem reduceCalc_made {fo : FloatOps} {o : TOpts} {rec : List Value → T (List Value)} {sp : Span} {name : Bytes}
    {args cur : List Value} {s : TSt} (hv : VLit (.func sp name args)) (hs : LitSt s)
    (hrec : ∀ v s, VLit v → LitSt s → tw True (rec [v]) (fun vs s' => LitSt s' ∧ MadeList vs) s)
    (hc : cur ≠ [] ∧ ∀ w ∈ cur, VMade w ∧ w.isFlat = true) :
    tw True (reduceCalc fo o rec (.func sp name args) name args cur) (fun vs _ => vs ≠ [] ∧ ∀ w ∈ vs, VMade w ∧ w.isFlat = true) s := by
  have self : ∀ s, tw True (pure cur : T (List Value)) (fun vs _ => vs ≠ [] ∧ ∀ w ∈ vs, VMade w ∧ w.isFlat = true) s := fun s => tw_pure hc
  unfold reduceCalc
  split
  · exact self _
  · rename_i hn
    have hn : name = b!"calc" := by simpa using hn
    unfold VLit at hv
    have hargs : VsLit args := by
      rcases hv with ⟨rfl, _⟩ | ⟨h1, _, _⟩
      · exact absurd hn (by decide)
      · exact h1
    split
    · exact self _
    · split
      · unfold VsLit at hargs
        refine tw_seq (hrec _ _ hargs.1 hs) fun _ _ h1 => ?_
        split
        · have hm := h1.2.2 _ (List.mem_singleton.2 rfl)
          rcases hm with hm | ⟨_, _, _, e, _⟩
          · unfold VLit at hm
            refine tw_seq (hrec _ _ hm.1 h1.1) fun _ _ h2 => tw_seq (hrec _ _ hm.2.1 h2.1) fun _ _ h3 => ?_
            split
            · split
              · refine tw_seq (R := fun v _ => v = .nil ∨ ∃ num unit, v = .dim ⟨0, 0⟩ num unit ∧ UnitLit unit) ?_ fun nv _ hnv => ?_
                · unfold evaluateMathExpression
                  exact tw_seq (evalOperand_unit (h2.2.2 _ (by simp))) fun _ _ hl =>
                    tw_seq (evalOperand_unit (h3.2.2 _ (by simp))) fun _ _ hr => applyOp_unit hl hr
                · split
                  · exact self _
                  · rcases hnv with rfl | ⟨_, _, rfl, hu⟩
                    · exact absurd rfl ‹_›
                    · exact tw_pure ⟨by simp, by simpa using ⟨.inr ⟨_, _, _, rfl, hu⟩, rfl⟩⟩
              · exact tw_seq tw_any fun _ _ _ => self _
            · exact tw_seq tw_any fun _ _ _ => self _
          · cases e
        · exact self _
        · exact tw_seq tw_any fun _ _ _ => self _
      · exact tw_seq tw_any fun _ _ _ => self _

/-- What one value becomes. -/
theorem transformValue_made {fo : FloatOps} {o : TOpts} : ∀ {n : Nat} {v : Value} {s : TSt}, VMade v → LitSt s →
    tw True (transformValue fo o n v) (fun vs s' => LitSt s' ∧ MadeList vs ∧ (v.isFlat = true → ∀ w ∈ vs, w.isFlat = true)) s := by
  intro n
  induction n with
  | zero => intros; trivial
  | succ n ih =>
    intro v s hv hs
    have lo := (LogOnly.transformValue fo o (n + 1) v)
    suffices tw True (transformValue fo o (n + 1) v) (fun vs _ => MadeList vs ∧ (v.isFlat = true → ∀ w ∈ vs, w.isFlat = true)) s by
      unfold tw at this ⊢
      rcases e : transformValue fo o (n + 1) v s with ⟨a, s'⟩ | _ | _ <;> rw [e] at this
      · exact ⟨hs.framed (lo.ok e), this⟩
      · trivial
      · trivial
    cases v with
    | func sp name args =>
      rw [transformValue]
      have hv : VLit (.func sp name args) := by
        rcases hv with hv | ⟨_, _, _, e, _⟩
        · exact hv
        · cases e
      have hlo := LogOnly.substVar (.func sp name args) name args
      have h1 := substVar_lit hv hs
      have h1 : tw True (substVar (.func sp name args) name args) (fun vs s' => LitSt s' ∧ (vs ≠ [] ∧ ∀ w ∈ vs, VMade w ∧ w.isFlat = true)) s := by
        unfold tw at h1 ⊢
        rcases e : substVar (.func sp name args) name args s with ⟨a, s'⟩ | _ | _ <;> rw [e] at h1
        · exact ⟨hs.framed (hlo.ok e), h1⟩
        · trivial
        · trivial
      refine tw_seq h1 fun cur s1 hc => tw_mono (reduceCalc_made hv hc.1 (fun v s hv hs => ?_) hc.2) fun vs _ h =>
        ⟨⟨h.1, fun w hw => (h.2 w hw).1⟩, fun _ w hw => (h.2 w hw).2⟩
      rw [mapConcat]
      refine tw_seq (ih (.inl hv) hs) fun a s1 ha => ?_
      rw [mapConcat]
      refine tw_seq (tw_pure (Q := fun a s' => a = [] ∧ s' = s1) ⟨rfl, rfl⟩) ?_
      rintro _ _ ⟨rfl, rfl⟩
      exact tw_pure ⟨ha.1, by simpa using ha.2.1.1, by simpa using ha.2.1.2⟩
    | _ => exact tw_pure ⟨⟨by simp, by simpa using hv⟩, fun h => by simpa using h⟩

/-- The values of a declaration. -/
theorem transformValues_made {fo : FloatOps} {o : TOpts} {n : Nat} : ∀ {vs : List Value} {s : TSt}, (∀ v ∈ vs, VMade v ∧ v.isFlat = true) →
    LitSt s → tw True (transformValues fo o n vs) (fun ws s' => LitSt s' ∧ (vs ≠ [] → ws ≠ []) ∧ ∀ w ∈ ws, VMade w ∧ w.isFlat = true) s
  | [], s, _, hs => tw_pure ⟨hs, fun h => absurd rfl h, by simp⟩
  | v :: vs, s, h, hs => by
    unfold transformValues
    rw [mapConcat]
    refine tw_seq (transformValue_made (h v (by simp)).1 hs) fun a s1 ha => ?_
    refine tw_seq (transformValues_made (fun v hv => h v (by simp [hv])) ha.1) fun b s2 hb => tw_pure ⟨hb.1, fun _ => ?_, fun w hw => ?_⟩
    · simp [ha.2.1.1]
    · rcases List.mem_append.1 hw with hw | hw
      · exact ⟨ha.2.1.2 w hw, ha.2.2 (h v (by simp)).2 w hw⟩
      · exact hb.2.2 w hw

/-! ### Declarations -/

theorem transformDecl_made {fo : FloatOps} {o : TOpts} {n : Nat} {d : Decl} {s : TSt} (hd : DeclMade d) (hs : LitSt s) :
    tw True (transformDecl fo o n d) (fun ds s' => LitSt s' ∧ ∀ e ∈ ds, DeclMade e) s := by
  cases d with
  | raw sp v => exact tw_pure ⟨hs, by simp [DeclMade]⟩
  | decl sp prop vals imp =>
    obtain ⟨h1, h2, h3⟩ := hd
    unfold transformDecl
    refine tw_seq (transformValues_made h3 hs) fun ws s1 hw => tw_pure ⟨hw.1, fun e he => ?_⟩
    rw [List.mem_singleton.1 he]
    exact ⟨h1, hw.2.1 h2, hw.2.2⟩

theorem collectVars_made : ∀ {ds : List Decl} {s : TSt}, (∀ d ∈ ds, DeclMade d) → LitSt s →
    tw True (collectVars ds) (fun ds' s' => LitSt s' ∧ ∀ d ∈ ds', DeclMade d) s
  | [], s, _, hs => tw_pure ⟨hs, by simp⟩
  | .raw sp v :: ds, s, hd, hs => by
    rw [collectVars]
    refine tw_seq (collectVars_made (fun d h => hd d (by simp [h])) hs) fun rest s1 h => tw_pure ⟨h.1, fun d hm => ?_⟩
    rcases List.mem_cons.1 hm with rfl | hm
    · trivial
    · exact h.2 d hm
  | .decl sp prop vals imp :: ds, s, hd, hs => by
    have hd' : ∀ d ∈ ds, DeclMade d := fun d h => hd d (by simp [h])
    have h0 := hd (.decl sp prop vals imp) (by simp)
    have keep : tw True (do let rest ← collectVars ds; pure (Decl.decl sp prop vals imp :: rest) : T (List Decl))
        (fun ds' s' => LitSt s' ∧ ∀ d ∈ ds', DeclMade d) s := by
      refine tw_seq (collectVars_made hd' hs) fun rest s1 h => tw_pure ⟨h.1, fun d hm => ?_⟩
      rcases List.mem_cons.1 hm with rfl | hm
      · exact h0
      · exact h.2 d hm
    unfold tw
    rw [collectVars]
    dsimp only
    split
    · rename_i a s1 h
      split at h
      · split at h
        · rename_i vars hv
          refine tw_ok (collectVars_made (s := { s with vars := some ((prop, vals) :: vars) }) hd' ⟨fun vars' e => ?_, hs.media⟩) h
          cases e
          rintro d (_ | ⟨_, hm⟩)
          · exact ⟨h0.2.1, h0.2.2⟩
          · exact hs.vars _ hv d hm
        · exact tw_ok keep h
      · exact tw_ok keep h
    · trivial
    · trivial

/-! ### Selectors -/

theorem partsLit_iff : ∀ {ps : List SelPart}, PartsLit ps ↔ ∀ p ∈ ps, PartLit p
  | [] => by unfold PartsLit; simp
  | p :: ps => by unfold PartsLit; simp [partsLit_iff]

theorem selsLit_iff : ∀ {ps : List Sel}, SelsLit ps ↔ ∀ p ∈ ps, SelLit p
  | [] => by unfold SelsLit; simp
  | p :: ps => by unfold SelsLit; simp [selsLit_iff]

theorem replaceAnyLink_lit {o : TOpts} {name : Bytes} {p : SelPart} (hn : IsIdent name) (h : PartLit p) :
    PartLit (replaceAnyLink o name p) := by
  unfold replaceAnyLink
  split
  · unfold PartLit
    exact ⟨by unfold ArgsLit; trivial, fun _ => hn⟩
  · exact h

theorem transformSelectors_lit {o : TOpts} {l : List Sel} (hl : l ≠ []) (h : SelsLit l) :
    transformSelectors o l ≠ [] ∧ SelsLit (transformSelectors o l) := by
  constructor
  · cases l with
    | nil => exact absurd rfl hl
    | cons s l =>
      obtain ⟨sp, ps⟩ := s
      simp [transformSelectors, transformSelector]
  · rw [selsLit_iff] at h ⊢
    intro t ht
    obtain ⟨s, hs, ht⟩ := List.mem_flatMap.1 ht
    have := h s hs
    obtain ⟨sp, ps⟩ := s
    unfold SelLit at this
    have key : ∀ name, IsIdent name → SelLit (.mk sp (ps.map (replaceAnyLink o name))) := by
      intro name hn
      unfold SelLit
      refine ⟨by simpa using this.1, partsLit_iff.2 fun p hp => ?_⟩
      obtain ⟨q, hq, rfl⟩ := List.mem_map.1 hp
      exact replaceAnyLink_lit hn (partsLit_iff.1 this.2 q hq)
    rw [transformSelector] at ht
    rcases List.mem_append.1 ht with ht | ht
    · rw [(List.mem_replicate.1 ht).2]
      exact key _ ⟨by decide, .inl ⟨_, _, rfl, by decide⟩⟩
    · rw [List.mem_singleton.1 ht]
      exact key _ ⟨by decide, .inl ⟨_, _, rfl, by decide⟩⟩

/-! ### Media queries -/

theorem min_ident {d prop : Bytes} (hd : d = b!"min" ∨ d = b!"max") (h : IdentLit prop) : IdentLit (d ++ b!"-" ++ prop) := by
  intro hc
  have hp : IsIdent prop := h fun b hb => hc b (by simp [hb])
  refine ⟨fun b hb => ?_, .inl ?_⟩
  · rcases List.mem_append.1 hb with hb | hb
    · rcases hd with rfl | rfl
      · exact (by decide : ∀ b ∈ b!"min" ++ b!"-", isNameByte b = true) b hb
      · exact (by decide : ∀ b ∈ b!"max" ++ b!"-", isNameByte b = true) b hb
    · exact hp.1 b hb
  · rcases hd with rfl | rfl
    · exact ⟨109, _, rfl, by decide⟩
    · exact ⟨109, _, rfl, by decide⟩

theorem addToValue_made {fo : FloatOps} {v : Value} {d : Option fo.F} {s : TSt} (hv : VMade v) (hc : v.isComp = true) :
    tw True (addToValue fo v d) (fun w _ => VMade w ∧ w.isComp = true) s := by
  unfold addToValue
  split
  · exact tw_pure ⟨hv, hc⟩
  · split
    · split
      · exact tw_seq tw_any fun _ _ _ => tw_pure ⟨hv, hc⟩
      · exact tw_pure ⟨.inr ⟨_, _, _, rfl, hv.unit _ _ _ rfl⟩, rfl⟩
    · exact tw_seq tw_any fun _ _ _ => tw_pure ⟨hv, hc⟩

theorem rangePart_made {fo : FloatOps} {dir : Bytes × Option fo.F} {prop : Bytes} {v : Value} {s : TSt}
    (hd : dir.1 = b!"min" ∨ dir.1 = b!"max") (hp : IdentLit prop) (hv : VMade v) (hc : v.isComp = true) :
    tw True (rangePart fo dir prop v) (fun p _ => MQPartMade p) s := by
  unfold rangePart
  refine tw_seq (addToValue_made hv hc) fun w _ hw => tw_pure ⟨.inr hw, min_ident hd hp⟩

theorem leftDir_dir (fo : FloatOps) {op : Bytes} (h : op ∈ [b!"<", b!"<=", b!">", b!">="]) :
    (leftDir fo op).1 = b!"min" ∨ (leftDir fo op).1 = b!"max" := by
  simp only [List.mem_cons, List.not_mem_nil, or_false] at h
  rcases h with rfl | rfl | rfl | rfl <;> simp [leftDir]

theorem rightDir_dir (fo : FloatOps) {op : Bytes} (h : op ∈ [b!"<", b!"<=", b!">", b!">="]) :
    (rightDir fo op).1 = b!"min" ∨ (rightDir fo op).1 = b!"max" := by
  simp only [List.mem_cons, List.not_mem_nil, or_false] at h
  rcases h with rfl | rfl | rfl | rfl <;> simp [rightDir]

theorem transformMQPart_made {fo : FloatOps} {o : TOpts} {p : MQPart} {s : TSt} (hp : MQPartMade p) (hs : LitSt s) :
    tw True (transformMQPart fo o p) (fun ps s' => LitSt s' ∧ ∀ q ∈ ps, MQPartMade q) s := by
  suffices tw True (transformMQPart fo o p) (fun ps _ => ∀ q ∈ ps, MQPartMade q) s by
    unfold tw at this ⊢
    rcases e : transformMQPart fo o p s with ⟨a, s'⟩ | _ | _ <;> rw [e] at this
    · exact ⟨hs.framed ((LogOnly.transformMQPart fo o p).ok e), this⟩
    · trivial
    · trivial
  have self : ∀ s, tw True (pure [p] : T (List MQPart)) (fun ps _ => ∀ q ∈ ps, MQPartMade q) s :=
    fun s => tw_pure (by simpa using hp)
  cases p with
  | ident => exact self _
  | inParens => exact self _
  | plain sp psp prop value =>
    unfold transformMQPart
    dsimp only
    split
    · exact self _
    · refine tw_bind (tw_get ?_)
      rcases hm : s.media with _ | media
      · exact self _
      · dsimp only
        split
        · exact self _
        · exact tw_pure fun q hq => hs.media _ hm _ (assoc_mem ‹_›) q hq
  | range sp psp prop left op right =>
    obtain ⟨hl, hr, hop, hid⟩ := hp
    unfold transformMQPart transformMediaFeatureRange
    dsimp only
    split
    · exact self _
    · refine tw_seq (R := fun ps _ => ∀ q ∈ ps, MQPartMade q) ?_ fun a _ ha =>
        tw_seq (R := fun ps _ => ∀ q ∈ ps, MQPartMade q) ?_ fun b _ hb => tw_pure fun q hq => ?_
      · split
        · exact tw_pure (by simp)
        · rename_i hn
          have hl := hl.resolve_left fun e => hn (by rw [e]; rfl)
          exact tw_seq (rangePart_made (leftDir_dir fo hop) hid hl.1 hl.2) fun p _ h => tw_pure (by simpa using h)
      · split
        · exact tw_pure (by simp)
        · rename_i hn
          have hr := hr.resolve_left fun e => hn (by rw [e]; rfl)
          exact tw_seq (rangePart_made (rightDir_dir fo hop) hid hr.1 hr.2) fun p _ h => tw_pure (by simpa using h)
      · rcases List.mem_append.1 hq with hq | hq
        · rcases List.mem_append.1 hq with hq | hq
          · exact ha q hq
          · split at hq
            · cases hq
            · rw [List.mem_singleton.1 hq]
              exact fun _ => ⟨by decide, .inl ⟨_, _, rfl, by decide⟩⟩
        · exact hb q hq

theorem transformMQ_made {fo : FloatOps} {o : TOpts} {q : MQ} {s : TSt} (hp : ∀ p ∈ q.parts, MQPartMade p) (hs : LitSt s) :
    tw True (transformMQ fo o q) (fun qs s' => LitSt s' ∧ qs ≠ [] ∧ ∀ r ∈ qs, ∀ p ∈ r.parts, MQPartMade p) s := by
  unfold transformMQ
  refine tw_seq (tw_mapConcat hs fun p hm s hs => transformMQPart_made (hp p hm) hs) fun ps s1 h => tw_pure ⟨h.1, by simp, fun r hr => ?_⟩
  rw [List.mem_singleton.1 hr]
  exact h.2

theorem transformMediaQueries_made {fo : FloatOps} {o : TOpts} : ∀ {qs : List MQ} {s : TSt},
    (∀ q ∈ qs, ∀ p ∈ q.parts, MQPartMade p) → LitSt s →
    tw True (transformMediaQueries fo o qs) (fun rs s' => LitSt s' ∧ (qs ≠ [] → rs ≠ []) ∧ ∀ r ∈ rs, ∀ p ∈ r.parts, MQPartMade p) s
  | [], s, _, hs => tw_pure ⟨hs, fun h => absurd rfl h, by simp⟩
  | q :: qs, s, h, hs => by
    unfold transformMediaQueries
    rw [mapConcat]
    refine tw_seq (transformMQ_made (h q (by simp)) hs) fun a s1 ha =>
      tw_seq (transformMediaQueries_made (fun q hq => h q (by simp [hq])) ha.1) fun b s2 hb =>
      tw_pure ⟨hb.1, fun _ => by simp [ha.2.1], fun r hr => ?_⟩
    rcases List.mem_append.1 hr with hr | hr
    · exact ha.2.2 r hr
    · exact hb.2.2 r hr

/-! ### Nodes -/

theorem transformRule_made {fo : FloatOps} {o : TOpts} {n : Nat} {r : QRule} {s : TSt} (hr : NodeMade (.rule r)) (hs : LitSt s) :
    tw True (transformRule fo o n r) (fun ns s' => LitSt s' ∧ ∀ x ∈ ns, NodeMade x) s := by
  obtain ⟨hp, b, hb, hd⟩ := hr
  unfold transformRule
  rcases e : r.prelude with _ | l | ⟨ksp, kfs⟩
  · exact tw_crash trivial
  · rw [e] at hp
    dsimp only
    split
    · exact tw_crash trivial
    · rw [hb]
      dsimp only
      refine tw_seq (R := fun ds s' => LitSt s' ∧ ∀ d ∈ ds, DeclMade d) ?_ fun ds s1 h1 => ?_
      · split
        · exact collectVars_made hd hs
        · exact tw_pure ⟨hs, hd⟩
      · refine tw_seq (tw_mapConcat h1.1 fun d hm s hs => transformDecl_made (h1.2 d hm) hs) fun ds' s2 h2 => ?_
        split
        · exact tw_pure ⟨h2.1, by simp⟩
        · refine tw_pure ⟨h2.1, fun x hx => ?_⟩
          rw [List.mem_singleton.1 hx]
          exact ⟨⟨rfl, transformSelectors_lit hp.2.1 hp.2.2⟩, _, rfl, h2.2⟩
  · exact tw_seq tw_any fun _ _ _ => tw_crash trivial

/-- The replacements are well-formed. -/
def ReplMade (repl : Replacements) : Prop := ∀ m, repl = some m → ∀ d ∈ m, ∀ x ∈ d.2.nodes, NodeMade x

theorem lookupImport_in {k : AtId} {v : Stylesheet} : ∀ {m : List (AtId × Stylesheet)}, lookupImport m k = some v → (k, v) ∈ m
  | [], h => by cases h
  | (k', v') :: m, h => by
    rw [lookupImport] at h
    split at h
    · rename_i e; cases h; rw [e]; simp
    · exact List.mem_cons_of_mem _ (lookupImport_in h)

theorem transformNode_made {fo : FloatOps} {o : TOpts} {repl : Replacements} (hr : ReplMade repl) : ∀ {n : Nat} {x : Node} {s : TSt},
    NodeMade x → LitSt s →
    tw True (transformNode fo o repl n x) (fun ns s' => LitSt s' ∧ ∀ x ∈ ns, NodeMade x) s := by
  intro n
  induction n with
  | zero => intros; trivial
  | succ n ih =>
    intro x s hx hs
    cases x with
    | rule r => exact transformRule_made hx hs
    | «at» a =>
      have hself : ∀ s, LitSt s → tw True (pure [.at a] : T (List Node)) (fun ns s' => LitSt s' ∧ ∀ x ∈ ns, NodeMade x) s :=
        fun s hs => tw_pure ⟨hs, by simpa using hx⟩
      rw [transformNode]
      unfold transformAt
      split
      · split
        · exact tw_pure ⟨hs, by simpa using hx⟩
        · rename_i m
          split
          · exact hself _ hs
          · rename_i imported he
            have hm := hr m rfl _ (lookupImport_in he)
            refine tw_seq (R := fun _ s' => LitSt s') ?_ fun _ s1 h1 => tw_mapConcat h1 fun x hx s hs => ih (hm x hx) hs
            unfold whenT
            split
            · exact ⟨hs.vars, hs.media⟩
            · exact hs
      · split
        · refine tw_seq (R := fun _ s' => LitSt s') ?_ fun _ s1 h1 => tw_pure ⟨h1, by simp⟩
          unfold tw collectMedia
          rcases hmed : s.media with _ | media
          · exact hs
          · dsimp only
            split
            · rename_i h
              split at h
              · rename_i nsp name q e
                cases h
                refine ⟨hs.vars, fun media' e' => ?_⟩
                cases e'
                rintro d (_ | ⟨_, hm⟩)
                · have := hx.1 (.mq q) (by rw [e]; simp)
                  exact this
                · exact hs.media _ hmed d hm
              · cases h; exact hs
            · trivial
            · trivial
        · split
          · split
            · rename_i h1 h2 h3 _ l rest e
              obtain ⟨hp1, hp2, hp3, hp4⟩ := hx
              have hl : AtPreludeMade (.mql (some l)) := hp1 (.mql (some l)) (by rw [e]; simp)
              refine tw_seq (transformMediaQueries_made hl.2 hs) fun qs s1 h => tw_pure ⟨h.1, fun x hx => ?_⟩
              rw [List.mem_singleton.1 hx]
              refine ⟨fun p hp => ?_, hp2, ?_, hp4⟩
              · rcases List.mem_cons.1 hp with rfl | hp
                · exact ⟨h.2.1 hl.1, h.2.2⟩
                · exact hp1 p (by rw [e]; simp [hp])
              · have h3 : a.name = b!"media" := h3
                unfold AtShape at hp3 ⊢
                dsimp only
                rw [h3] at hp3 ⊢
                rw [if_neg (by decide), if_pos rfl] at hp3 ⊢
                rw [e] at hp3
                obtain ⟨⟨l', e1⟩, hb⟩ := hp3
                cases e1
                exact ⟨⟨_, rfl⟩, hb⟩
            · exact tw_crash trivial
          · exact hself _ hs

theorem LitSt.init (o : TOpts) (repl : Replacements) : LitSt (TSt.init o repl) := by
  constructor
  · intro vars e
    unfold TSt.init at e
    dsimp only at e
    split at e
    · cases e; simp
    · cases e
  · intro media e
    unfold TSt.init at e
    dsimp only at e
    split at e
    · cases e; simp
    · cases e

/-- The nodes of a transformed stylesheet. -/
theorem transform_made {fo : FloatOps} {o : TOpts} {repl : Replacements} {n : Nat} {ss out : Stylesheet} {s : TSt}
    (hss : ∀ x ∈ ss.nodes, NodeMade x) (hr : ReplMade repl) (h : transform fo o repl n ss = .ok out s) :
    ∀ x ∈ out.nodes, NodeMade x := by
  unfold transform at h
  rcases e : transformNodes fo o repl n ss.nodes (TSt.init o repl) with ⟨nodes, s1⟩ | _ | _ <;> rw [e] at h <;> cases h
  exact (tw_ok (tw_mapConcat (cr := True) (LitSt.init o repl) fun x hx s hs => transformNode_made (fo := fo) (o := o) hr (hss x hx) hs) e).2

/-! ### Back to well-formed trees -/

/-- Everything in a tree is whole. -/
def AllWhole (is : List Item) : Prop := ∀ it ∈ is, it.Whole

theorem VMade.lit {v : Value} (h : VMade v) (hw : AllWhole v.items) : VLit v := by
  rcases h with h | ⟨sp, num, unit, rfl, h⟩
  · exact h
  · have : IsNum num := hw (.value (.dim sp num unit)) (by simp [Value.items])
    unfold VLit
    exact ⟨fun _ => .inr this, h⟩

theorem vsLit_of : ∀ {vs : List Value}, (∀ v ∈ vs, VLit v) → VsLit vs
  | [], _ => by unfold VsLit; trivial
  | v :: vs, h => by unfold VsLit; exact ⟨h v (by simp), vsLit_of fun w hw => h w (by simp [hw])⟩

theorem OptVMade.lit {v : Value} (h : OptVMade v) (hw : AllWhole v.items) : OptVLit v :=
  h.imp id fun h => ⟨h.1.lit hw, h.2⟩

theorem MQPartMade.lit {p : MQPart} (h : MQPartMade p) (hw : AllWhole p.items) : MQPartLit p := by
  cases p with
  | ident => exact h
  | inParens => exact h
  | plain => exact ⟨h.1.lit fun it hi => hw it (by simp [MQPart.items, hi]), h.2⟩
  | range => exact ⟨h.1.lit fun it hi => hw it (by simp [MQPart.items, hi]),
      h.2.1.lit fun it hi => hw it (by simp [MQPart.items, hi]), h.2.2⟩

theorem mqMade_lit {q : MQ} (h : ∀ p ∈ q.parts, MQPartMade p) (hw : AllWhole q.items) : MQLit q :=
  ⟨hw (.mq q) (by simp [MQ.items]), fun p hp => (h p hp).lit fun it hi => hw it (by
    simp only [MQ.items, List.mem_cons, List.mem_flatMap]
    exact .inr (.inr ⟨p, hp, hi⟩))⟩

theorem AtPreludeMade.lit {p : AtPrelude} (h : AtPreludeMade p) (hw : AllWhole p.items) : AtPreludeLit p := by
  cases p with
  | str => exact h
  | ident => exact h
  | mq q => exact mqMade_lit h hw
  | mql l =>
    cases l with
    | none => trivial
    | some l =>
      refine ⟨h.1, fun q hq => mqMade_lit (h.2 q hq) fun it hi => hw it ?_⟩
      simp only [AtPrelude.items, Option.toList_some, List.flatMap_singleton, MQList.items, List.mem_cons, List.mem_flatMap]
      exact .inr (.inr ⟨q, hq, hi⟩)

theorem DeclMade.lit {d : Decl} (h : DeclMade d) (hw : AllWhole d.items) : DeclLit d := by
  cases d with
  | raw => trivial
  | decl sp prop vals imp =>
    obtain ⟨h1, h2, h3⟩ := h
    refine ⟨h1, h2, vsLit_of fun v hv => (h3 v hv).1.lit fun it hi => hw it ?_, fun v hv => (h3 v hv).2⟩
    simp [Decl.items, mem_itemsL hv hi]

theorem NodeMade.lit {x : Node} (h : NodeMade x) (hw : AllWhole x.items) : NodeLit x := by
  cases x with
  | rule r =>
    obtain ⟨h1, b, h2, h3⟩ := h
    refine ⟨h1, b, h2, fun d hd => (h3 d hd).lit fun it hi => hw it ?_⟩
    simp only [Node.items, QRule.items, h2, DeclBlock.items, Option.toList_some, List.flatMap_singleton, List.mem_cons,
      List.mem_append, List.mem_flatMap]
    exact .inr (.inr (.inr (.inr ⟨d, hd, hi⟩)))
  | «at» a =>
    obtain ⟨h1, h2, h3, h4⟩ := h
    refine ⟨fun p hp => (h1 p hp).lit fun it hi => hw it ?_, h2, h3, h4⟩
    simp only [Node.items, AtRule.items, List.mem_cons, List.mem_append, List.mem_flatMap]
    exact .inr (.inr (.inr (.inl ⟨p, hp, hi⟩)))

theorem OptVLit.made {v : Value} (h : OptVLit v) : OptVMade v := h.imp id fun h => ⟨.inl h.1, h.2⟩

theorem MQPartLit.made {p : MQPart} (h : MQPartLit p) : MQPartMade p := by
  cases p with
  | ident => exact h
  | inParens => exact h
  | plain => exact ⟨h.1.made, h.2⟩
  | range => exact ⟨h.1.made, h.2.1.made, h.2.2⟩

theorem NodeLit.made {x : Node} (h : NodeLit x) : NodeMade x := by
  cases x with
  | rule r =>
    obtain ⟨h1, b, h2, h3⟩ := h
    refine ⟨h1, b, h2, fun d hd => ?_⟩
    have := h3 d hd
    cases d with
    | raw => trivial
    | decl => exact ⟨this.1, this.2.1, fun v hv => ⟨.inl (vsLit_mem this.2.2.1 hv), this.2.2.2 v hv⟩⟩
  | «at» a =>
    obtain ⟨h1, h2, h3, h4⟩ := h
    refine ⟨fun p hp => ?_, h2, h3, h4⟩
    have := h1 p hp
    cases p with
    | str => exact this
    | ident => exact this
    | mq q => exact fun p hp => (this.2 p hp).made
    | mql l =>
      cases l with
      | none => trivial
      | some l => exact ⟨this.1, fun q hq p hp => ((this.2 q hq).2 p hp).made⟩

end Cssc
