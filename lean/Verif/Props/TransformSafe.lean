import Verif.Props.Transform
import Verif.Props.Parser

/-!
# The transformer does not panic: C39
-/

namespace Cssc

mutual
/-- No missing operand where the transformer looks. -/
def Value.solid : Value → Prop
  | .nil => False
  | .func _ _ args => Value.solidL args
  | .math _ _ l r => l.solid ∧ r.solid
  | _ => True

def Value.solidL : List Value → Prop
  | [] => True
  | v :: vs => v.solid ∧ Value.solidL vs
end

theorem solidL_iff : ∀ {vs : List Value}, Value.solidL vs ↔ ∀ v ∈ vs, v.solid
  | [] => by simp [Value.solidL]
  | v :: vs => by simp [Value.solidL, solidL_iff (vs := vs)]

theorem Value.solid.loc {v : Value} (h : v.solid) : ∃ sp, v.loc? = some sp := by
  cases v <;> first | exact ⟨_, rfl⟩ | exact absurd h (by simp [Value.solid])

mutual
theorem VOk.solid {src : Bytes} : ∀ {v : Value}, VOk src v → v.solid
  | .nil, h => by rw [VOk] at h; exact h
  | .func sp name args, h => by
    rw [VOk] at h
    rw [Value.solid]
    rcases h.2 with ⟨_, w, rfl, _⟩ | ⟨_, _, h, _⟩
    · simp [Value.solidL, Value.solid]
    · exact VsOk.solid h
  | .math _ _ l r, h => by
    rw [VOk] at h
    rw [Value.solid]
    exact ⟨VOk.solid h.2.2.1, VOk.solid h.2.2.2.1⟩
  | .str .., _ => by rw [Value.solid] <;> simp
  | .dim .., _ => by rw [Value.solid] <;> simp
  | .ident .., _ => by rw [Value.solid] <;> simp
  | .hex .., _ => by rw [Value.solid] <;> simp
  | .brackets .., _ => by rw [Value.solid] <;> simp
  | .paren .., _ => by rw [Value.solid] <;> simp
  | .raw .., _ => by rw [Value.solid] <;> simp
  | .comma .., _ => by rw [Value.solid] <;> simp

theorem VsOk.solid {src : Bytes} : ∀ {vs : List Value}, VsOk src vs → Value.solidL vs
  | [], _ => by rw [Value.solidL]; trivial
  | v :: vs, h => by
    rw [VsOk] at h
    rw [Value.solidL]
    exact ⟨VOk.solid h.1, VsOk.solid h.2⟩
end

/-- The collected variables are solid. -/
def SolidVars (s : TSt) : Prop := ∀ vars, s.vars = some vars → ∀ d ∈ vars, Value.solidL d.2

theorem tw_get {cr : Prop} {Q : TSt → TSt → Prop} {s : TSt} (h : Q s s) : tw cr T.get Q s := h

theorem tw_logOnly {m : T α} {P : α → Prop} {s : TSt} (h : LogOnly m) (hv : SolidVars s)
    (k : tw False m (fun a _ => P a) s) : tw False m (fun a s' => P a ∧ SolidVars s') s := by
  unfold tw at k ⊢
  rcases e : m s with ⟨a, s'⟩ | _ | _ <;> rw [e] at k
  · exact ⟨k, fun vars hvars => hv vars ((h.ok e).vars ▸ hvars)⟩
  · exact k
  · trivial

theorem tw_addErrorV {v : Value} {msg : String} {s : TSt} {Q : Unit → TSt → Prop} (h : v.solid) (hQ : ∀ s, Q () s) :
    tw False (addErrorV v msg) Q s := by
  obtain ⟨sp, e⟩ := h.loc
  unfold addErrorV
  rw [e]
  exact hQ _

theorem tw_addWarnV {v : Value} {msg : String} {s : TSt} {Q : Unit → TSt → Prop} (h : v.solid) (hQ : ∀ s, Q () s) :
    tw False (addWarnV v msg) Q s := by
  obtain ⟨sp, e⟩ := h.loc
  unfold addWarnV
  rw [e]
  exact hQ _

theorem solid_dim {sp : Span} {a b : Bytes} : (Value.dim sp a b).solid := by rw [Value.solid] <;> simp

/-- Solid or missing. -/
def Value.opt (v : Value) : Prop := v = .nil ∨ v.solid

theorem mathResult_solid {fo : FloatOps} {l : Value} {a b op u : Bytes} {s : TSt} (h : l.solid) :
    tw False (mathResult fo l a b op u) (fun v _ => v.opt) s := by
  unfold mathResult
  split
  · exact tw_bind (tw_addErrorV h fun s => tw_pure (.inl rfl))
  · exact tw_pure (.inr solid_dim)

theorem applyOp_solid {fo : FloatOps} {op : Bytes} {l r : Value} {s : TSt} (h : l.solid) :
    tw False (applyOp fo op l r) (fun v _ => v.opt) s := by
  have nil : ∀ s, tw False (pure Value.nil : T Value) (fun v _ => v.opt) s := fun s => tw_pure (.inl rfl)
  have wh : ∀ (c : Prop) [Decidable c] w sp msg s, tw False (whenT c (report w sp msg)) (fun _ _ => True) s := by
    intro c _ w sp msg s
    unfold whenT
    split <;> exact trivial
  unfold applyOp
  split
  · split
    · split
      · split
        · exact tw_seq (wh _ _ _ _ _) fun _ _ _ => tw_seq (wh _ _ _ _ _) fun _ _ _ => nil _
        · exact mathResult_solid h
      · exact nil _
    · exact tw_bind (tw_addErrorV h nil)
  · split
    · split
      · split
        · exact tw_bind (tw_addErrorV h nil)
        · split
          · exact mathResult_solid h
          · exact mathResult_solid h
      · exact nil _
    · split
      · split
        · split
          · exact mathResult_solid h
          · exact tw_bind (tw_addErrorV h nil)
        · exact tw_bind (tw_addErrorV h nil)
      · exact tw_bind (tw_addErrorV h nil)

theorem evalOperand_solid {fo : FloatOps} : ∀ {v : Value} {s : TSt}, v.solid → tw False (evalOperand fo v) (fun v _ => v.solid) s
  | .math sp op l r, s, h => by
    have h' := h
    rw [Value.solid] at h'
    rw [evalOperand]
    refine tw_seq (evalOperand_solid h'.1) fun l' s1 hl => tw_seq (evalOperand_solid h'.2) fun r' s2 hr =>
      tw_seq (applyOp_solid hl) fun v s3 hv => ?_
    rcases hv with rfl | hv
    · exact tw_pure h
    · split
      · exact tw_pure h
      · exact tw_pure hv
  | .nil, s, h => tw_pure h
  | .func .., s, h => tw_pure h
  | .str .., s, h => tw_pure h
  | .dim .., s, h => tw_pure h
  | .ident .., s, h => tw_pure h
  | .hex .., s, h => tw_pure h
  | .brackets .., s, h => tw_pure h
  | .paren .., s, h => tw_pure h
  | .raw .., s, h => tw_pure h
  | .comma .., s, h => tw_pure h

theorem evaluateMath_solid {fo : FloatOps} {l r : Value} {op : Bytes} {s : TSt} (hl : l.solid) (hr : r.solid) :
    tw False (evaluateMathExpression fo l r op) (fun v _ => v.opt) s := by
  unfold evaluateMathExpression
  exact tw_seq (evalOperand_solid hl) fun l' s1 hl => tw_seq (evalOperand_solid hr) fun r' s2 hr => applyOp_solid hl

theorem assoc_mem {m : List (Bytes × α)} {k : Bytes} {v : α} (h : assoc m k = some v) : (k, v) ∈ m := by
  induction m with
  | nil => cases h
  | cons x m ih =>
    obtain ⟨k', v'⟩ := x
    rw [assoc] at h
    split at h
    · cases h
      rename_i e
      exact e ▸ List.mem_cons_self ..
    · exact List.mem_cons_of_mem _ (ih h)

theorem substVar_solid {v : Value} {name : Bytes} {args : List Value} {s : TSt} (hv : v.solid) (ha : Value.solidL args)
    (hs : SolidVars s) : tw False (substVar v name args) (fun vs _ => Value.solidL vs) s := by
  have self : ∀ s, tw False (pure [v] : T (List Value)) (fun vs _ => Value.solidL vs) s := fun s =>
    tw_pure (solidL_iff.2 (by simpa using hv))
  unfold substVar
  split
  · exact self _
  · refine tw_bind (tw_get ?_)
    rcases hvars : s.vars with _ | vars
    · exact self _
    · dsimp only
      rcases args with _ | ⟨a, rest⟩
      · exact tw_bind (tw_addErrorV hv self)
      · by_cases hid : ∃ isp x, a = .ident isp x
        · obtain ⟨isp, x, rfl⟩ := hid
          dsimp only
          rcases hvals : assoc vars x with _ | vals
          · rcases rest with _ | ⟨c, _ | ⟨w, ws⟩⟩
            · exact tw_bind (tw_addWarnV hv self)
            · exact tw_bind (tw_addWarnV hv self)
            · refine tw_pure (solidL_iff.2 fun v hv => solidL_iff.1 ha v ?_)
              exact List.mem_cons_of_mem _ (List.mem_cons_of_mem _ hv)
          · exact tw_pure (hs _ hvars _ (assoc_mem hvals))
        · cases a with
          | ident isp x => exact absurd ⟨isp, x, rfl⟩ hid
          | _ => exact tw_bind (tw_addErrorV hv self)

theorem reduceCalc_solid {fo : FloatOps} {o : TOpts} {rec : List Value → T (List Value)} {v : Value} {name : Bytes}
    {args cur : List Value} {s : TSt} (hrec : ∀ vs s, Value.solidL vs → SolidVars s →
      tw False (rec vs) (fun vs s' => Value.solidL vs ∧ SolidVars s') s)
    (hv : v.solid) (ha : Value.solidL args) (hc : Value.solidL cur) (hs : SolidVars s) :
    tw False (reduceCalc fo o rec v name args cur) (fun vs _ => Value.solidL vs) s := by
  have self : ∀ s, tw False (pure cur : T (List Value)) (fun vs _ => Value.solidL vs) s := fun s => tw_pure hc
  unfold reduceCalc
  split
  · exact self _
  · split
    · exact self _
    · split
      · refine tw_seq (hrec _ _ ha hs) fun vs s1 hvs => ?_
        split
        · rename_i msp op left right
          have hm := solidL_iff.1 hvs.1 _ (List.mem_cons_self ..)
          rw [Value.solid] at hm
          refine tw_seq (hrec [left] _ (solidL_iff.2 (by simpa using hm.1)) hvs.2) fun l s2 hl => ?_
          refine tw_seq (hrec [right] _ (solidL_iff.2 (by simpa using hm.2)) hl.2) fun r s3 hr => ?_
          split
          · split
            · refine tw_seq (evaluateMath_solid (solidL_iff.1 hl.1 _ (List.mem_cons_self ..))
                (solidL_iff.1 hr.1 _ (List.mem_cons_self ..))) fun nv s4 hnv => ?_
              split
              · exact self _
              · rename_i hne
                refine tw_pure (solidL_iff.2 ?_)
                rcases hnv with rfl | hnv
                · exact absurd rfl hne
                · simpa using hnv
            · exact tw_bind (tw_addWarnV hm.2 self)
          · exact tw_bind (tw_addWarnV hm.1 self)
        · exact self _
        · exact tw_bind (tw_addWarnV hv self)
      · exact tw_bind (tw_addWarnV hv self)

theorem transformValue_solid {fo : FloatOps} {o : TOpts} : ∀ {n : Nat} {v : Value} {s : TSt}, v.solid → SolidVars s →
    tw False (transformValue fo o n v) (fun vs s' => Value.solidL vs ∧ SolidVars s') s
  | 0, _, _, _, _ => trivial
  | n + 1, v, s, hv, hs => by
    have key : tw False (transformValue fo o (n + 1) v) (fun vs _ => Value.solidL vs) s := by
      cases v with
      | func sp name args =>
        rw [transformValue]
        have ha := hv
        rw [Value.solid] at ha
        refine tw_seq (tw_logOnly (.substVar ..) hs (substVar_solid hv ha hs)) fun cur s1 hcur => ?_
        refine reduceCalc_solid (fun vs s hvs hs => ?_) hv ha hcur.1 hcur.2
        refine tw_mono (tw_mapConcat (I := SolidVars) (P := Value.solid) hs fun x hx s hs => ?_) fun a s' h =>
          ⟨solidL_iff.2 h.2, h.1⟩
        exact tw_mono (transformValue_solid (solidL_iff.1 hvs x hx) hs) fun a s' h => ⟨h.2, solidL_iff.1 h.1⟩
      | _ => exact tw_pure (solidL_iff.2 (by simpa using hv))
    exact tw_logOnly (.transformValue ..) hs key

/-- A declaration with solid values. -/
def Decl.solid : Decl → Prop
  | .decl _ _ vals _ => Value.solidL vals
  | .raw .. => True

theorem transformDeclarations_solid {fo : FloatOps} {o : TOpts} {n : Nat} {ds : List Decl} {s : TSt}
    (hd : ∀ d ∈ ds, d.solid) (hs : SolidVars s) :
    tw False (transformDeclarations fo o n ds) (fun _ s' => SolidVars s') s := by
  unfold transformDeclarations
  refine tw_mono (tw_mapConcat (I := SolidVars) (P := fun _ => True) hs fun d hd' s hs => ?_) fun a s' h => h.1
  have := hd d hd'
  cases d with
  | raw => exact tw_pure ⟨hs, fun _ _ => trivial⟩
  | decl sp prop vals imp =>
    unfold transformDecl transformValues
    refine tw_seq (tw_mapConcat (I := SolidVars) (P := fun _ => True) hs fun v hv s hs =>
      tw_mono (transformValue_solid (solidL_iff.1 this v hv) hs) fun a s' h => ⟨h.2, fun _ _ => trivial⟩) fun a s' h => ?_
    exact tw_pure ⟨h.1, fun _ _ => trivial⟩

theorem collectVars_solid : ∀ {ds : List Decl} {s : TSt}, (∀ d ∈ ds, d.solid) → SolidVars s →
    tw False (collectVars ds) (fun ds' s' => (∀ d ∈ ds', d.solid) ∧ SolidVars s') s
  | [], s, hd, hs => tw_pure ⟨hd, hs⟩
  | .raw sp v :: ds, s, hd, hs => by
    rw [collectVars]
    refine tw_seq (collectVars_solid (fun d h => hd d (List.mem_cons_of_mem _ h)) hs) fun a s' h => tw_pure ⟨?_, h.2⟩
    rintro d (_ | ⟨_, h'⟩)
    · trivial
    · exact h.1 d h'
  | .decl sp prop vals imp :: ds, s, hd, hs => by
    have hd' : ∀ d ∈ ds, d.solid := fun d h => hd d (List.mem_cons_of_mem _ h)
    have keep : tw False (do let rest ← collectVars ds; pure (Decl.decl sp prop vals imp :: rest) : T (List Decl))
        (fun ds' s' => (∀ d ∈ ds', d.solid) ∧ SolidVars s') s := by
      refine tw_seq (collectVars_solid hd' hs) fun a s' h => tw_pure ⟨?_, h.2⟩
      rintro d (_ | ⟨_, h'⟩)
      · exact hd _ (List.mem_cons_self ..)
      · exact h.1 d h'
    by_cases hp : hasPrefix prop b!"--" = true
    · rcases hv : s.vars with _ | vars
      · have e : collectVars (.decl sp prop vals imp :: ds) s =
            (do let rest ← collectVars ds; pure (Decl.decl sp prop vals imp :: rest) : T (List Decl)) s := by
          rw [collectVars]
          dsimp only
          rw [if_pos hp, hv]
        unfold tw at keep ⊢
        rw [e]
        exact keep
      · have e : collectVars (.decl sp prop vals imp :: ds) s =
            collectVars ds { s with vars := some ((prop, vals) :: vars) } := by
          rw [collectVars]
          dsimp only
          rw [if_pos hp, hv]
        have := collectVars_solid (s := { s with vars := some ((prop, vals) :: vars) }) hd' (by
          intro vars' e
          cases e
          rintro d (_ | ⟨_, h⟩)
          · exact hd _ (List.mem_cons_self ..)
          · exact hs _ hv d h)
        unfold tw at this ⊢
        rw [e]
        exact this
    · have e : collectVars (.decl sp prop vals imp :: ds) s =
          (do let rest ← collectVars ds; pure (Decl.decl sp prop vals imp :: rest) : T (List Decl)) s := by
        rw [collectVars]
        dsimp only
        rw [if_neg hp]
      unfold tw at keep ⊢
      rw [e]
      exact keep

/-- A node that the transformer can deal with. -/
def Node.solid : Node → Prop
  | .rule r => (∃ l, r.prelude = .sels l ∧ l.sels ≠ [] ∧ ∀ s ∈ l.sels, s.parts ≠ []) ∧
      ∃ b, r.block = some b ∧ ∀ d ∈ b.decls, d.solid
  | .at a => a.name = b!"media" → ∃ l rest, a.preludes = .mql (some l) :: rest

theorem addToValue_solid {fo : FloatOps} {v : Value} {d : Option fo.F} {s : TSt} (h : v.isNil = false) :
    tw False (addToValue fo v d) (fun _ _ => True) s := by
  have err : ∀ s msg, tw False (do addErrorV v msg; pure v) (fun _ _ => True) s := by
    intro s msg
    obtain ⟨sp, e⟩ : ∃ sp, v.loc? = some sp := by cases v <;> first | exact ⟨_, rfl⟩ | cases h
    refine tw_bind ?_
    unfold addErrorV
    rw [e]
    exact trivial
  unfold addToValue
  split
  · exact tw_pure trivial
  · split
    · split
      · exact err _ _
      · exact tw_pure trivial
    · exact err _ _

theorem range_solid {fo : FloatOps} {o : TOpts} {p : MQPart} {prop op : Bytes} {l r : Value} {s : TSt} :
    tw False (transformMediaFeatureRange fo o p prop l op r) (fun _ _ => True) s := by
  unfold transformMediaFeatureRange
  have one : ∀ dir (v : Value) s, tw False (if v.isNil then pure [] else do
      let p ← rangePart fo dir prop v
      pure [p] : T (List MQPart)) (fun _ _ => True) s := by
    intro dir v s
    split
    · exact tw_pure trivial
    · rename_i hv
      refine tw_seq ?_ fun _ _ (_ : True) => tw_pure trivial
      unfold rangePart
      exact tw_seq (addToValue_solid (by simpa using hv)) fun _ _ _ => tw_pure trivial
  split
  · exact tw_pure trivial
  · exact tw_seq (one _ _ _) fun _ _ _ => tw_seq (one _ _ _) fun _ _ _ => tw_pure trivial

theorem transformMediaQueries_solid {fo : FloatOps} {o : TOpts} {qs : List MQ} {s : TSt} :
    tw False (transformMediaQueries fo o qs) (fun _ _ => True) s := by
  unfold transformMediaQueries
  refine tw_mono (tw_mapConcat (I := fun _ => True) (P := fun _ => True) trivial fun q _ s _ => ?_) fun _ _ _ => trivial
  unfold transformMQ
  refine tw_seq (tw_mapConcat (I := fun _ => True) (P := fun _ => True) trivial fun p _ s _ => ?_) fun _ _ _ =>
    tw_pure ⟨trivial, fun _ _ => trivial⟩
  refine tw_mono (show tw False _ (fun _ _ => True) s from ?_) fun _ _ _ => ⟨trivial, fun _ _ => trivial⟩
  unfold transformMQPart
  split
  · split
    · exact tw_pure trivial
    · refine tw_bind (tw_get ?_)
      split
      · exact tw_pure trivial
      · split
        · exact tw_pure trivial
        · exact tw_pure trivial
  · exact range_solid
  · exact tw_pure trivial

theorem transformNode_solid {fo : FloatOps} {o : TOpts} {repl : Replacements}
    (hr : ∀ m, repl = some m → ∀ p ∈ m, ∀ x ∈ p.2.nodes, x.solid) : ∀ {n : Nat} {x : Node} {s : TSt}, x.solid → SolidVars s →
    tw False (transformNode fo o repl n x) (fun _ s' => SolidVars s') s
  | 0, _, _, _, _ => trivial
  | n + 1, .rule r, s, hx, hs => by
    obtain ⟨⟨l, hp, hne, hparts⟩, b, hb, hd⟩ := hx
    rw [transformNode]
    unfold transformRule
    rw [hp, hb]
    dsimp only
    have : ∃ root, collectsRoot l.sels = some root := by
      unfold collectsRoot
      split
      · split
        · exact absurd ‹_› hne
        · rename_i s0 _ hsels
          have := hparts s0 (hsels ▸ List.mem_cons_self ..)
          split
          · exact absurd ‹_› this
          · exact ⟨_, rfl⟩
          · exact ⟨_, rfl⟩
      · exact ⟨_, rfl⟩
    obtain ⟨root, hroot⟩ := this
    rw [hroot]
    dsimp only
    have hcol : tw False (if root then collectVars b.decls else pure b.decls : T (List Decl))
        (fun ds' s' => (∀ d ∈ ds', d.solid) ∧ SolidVars s') s := by
      split
      · exact collectVars_solid hd hs
      · exact tw_pure ⟨hd, hs⟩
    refine tw_seq hcol fun ds s1 h1 => tw_seq (transformDeclarations_solid h1.1 h1.2) fun ds' s2 h2 => ?_
    split
    · exact tw_pure h2
    · exact tw_pure h2
  | n + 1, .at a, s, hx, hs => by
    rw [transformNode]
    unfold transformAt
    split
    · split
      · exact tw_pure hs
      · rename_i m
        split
        · exact tw_pure hs
        · rename_i imported himp
          have hmem : ∃ k, (k, imported) ∈ m := by
            clear hr
            induction m with
            | nil => cases himp
            | cons y m ih =>
              obtain ⟨k, v⟩ := y
              rw [lookupImport] at himp
              split at himp
              · cases himp
                exact ⟨k, List.mem_cons_self ..⟩
              · obtain ⟨k', h⟩ := ih himp
                exact ⟨k', List.mem_cons_of_mem _ h⟩
          obtain ⟨k, hmem⟩ := hmem
          have rest : ∀ s, SolidVars s → tw False (mapConcat (transformNode fo o (some m) n) imported.nodes)
              (fun _ s' => SolidVars s') s := fun s hs =>
            tw_mono (tw_mapConcat (I := SolidVars) (P := fun _ => True) hs fun x hx s hs =>
              tw_mono (transformNode_solid hr (hr m rfl _ hmem x hx) hs) fun _ _ h => ⟨h, fun _ _ => trivial⟩) fun _ _ h => h.1
          refine tw_seq (R := fun _ s' => SolidVars s') ?_ fun _ s1 h1 => rest s1 h1
          unfold whenT
          split
          · exact hs
          · exact hs
    · split
      · refine tw_seq (R := fun _ s' => SolidVars s') ?_ fun _ s1 h1 => tw_pure h1
        unfold tw collectMedia
        split
        · rename_i h
          split at h
          · cases h; exact hs
          · split at h <;> cases h <;> exact hs
        · rename_i h
          split at h
          · cases h
          · split at h <;> cases h
        · trivial
      · split
        · rename_i hname
          obtain ⟨l, rest, hl⟩ := hx hname
          rw [hl]
          dsimp only
          refine tw_seq (tw_logOnly (P := fun _ => True) (.transformMediaQueries ..) hs transformMediaQueries_solid)
            fun _ s1 h1 => tw_pure h1.2
        · exact tw_pure hs

/-- The nodes of a parsed stylesheet, apart from rules without prelude and `@media` without queries. -/
def Node.complete : Node → Prop
  | .rule r => r.prelude ≠ .nil
  | .at a => a.name = b!"media" → a.preludes ≠ [.mql none]

theorem NodeOk.solid {src : Bytes} {x : Node} (h : NodeOk src x) (hc : x.complete) : x.solid := by
  cases x with
  | rule r =>
    obtain ⟨_, hp, b, hb, ⟨_, _, hd⟩, _⟩ := h
    refine ⟨?_, b, hb, fun d hm => ?_⟩
    · rcases hr : r.prelude with _ | l | _ <;> rw [hr] at hp
      · exact absurd hr hc
      · refine ⟨l, rfl, hp.2.2.1, fun s hs => ?_⟩
        have : ∀ {ss : List Sel}, SelsOk src ss → ∀ s ∈ ss, s.parts ≠ [] := by
          intro ss
          induction ss with
          | nil => simp
          | cons x ss ih =>
            intro h
            rw [SelsOk] at h
            rintro s (_ | ⟨_, hs⟩)
            · cases x
              have := h.1
              rw [SelOk] at this
              exact this.2.1
            · exact ih h.2 s hs
        exact this hp.2.2.2.2 s hs
      · cases hp.1
    · have := hd d hm
      cases d with
      | raw => trivial
      | decl => exact VsOk.solid this.2.2.2.2.1
  | «at» a =>
    intro hname
    obtain ⟨_, _, _, _, _, hs, _⟩ := h
    rw [AtShape, if_neg (by rw [hname]; decide), if_pos hname] at hs
    obtain ⟨⟨l, hl⟩, _⟩ := hs
    cases l with
    | none => exact absurd hl (hc hname)
    | some l => exact ⟨l, [], hl⟩

/-- **C39, partial**: `Transform` of a parsed stylesheet does not panic, under all options and whatever the
replacements, if neither the stylesheet nor a replacement has a rule without prelude (`{}`) or an `@media`
without queries.  Missing from the full statement: those two (see the next theorem), and that it ends. -/
theorem transform_no_panic_partial {fo : FloatOps} {o : TOpts} {repl : Replacements} {n k : Nat} {src : Bytes} {id : Nat}
    {ss : Stylesheet} {lines : List Nat} (hp : parse k src id = .ok ss lines) (hc : ∀ x ∈ ss.nodes, x.complete)
    (hr : ∀ m, repl = some m → ∀ p ∈ m, ∃ k src id lines, parse k src id = .ok p.2 lines ∧ ∀ x ∈ p.2.nodes, x.complete) :
    transform fo o repl n ss ≠ .crash := by
  have hr' : ∀ m, repl = some m → ∀ p ∈ m, ∀ x ∈ p.2.nodes, x.solid := by
    intro m hm p hp x hx
    obtain ⟨k, src, id, lines, h, hc⟩ := hr m hm p hp
    exact ((parse_sheetOk h).nodes x hx).solid (hc x hx)
  have hs : SolidVars (TSt.init o repl) := by
    intro vars h
    unfold TSt.init at h
    dsimp only at h
    split at h
    · cases h; simp
    · cases h
  have := tw_mapConcat (f := transformNode fo o repl n) (I := SolidVars) (P := fun _ => True) (cr := False) hs
    fun x (hx : x ∈ ss.nodes) s hs =>
      tw_mono (transformNode_solid hr' (((parse_sheetOk hp).nodes x hx).solid (hc x hx)) hs) fun _ _ h =>
        ⟨h, fun _ _ => trivial⟩
  unfold tw at this
  unfold transform transformNodes
  intro h
  rcases e : mapConcat (transformNode fo o repl n) ss.nodes (TSt.init o repl) with _ | _ | _ <;> rw [e] at h this
  · cases h
  · exact this
  · cases h

/-- Did it panic? -/
def TRes.isCrash : TRes α → Bool
  | .crash => true
  | _ => false

/-- **C39, refuted as stated**: `Transform` panics on the parsed stylesheets `{}` and `@media{}`, under the default
options. -/
theorem transform_no_panic_refuted :
    ((parse 80 b!"{}").sheet?.map fun x => (transform unaryOps .default (some []) 30 x.1).isCrash) = some true ∧
    ((parse 80 b!"@media{}").sheet?.map fun x => (transform unaryOps .default (some []) 30 x.1).isCrash) = some true :=
  ⟨by decide +kernel, by decide +kernel⟩

/-- The hypotheses are met by a stylesheet with most things in it. -/
example : ((parse 80 b!":root a{--x:1px} @media (w<1px){b{c:d}} a{b:calc(var(--x) + 1px)} @custom-media --y (a);").sheet?.map
    fun x => x.1.nodes.all fun
      | .rule r => match r.prelude with | .nil => false | _ => true
      | .at a => match a.preludes with | [.mql none] => false | _ => true) = some true := by decide +kernel

/-! ### C32 for parsed stylesheets -/

theorem Inlined.mem {m : List (AtId × Stylesheet)} {ns flat : List Node} (h : Inlined m ns flat) :
    ∀ x ∈ flat, x ∈ ns ∨ ∃ p ∈ m, x ∈ p.2.nodes := by
  induction h with
  | nil => simp
  | rule _ ih =>
    rintro x (_ | ⟨_, hx⟩)
    · exact .inl (List.mem_cons_self ..)
    · exact (ih x hx).imp_left (List.mem_cons_of_mem _)
  | keep _ _ ih =>
    rintro x (_ | ⟨_, hx⟩)
    · exact .inl (List.mem_cons_self ..)
    · exact (ih x hx).imp_left (List.mem_cons_of_mem _)
  | replace _ hr _ _ ih1 ih2 =>
    intro x hx
    rw [List.mem_append] at hx
    rcases hx with hx | hx
    · refine .inr ((ih1 x hx).elim (fun h => ?_) id)
      unfold replacement at hr
      rw [Option.map_eq_some_iff] at hr
      obtain ⟨p, hp, rfl⟩ := hr
      exact ⟨p, List.mem_of_find?_eq_some hp, h⟩
    · exact (ih2 x hx).imp_left (List.mem_cons_of_mem _)

theorem Flat.mem {repl : Replacements} {ns flat : List Node} (h : Flat repl ns flat) :
    ∀ x ∈ flat, x ∈ ns ∨ ∃ m, repl = some m ∧ ∃ p ∈ m, x ∈ p.2.nodes := by
  cases repl with
  | none =>
    intro x hx
    rw [show flat = doubleImports ns from h] at hx
    unfold doubleImports at hx
    rw [List.mem_flatMap] at hx
    obtain ⟨y, hy, hx⟩ := hx
    left
    cases y with
    | rule => simp at hx; exact hx ▸ hy
    | «at» a =>
      dsimp only at hx
      split at hx <;> simp at hx <;> exact hx ▸ hy
  | some m => exact fun x hx => (Inlined.mem h x hx).imp_right fun ⟨p, hp⟩ => ⟨m, rfl, p, hp⟩

/-- **C32** (none left, parsed): if ranges are transformed and the stylesheet and its replacements were parsed, the
only ranges left in the queries of an `@media` are those that come from a custom media query put in its place. -/
theorem ranges_gone_parsed {fo : FloatOps} {o : TOpts} (ho : o.mediaFeatureRanges = true) {repl : Replacements} {n k : Nat}
    {src : Bytes} {id : Nat} {lines : List Nat} {ss ss' : Stylesheet} {s : TSt} (hp : parse k src id = .ok ss lines)
    (hr : ∀ m, repl = some m → ∀ p ∈ m, ∃ k src id lines, parse k src id = .ok p.2 lines)
    (h : transform fo o repl n ss = .ok ss' s) :
    ∃ flat, Flat repl ss.nodes flat ∧ ∀ a, .at a ∈ ss'.nodes → a.name = b!"media" →
      ∃ l rest, a.preludes = .mql (some l) :: rest ∧ ∀ q ∈ l.queries, ∀ p ∈ q.parts, p.isRange = true →
        o.customMediaQueries = true ∧ ∃ d ∈ mediaDefs flat, p ∈ d.2.parts := by
  obtain ⟨flat, h1, h2⟩ := ranges_gone ho h
  refine ⟨flat, h1, h2 fun a ha l rest hl q hq sp psp prop left op right hm => ?_⟩
  have : ∃ src, NodeOk src (.at a) := by
    rcases h1.mem _ ha with h | ⟨m, hm, p, hp, h⟩
    · exact ⟨src, (parse_sheetOk hp).nodes _ h⟩
    · obtain ⟨k, src, id, lines, hp⟩ := hr m hm p hp
      exact ⟨src, (parse_sheetOk hp).nodes _ h⟩
  obtain ⟨src', _, _, hpre, _⟩ := this
  have := hpre (.mql (some l)) (hl ▸ List.mem_cons_self ..)
  exact ((this.2.2.2 q hq).2.2.2 _ hm).2.2.2.2.2.1

end Cssc
