import Verif.Props.TransformEnds
import Verif.Props.Printer

/-!
# Where the transformer returns

Transformed values are not deeper than the values of the source, so that one bound does for all files and any number of
transformations.
-/

namespace Cssc

/-! ### Values -/

/-- Nothing, or a number. -/
def Value.Num (v : Value) : Prop := v = .nil ∨ ∃ sp a b, v = .dim sp a b

theorem mathResult_num {fo : FloatOps} {l : Value} {a b op u : Bytes} {s : TSt} :
    tw True (mathResult fo l a b op u) (fun v _ => v.Num) s := by
  unfold mathResult
  split
  · refine tw_seq (R := fun _ _ => True) ?_ fun _ _ _ => tw_pure (by first | exact .inl rfl | exact .inr ⟨_, _, _, rfl⟩)
    unfold tw addErrorV
    split <;> trivial
  · exact tw_pure (by first | exact .inl rfl | exact .inr ⟨_, _, _, rfl⟩)

theorem applyOp_num {fo : FloatOps} {op : Bytes} {l r : Value} {s : TSt} :
    tw True (applyOp fo op l r) (fun v _ => v.Num) s := by
  have nil : ∀ s, tw True (pure Value.nil : T Value) (fun v _ => v.Num) s := fun s => tw_pure (by first | exact .inl rfl | exact .inr ⟨_, _, _, rfl⟩)
  have any : ∀ (m : T Unit) s, tw True m (fun _ _ => True) s := by
    intro m s
    unfold tw
    split <;> trivial
  unfold applyOp
  split
  · split
    · split
      · split
        · exact tw_seq (any _ _) fun _ _ _ => tw_seq (any _ _) fun _ _ _ => nil _
        · exact mathResult_num
      · exact nil _
    · exact tw_seq (any _ _) fun _ _ _ => nil _
  · split
    · split
      · split
        · exact tw_seq (any _ _) fun _ _ _ => nil _
        · split
          · exact mathResult_num
          · exact mathResult_num
      · exact nil _
    · split
      · split
        · split
          · exact mathResult_num
          · exact tw_seq (any _ _) fun _ _ _ => nil _
        · exact tw_seq (any _ _) fun _ _ _ => nil _
      · exact tw_seq (any _ _) fun _ _ _ => nil _

theorem substVar_all {P : Value → Prop} {v : Value} {name : Bytes} {args : List Value} {s : TSt} (hv : P v)
    (ha : name = b!"var" → ∀ v ∈ args, P v) (hs : ∀ vars, s.vars = some vars → ∀ d ∈ vars, ∀ w ∈ d.2, P w) :
    tw True (substVar v name args) (fun vs _ => ∀ w ∈ vs, P w) s := by
  have self : ∀ s, tw True (pure [v] : T (List Value)) (fun vs _ => ∀ w ∈ vs, P w) s := fun s =>
    tw_pure (by simpa using hv)
  unfold substVar
  split
  · exact self _
  · rename_i hn
    refine tw_bind (tw_get ?_)
    rcases hvars : s.vars with _ | vars
    · exact self _
    · dsimp only
      split
      · exact tw_seq tw_any fun _ _ _ => self _
      · split
        · exact tw_pure (hs _ hvars _ (assoc_mem ‹_›))
        · split
          · refine tw_pure fun w hw => ha (by simpa using hn) w ?_
            exact List.mem_cons_of_mem _ (List.mem_cons_of_mem _ hw)
          · exact tw_seq tw_any fun _ _ _ => self _
      · exact tw_seq tw_any fun _ _ _ => self _

theorem reduceCalc_all {P : Value → Prop} {fo : FloatOps} {o : TOpts} {rec : List Value → T (List Value)} {v : Value} {name : Bytes}
    {args cur : List Value} {s : TSt} (hc : ∀ w ∈ cur, P w) (hd : ∀ sp a b, P (.dim sp a b)) :
    tw True (reduceCalc fo o rec v name args cur) (fun vs _ => ∀ w ∈ vs, P w) s := by
  have self : ∀ s, tw True (pure cur : T (List Value)) (fun vs _ => ∀ w ∈ vs, P w) s := fun s => tw_pure hc
  unfold reduceCalc
  split
  · exact self _
  · split
    · exact self _
    · split
      · refine tw_seq tw_any fun _ _ _ => ?_
        split
        · refine tw_seq tw_any fun _ _ _ => tw_seq tw_any fun _ _ _ => ?_
          split
          · split
            · refine tw_seq (R := fun v _ => v.Num) ?_ fun nv _ hnv => ?_
              · unfold evaluateMathExpression
                exact tw_seq tw_any fun _ _ _ => tw_seq tw_any fun _ _ _ => applyOp_num
              · split
                · exact self _
                · rename_i hne
                  rcases hnv with rfl | ⟨sp, a, b, rfl⟩
                  · exact absurd rfl hne
                  · exact tw_pure (by simpa using hd sp a b)
            · exact tw_seq tw_any fun _ _ _ => self _
          · exact tw_seq tw_any fun _ _ _ => self _
        · exact self _
        · exact tw_seq tw_any fun _ _ _ => self _
      · exact tw_seq tw_any fun _ _ _ => self _

/-- A value the transformer gets through with `D + 1` steps. -/
structure Value.Fit (D : Nat) (v : Value) : Prop where
  solid : v.solid
  tame : v.tame
  plain : v.isMath = false
  nest : v.nest ≤ D

/-- The collected variables and media queries. -/
structure FitSt (D : Nat) (s : TSt) : Prop where
  vars : ∀ vars, s.vars = some vars → ∀ d ∈ vars, ∀ v ∈ d.2, Value.Fit D v
  media : ∀ media, s.media = some media → ∀ d ∈ media, ∀ p ∈ d.2.parts, MQPart.noParens p

theorem FitSt.framed {D : Nat} {s s' : TSt} (h : FitSt D s) (f : Framed s s') : FitSt D s' :=
  ⟨f.vars ▸ h.vars, f.media ▸ h.media⟩

theorem FitSt.plain {D : Nat} {s : TSt} (h : FitSt D s) : PlainVars s := fun vars e d hd v hv => (h.vars vars e d hd v hv).plain

theorem FitSt.solid {D : Nat} {s : TSt} (h : FitSt D s) : SolidVars s := fun vars e d hd =>
  solidL_iff.2 fun v hv => (h.vars vars e d hd v hv).solid

theorem returns_of {m : T α} {s : TSt} {Q : α → TSt → Prop} (h1 : m s ≠ .timeout) (h2 : tw False m Q s) : ∃ a s', m s = .ok a s' ∧ Q a s' := by
  unfold tw at h2
  cases e : m s with
  | ok a s' => rw [e] at h2; exact ⟨a, s', rfl, h2⟩
  | crash => rw [e] at h2; exact h2.elim
  | timeout => exact absurd e h1

theorem transformValue_fit {fo : FloatOps} {o : TOpts} {D n : Nat} {v : Value} {s : TSt} (hn : D < n) (hv : v.Fit D) (hs : FitSt D s) :
    ∃ out s', transformValue fo o n v s = .ok out s' ∧ FitSt D s' ∧ ∀ w ∈ out, Value.Fit D w := by
  obtain ⟨out, s', e, h1⟩ := returns_of (transformValue_ends_nest (fo := fo) (o := o) (Nat.lt_of_le_of_lt hv.nest hn) hv.tame hs.plain)
    (transformValue_solid hv.solid hs.solid)
  have h2 : ∀ w ∈ out, w.tame ∧ w.nest ≤ D := by
    cases n with
    | zero => omega
    | succ n =>
      cases v with
      | func sp name args =>
        rw [transformValue] at e
        obtain ⟨cur, s1, e1, e2⟩ := tbind_ok e
        refine tw_ok (reduceCalc_all (P := fun w => w.tame ∧ w.nest ≤ D) (tw_ok (substVar_all (P := fun w => w.tame ∧ w.nest ≤ D)
          ⟨hv.tame, hv.nest⟩ (fun _ w hw => ?_) fun vars e d hd w hw => ⟨(hs.vars vars e d hd w hw).tame, (hs.vars vars e d hd w hw).nest⟩) e1)
          fun sp a b => ⟨by rw [Value.tame] <;> simp, by simp [Value.nest]⟩) e2
        have h3 := hv.tame
        have h4 := hv.nest
        rw [Value.tame] at h3
        rw [Value.nest] at h4
        exact ⟨tameL_iff.1 h3.1 w hw, nestL_le_iff.1 (by omega) w hw⟩
      | _ =>
        obtain ⟨rfl, rfl⟩ := tpure_ok e
        intro w hw
        rw [List.mem_singleton.1 hw]
        exact ⟨hv.tame, hv.nest⟩
  have h3 := transformValue_plain e hv.tame hs.plain
  refine ⟨out, s', e, hs.framed ((LogOnly.transformValue ..).ok e), fun w hw => ⟨solidL_iff.1 h1.1 w hw, (h2 w hw).1, ?_, (h2 w hw).2⟩⟩
  rcases h3 with rfl | h3
  · rw [List.mem_singleton.1 hw]; exact hv.plain
  · exact h3 w hw

/-! ### Declarations -/

theorem mapConcat_out {f : α → T (List β)} {I : TSt → Prop} {P : β → Prop} : ∀ {xs : List α},
    (∀ x ∈ xs, ∀ s, I s → ∃ out s', f x s = .ok out s' ∧ I s' ∧ ∀ y ∈ out, P y) →
    ∀ s, I s → ∃ out s', mapConcat f xs s = .ok out s' ∧ I s' ∧ ∀ y ∈ out, P y
  | [], _, s, hs => ⟨[], s, rfl, hs, by simp⟩
  | x :: xs, h, s, hs => by
    obtain ⟨o1, s1, h1, h2, h3⟩ := h x List.mem_cons_self s hs
    obtain ⟨o2, s2, h4, h5, h6⟩ := mapConcat_out (fun y hy => h y (List.mem_cons_of_mem _ hy)) s1 h2
    refine ⟨o1 ++ o2, s2, ?_, h5, fun y hy => ?_⟩
    · rw [mapConcat, tbind_eq_ok h1, tbind_eq_ok h4]
      rfl
    · rcases List.mem_append.1 hy with hy | hy
      · exact h3 y hy
      · exact h6 y hy

theorem mapConcat_was {f : α → T (List β)} {I : TSt → Prop} {P : β → Prop} : ∀ {xs : List α},
    (∀ x ∈ xs, ∀ s s' out, I s → f x s = .ok out s' → I s' ∧ ∀ y ∈ out, P y) →
    ∀ {s s' : TSt} {out : List β}, I s → mapConcat f xs s = .ok out s' → I s' ∧ ∀ y ∈ out, P y
  | [], _, s, s', out, hs, h => by
    obtain ⟨rfl, rfl⟩ := tpure_ok h
    exact ⟨hs, by simp⟩
  | x :: xs, hf, s, s', out, hs, h => by
    obtain ⟨o1, s1, o2, h1, h2, rfl⟩ := mapConcat_cons_ok h
    obtain ⟨h3, h4⟩ := hf x List.mem_cons_self s s1 o1 hs h1
    obtain ⟨h5, h6⟩ := mapConcat_was (fun y hy => hf y (List.mem_cons_of_mem _ hy)) h3 h2
    refine ⟨h5, fun y hy => ?_⟩
    rcases List.mem_append.1 hy with hy | hy
    · exact h4 y hy
    · exact h6 y hy

/-- A declaration of such values. -/
def Decl.Fit (D : Nat) : Decl → Prop
  | .decl _ _ vals _ => ∀ v ∈ vals, Value.Fit D v
  | .raw .. => True

theorem transformDeclarations_fit {fo : FloatOps} {o : TOpts} {D n : Nat} {ds : List Decl} {s : TSt} (hn : D < n)
    (hd : ∀ d ∈ ds, d.Fit D) (hs : FitSt D s) :
    ∃ out s', transformDeclarations fo o n ds s = .ok out s' ∧ FitSt D s' ∧ ∀ d ∈ out, Decl.Fit D d := by
  unfold transformDeclarations
  refine mapConcat_out (fun d hm s hs => ?_) s hs
  have := hd d hm
  cases d with
  | raw sp v => exact ⟨[.raw sp v], s, rfl, hs, by simpa using this⟩
  | decl sp prop vals imp =>
    obtain ⟨out, s', e, h1, h2⟩ := mapConcat_out (f := transformValue fo o n) (I := FitSt D) (P := Value.Fit D) (xs := vals)
      (fun v hv s hs => transformValue_fit hn (this v hv) hs) s hs
    refine ⟨[.decl sp prop out imp], s', ?_, h1, by simpa [Decl.Fit] using h2⟩
    unfold transformDecl transformValues
    dsimp only
    rw [tbind_eq_ok e]
    rfl

theorem collectVars_fit {D : Nat} : ∀ {ds : List Decl} {s : TSt}, (∀ d ∈ ds, d.Fit D) → FitSt D s →
    ∃ out s', collectVars ds s = .ok out s' ∧ FitSt D s' ∧ ∀ d ∈ out, Decl.Fit D d
  | [], s, _, hs => ⟨[], s, rfl, hs, by simp⟩
  | .raw sp v :: ds, s, hd, hs => by
    obtain ⟨out, s', e, h1, h2⟩ := collectVars_fit (fun d h => hd d (List.mem_cons_of_mem _ h)) hs
    refine ⟨.raw sp v :: out, s', ?_, h1, ?_⟩
    · rw [collectVars, tbind_eq_ok e]
      rfl
    · rintro d (_ | ⟨_, h⟩)
      · trivial
      · exact h2 d h
  | .decl sp prop vals imp :: ds, s, hd, hs => by
    have hd' : ∀ d ∈ ds, d.Fit D := fun d h => hd d (List.mem_cons_of_mem _ h)
    have hv := hd _ List.mem_cons_self
    have keep : ∃ out s', (do let rest ← collectVars ds; pure (Decl.decl sp prop vals imp :: rest) : T (List Decl)) s = .ok out s' ∧
        FitSt D s' ∧ ∀ d ∈ out, Decl.Fit D d := by
      obtain ⟨out, s', e, h1, h2⟩ := collectVars_fit hd' hs
      refine ⟨_, s', by rw [tbind_eq_ok e]; rfl, h1, ?_⟩
      rintro d (_ | ⟨_, h⟩)
      · exact hv
      · exact h2 d h
    rw [collectVars]
    dsimp only
    split
    · split
      · rename_i vars e
        refine collectVars_fit hd' ⟨?_, hs.media⟩
        intro vars' e'
        cases e'
        rintro d (_ | ⟨_, h⟩)
        · exact hv
        · exact hs.vars _ e d h
      · exact keep
    · exact keep

/-! ### Media queries -/

theorem range_noParens {fo : FloatOps} {o : TOpts} {p : MQPart} {prop op : Bytes} {l r : Value} {s s' : TSt} {out : List MQPart}
    (hp : p.noParens) (h : transformMediaFeatureRange fo o p prop l op r s = .ok out s') : ∀ q ∈ out, MQPart.noParens q := by
  unfold transformMediaFeatureRange at h
  split at h
  · obtain ⟨rfl, rfl⟩ := tpure_ok h
    simpa using hp
  · obtain ⟨a, s1, h1, h⟩ := tbind_ok h
    obtain ⟨b, s2, h2, h⟩ := tbind_ok h
    obtain ⟨rfl, rfl⟩ := tpure_ok h
    have one : ∀ {v : Value} {dir : Bytes × Option fo.F} {s s' : TSt} {out : List MQPart}, (if v.isNil then pure []
        else do
          let p ← rangePart fo dir prop v
          pure [p] : T (List MQPart)) s = .ok out s' → ∀ q ∈ out, MQPart.noParens q := by
      intro v dir s s' out h
      split at h
      · obtain ⟨rfl, rfl⟩ := tpure_ok h
        simp
      · obtain ⟨p, s1, h1, h⟩ := tbind_ok h
        obtain ⟨rfl, rfl⟩ := tpure_ok h
        unfold rangePart at h1
        obtain ⟨v', s2, h2, h1⟩ := tbind_ok h1
        obtain ⟨rfl, rfl⟩ := tpure_ok h1
        intro q hq
        rw [List.mem_singleton.1 hq]
        trivial
    intro q hq
    rcases List.mem_append.1 hq with hq | hq
    · rcases List.mem_append.1 hq with hq | hq
      · exact one h1 q hq
      · split at hq
        · cases hq
        · rw [List.mem_singleton.1 hq]
          trivial
    · exact one h2 q hq

theorem transformMQPart_noParens {fo : FloatOps} {o : TOpts} {D : Nat} {p : MQPart} {s s' : TSt} {out : List MQPart} (hs : FitSt D s)
    (hp : p.noParens) (h : transformMQPart fo o p s = .ok out s') : ∀ q ∈ out, MQPart.noParens q := by
  have self : ∀ {s s' : TSt} {out : List MQPart}, (pure [p] : T (List MQPart)) s = .ok out s' → ∀ q ∈ out, MQPart.noParens q := by
    intro s s' out h
    obtain ⟨rfl, rfl⟩ := tpure_ok h
    simpa using hp
  unfold transformMQPart at h
  split at h
  · split at h
    · exact self h
    · obtain ⟨st, s1, h1, h⟩ := tbind_ok h
      cases h1
      cases hm : s.media with
      | none => rw [hm] at h; exact self h
      | some media =>
        rw [hm] at h
        dsimp only at h
        cases hq : assoc media _ with
        | none => rw [hq] at h; exact self h
        | some q =>
          rw [hq] at h
          obtain ⟨rfl, rfl⟩ := tpure_ok h
          exact hs.media _ hm _ (assoc_mem hq)
  · exact range_noParens hp h
  · exact self h

theorem transformMediaQueries_fit {fo : FloatOps} {o : TOpts} {D : Nat} {qs : List MQ} {s : TSt} (hs : FitSt D s)
    (hq : ∀ q ∈ qs, ∀ p ∈ q.parts, MQPart.noParens p) :
    ∃ out s', transformMediaQueries fo o qs s = .ok out s' ∧ FitSt D s' ∧ ∀ q ∈ out, ∀ p ∈ q.parts, MQPart.noParens p := by
  obtain ⟨out, s', e, -⟩ := returns_of ((Prompt.transformMediaQueries fo o qs).run s) transformMediaQueries_solid
  refine ⟨out, s', e, hs.framed ((LogOnly.transformMediaQueries ..).ok e), ?_⟩
  have one : ∀ {q : MQ} {s s' : TSt} {out : List MQ}, FitSt D s → (∀ p ∈ q.parts, MQPart.noParens p) → transformMQ fo o q s = .ok out s' →
      FitSt D s' ∧ ∀ q ∈ out, ∀ p ∈ q.parts, MQPart.noParens p := by
    intro q s s' out hs hq h
    unfold transformMQ at h
    obtain ⟨ps, s1, h1, h⟩ := tbind_ok h
    obtain ⟨rfl, rfl⟩ := tpure_ok h
    obtain ⟨h2, h3⟩ := mapConcat_was (I := FitSt D) (P := MQPart.noParens) (fun p hp s s' out hs h =>
      ⟨hs.framed ((LogOnly.transformMQPart ..).ok h), transformMQPart_noParens hs (hq p hp) h⟩) hs h1
    refine ⟨h2, fun q' hq' => ?_⟩
    rw [List.mem_singleton.1 hq']
    exact h3
  unfold transformMediaQueries at e
  exact (mapConcat_was (I := FitSt D) (P := fun q => ∀ p ∈ q.parts, MQPart.noParens p) (fun q hm s s' out hs h => one hs (hq q hm) h) hs e).2

/-! ### Nodes -/

/-- A node the transformer gets through, and the printer. -/
def Node.Fit (D : Nat) (x : Node) : Prop :=
  x.solid ∧ x.noParens ∧ match x with
    | .rule r => ∀ b, r.block = some b → ∀ d ∈ b.decls, d.Fit D
    | .at _ => True

theorem transformSelectors_solid {o : TOpts} {sels : List Sel} (h1 : sels ≠ []) (h2 : ∀ s ∈ sels, s.parts ≠ []) :
    transformSelectors o sels ≠ [] ∧ ∀ s ∈ transformSelectors o sels, s.parts ≠ [] := by
  constructor
  · cases sels with
    | nil => exact absurd rfl h1
    | cons s ss =>
      obtain ⟨sp, parts⟩ := s
      simp [transformSelectors, transformSelector]
  · intro s hs
    obtain ⟨t, ht, hs⟩ := List.mem_flatMap.1 hs
    have := h2 t ht
    obtain ⟨sp, parts⟩ := t
    have hne : ∀ name, parts.map (replaceAnyLink o name) ≠ [] := fun name e => this (List.map_eq_nil_iff.1 e)
    unfold transformSelector at hs
    rcases List.mem_append.1 hs with hs | hs
    · rw [(List.mem_replicate.1 hs).2]
      exact hne _
    · rw [List.mem_singleton.1 hs]
      exact hne _

/-- A node that is not replaced. -/
theorem transformNode_fit {fo : FloatOps} {o : TOpts} {repl : Replacements} {D n : Nat} {x : Node} {s : TSt} (hn : D < n) (hx : x.Fit D)
    (hi : ∀ m, repl = some m → ∀ a, x = .at a → a.name = b!"import" → lookupImport m a.id = none) (hs : FitSt D s) :
    ∃ out s', transformNode fo o repl n x s = .ok out s' ∧ FitSt D s' ∧ ∀ y ∈ out, Node.Fit D y := by
  cases n with
  | zero => omega
  | succ n =>
    cases x with
    | rule r =>
      obtain ⟨⟨⟨l, hl, hne, hp⟩, b, hb, -⟩, -, hd⟩ := hx
      dsimp only at hd
      obtain ⟨sp, pre, blk⟩ := r
      dsimp only at hl hb
      subst hl hb
      rw [transformNode]
      unfold transformRule
      have hroot : ∃ root, collectsRoot l.sels = some root := by
        unfold collectsRoot
        split
        · split
          · exact absurd ‹_› hne
          · rename_i s0 _ hsels
            have := hp s0 (hsels ▸ List.mem_cons_self ..)
            split
            · exact absurd ‹_› this
            · exact ⟨_, rfl⟩
            · exact ⟨_, rfl⟩
        · exact ⟨_, rfl⟩
      obtain ⟨root, hroot⟩ := hroot
      dsimp only
      rw [hroot]
      dsimp only
      have hc : ∃ out s', (if root = true then collectVars b.decls else pure b.decls : T (List Decl)) s = .ok out s' ∧ FitSt D s' ∧
          ∀ d ∈ out, Decl.Fit D d := by
        split
        · exact collectVars_fit (hd b rfl) hs
        · exact ⟨_, _, rfl, hs, hd b rfl⟩
      obtain ⟨ds, s1, e1, h1, h2⟩ := hc
      obtain ⟨ds', s2, e2, h3, h4⟩ := transformDeclarations_fit (fo := fo) (o := o) (n := n + 1) hn h2 h1
      rw [tbind_eq_ok e1, tbind_eq_ok e2]
      split
      · exact ⟨[], s2, rfl, h3, by simp⟩
      · refine ⟨_, s2, rfl, h3, fun y hy => ?_⟩
        rw [List.mem_singleton.1 hy]
        obtain ⟨h5, h6⟩ := transformSelectors_solid (o := o) hne hp
        refine ⟨⟨⟨_, rfl, h5, h6⟩, _, rfl, fun d hd => ?_⟩, trivial, fun b' e d hd => ?_⟩
        · have := h4 d hd
          cases d with
          | raw => trivial
          | decl => exact solidL_iff.2 fun v hv => (this v hv).solid
        · cases e
          exact h4 d hd
    | «at» a =>
      have self : ∀ {s : TSt} {out : List Node}, (∀ y ∈ out, y = .at a) → FitSt D s →
          ∃ out' s', (pure out : T (List Node)) s = .ok out' s' ∧ FitSt D s' ∧ ∀ y ∈ out', Node.Fit D y :=
        fun h hs => ⟨_, _, rfl, hs, fun y hy => by rw [h y hy]; exact hx⟩
      rw [transformNode]
      unfold transformAt
      split
      · rename_i hname
        split
        · exact self (by simp) hs
        · rename_i m
          rw [hi m rfl a rfl hname]
          exact self (by simp) hs
      · split
        · have hcm : ∃ s1, collectMedia a.preludes s = .ok () s1 ∧ FitSt D s1 := by
            unfold collectMedia
            cases hm : s.media with
            | none => exact ⟨_, rfl, hs⟩
            | some media =>
              dsimp only
              split
              · rename_i q hpre
                refine ⟨_, rfl, hs.vars, ?_⟩
                intro media' e
                cases e
                rintro d (_ | ⟨_, h⟩)
                · have := hx.2.1 (.mq q) (by rw [hpre]; simp)
                  exact this
                · exact hs.media _ hm d h
              · exact ⟨_, rfl, hs⟩
          obtain ⟨s1, e1, h1⟩ := hcm
          rw [tbind_eq_ok e1]
          exact ⟨[], s1, rfl, h1, by simp⟩
        · split
          · rename_i hname
            obtain ⟨l, rest, hl⟩ := hx.1 hname
            have hnp := hx.2.1
            rw [hl]
            dsimp only
            obtain ⟨qs, s1, e1, h1, h2⟩ := transformMediaQueries_fit (fo := fo) (o := o) hs (hnp (.mql (some l)) (by rw [hl]; simp))
            rw [tbind_eq_ok e1]
            refine ⟨_, s1, rfl, h1, fun y hy => ?_⟩
            rw [List.mem_singleton.1 hy]
            refine ⟨fun _ => ⟨_, _, rfl⟩, ?_, trivial⟩
            rintro p (_ | ⟨_, hp⟩)
            · exact h2
            · exact hnp p (by rw [hl]; exact List.mem_cons_of_mem _ hp)
          · exact self (by simp) hs

end Cssc
