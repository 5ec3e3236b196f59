import Verif.Proofs.TransformInline
import Verif.Props.TransformSafe

/-!
# The transformer ends
-/

namespace Cssc

theorem ends_bind {m : T α} {f : α → T β} {s : TSt} (hm : m s ≠ .timeout)
    (hf : ∀ a s1, m s = .ok a s1 → f a s1 ≠ .timeout) : (m >>= f) s ≠ .timeout := by
  show (T.bind m f) s ≠ .timeout
  unfold T.bind
  rcases e : m s with ⟨a, s1⟩ | _ | _
  · exact hf a s1 e
  · simp
  · exact absurd e hm

/-- Never runs out of fuel. -/
structure Prompt (m : T α) : Prop where
  run : ∀ s, m s ≠ .timeout

theorem Prompt.pure (a : α) : Prompt (Pure.pure a : T α) := ⟨fun _ h => by cases h⟩

theorem Prompt.bind {m : T α} {f : α → T β} (hm : Prompt m) (hf : ∀ a, Prompt (f a)) : Prompt (m >>= f) :=
  ⟨fun s => ends_bind (hm.run s) fun a s1 _ => (hf a).run s1⟩

theorem Prompt.crash : Prompt (T.crash : T α) := ⟨fun _ h => by cases h⟩

theorem Prompt.get : Prompt T.get := ⟨fun _ h => by cases h⟩

theorem Prompt.report (w : Bool) (sp : Option Span) (msg : String) : Prompt (report w sp msg) := ⟨fun _ h => by cases h⟩

theorem Prompt.ite {c : Prop} [Decidable c] {a b : T α} (ha : Prompt a) (hb : Prompt b) :
    Prompt (if c then a else b) := by split <;> assumption

theorem Prompt.whenT {c : Prop} [Decidable c] {m : T Unit} (h : Prompt m) : Prompt (whenT c m) :=
  .ite h (.pure _)

theorem Prompt.addErrorV (v : Value) (msg : String) : Prompt (addErrorV v msg) := by
  unfold Cssc.addErrorV
  split
  · exact .crash
  · exact .report ..

theorem Prompt.addWarnV (v : Value) (msg : String) : Prompt (addWarnV v msg) := by
  unfold Cssc.addWarnV
  split
  · exact .crash
  · exact .report ..

theorem Prompt.mapConcat {f : α → T (List β)} : ∀ {xs : List α}, (∀ x ∈ xs, Prompt (f x)) → Prompt (mapConcat f xs)
  | [], _ => .pure _
  | x :: xs, h => by
    rw [Cssc.mapConcat]
    exact .bind (h x (List.mem_cons_self ..)) fun _ =>
      .bind (Prompt.mapConcat fun y hy => h y (List.mem_cons_of_mem _ hy)) fun _ => .pure _

theorem Prompt.mathResult (fo : FloatOps) (l : Value) (a b op u : Bytes) : Prompt (mathResult fo l a b op u) := by
  unfold Cssc.mathResult
  split
  · exact .bind (.addErrorV ..) fun _ => .pure _
  · exact .pure _

theorem Prompt.applyOp (fo : FloatOps) (op : Bytes) (l r : Value) : Prompt (applyOp fo op l r) := by
  unfold Cssc.applyOp
  split
  · split
    · split
      · split
        · exact .bind (.whenT (.report ..)) fun _ => .bind (.whenT (.report ..)) fun _ => .pure _
        · exact .mathResult ..
      · exact .pure _
    · exact .bind (.addErrorV ..) fun _ => .pure _
  · split
    · split
      · split
        · exact .bind (.addErrorV ..) fun _ => .pure _
        · split
          · exact .mathResult ..
          · exact .mathResult ..
      · exact .pure _
    · split
      · split
        · split
          · exact .mathResult ..
          · exact .bind (.addErrorV ..) fun _ => .pure _
        · exact .bind (.addErrorV ..) fun _ => .pure _
      · exact .bind (.addErrorV ..) fun _ => .pure _

theorem Prompt.evalOperand (fo : FloatOps) : ∀ (v : Value), Prompt (evalOperand fo v)
  | .math sp op l r => by
    rw [Cssc.evalOperand]
    refine .bind (Prompt.evalOperand fo l) fun _ => .bind (Prompt.evalOperand fo r) fun _ =>
      .bind (.applyOp ..) fun _ => ?_
    split <;> exact .pure _
  | .nil => .pure _
  | .str .. => .pure _
  | .dim .. => .pure _
  | .ident .. => .pure _
  | .hex .. => .pure _
  | .brackets .. => .pure _
  | .func .. => .pure _
  | .paren .. => .pure _
  | .raw .. => .pure _
  | .comma .. => .pure _

theorem Prompt.evaluateMath (fo : FloatOps) (l r : Value) (op : Bytes) : Prompt (evaluateMathExpression fo l r op) :=
  .bind (.evalOperand fo l) fun _ => .bind (.evalOperand fo r) fun _ => .applyOp ..

theorem Prompt.substVar (v : Value) (name : Bytes) (args : List Value) : Prompt (substVar v name args) := by
  unfold Cssc.substVar
  refine .ite (.pure _) (.bind .get fun s => ?_)
  split
  · exact .pure _
  · split
    · exact .bind (.addErrorV ..) fun _ => .pure _
    · split
      · exact .pure _
      · split
        · exact .pure _
        · exact .bind (.addWarnV ..) fun _ => .pure _
    · exact .bind (.addErrorV ..) fun _ => .pure _

theorem Prompt.addToValue (fo : FloatOps) (v : Value) (d : Option fo.F) : Prompt (addToValue fo v d) := by
  unfold Cssc.addToValue
  split
  · exact .pure _
  · split
    · split
      · exact .bind (.addErrorV ..) fun _ => .pure _
      · exact .pure _
    · exact .bind (.addErrorV ..) fun _ => .pure _

theorem Prompt.range (fo : FloatOps) (o : TOpts) (p : MQPart) (prop : Bytes) (l : Value) (op : Bytes) (r : Value) :
    Prompt (transformMediaFeatureRange fo o p prop l op r) := by
  unfold transformMediaFeatureRange
  have one : ∀ dir (v : Value), Prompt (if v.isNil then Pure.pure [] else do
      let p ← rangePart fo dir prop v
      Pure.pure [p] : T (List MQPart)) := fun dir v =>
    .ite (.pure _) (.bind (.bind (.addToValue ..) fun _ => .pure _) fun _ => .pure _)
  exact .ite (.pure _) (.bind (one _ _) fun _ => .bind (one _ _) fun _ => .pure _)

theorem Prompt.transformMQPart (fo : FloatOps) (o : TOpts) (p : MQPart) : Prompt (transformMQPart fo o p) := by
  unfold Cssc.transformMQPart
  split
  · refine .ite (.pure _) (.bind .get fun _ => ?_)
    split
    · exact .pure _
    · split <;> exact .pure _
  · exact .range ..
  · exact .pure _

theorem Prompt.transformMediaQueries (fo : FloatOps) (o : TOpts) (qs : List MQ) :
    Prompt (transformMediaQueries fo o qs) :=
  .mapConcat fun _ _ => .bind (.mapConcat fun _ _ => .transformMQPart ..) fun _ => .pure _

theorem Prompt.collectMedia (ps : List AtPrelude) : Prompt (collectMedia ps) := ⟨fun s h => by
  unfold Cssc.collectMedia at h
  split at h
  · cases h
  · split at h <;> cases h⟩

theorem Prompt.collectVars : ∀ (ds : List Decl), Prompt (collectVars ds)
  | [] => .pure _
  | .raw sp v :: ds => by
    rw [Cssc.collectVars]
    exact .bind (Prompt.collectVars ds) fun _ => .pure _
  | .decl sp prop vals imp :: ds => ⟨fun s => by
    have ih := Prompt.collectVars ds
    rw [Cssc.collectVars]
    dsimp only
    split
    · split
      · exact ih.run _
      · exact (Prompt.bind ih fun _ => .pure _).run _
    · exact (Prompt.bind ih fun _ => .pure _).run _⟩

/-! ### Values -/

mutual
/-- The arguments of `var()` are not arithmetic, at any depth the transformer looks at. -/
def Value.tame : Value → Prop
  | .func _ name args => Value.tameL args ∧ (name = b!"var" → ∀ v ∈ args, v.isMath = false)
  | .math _ _ l r => l.tame ∧ r.tame
  | _ => True

def Value.tameL : List Value → Prop
  | [] => True
  | v :: vs => v.tame ∧ Value.tameL vs
end

theorem tameL_iff : ∀ {vs : List Value}, Value.tameL vs ↔ ∀ v ∈ vs, v.tame
  | [] => by simp [Value.tameL]
  | v :: vs => by simp [Value.tameL, tameL_iff (vs := vs)]

theorem ArgOk.var {v : Value} (h : ArgOk b!"var" v) : v.isMath = false := by
  rcases h with h | h
  · cases v <;> first | rfl | cases h
  · rw [if_neg (by decide)] at h
    exact isMath_of_comp (.inr h)

mutual
theorem VOk.tame {src : Bytes} : ∀ {v : Value}, VOk src v → v.tame
  | .func sp name args, h => by
    rw [VOk] at h
    rw [Value.tame]
    rcases h.2 with ⟨hn, w, rfl, _⟩ | ⟨_, _, h, _, ha⟩
    · simp [Value.tameL, Value.tame, Value.isMath]
    · exact ⟨VsOk.tame h, fun e v hv => ArgOk.var (e ▸ ha v hv)⟩
  | .math _ _ l r, h => by
    rw [VOk] at h
    rw [Value.tame]
    exact ⟨VOk.tame h.2.2.1, VOk.tame h.2.2.2.1⟩
  | .nil, _ => by rw [Value.tame] <;> simp
  | .str .., _ => by rw [Value.tame] <;> simp
  | .dim .., _ => by rw [Value.tame] <;> simp
  | .ident .., _ => by rw [Value.tame] <;> simp
  | .hex .., _ => by rw [Value.tame] <;> simp
  | .brackets .., _ => by rw [Value.tame] <;> simp
  | .paren .., _ => by rw [Value.tame] <;> simp
  | .raw .., _ => by rw [Value.tame] <;> simp
  | .comma .., _ => by rw [Value.tame] <;> simp

theorem VsOk.tame {src : Bytes} : ∀ {vs : List Value}, VsOk src vs → Value.tameL vs
  | [], _ => by rw [Value.tameL]; trivial
  | v :: vs, h => by
    rw [VsOk] at h
    rw [Value.tameL]
    exact ⟨VOk.tame h.1, VsOk.tame h.2⟩
end

/-- The collected variables are not arithmetic. -/
def PlainVars (s : TSt) : Prop := ∀ vars, s.vars = some vars → ∀ d ∈ vars, ∀ v ∈ d.2, Value.isMath v = false

theorem PlainVars.framed {s s' : TSt} (h : PlainVars s) (f : Framed s s') : PlainVars s' := fun vars e => h vars (f.vars ▸ e)

theorem mathResult_plain {fo : FloatOps} {l : Value} {a b op u : Bytes} {s : TSt} :
    tw True (mathResult fo l a b op u) (fun v _ => v.isMath = false) s := by
  unfold mathResult
  split
  · refine tw_seq (R := fun _ _ => True) ?_ fun _ _ _ => tw_pure rfl
    unfold tw addErrorV
    split <;> trivial
  · exact tw_pure rfl

theorem applyOp_plain {fo : FloatOps} {op : Bytes} {l r : Value} {s : TSt} :
    tw True (applyOp fo op l r) (fun v _ => v.isMath = false) s := by
  have nil : ∀ s, tw True (pure Value.nil : T Value) (fun v _ => v.isMath = false) s := fun s => tw_pure rfl
  have any : ∀ (m : T Unit) s, tw True m (fun _ _ => True) s := by
    intro m s
    unfold tw
    split <;> trivial
  unfold applyOp
  split
  · split
    · split
      · split
        · exact tw_seq (any _ _) fun _ _ _ => tw_seq (any _ _) fun _ _ _ => nil _
        · exact mathResult_plain
      · exact nil _
    · exact tw_seq (any _ _) fun _ _ _ => nil _
  · split
    · split
      · split
        · exact tw_seq (any _ _) fun _ _ _ => nil _
        · split
          · exact mathResult_plain
          · exact mathResult_plain
      · exact nil _
    · split
      · split
        · split
          · exact mathResult_plain
          · exact tw_seq (any _ _) fun _ _ _ => nil _
        · exact tw_seq (any _ _) fun _ _ _ => nil _
      · exact tw_seq (any _ _) fun _ _ _ => nil _

theorem tw_any {m : T α} {s : TSt} : tw True m (fun _ _ => True) s := by
  unfold tw
  split <;> trivial

theorem substVar_plain {v : Value} {name : Bytes} {args : List Value} {s : TSt} (hv : v.isMath = false)
    (ha : name = b!"var" → ∀ v ∈ args, v.isMath = false) (hs : PlainVars s) :
    tw True (substVar v name args) (fun vs _ => ∀ w ∈ vs, w.isMath = false) s := by
  have self : ∀ s, tw True (pure [v] : T (List Value)) (fun vs _ => ∀ w ∈ vs, w.isMath = false) s := fun s =>
    tw_pure (by simpa using hv)
  unfold substVar
  split
  · exact self _
  · rename_i hn
    refine tw_bind (tw_get ?_)
    rcases hvars : s.vars with _ | vars
    · exact self _
    · dsimp only
      split
      · exact tw_seq tw_any fun _ _ _ => self _
      · split
        · exact tw_pure (hs _ hvars _ (assoc_mem ‹_›))
        · split
          · refine tw_pure fun w hw => ha (by simpa using hn) w ?_
            exact List.mem_cons_of_mem _ (List.mem_cons_of_mem _ hw)
          · exact tw_seq tw_any fun _ _ _ => self _
      · exact tw_seq tw_any fun _ _ _ => self _

theorem reduceCalc_plain {fo : FloatOps} {o : TOpts} {rec : List Value → T (List Value)} {v : Value} {name : Bytes}
    {args cur : List Value} {s : TSt} (hc : ∀ w ∈ cur, Value.isMath w = false) :
    tw True (reduceCalc fo o rec v name args cur) (fun vs _ => ∀ w ∈ vs, w.isMath = false) s := by
  have self : ∀ s, tw True (pure cur : T (List Value)) (fun vs _ => ∀ w ∈ vs, w.isMath = false) s := fun s => tw_pure hc
  unfold reduceCalc
  split
  · exact self _
  · split
    · exact self _
    · split
      · refine tw_seq tw_any fun _ _ _ => ?_
        split
        · refine tw_seq tw_any fun _ _ _ => tw_seq tw_any fun _ _ _ => ?_
          split
          · split
            · refine tw_seq (R := fun v _ => v.isMath = false) ?_ fun nv _ hnv => ?_
              · unfold evaluateMathExpression
                exact tw_seq tw_any fun _ _ _ => tw_seq tw_any fun _ _ _ => applyOp_plain
              · split
                · exact self _
                · exact tw_pure (by simpa using hnv)
            · exact tw_seq tw_any fun _ _ _ => self _
          · exact tw_seq tw_any fun _ _ _ => self _
        · exact self _
        · exact tw_seq tw_any fun _ _ _ => self _
      · exact tw_seq tw_any fun _ _ _ => self _

/-- What replaces a value is not arithmetic, unless it is the value. -/
theorem transformValue_plain {fo : FloatOps} {o : TOpts} {n : Nat} {v : Value} {s s' : TSt} {vs : List Value}
    (h : transformValue fo o n v s = .ok vs s') (hv : v.tame) (hs : PlainVars s) :
    vs = [v] ∨ ∀ w ∈ vs, w.isMath = false := by
  cases n with
  | zero => cases h
  | succ n =>
    cases v with
    | func sp name args =>
      right
      rw [Value.tame] at hv
      rw [transformValue] at h
      obtain ⟨cur, s1, h1, h2⟩ := tbind_ok h
      exact tw_ok (reduceCalc_plain (tw_ok (substVar_plain rfl hv.2 hs) h1)) h2
    | _ =>
      obtain ⟨rfl, rfl⟩ := tpure_ok h
      exact .inl rfl

theorem ends_one {f : α → T (List β)} {x : α} {s : TSt} (h : f x s ≠ .timeout) : mapConcat f [x] s ≠ .timeout := by
  rw [mapConcat]
  exact ends_bind h fun _ s1 _ => (Prompt.bind (.pure _) fun _ => .pure _).run s1

theorem ok_one {f : α → T (List β)} {x : α} {s s' : TSt} {ys : List β} (h : mapConcat f [x] s = .ok ys s') :
    f x s = .ok ys s' := by
  obtain ⟨a, s1, b, h1, h2, rfl⟩ := mapConcat_cons_ok h
  obtain ⟨rfl, rfl⟩ := tpure_ok h2
  rw [List.append_nil]
  exact h1

mutual
/-- How deep the transformer goes into a value. -/
def Value.nest : Value → Nat
  | .func _ _ args => Value.nestL args + 1
  | .math _ _ l r => max l.nest r.nest
  | _ => 0

def Value.nestL : List Value → Nat
  | [] => 0
  | v :: vs => max v.nest (Value.nestL vs)
end

mutual
theorem Value.nest_le : ∀ (v : Value), v.nest ≤ sizeOf v
  | .func _ _ args => by
    have := Value.nestL_le args
    rw [Value.nest]
    simp
    omega
  | .math _ _ l r => by
    have := Value.nest_le l
    have := Value.nest_le r
    rw [Value.nest]
    simp
    omega
  | .nil => by simp [Value.nest]
  | .str .. => by simp [Value.nest]
  | .dim .. => by simp [Value.nest]
  | .ident .. => by simp [Value.nest]
  | .hex .. => by simp [Value.nest]
  | .brackets .. => by simp [Value.nest]
  | .paren .. => by simp [Value.nest]
  | .raw .. => by simp [Value.nest]
  | .comma .. => by simp [Value.nest]

theorem Value.nestL_le : ∀ (vs : List Value), Value.nestL vs ≤ sizeOf vs
  | [] => by simp [Value.nestL]
  | v :: vs => by
    have := Value.nest_le v
    have := Value.nestL_le vs
    rw [Value.nestL]
    simp
    omega
end

theorem nestL_le_iff {D : Nat} : ∀ {vs : List Value}, Value.nestL vs ≤ D ↔ ∀ v ∈ vs, v.nest ≤ D
  | [] => by simp [Value.nestL]
  | v :: vs => by
    have := nestL_le_iff (D := D) (vs := vs)
    simp only [Value.nestL, Nat.max_le, List.forall_mem_cons, this]

theorem transformValue_ends_nest {fo : FloatOps} {o : TOpts} : ∀ {n : Nat} {v : Value} {s : TSt}, v.nest < n → v.tame →
    PlainVars s → transformValue fo o n v s ≠ .timeout
  | 0, _, _, h, _, _ => absurd h (Nat.not_lt_zero _)
  | n + 1, v, s, hn, hv, hs => by
    cases v with
    | func sp name args =>
      rw [Value.tame] at hv
      rw [transformValue]
      refine ends_bind ((Prompt.substVar ..).run s) fun cur s1 h1 => ?_
      have hs1 := hs.framed ((LogOnly.substVar ..).ok h1)
      unfold reduceCalc
      split
      · exact (Prompt.pure _).run _
      · split
        · exact (Prompt.pure _).run _
        · split
          · rename_i a0
            have ha := tameL_iff.1 hv.1 a0 (List.mem_cons_self ..)
            have hsz : a0.nest < n := by rw [Value.nest, Value.nestL] at hn; omega
            refine ends_bind (ends_one (transformValue_ends_nest hsz ha hs1)) fun vs s2 h2 => ?_
            have h2 := ok_one h2
            have hs2 := hs1.framed ((LogOnly.transformValue ..).ok h2)
            split
            · rename_i msp op left right _
              have : a0 = .math msp op left right := by
                rcases transformValue_plain h2 ha hs1 with e | e
                · simpa using e.symm
                · exact absurd (e _ (List.mem_cons_self ..)) (by simp [Value.isMath])
              subst this
              rw [Value.tame] at ha
              refine ends_bind (ends_one (transformValue_ends_nest (by rw [Value.nest] at hsz; omega) ha.1 hs2)) fun l s3 h3 => ?_
              have hs3 := hs2.framed ((LogOnly.transformValue ..).ok (ok_one h3))
              refine ends_bind (ends_one (transformValue_ends_nest (by rw [Value.nest] at hsz; omega) ha.2 hs3)) fun r s4 h4 => ?_
              split
              · split
                · refine (Prompt.bind (.evaluateMath ..) fun _ => ?_).run _
                  split <;> exact .pure _
                · exact (Prompt.bind (.addWarnV ..) fun _ => .pure _).run _
              · exact (Prompt.bind (.addWarnV ..) fun _ => .pure _).run _
            · exact (Prompt.pure _).run _
            · exact (Prompt.bind (.addWarnV ..) fun _ => .pure _).run _
          · exact (Prompt.bind (.addWarnV ..) fun _ => .pure _).run _
    | _ => exact (Prompt.pure _).run _

theorem transformValue_ends {fo : FloatOps} {o : TOpts} {n : Nat} {v : Value} {s : TSt} (hn : sizeOf v < n) (hv : v.tame)
    (hs : PlainVars s) : transformValue fo o n v s ≠ .timeout :=
  transformValue_ends_nest (Nat.lt_of_le_of_lt v.nest_le hn) hv hs

/-! ### Nodes -/

theorem ends_mapConcat {f : α → T (List β)} {I : TSt → Prop} : ∀ {xs : List α} {s : TSt}, I s →
    (∀ x ∈ xs, ∀ s, I s → f x s ≠ .timeout) → (∀ x ∈ xs, ∀ s a s', I s → f x s = .ok a s' → I s') →
    mapConcat f xs s ≠ .timeout ∧ ∀ a s', mapConcat f xs s = .ok a s' → I s'
  | [], s, hs, _, _ => ⟨(Prompt.pure _).run s, fun a s' h => by obtain ⟨_, rfl⟩ := tpure_ok h; exact hs⟩
  | x :: xs, s, hs, he, hk => by
    have rest := fun {s1} (h1 : I s1) => ends_mapConcat (xs := xs) h1
      (fun y hy => he y (List.mem_cons_of_mem _ hy)) (fun y hy => hk y (List.mem_cons_of_mem _ hy))
    constructor
    · rw [mapConcat]
      refine ends_bind (he x (List.mem_cons_self ..) s hs) fun a s1 h1 => ?_
      exact ends_bind (rest (hk x (List.mem_cons_self ..) s a s1 hs h1)).1 fun _ s2 _ => (Prompt.pure _).run s2
    · intro a s' h
      obtain ⟨o1, s1, o2, h1, h2, _⟩ := mapConcat_cons_ok h
      exact (rest (hk x (List.mem_cons_self ..) s _ s1 hs h1)).2 _ _ h2

/-- A declaration the transformer gets through. -/
def Decl.tame : Decl → Prop
  | .decl _ _ vals _ => ∀ v ∈ vals, v.tame ∧ v.isMath = false
  | .raw .. => True

/-- Enough fuel for a declaration. -/
noncomputable def Decl.fuel : Decl → Nat
  | .decl _ _ vals _ => sizeOf vals
  | .raw .. => 0

theorem transformDecl_ends {fo : FloatOps} {o : TOpts} {n : Nat} {d : Decl} {s : TSt} (hn : d.fuel < n) (hd : d.tame)
    (hs : PlainVars s) : transformDecl fo o n d s ≠ .timeout := by
  cases d with
  | raw => exact (Prompt.pure _).run s
  | decl sp prop vals imp =>
    unfold transformDecl transformValues
    refine ends_bind (ends_mapConcat (I := PlainVars) hs (fun v hv s hs => ?_) fun v hv s a s' hs h =>
      hs.framed ((LogOnly.transformValue ..).ok h)).1 fun _ s1 _ => (Prompt.pure _).run s1
    exact transformValue_ends (Nat.lt_trans (List.sizeOf_lt_of_mem hv) hn) (hd v hv).1 hs

theorem transformDeclarations_ends {fo : FloatOps} {o : TOpts} {n : Nat} {ds : List Decl} {s : TSt}
    (hn : ∀ d ∈ ds, d.fuel < n) (hd : ∀ d ∈ ds, d.tame) (hs : PlainVars s) :
    transformDeclarations fo o n ds s ≠ .timeout := by
  unfold transformDeclarations
  refine (ends_mapConcat (I := PlainVars) hs (fun d hm s hs => transformDecl_ends (hn d hm) (hd d hm) hs)
    fun d hm s a s' hs h => ?_).1
  have : LogOnly (transformDecl fo o n d) := by
    unfold transformDecl
    split
    · exact .bind (.transformValues ..) fun _ => .pure _
    · exact .pure _
  exact hs.framed (this.ok h)

theorem collectVars_sub : ∀ {ds ds' : List Decl} {s s' : TSt}, collectVars ds s = .ok ds' s' → (∀ d ∈ ds, d.tame) →
    PlainVars s → (∀ d ∈ ds', d ∈ ds) ∧ PlainVars s'
  | [], ds', s, s', h, hd, hs => by
    obtain ⟨rfl, rfl⟩ := tpure_ok h
    exact ⟨fun _ h => h, hs⟩
  | .raw sp v :: ds, ds', s, s', h, hd, hs => by
    rw [collectVars] at h
    obtain ⟨rest, s1, h1, h2⟩ := tbind_ok h
    obtain ⟨rfl, rfl⟩ := tpure_ok h2
    have ih := collectVars_sub h1 (fun d hm => hd d (List.mem_cons_of_mem _ hm)) hs
    refine ⟨?_, ih.2⟩
    rintro d (_ | ⟨_, hm⟩)
    · exact List.mem_cons_self ..
    · exact List.mem_cons_of_mem _ (ih.1 d hm)
  | .decl sp prop vals imp :: ds, ds', s, s', h, hd, hs => by
    have hd' : ∀ d ∈ ds, d.tame := fun d hm => hd d (List.mem_cons_of_mem _ hm)
    have keep : ∀ {ds'}, (do let rest ← collectVars ds; pure (Decl.decl sp prop vals imp :: rest) : T (List Decl)) s =
        .ok ds' s' → (∀ d ∈ ds', d ∈ Decl.decl sp prop vals imp :: ds) ∧ PlainVars s' := by
      intro ds' h
      obtain ⟨rest, s1, h1, h2⟩ := tbind_ok h
      obtain ⟨rfl, rfl⟩ := tpure_ok h2
      have ih := collectVars_sub h1 hd' hs
      refine ⟨?_, ih.2⟩
      rintro d (_ | ⟨_, hm⟩)
      · exact List.mem_cons_self ..
      · exact List.mem_cons_of_mem _ (ih.1 d hm)
    rw [collectVars] at h
    dsimp only at h
    split at h
    · split at h
      · rename_i vars hv
        have ih := collectVars_sub h hd' (by
          intro vars' e
          cases e
          rintro d (_ | ⟨_, hm⟩)
          · exact fun v hv => (hd _ (List.mem_cons_self ..) v hv).2
          · exact hs _ hv d hm)
        exact ⟨fun d hm => List.mem_cons_of_mem _ (ih.1 d hm), ih.2⟩
      · exact keep h
    · exact keep h

/-- A node the transformer gets through, imports apart. -/
def Node.tame : Node → Prop
  | .rule r => ∀ b, r.block = some b → ∀ d ∈ b.decls, d.tame
  | .at _ => True

theorem NodeOk.tame {src : Bytes} {x : Node} (h : NodeOk src x) : x.tame := by
  cases x with
  | rule r =>
    obtain ⟨_, hp, b, hb, ⟨_, _, hd⟩, _⟩ := h
    intro b' hb' d hm
    rw [hb] at hb'
    cases hb'
    have := hd d hm
    cases d with
    | raw => trivial
    | decl =>
      refine fun v hv => ⟨tameL_iff.1 (VsOk.tame this.2.2.2.2.1) v hv, ?_⟩
      have := this.2.2.2.2.2 v hv
      cases v <;> first | rfl | cases this
  | «at» a => trivial

/-- Enough fuel for a rule. -/
noncomputable def Node.fuel : Node → Nat
  | .rule r => sizeOf r
  | .at _ => 0

theorem transformRule_ends {fo : FloatOps} {o : TOpts} {n : Nat} {r : QRule} {s : TSt} (hn : sizeOf r < n)
    (hx : (Node.rule r).tame) (hs : PlainVars s) : transformRule fo o n r s ≠ .timeout := by
  unfold transformRule
  rcases r.prelude with _ | l | ⟨ksp, kfs⟩
  · exact Prompt.crash.run s
  · dsimp only
    rcases collectsRoot l.sels with _ | root
    · exact Prompt.crash.run s
    · dsimp only
      rcases hb : r.block with _ | b
      · exact Prompt.crash.run s
      · dsimp only
        have hd := hx b hb
        have hf : ∀ d ∈ b.decls, d.fuel < n := by
          intro d hm
          have h1 := List.sizeOf_lt_of_mem hm
          obtain ⟨sp, pre, blk⟩ := r
          cases hb
          obtain ⟨bsp, ds⟩ := b
          simp at hn h1
          cases d with
          | raw => exact Nat.lt_of_le_of_lt (Nat.zero_le _) hn
          | decl => simp [Decl.fuel] at h1 ⊢; omega
        have hcol : ∀ ds s1, (if root then collectVars b.decls else pure b.decls : T (List Decl)) s = .ok ds s1 →
            (∀ d ∈ ds, d ∈ b.decls) ∧ PlainVars s1 := by
          intro ds s1 h
          split at h
          · exact collectVars_sub h hd hs
          · obtain ⟨rfl, rfl⟩ := tpure_ok h
            exact ⟨fun _ h => h, hs⟩
        refine ends_bind ((Prompt.ite (.collectVars _) (.pure _)).run s) fun ds s1 h1 => ?_
        have := hcol ds s1 h1
        refine ends_bind (transformDeclarations_ends (fun d hm => hf d (this.1 d hm)) (fun d hm => hd d (this.1 d hm))
          this.2) fun ds' s2 _ => ?_
        exact (Prompt.ite (.pure _) (.pure _)).run s2
  · exact (Prompt.bind (.report ..) fun _ => .crash).run s

end Cssc
