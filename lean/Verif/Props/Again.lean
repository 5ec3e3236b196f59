import Verif.Props.CalcReports
import Verif.Spec.Transform

/-!
# C74: transforming what has been transformed

Is the output of `Transform` a fixed point of `Transform` with the same options and replacements?
-/

namespace Cssc

/-! ### Independence of the log, of the media queries and of the fuel -/

/-- What `m` returns, `m'` returns too, from any state with the same variables; and both only add the same
reports. -/
def Steady (m m' : T α) : Prop :=
  ∀ s a s', m s = .ok a s' → ∃ reps, s' = s.plus reps ∧ ∀ t : TSt, t.vars = s.vars → m' t = .ok a (t.plus reps)

theorem steady_pure (a : α) : Steady (pure a) (pure a) := by
  intro s a' s' h
  cases h
  exact ⟨[], (TSt.plus_nil s).symm, fun t _ => by rw [TSt.plus_nil]; rfl⟩

theorem steady_crash (m : T α) : Steady T.crash m := by
  intro s a s' h
  cases h

theorem steady_timeout (m : T α) : Steady T.timeout m := by
  intro s a s' h
  cases h

theorem steady_report (w : Bool) (sp : Option Span) (msg : String) : Steady (report w sp msg) (report w sp msg) := by
  intro s a s' h
  cases h
  exact ⟨_, rfl, fun t _ => rfl⟩

theorem steady_bind {m m' : T α} {f f' : α → T β} (h : Steady m m') (hf : ∀ a, Steady (f a) (f' a)) :
    Steady (m >>= f) (m' >>= f') := by
  intro s b s' e
  obtain ⟨a, s1, e1, e2⟩ := tbind_ok e
  obtain ⟨r1, rfl, h1⟩ := h _ _ _ e1
  obtain ⟨r2, rfl, h2⟩ := hf a _ _ _ e2
  refine ⟨r1 ++ r2, TSt.plus_plus .., fun t ht => ?_⟩
  rw [tbind_eq_ok (h1 t ht), h2 (t.plus r1) ht, TSt.plus_plus]

/-- As `steady_bind`, with what is known of the first result. -/
theorem steady_get {f f' : TSt → T β} (hf : ∀ s t : TSt, t.vars = s.vars → Steady (f s) (f' t)) :
    Steady (T.get >>= f) (T.get >>= f') := by
  intro s b s' e
  obtain ⟨a, s1, e1, e2⟩ := tbind_ok e
  cases e1
  obtain ⟨r2, h2, _⟩ := hf s s rfl _ _ _ e2
  refine ⟨r2, h2, fun t ht => ?_⟩
  obtain ⟨r3, h3, h4⟩ := hf s t ht _ _ _ e2
  rw [tbind_eq_ok (show T.get t = .ok t t from rfl), h4 t ht]
  have : s.log ++ r2 = s.log ++ r3 := by
    have := h2.symm.trans h3
    exact congrArg TSt.log this
  rw [List.append_cancel_left this]

theorem steady_when {c : Prop} [Decidable c] {m : T Unit} (h : Steady m m) : Steady (whenT c m) (whenT c m) := by
  unfold whenT
  split
  · exact h
  · exact steady_pure ()

theorem steady_error (v : Value) (msg : String) : Steady (addErrorV v msg) (addErrorV v msg) := by
  unfold addErrorV
  split
  · exact steady_crash _
  · exact steady_report _ _ _

theorem steady_warn (v : Value) (msg : String) : Steady (addWarnV v msg) (addWarnV v msg) := by
  unfold addWarnV
  split
  · exact steady_crash _
  · exact steady_report _ _ _

theorem steady_then {m : T Unit} (v : α) (h : Steady m m) : Steady (do m; pure v) (do m; pure v) :=
  steady_bind h fun _ => steady_pure v

theorem steady_mapConcat {f f' : α → T (List β)} (h : ∀ x, Steady (f x) (f' x)) :
    ∀ xs : List α, Steady (mapConcat f xs) (mapConcat f' xs)
  | [] => steady_pure []
  | x :: xs => by
    rw [mapConcat, mapConcat]
    exact steady_bind (h x) fun a => steady_bind (steady_mapConcat h xs) fun b => steady_pure (a ++ b)

theorem steady_mathResult {fo : FloatOps} {l : Value} {a b op u : Bytes} :
    Steady (mathResult fo l a b op u) (mathResult fo l a b op u) := by
  unfold mathResult
  split
  · exact steady_then _ (steady_error _ _)
  · exact steady_pure _

theorem steady_applyOp {fo : FloatOps} {op : Bytes} {l r : Value} : Steady (applyOp fo op l r) (applyOp fo op l r) := by
  unfold applyOp
  split
  · split
    · split
      · split
        · exact steady_bind (steady_when (steady_report _ _ _)) fun _ =>
            steady_bind (steady_when (steady_report _ _ _)) fun _ => steady_pure _
        · exact steady_mathResult
      · exact steady_pure _
    · exact steady_then _ (steady_error _ _)
  split
  · split
    · split
      · exact steady_then _ (steady_error _ _)
      split
      · exact steady_mathResult
      · exact steady_mathResult
    · exact steady_pure _
  split
  · split
    · split
      · exact steady_mathResult
      · exact steady_then _ (steady_error _ _)
    · exact steady_then _ (steady_error _ _)
  · exact steady_then _ (steady_error _ _)

theorem steady_evalOperand {fo : FloatOps} : ∀ v : Value, Steady (evalOperand fo v) (evalOperand fo v)
  | .math sp op l r => by
    rw [evalOperand]
    refine steady_bind (steady_evalOperand l) fun l' => steady_bind (steady_evalOperand r) fun r' =>
      steady_bind steady_applyOp fun v => ?_
    split
    · exact steady_pure _
    · exact steady_pure _
  | .nil => steady_pure _
  | .comma _ => steady_pure _
  | .dim .. => steady_pure _
  | .str .. => steady_pure _
  | .ident .. => steady_pure _
  | .func .. => steady_pure _
  | .brackets .. => steady_pure _
  | .paren .. => steady_pure _
  | .hex .. => steady_pure _
  | .raw .. => steady_pure _

theorem steady_evaluate {fo : FloatOps} {l r : Value} {op : Bytes} :
    Steady (evaluateMathExpression fo l r op) (evaluateMathExpression fo l r op) := by
  unfold evaluateMathExpression
  exact steady_bind (steady_evalOperand l) fun _ => steady_bind (steady_evalOperand r) fun _ => steady_applyOp

theorem steady_substVar {v : Value} {name : Bytes} {args : List Value} : Steady (substVar v name args) (substVar v name args) := by
  unfold substVar
  split
  · exact steady_pure _
  · refine steady_get fun s t h => ?_
    rw [h]
    split
    · exact steady_pure _
    · split
      · exact steady_then _ (steady_error _ _)
      · split
        · exact steady_pure _
        · split
          · exact steady_pure _
          · exact steady_then _ (steady_warn _ _)
      · exact steady_then _ (steady_error _ _)

theorem steady_reduceCalc {fo : FloatOps} {o : TOpts} {f f' : List Value → T (List Value)} (hf : ∀ vs, Steady (f vs) (f' vs))
    {v : Value} {name : Bytes} {args cur : List Value} :
    Steady (reduceCalc fo o f v name args cur) (reduceCalc fo o f' v name args cur) := by
  unfold reduceCalc
  split
  · exact steady_pure _
  split
  · exact steady_pure _
  split
  · refine steady_bind (hf _) fun a => ?_
    split
    · refine steady_bind (hf _) fun l => steady_bind (hf _) fun r => ?_
      split
      · split
        · refine steady_bind steady_evaluate fun nv => ?_
          split
          · exact steady_pure _
          · exact steady_pure _
        · exact steady_then _ (steady_warn _ _)
      · exact steady_then _ (steady_warn _ _)
    · exact steady_pure _
    · exact steady_then _ (steady_warn _ _)
  · exact steady_then _ (steady_warn _ _)

theorem steady_transformValue {fo : FloatOps} {o : TOpts} : ∀ {n k : Nat}, n ≤ k → ∀ v : Value,
    Steady (transformValue fo o n v) (transformValue fo o k v)
  | 0, _, _, _ => steady_timeout _
  | n + 1, 0, h, _ => absurd h (by omega)
  | n + 1, k + 1, h, v => by
    cases v with
    | func sp name args =>
      rw [transformValue, transformValue]
      exact steady_bind steady_substVar fun cur =>
        steady_reduceCalc (steady_mapConcat fun x => steady_transformValue (by omega) x)
    | _ => exact steady_pure _

/-! ### Values -/

/-- An operator gives nil or a dimension. -/
theorem applyOp_dim {fo : FloatOps} {op : Bytes} {l r : Value} {s s' : TSt} {v : Value}
    (e : applyOp fo op l r s = .ok v s') : v = .nil ∨ v.isDim = true := by
  have skip : ∀ {m : T Unit} {s s' : TSt} {v : Value}, (do m; pure Value.nil : T Value) s = .ok v s' → v = .nil := by
    intro m s s' v e
    obtain ⟨_, s1, _, e2⟩ := tbind_ok e
    cases e2; rfl
  have res : ∀ {l : Value} {a b op u : Bytes} {s s' : TSt} {v : Value}, mathResult fo l a b op u s = .ok v s' →
      v = .nil ∨ v.isDim = true := by
    intro l a b op u s s' v e'
    clear e
    unfold mathResult at e'
    cases hd : doMath fo a b op with
    | none => rw [hd] at e'; exact .inl (skip e')
    | some f => rw [hd] at e'; cases e'; exact .inr rfl
  unfold applyOp at e
  split at e
  · split at e
    · split at e
      · split at e
        · obtain ⟨_, s1, _, e⟩ := tbind_ok e
          exact .inl (skip e)
        · exact res e
      · cases e; exact .inl rfl
    · exact .inl (skip e)
  split at e
  · split at e
    · split at e
      · exact .inl (skip e)
      split at e
      · exact res e
      · exact res e
    · cases e; exact .inl rfl
  split at e
  · split at e
    · split at e
      · exact res e
      · exact .inl (skip e)
    · exact .inl (skip e)
  · exact .inl (skip e)

/-- `calc` leaves the value, or gives a dimension. -/
theorem reduceCalc_dim {fo : FloatOps} {o : TOpts} {f : List Value → T (List Value)} {v : Value} {name : Bytes}
    {args cur : List Value} {s s' : TSt} {out : List Value} (e : reduceCalc fo o f v name args cur s = .ok out s') :
    out = cur ∨ ∃ d : Value, out = [d] ∧ d.isDim = true := by
  have skip : ∀ {m : T Unit} {s s' : TSt}, (do m; pure cur : T (List Value)) s = .ok out s' → out = cur := by
    intro m s s' e
    obtain ⟨_, s1, _, e2⟩ := tbind_ok e
    cases e2; rfl
  unfold reduceCalc at e
  split at e
  · cases e; exact .inl rfl
  split at e
  · cases e; exact .inl rfl
  split at e
  · obtain ⟨a, s1, e1, e2⟩ := tbind_ok e
    clear e
    split at e2
    · obtain ⟨l, s2, _, e3⟩ := tbind_ok e2
      obtain ⟨r, s3, _, e4⟩ := tbind_ok e3
      clear e2 e3
      split at e4
      · split at e4
        · obtain ⟨nv, s4, e5, e6⟩ := tbind_ok e4
          clear e4
          split at e6
          · cases e6; exact .inl rfl
          · cases e6
            unfold evaluateMathExpression at e5
            obtain ⟨l', s5, _, e7⟩ := tbind_ok e5
            obtain ⟨r', s6, _, e8⟩ := tbind_ok e7
            rcases applyOp_dim e8 with h | h
            · contradiction
            · exact .inr ⟨nv, rfl, h⟩
        · exact .inl (skip e4)
      · exact .inl (skip e4)
    · cases e2; exact .inl rfl
    · exact .inl (skip e2)
  · exact .inl (skip e)

/-- Without a map of variables `var` stays. -/
theorem substVar_off {v : Value} {name : Bytes} {args : List Value} {s : TSt} (hv : s.vars = none) :
    substVar v name args s = .ok [v] s := by
  unfold substVar
  split
  · rfl
  · rw [tbind_eq_ok (show T.get s = .ok s s from rfl), hv]
    rfl

/-- Transforming gives it back. -/
def FixedBy (f : α → T (List α)) (x : α) : Prop := ∀ t : TSt, t.vars = none → ∃ reps, f x t = .ok [x] (t.plus reps)

theorem fixed_list {f : α → T (List α)} : ∀ {xs : List α}, (∀ x ∈ xs, FixedBy f x) → ∀ t : TSt, t.vars = none →
    ∃ reps, mapConcat f xs t = .ok xs (t.plus reps)
  | [], _, t, _ => ⟨[], by rw [TSt.plus_nil]; rfl⟩
  | x :: xs, h, t, ht => by
    obtain ⟨r1, h1⟩ := h x (List.mem_cons_self ..) t ht
    obtain ⟨r2, h2⟩ := fixed_list (fun y hy => h y (List.mem_cons_of_mem _ hy)) (t.plus r1) ht
    exact ⟨r1 ++ r2, by rw [mapConcat_cons_eq h1 h2, TSt.plus_plus]; rfl⟩

/-- What comes of one value. -/
theorem value_fixed {fo : FloatOps} {o : TOpts} {n k : Nat} (hk : n ≤ k) {v : Value} {s s' : TSt} {out : List Value}
    (hv : s.vars = none) (e : transformValue fo o n v s = .ok out s') :
    (∃ reps, s' = s.plus reps) ∧ ∀ x ∈ out, FixedBy (transformValue fo o k) x := by
  obtain ⟨reps, h1, h2⟩ := steady_transformValue hk v s out s' e
  refine ⟨⟨reps, h1⟩, ?_⟩
  obtain ⟨n, rfl⟩ : ∃ m, n = m + 1 := by
    cases n with
    | zero => cases e
    | succ m => exact ⟨m, rfl⟩
  obtain ⟨k, rfl⟩ : ∃ m, k = m + 1 := ⟨k - 1, by omega⟩
  have self : out = [v] → ∀ x ∈ out, FixedBy (transformValue fo o (k + 1)) x := by
    rintro rfl x hx
    obtain rfl := List.mem_singleton.1 hx
    exact fun t ht => ⟨reps, h2 t (ht.trans hv.symm)⟩
  cases v with
  | func sp name args =>
    rw [transformValue] at e
    rw [tbind_eq_ok (substVar_off hv)] at e
    rcases reduceCalc_dim e with h | ⟨d, rfl, hd⟩
    · exact self h
    · intro x hx
      obtain rfl := List.mem_singleton.1 hx
      cases x with
      | dim => exact fun t _ => ⟨[], by rw [TSt.plus_nil]; rfl⟩
      | _ => cases hd
  | _ => cases e; exact self rfl

/-- What comes of a list. -/
theorem list_fixed {f g : α → T (List α)} (h : ∀ x s s' out, s.vars = none → f x s = .ok out s' →
      (∃ reps, s' = s.plus reps) ∧ ∀ y ∈ out, FixedBy g y) : ∀ {xs out : List α} {s s' : TSt}, s.vars = none →
    mapConcat f xs s = .ok out s' → (∃ reps, s' = s.plus reps) ∧ ∀ y ∈ out, FixedBy g y
  | [], out, s, s', _, e => by cases e; exact ⟨⟨[], (TSt.plus_nil s).symm⟩, by simp⟩
  | x :: xs, out, s, s', hv, e => by
    obtain ⟨o1, s1, o2, e1, e2, rfl⟩ := mapConcat_cons_ok e
    obtain ⟨⟨r1, rfl⟩, h1⟩ := h _ _ _ _ hv e1
    obtain ⟨⟨r2, rfl⟩, h2⟩ := list_fixed h (s := s.plus r1) hv e2
    refine ⟨⟨r1 ++ r2, TSt.plus_plus ..⟩, fun y hy => ?_⟩
    rcases List.mem_append.1 hy with hy | hy
    · exact h1 y hy
    · exact h2 y hy

/-- What comes of one declaration. -/
theorem decl_fixed {fo : FloatOps} {o : TOpts} {n k : Nat} (hk : n ≤ k) {d : Decl} {s s' : TSt} {out : List Decl}
    (hv : s.vars = none) (e : transformDecl fo o n d s = .ok out s') :
    (∃ reps, s' = s.plus reps) ∧ ∀ x ∈ out, FixedBy (transformDecl fo o k) x := by
  cases d with
  | raw sp v =>
    cases e
    refine ⟨⟨[], (TSt.plus_nil s).symm⟩, fun x hx => ?_⟩
    obtain rfl := List.mem_singleton.1 hx
    exact fun t _ => ⟨[], by rw [TSt.plus_nil]; rfl⟩
  | decl sp prop vals imp =>
    unfold transformDecl at e
    dsimp only at e
    obtain ⟨vals', s1, e1, e2⟩ := tbind_ok e
    cases e2
    obtain ⟨hs, hf⟩ := list_fixed (g := transformValue fo o k) (fun x s s' out hv e => value_fixed hk hv e) hv e1
    refine ⟨hs, fun x hx => ?_⟩
    obtain rfl := List.mem_singleton.1 hx
    intro t ht
    obtain ⟨reps, h⟩ := fixed_list hf t ht
    refine ⟨reps, ?_⟩
    unfold transformDecl
    dsimp only
    rw [tbind_eq_ok (show transformValues fo o k vals' t = _ from h)]
    rfl

/-! ### Selectors -/

theorem transformSelectors_twice (o : TOpts) (l : List Sel) :
    transformSelectors o (transformSelectors o l) = transformSelectors o l := by
  apply transformSelectors_id
  cases ho : o.anyLink with
  | false => exact fun _ _ p _ => isAnyLink_off ho p
  | true =>
    intro s hs p hp
    rw [isAnyLink_eq ho]
    exact (anyLink_equiv_partial ho l).1 s hs p hp

/-- When the first closure of the qualified rule case does not panic. -/
theorem collectsRoot_ne_none {l : List Sel} :
    collectsRoot l ≠ none ↔ ((∃ s ∈ l, s.parts.length ≠ 1) → ∀ s, l.head? = some s → s.parts ≠ []) := by
  unfold collectsRoot
  split
  · rename_i h
    simp only [List.any_eq_true, decide_eq_true_eq] at h
    cases l with
    | nil => obtain ⟨s, hs, _⟩ := h; cases hs
    | cons a l =>
      obtain ⟨sp, parts⟩ := a
      cases parts with
      | nil =>
        simp only [Sel.parts]
        constructor
        · intro h; exact absurd rfl h
        · intro h'; exact absurd rfl (h' h _ rfl)
      | cons p ps =>
        constructor
        · intro _ _ s hs
          cases hs
          simp [Sel.parts]
        · intro _
          cases p <;> simp [Sel.parts]
  · rename_i h
    simp only [List.any_eq_true, decide_eq_true_eq] at h
    exact ⟨fun _ h' => absurd h' h, fun _ => by simp⟩

theorem transformSelector_parts {o : TOpts} {s t : Sel} (h : t ∈ transformSelector o s) : t.parts.length = s.parts.length := by
  obtain ⟨sp, parts⟩ := s
  unfold transformSelector at h
  rcases List.mem_append.1 h with h | h
  · rw [List.eq_of_mem_replicate h]
    simp [Sel.parts]
  · rw [List.mem_singleton.1 h]
    simp [Sel.parts]

theorem collectsRoot_twice {o : TOpts} {l : List Sel} (h : collectsRoot l ≠ none) : collectsRoot (transformSelectors o l) ≠ none := by
  rw [collectsRoot_ne_none] at h ⊢
  rintro ⟨t, ht, hl⟩ u hu
  unfold transformSelectors at ht hu
  obtain ⟨s, hs, ht⟩ := List.mem_flatMap.1 ht
  have h1 := h ⟨s, hs, by rw [← transformSelector_parts ht]; exact hl⟩
  cases l with
  | nil => cases hs
  | cons a l =>
    have h2 := h1 a rfl
    have h3 : u ∈ transformSelector o a := by
      rw [List.flatMap_cons] at hu
      have : transformSelector o a ≠ [] := by
        obtain ⟨sp, parts⟩ := a
        unfold transformSelector
        simp
      cases e : transformSelector o a with
      | nil => exact absurd e this
      | cons b bs =>
        rw [e] at hu
        cases hu
        exact List.mem_cons_self ..
    intro h0
    apply h2
    have := transformSelector_parts h3
    rw [h0] at this
    exact List.length_eq_zero_iff.1 this.symm

/-! ### Media queries -/

/-- With these options the part stays as it is, if there is no custom media query. -/
def MQPart.rests (o : TOpts) (p : MQPart) : Prop := o.mediaFeatureRanges = true → p.isRange = false

/-- No custom media query is known. -/
def TSt.bare (s : TSt) : Prop := s.media = none ∨ s.media = some []

theorem part_fixed {fo : FloatOps} {o : TOpts} {p : MQPart} (h : p.rests o) {t : TSt} (ht : t.bare) :
    transformMQPart fo o p t = .ok [p] t := by
  cases p with
  | plain sp psp prop v =>
    unfold transformMQPart
    dsimp only
    split
    · rfl
    · rw [tbind_eq_ok (show T.get t = .ok t t from rfl)]
      rcases ht with ht | ht
      · rw [ht]; rfl
      · rw [ht]; rfl
  | range sp psp prop l op r =>
    unfold transformMQPart transformMediaFeatureRange
    dsimp only
    have : o.mediaFeatureRanges = false := by
      cases ho : o.mediaFeatureRanges with
      | false => rfl
      | true => cases h ho
    rw [this]
    rfl
  | _ => rfl

theorem mqs_fixed {fo : FloatOps} {o : TOpts} {qs : List MQ} (h : ∀ q ∈ qs, ∀ p ∈ q.parts, p.rests o) {t : TSt} (ht : t.bare) :
    transformMediaQueries fo o qs t = .ok qs t := by
  have key : ∀ q ∈ qs, transformMQ fo o q t = .ok [q] t := by
    intro q hq
    unfold transformMQ
    rw [tbind_eq_ok (mapConcat_map fun p hp => part_fixed (h q hq p hp) ht), List.flatMap_singleton']
    rfl
  unfold transformMediaQueries
  rw [mapConcat_map key, List.flatMap_singleton']

/-- The parts of the known custom media queries stay as they are. -/
def TSt.restful (o : TOpts) (s : TSt) : Prop := ∀ m, s.media = some m → ∀ d ∈ m, ∀ p ∈ d.2.parts, p.rests o

theorem assoc_some_mem {α : Type} : ∀ {m : List (Bytes × α)} {k : Bytes} {v : α}, assoc m k = some v → ∃ k', (k', v) ∈ m
  | [], _, _, h => by cases h
  | (k', v') :: m, k, v, h => by
    rw [assoc] at h
    split at h
    · cases h; exact ⟨k', List.mem_cons_self ..⟩
    · obtain ⟨k'', h⟩ := assoc_some_mem h
      exact ⟨k'', List.mem_cons_of_mem _ h⟩

/-- Only reports are added. -/
def Adds (m : T α) : Prop := ∀ s a s', m s = .ok a s' → ∃ reps, s' = s.plus reps

theorem Steady.adds {m m' : T α} (h : Steady m m') : Adds m := fun s a s' e =>
  let ⟨reps, h1, _⟩ := h s a s' e
  ⟨reps, h1⟩

theorem steady_addToValue {fo : FloatOps} {v : Value} {d : Option fo.F} : Steady (addToValue fo v d) (addToValue fo v d) := by
  unfold addToValue
  split
  · exact steady_pure _
  · split
    · split
      · exact steady_then _ (steady_error _ _)
      · exact steady_pure _
    · exact steady_then _ (steady_error _ _)

theorem steady_rangePart {fo : FloatOps} {d : Bytes × Option fo.F} {prop : Bytes} {v : Value} :
    Steady (rangePart fo d prop v) (rangePart fo d prop v) := by
  unfold rangePart
  exact steady_bind steady_addToValue fun _ => steady_pure _

theorem rangePart_rests {fo : FloatOps} {o : TOpts} {d : Bytes × Option fo.F} {prop : Bytes} {v : Value} {s s' : TSt} {p : MQPart}
    (e : rangePart fo d prop v s = .ok p s') : p.rests o := by
  unfold rangePart at e
  obtain ⟨v', s1, _, e2⟩ := tbind_ok e
  cases e2
  exact fun _ => rfl

theorem part_rests {fo : FloatOps} {o : TOpts} {p : MQPart} {s s' : TSt} {out : List MQPart} (hs : s.restful o)
    (e : transformMQPart fo o p s = .ok out s') : (∃ reps, s' = s.plus reps) ∧ ∀ x ∈ out, x.rests o := by
  have same : ∀ {p : MQPart} {s s' : TSt} {out : List MQPart}, p.rests o → (pure [p] : T (List MQPart)) s = .ok out s' →
      (∃ reps, s' = s.plus reps) ∧ ∀ x ∈ out, x.rests o := by
    intro p s s' out hp e
    cases e
    exact ⟨⟨[], (TSt.plus_nil s).symm⟩, fun x hx => by rw [List.mem_singleton.1 hx]; exact hp⟩
  cases p with
  | plain sp psp prop v =>
    unfold transformMQPart at e
    dsimp only at e
    split at e
    · exact same (fun _ => rfl) e
    · rw [tbind_eq_ok (show T.get s = .ok s s from rfl)] at e
      cases hm : s.media with
      | none => rw [hm] at e; exact same (fun _ => rfl) e
      | some media =>
        rw [hm] at e
        dsimp only at e
        cases hq : assoc media prop with
        | none => rw [hq] at e; exact same (fun _ => rfl) e
        | some q =>
          rw [hq] at e
          cases e
          obtain ⟨k, hk⟩ := assoc_some_mem hq
          exact ⟨⟨[], (TSt.plus_nil s).symm⟩, hs media hm _ hk⟩
  | range sp psp prop l op r =>
    unfold transformMQPart transformMediaFeatureRange at e
    dsimp only at e
    split at e
    · rename_i ho
      refine same ?_ e
      intro h
      rw [h] at ho
      cases ho
    · obtain ⟨a, s1, e1, e2⟩ := tbind_ok e
      obtain ⟨b, s2, e3, e4⟩ := tbind_ok e2
      cases e4
      have side : ∀ {c : Bool} {d : Bytes × Option fo.F} {v : Value} {s s' : TSt} {a : List MQPart},
          (if c then pure [] else do
            let p ← rangePart fo d prop v
            pure [p] : T (List MQPart)) s = .ok a s' →
          (∃ reps, s' = s.plus reps) ∧ ∀ x ∈ a, x.rests o := by
        intro c d v s s' a e
        cases c with
        | true => cases e; exact ⟨⟨[], (TSt.plus_nil s).symm⟩, by simp⟩
        | false =>
          obtain ⟨p, s1, e1, e2⟩ := tbind_ok (show (do
            let p ← rangePart fo d prop v
            pure [p] : T (List MQPart)) s = .ok a s' from e)
          cases e2
          exact ⟨steady_rangePart.adds _ _ _ e1, fun x hx => by rw [List.mem_singleton.1 hx]; exact rangePart_rests e1⟩
      obtain ⟨⟨r1, rfl⟩, ha⟩ := side e1
      obtain ⟨⟨r2, rfl⟩, hb⟩ := side e3
      refine ⟨⟨r1 ++ r2, TSt.plus_plus ..⟩, fun x hx => ?_⟩
      rcases List.mem_append.1 hx with hx | hx
      · rcases List.mem_append.1 hx with hx | hx
        · exact ha x hx
        · split at hx
          · cases hx
          · rw [List.mem_singleton.1 hx]; exact fun _ => rfl
      · exact hb x hx
  | _ => exact same (fun _ => rfl) e

theorem mqs_rest {fo : FloatOps} {o : TOpts} {qs out : List MQ} {s s' : TSt} (hs : s.restful o)
    (e : transformMediaQueries fo o qs s = .ok out s') : (∃ reps, s' = s.plus reps) ∧ ∀ q ∈ out, ∀ p ∈ q.parts, p.rests o := by
  have list : ∀ {α β : Type} {f : α → T (List β)} {R : β → Prop} (hf : ∀ x s s' out, s.restful o → f x s = .ok out s' →
        (∃ reps, s' = s.plus reps) ∧ ∀ y ∈ out, R y) (xs : List α) (out : List β) (s s' : TSt), s.restful o →
      mapConcat f xs s = .ok out s' → (∃ reps, s' = s.plus reps) ∧ ∀ y ∈ out, R y := by
    intro α β f R hf xs
    induction xs with
    | nil => intro out s s' _ e; cases e; exact ⟨⟨[], (TSt.plus_nil s).symm⟩, by simp⟩
    | cons x xs ih =>
      intro out s s' hs e
      obtain ⟨o1, s1, o2, e1, e2, rfl⟩ := mapConcat_cons_ok e
      obtain ⟨⟨r1, rfl⟩, h1⟩ := hf _ _ _ _ hs e1
      obtain ⟨⟨r2, rfl⟩, h2⟩ := ih o2 (s.plus r1) s' hs e2
      refine ⟨⟨r1 ++ r2, TSt.plus_plus ..⟩, fun y hy => ?_⟩
      rcases List.mem_append.1 hy with hy | hy
      · exact h1 y hy
      · exact h2 y hy
  refine list (R := fun q => ∀ p ∈ q.parts, p.rests o) (fun q s s' out hs e => ?_) qs out s s' hs e
  unfold transformMQ at e
  obtain ⟨parts, s1, e1, e2⟩ := tbind_ok e
  cases e2
  obtain ⟨h1, h2⟩ := list (fun x s s' out hs e => part_rests hs e) _ _ _ _ hs e1
  exact ⟨h1, fun q hq => by rw [List.mem_singleton.1 hq]; exact h2⟩

/-! ### Nodes -/

/-- Transforming the node gives it back. -/
def Node.Fixed (fo : FloatOps) (o : TOpts) (m : List (AtId × Stylesheet)) (k : Nat) (nd : Node) : Prop :=
  ∀ t : TSt, t.vars = none → t.bare → ∃ reps, transformNode fo o (some m) k nd t = .ok [nd] (t.plus reps)

theorem nodes_fixed {fo : FloatOps} {o : TOpts} {m : List (AtId × Stylesheet)} {k : Nat} : ∀ {ns : List Node},
    (∀ nd ∈ ns, nd.Fixed fo o m k) → ∀ t : TSt, t.vars = none → t.bare →
    ∃ reps, transformNodes fo o (some m) k ns t = .ok ns (t.plus reps)
  | [], _, t, _, _ => ⟨[], by rw [TSt.plus_nil]; rfl⟩
  | x :: xs, h, t, ht, hb => by
    obtain ⟨r1, h1⟩ := h x (List.mem_cons_self ..) t ht hb
    obtain ⟨r2, h2⟩ := nodes_fixed (fun y hy => h y (List.mem_cons_of_mem _ hy)) (t.plus r1) ht hb
    exact ⟨r1 ++ r2, by unfold transformNodes at *; rw [mapConcat_cons_eq h1 h2, TSt.plus_plus]; rfl⟩

theorem rule_fixed {fo : FloatOps} {o : TOpts} {m : List (AtId × Stylesheet)} {n k : Nat} (hk : n ≤ k + 1) {r : QRule} {s s' : TSt}
    {out : List Node} (hv : s.vars = none) (e : transformRule fo o n r s = .ok out s') :
    (∃ reps, s' = s.plus reps) ∧ ∀ x ∈ out, x.Fixed fo o m (k + 1) := by
  obtain ⟨sp, pre, blk⟩ := r
  unfold transformRule at e
  dsimp only at e
  cases pre with
  | nil => cases e
  | keyframes ksp ks =>
    dsimp only at e
    obtain ⟨_, s1, _, e2⟩ := tbind_ok e
    cases e2
  | sels l =>
    dsimp only at e
    cases hc : collectsRoot l.sels with
    | none => rw [hc] at e; cases e
    | some root =>
      rw [hc] at e
      cases blk with
      | none => cases e
      | some b =>
        dsimp only at e
        have h0 : (if root = true then collectVars b.decls else pure b.decls : T (List Decl)) s = .ok b.decls s := by
          split
          · exact collectVars_none hv
          · rfl
        rw [tbind_eq_ok h0] at e
        obtain ⟨ds, s1, e1, e2⟩ := tbind_ok e
        obtain ⟨hs, hf⟩ := list_fixed (g := transformDecl fo o (k + 1)) (fun x s s' out hv e => decl_fixed hk hv e) hv e1
        split at e2
        · cases e2; exact ⟨hs, by simp⟩
        · rename_i hd
          cases e2
          refine ⟨hs, fun x hx => ?_⟩
          rw [List.mem_singleton.1 hx]
          intro t ht _
          obtain ⟨reps, hr⟩ := fixed_list hf t ht
          refine ⟨reps, ?_⟩
          rw [transformNode]
          unfold transformRule
          dsimp only
          cases hc' : collectsRoot (transformSelectors o l.sels) with
          | none => exact absurd hc' (collectsRoot_twice (by rw [hc]; simp))
          | some root' =>
            dsimp only
            have h1 : (if root' = true then collectVars ds else pure ds : T (List Decl)) t = .ok ds t := by
              split
              · exact collectVars_none ht
              · rfl
            rw [tbind_eq_ok h1, tbind_eq_ok (show transformDeclarations fo o (k + 1) ds t = _ from hr), if_neg hd,
              transformSelectors_twice]
            rfl

/-- If the options lower ranges and take custom media queries, no custom media query has a range. -/
def Node.calm (o : TOpts) (nd : Node) : Prop :=
  o.customMediaQueries = true → o.mediaFeatureRanges = true → ∀ name q, nd.customMedia? = some (name, q) →
    ∀ p ∈ q.parts, p.isRange = false

theorem collectMedia_restful {o : TOpts} {a : AtRule} (hn : a.name = b!"custom-media") (ha : (Node.at a).calm o) {s s' : TSt}
    (hm : s.media ≠ none → o.customMediaQueries = true) (hs : s.restful o) (e : collectMedia a.preludes s = .ok () s') :
    s'.vars = s.vars ∧ (s'.media ≠ none → o.customMediaQueries = true) ∧ s'.restful o := by
  unfold collectMedia at e
  split at e
  · cases e; exact ⟨rfl, hm, hs⟩
  · rename_i media hmedia
    split at e
    · rename_i sp name q hp
      cases e
      refine ⟨rfl, fun _ => hm (by rw [hmedia]; simp), ?_⟩
      intro m' hm' d hd p hp' ho
      cases hm'
      rcases List.mem_cons.1 hd with rfl | hd
      · refine ha (hm (by rw [hmedia]; simp)) ho name q ?_ p hp'
        unfold Node.customMedia? AtRule.customMedia?
        dsimp only
        rw [if_pos hn, hp]
      · exact hs media hmedia d hd p hp' ho
    · cases e; exact ⟨rfl, hm, hs⟩

/-- What holds of the state all along. -/
structure TSt.Still (o : TOpts) (s : TSt) : Prop where
  vars : s.vars = none
  media : s.media ≠ none → o.customMediaQueries = true
  rest : s.restful o

theorem TSt.Still.plus {o : TOpts} {s : TSt} (h : s.Still o) (reps : List Report) : (s.plus reps).Still o :=
  ⟨h.vars, h.media, h.rest⟩

theorem node_fixed {fo : FloatOps} {o : TOpts} {m : List (AtId × Stylesheet)} {k : Nat} : ∀ {n : Nat}, n ≤ k + 1 → ∀ {nd : Node}
    {s s' : TSt} {out : List Node}, s.Still o → (∀ x, Reach (some m) [nd] x → x.calm o) →
    transformNode fo o (some m) n nd s = .ok out s' → s'.Still o ∧ ∀ x ∈ out, x.Fixed fo o m (k + 1)
  | 0, _, nd, s, s', out, _, _, e => by cases nd <;> cases e
  | n + 1, hk, .rule r, s, s', out, hs, hr, e => by
    rw [transformNode] at e
    obtain ⟨⟨reps, rfl⟩, h⟩ := rule_fixed (m := m) hk hs.vars e
    exact ⟨hs.plus reps, h⟩
  | n + 1, hk, .at a, s, s', out, hs, hr, e => by
    rw [transformNode] at e
    have ih : ∀ (ns : List Node) (s s' : TSt) (out : List Node), s.Still o → (∀ x, Reach (some m) ns x → x.calm o) →
        mapConcat (transformNode fo o (some m) n) ns s = .ok out s' → s'.Still o ∧ ∀ x ∈ out, x.Fixed fo o m (k + 1) := by
      intro ns
      induction ns with
      | nil => intro s s' out hs _ e; cases e; exact ⟨hs, by simp⟩
      | cons x xs ih =>
        intro s s' out hs hr e
        obtain ⟨o1, s1, o2, e1, e2, rfl⟩ := mapConcat_cons_ok e
        obtain ⟨hs1, h1⟩ := node_fixed (k := k) (n := n) (by omega) hs (fun y hy => hr y (hy.mono fun z hz => by
          rw [List.mem_singleton.1 hz]; exact List.mem_cons_self ..)) e1
        obtain ⟨hs2, h2⟩ := ih s1 s' o2 hs1 (fun y hy => hr y (hy.mono fun z hz => List.mem_cons_of_mem _ hz)) e2
        refine ⟨hs2, fun y hy => ?_⟩
        rcases List.mem_append.1 hy with hy | hy
        · exact h1 y hy
        · exact h2 y hy
    unfold transformAt at e
    split at e
    · rename_i hi
      dsimp only at e
      cases hl : lookupImport m a.id with
      | none =>
        rw [hl] at e
        cases e
        refine ⟨hs, fun x hx => ?_⟩
        rw [List.mem_singleton.1 hx]
        intro t _ _
        refine ⟨[], ?_⟩
        rw [transformNode]
        unfold transformAt
        rw [if_pos hi]
        dsimp only
        rw [hl, TSt.plus_nil]
        rfl
      | some imported =>
        rw [hl] at e
        dsimp only at e
        obtain ⟨_, s1, e1, e2⟩ := tbind_ok e
        obtain ⟨reps, rfl⟩ := (steady_when (steady_report _ _ _)).adds _ _ _ e1
        exact ih imported.nodes _ s' out (hs.plus reps)
          (fun x hx => hr x (.inside (List.mem_singleton.2 rfl) hi rfl hl hx)) e2
    · rename_i hi
      split at e
      · rename_i hc
        obtain ⟨_, s1, e1, e2⟩ := tbind_ok e
        cases e2
        obtain ⟨h1, h2, h3⟩ := collectMedia_restful hc (hr _ (.here (List.mem_singleton.2 rfl))) hs.media hs.rest e1
        exact ⟨⟨h1.trans hs.vars, h2, h3⟩, by simp⟩
      · rename_i hc
        split at e
        · rename_i hm
          obtain ⟨src, sp, name, preludes, block⟩ := a
          dsimp only at e hi hc hm
          cases preludes with
          | nil => cases e
          | cons pr rest =>
            cases pr with
            | mql ol =>
              cases ol with
              | none => cases e
              | some l =>
                obtain ⟨qs, s1, e1, e2⟩ := tbind_ok e
                cases e2
                obtain ⟨⟨reps, rfl⟩, hq⟩ := mqs_rest hs.rest e1
                refine ⟨hs.plus reps, fun x hx => ?_⟩
                rw [List.mem_singleton.1 hx]
                intro t _ hb
                refine ⟨[], ?_⟩
                rw [transformNode]
                unfold transformAt
                dsimp only
                rw [if_neg hi, if_neg hc, if_pos hm, tbind_eq_ok (mqs_fixed hq hb), TSt.plus_nil]
                rfl
            | _ => cases e
        · rename_i hm
          cases e
          refine ⟨hs, fun x hx => ?_⟩
          rw [List.mem_singleton.1 hx]
          intro t _ _
          refine ⟨[], ?_⟩
          rw [transformNode]
          unfold transformAt
          rw [if_neg hi, if_neg hc, if_neg hm, TSt.plus_nil]
          rfl

theorem nodes_come_fixed {fo : FloatOps} {o : TOpts} {m : List (AtId × Stylesheet)} {n k : Nat} (hk : n ≤ k + 1) :
    ∀ {ns out : List Node} {s s' : TSt}, s.Still o → (∀ x, Reach (some m) ns x → x.calm o) →
    transformNodes fo o (some m) n ns s = .ok out s' → s'.Still o ∧ ∀ x ∈ out, x.Fixed fo o m (k + 1)
  | [], out, s, s', hs, _, e => by cases e; exact ⟨hs, by simp⟩
  | x :: xs, out, s, s', hs, hr, e => by
    obtain ⟨o1, s1, o2, e1, e2, rfl⟩ := mapConcat_cons_ok e
    obtain ⟨hs1, h1⟩ := node_fixed hk hs (fun y hy => hr y (hy.mono fun z hz => by
      rw [List.mem_singleton.1 hz]; exact List.mem_cons_self ..)) e1
    obtain ⟨hs2, h2⟩ := nodes_come_fixed hk hs1 (fun y hy => hr y (hy.mono fun z hz => List.mem_cons_of_mem _ hz)) e2
    refine ⟨hs2, fun y hy => ?_⟩
    rcases List.mem_append.1 hy with hy | hy
    · exact h1 y hy
    · exact h2 y hy

/-- **C74, partial**: transforming what has been transformed, with the same options and replacements and at least
the same fuel, returns it unchanged, if there is a map of replacements, custom properties are not substituted, and,
should both custom media queries and ranges be transformed, no custom media query in the stylesheet or its imports
contains a range.  Missing from the full statement: these three conditions (`transform_again_refuted`). -/
theorem transform_again_partial {fo : FloatOps} {o : TOpts} {m : List (AtId × Stylesheet)} {n k : Nat} (hk : n ≤ k)
    {ss ss' : Stylesheet} {s : TSt} (hv : o.customProperties = false)
    (hr : ∀ nd, Reach (some m) ss.nodes nd → nd.calm o) (e : transform fo o (some m) n ss = .ok ss' s) :
    ∃ s2, transform fo o (some m) k ss' = .ok ss' s2 := by
  have hi : (TSt.init o (some m)).vars = none := by simp [TSt.init, hv]
  have hm : (TSt.init o (some m)).bare := by
    unfold TSt.bare TSt.init
    dsimp only
    split
    · exact .inr rfl
    · exact .inl rfl
  have still : (TSt.init o (some m)).Still o := by
    refine ⟨hi, ?_, ?_⟩
    · unfold TSt.init
      dsimp only
      split
      · exact fun _ => ‹_›
      · exact fun h => absurd rfl h
    · intro md hmd
      rcases hm with h | h
      · rw [h] at hmd; cases hmd
      · rw [h] at hmd; cases hmd; intro d hd; cases hd
  unfold transform at e
  cases e1 : transformNodes fo o (some m) n ss.nodes (TSt.init o (some m)) with
  | crash => rw [e1] at e; cases e
  | timeout => rw [e1] at e; cases e
  | ok nodes s1 =>
    rw [e1] at e
    cases e
    cases n with
    | zero =>
      cases hn : ss.nodes with
      | nil =>
        rw [hn] at e1
        cases e1
        exact ⟨_, rfl⟩
      | cons x xs =>
        rw [hn] at e1
        obtain ⟨o1, s2, o2, e2, _, _⟩ := mapConcat_cons_ok e1
        cases x <;> cases e2
    | succ n =>
      obtain ⟨k, rfl⟩ : ∃ j, k = j + 1 := ⟨k - 1, by omega⟩
      have fixed := (nodes_come_fixed (k := k) hk still hr e1).2
      obtain ⟨reps, h⟩ := nodes_fixed fixed (TSt.init o (some m)) hi hm
      exact ⟨_, by unfold transform; dsimp only; rw [h]⟩

/-- What is printed after transforming once, and after transforming twice. -/
def twice (o : TOpts) (repl : Replacements) (src : Bytes) : Option (PrintRes × PrintRes) :=
  match (parse 80 src).sheet? with
  | none => none
  | some x =>
    match transform unaryOps o repl 30 x.1 with
    | .ok ss _ =>
      match transform unaryOps o repl 30 ss with
      | .ok ss' _ => some (print none ss, print none ss')
      | _ => none
    | _ => none

/-- **C74, refuted as stated**.  Without a map of replacements every import is doubled again; a custom media query
is substituted without lowering its ranges, which the second transform lowers; a variable whose definition or
fallback is itself a `var()` is substituted one step at a time; a definition that is a `calc()` is only reduced the
second time; and a definition that could not be used is gone the second time, so that the fallback is. -/
theorem transform_again_refuted :
    twice .default none b!"@import \"a\";" = some (.ok b!"@import \"a\";@import \"a\";",
      .ok b!"@import \"a\";@import \"a\";@import \"a\";@import \"a\";") ∧
    twice { TOpts.default with customMediaQueries := true, mediaFeatureRanges := true } (some [])
      b!"@custom-media --a (width>=11px);@media (--a){}" =
      some (.ok b!"@media (width>=11px){}", .ok b!"@media (min-width:11px){}") ∧
    twice { TOpts.default with customProperties := true } (some []) b!"a{b:var(--x,var(--y,1));}" =
      some (.ok b!"a{b:var(--y,1)}", .ok b!"a{b:1}") ∧
    twice { TOpts.default with customProperties := true, calcReduction := true } (some []) b!"a{b:var(--x,calc(1 + 1));}" =
      some (.ok b!"a{b:calc(1+1)}", .ok b!"a{b:11}") ∧
    twice { TOpts.default with customProperties := true, calcReduction := true } (some [])
      b!":root a{--x:1em;}a{b:calc(var(--x,1px) + 1px);}" =
      some (.ok b!"a{b:calc(var(--x,1px)+1px)}", .ok b!"a{b:11px}") := by decide +kernel

/-- No custom media query has a range. -/
def noRangeDefs (ns : List Node) : Bool := ns.all fun nd =>
  match nd.customMedia? with
  | some (_, q) => q.parts.all fun p => !p.isRange
  | none => true

theorem noRangeDefs_calm {o : TOpts} {ns : List Node} (h : noRangeDefs ns = true) : ∀ nd, Reach (some []) ns nd → nd.calm o := by
  rintro nd hn _ _ name q hq p hp
  cases hn with
  | here hn =>
    have := List.all_eq_true.1 h nd hn
    rw [hq] at this
    simpa using List.all_eq_true.1 this p hp
  | inside _ _ h1 h2 _ => cases h1; cases h2

/-- A stylesheet for all the options of the theorem. -/
def againSrc : Bytes :=
  b!"@custom-media --a (min-width:1px);@media (--a){}@media (width>=11px){}:any-link{b:calc(1px + 1px) calc(1px + 1em);}"

def againOpts : TOpts :=
  { TOpts.default with customMediaQueries := true, mediaFeatureRanges := true, anyLink := true, calcReduction := true }

/-- It meets the hypotheses. -/
example : againOpts.customProperties = false ∧
    ∃ x ss' s, (parse 80 againSrc).sheet? = some x ∧ (∀ nd, Reach (some []) x.1.nodes nd → nd.calm againOpts) ∧
      transform unaryOps againOpts (some []) 30 x.1 = .ok ss' s := by
  refine ⟨rfl, ?_⟩
  have h1 : ((parse 80 againSrc).sheet?.map fun x => noRangeDefs x.1.nodes) = some true := by decide +kernel
  have h2 : ((parse 80 againSrc).sheet?.map fun x => (transform unaryOps againOpts (some []) 30 x.1).out?.isSome) = some true := by
    decide +kernel
  cases hx : (parse 80 againSrc).sheet? with
  | none => rw [hx] at h1; cases h1
  | some x =>
    rw [hx] at h1 h2
    have h1' : noRangeDefs x.1.nodes = true := by simpa using h1
    have h2' : (transform unaryOps againOpts (some []) 30 x.1).out?.isSome = true := by simpa using h2
    obtain ⟨ss', hs⟩ := Option.isSome_iff_exists.1 h2'
    obtain ⟨s, hs⟩ := out?_some hs
    exact ⟨x, ss', s, rfl, noRangeDefs_calm h1', hs⟩

/-- The first transform changes it, the second does not. -/
example : twice againOpts (some []) againSrc =
    some (.ok b!"@media (min-width:1px){}@media (min-width:11px){}:visited,:link{b:11px calc(1px+1em)}",
      .ok b!"@media (min-width:1px){}@media (min-width:11px){}:visited,:link{b:11px calc(1px+1em)}") := by decide +kernel

end Cssc
