import Verif.Transformer

/-!
# Proof rules for the transformer monad, and frames

`tw cr m Q s`: started in `s`, `m` does not panic (unless `cr`), and what it returns satisfies `Q`.
-/

namespace Cssc

/-- Partial correctness; a panic is allowed if `cr`. -/
def tw (cr : Prop) (m : T α) (Q : α → TSt → Prop) (s : TSt) : Prop :=
  match m s with
  | .ok a s' => Q a s'
  | .crash => cr
  | .timeout => True

theorem tw_pure {cr : Prop} {a : α} {Q : α → TSt → Prop} {s : TSt} (h : Q a s) : tw cr (pure a) Q s := h

theorem tw_bind {cr : Prop} {m : T α} {f : α → T β} {Q : β → TSt → Prop} {s : TSt}
    (h : tw cr m (fun a s' => tw cr (f a) Q s') s) : tw cr (m >>= f) Q s := by
  show tw cr (T.bind m f) Q s
  unfold tw T.bind at *
  revert h
  cases m s with
  | ok a s' => exact fun h => h
  | crash => exact fun h => h
  | timeout => exact fun _ => trivial

theorem tw_mono {cr : Prop} {m : T α} {Q R : α → TSt → Prop} {s : TSt} (h : tw cr m Q s)
    (hqr : ∀ a s', Q a s' → R a s') : tw cr m R s := by
  unfold tw at *
  revert h
  cases m s with
  | ok a s' => exact hqr a s'
  | crash => exact fun h => h
  | timeout => exact fun h => h

theorem tw_seq {cr : Prop} {m : T α} {f : α → T β} {R : α → TSt → Prop} {Q : β → TSt → Prop} {s : TSt}
    (hm : tw cr m R s) (h : ∀ a s', R a s' → tw cr (f a) Q s') : tw cr (m >>= f) Q s := tw_bind (tw_mono hm h)

theorem tw_crash {cr : Prop} {Q : α → TSt → Prop} {s : TSt} (h : cr) : tw cr T.crash Q s := h

theorem tw_ok {cr : Prop} {m : T α} {Q : α → TSt → Prop} {s s' : TSt} {a : α} (h : tw cr m Q s) (e : m s = .ok a s') :
    Q a s' := by
  unfold tw at h
  rw [e] at h
  exact h

theorem tbind_ok {m : T α} {f : α → T β} {s s' : TSt} {b : β} (h : (m >>= f) s = .ok b s') :
    ∃ a s1, m s = .ok a s1 ∧ f a s1 = .ok b s' := by
  replace h : T.bind m f s = .ok b s' := h
  unfold T.bind at h
  revert h
  cases hm : m s with
  | ok a s1 => exact fun h => ⟨a, s1, rfl, h⟩
  | crash => exact fun h => by cases h
  | timeout => exact fun h => by cases h

theorem tbind_eq_ok {m : T α} {f : α → T β} {s s1 : TSt} {a : α} (h : m s = .ok a s1) : (m >>= f) s = f a s1 := by
  show T.bind m f s = _
  unfold T.bind
  rw [h]

theorem tpure_ok {a b : α} {s s' : TSt} (h : (pure a : T α) s = .ok b s') : a = b ∧ s = s' := by
  replace h : TRes.ok a s = .ok b s' := h
  cases h
  exact ⟨rfl, rfl⟩

/-! ### Lists -/

theorem mapConcat_cons_ok {f : α → T (List β)} {x : α} {xs : List α} {s s' : TSt} {out : List β}
    (h : mapConcat f (x :: xs) s = .ok out s') :
    ∃ o1 s1 o2, f x s = .ok o1 s1 ∧ mapConcat f xs s1 = .ok o2 s' ∧ out = o1 ++ o2 := by
  rw [mapConcat] at h
  obtain ⟨o1, s1, h1, h⟩ := tbind_ok h
  obtain ⟨o2, s2, h2, h⟩ := tbind_ok h
  obtain ⟨rfl, rfl⟩ := tpure_ok h
  exact ⟨o1, s1, o2, h1, h2, rfl⟩

theorem mapConcat_cons_eq {f : α → T (List β)} {x : α} {xs : List α} {s s1 s' : TSt} {o1 o2 : List β}
    (h1 : f x s = .ok o1 s1) (h2 : mapConcat f xs s1 = .ok o2 s') : mapConcat f (x :: xs) s = .ok (o1 ++ o2) s' := by
  rw [mapConcat, tbind_eq_ok h1, tbind_eq_ok h2]
  rfl

theorem mapConcat_append_ok {f : α → T (List β)} : ∀ {xs ys : List α} {s s' : TSt} {out : List β},
    mapConcat f (xs ++ ys) s = .ok out s' →
    ∃ o1 s1 o2, mapConcat f xs s = .ok o1 s1 ∧ mapConcat f ys s1 = .ok o2 s' ∧ out = o1 ++ o2
  | [], ys, s, s', out, h => ⟨[], s, out, rfl, h, rfl⟩
  | x :: xs, ys, s, s', out, h => by
    obtain ⟨o1, s1, o2, h1, h2, rfl⟩ := mapConcat_cons_ok (show mapConcat f (x :: (xs ++ ys)) s = _ from h)
    obtain ⟨o3, s2, o4, h3, h4, rfl⟩ := mapConcat_append_ok h2
    exact ⟨o1 ++ o3, s2, o4, mapConcat_cons_eq h1 h3, h4, by rw [List.append_assoc]⟩

theorem mapConcat_append_eq {f : α → T (List β)} : ∀ {xs ys : List α} {s s1 s' : TSt} {o1 o2 : List β},
    mapConcat f xs s = .ok o1 s1 → mapConcat f ys s1 = .ok o2 s' → mapConcat f (xs ++ ys) s = .ok (o1 ++ o2) s'
  | [], ys, s, s1, s', o1, o2, h1, h2 => by
    obtain ⟨rfl, rfl⟩ := tpure_ok h1
    exact h2
  | x :: xs, ys, s, s1, s', o1, o2, h1, h2 => by
    obtain ⟨a, t, b, h3, h4, rfl⟩ := mapConcat_cons_ok h1
    rw [List.append_assoc]
    exact mapConcat_cons_eq h3 (mapConcat_append_eq h4 h2)

/-- Split at one element. -/
theorem mapConcat_split {f : α → T (List β)} {xs ys : List α} {x : α} {s s' : TSt} {out : List β}
    (h : mapConcat f (xs ++ x :: ys) s = .ok out s') :
    ∃ o1 s1 o2 s2 o3, mapConcat f xs s = .ok o1 s1 ∧ f x s1 = .ok o2 s2 ∧ mapConcat f ys s2 = .ok o3 s' ∧
      out = o1 ++ o2 ++ o3 := by
  obtain ⟨o1, s1, o2, h1, h2, rfl⟩ := mapConcat_append_ok h
  obtain ⟨o3, s2, o4, h3, h4, rfl⟩ := mapConcat_cons_ok h2
  exact ⟨o1, s1, o3, s2, o4, h1, h3, h4, by rw [List.append_assoc]⟩

theorem mapConcat_map {f : α → T (List β)} {g : α → List β} : ∀ {xs : List α} {s : TSt},
    (∀ x ∈ xs, f x s = .ok (g x) s) → mapConcat f xs s = .ok (xs.flatMap g) s
  | [], _, _ => rfl
  | x :: xs, s, h => by
    rw [mapConcat_cons_eq (h x (List.mem_cons_self ..)) (mapConcat_map fun y hy => h y (List.mem_cons_of_mem _ hy))]
    rfl

/-- An invariant of the state through a list. -/
theorem tw_mapConcat {cr : Prop} {f : α → T (List β)} {I : TSt → Prop} {P : β → Prop} : ∀ {xs : List α} {s : TSt},
    I s → (∀ x ∈ xs, ∀ s, I s → tw cr (f x) (fun ys s' => I s' ∧ ∀ y ∈ ys, P y) s) →
    tw cr (mapConcat f xs) (fun ys s' => I s' ∧ ∀ y ∈ ys, P y) s
  | [], s, hs, _ => tw_pure ⟨hs, by simp⟩
  | x :: xs, s, hs, h => by
    rw [mapConcat]
    refine tw_seq (h x (List.mem_cons_self ..) s hs) fun a s1 ha => ?_
    refine tw_seq (tw_mapConcat ha.1 fun y hy => h y (List.mem_cons_of_mem _ hy)) fun b s2 hb => ?_
    refine tw_pure ⟨hb.1, fun y hy => ?_⟩
    rw [List.mem_append] at hy
    exact hy.elim (ha.2 y) (hb.2 y)

/-! ### Frames -/

/-- Everything but the log is unchanged, and the log has only grown. -/
structure Framed (s s' : TSt) : Prop where
  vars : s'.vars = s.vars
  media : s'.media = s.media
  log : s.log <+: s'.log

theorem Framed.refl (s : TSt) : Framed s s := ⟨rfl, rfl, List.prefix_refl _⟩

theorem Framed.trans {s t u : TSt} (h : Framed s t) (k : Framed t u) : Framed s u :=
  ⟨k.vars.trans h.vars, k.media.trans h.media, h.log.trans k.log⟩

/-- A computation that only reports. -/
structure LogOnly (m : T α) : Prop where
  run : ∀ s, tw True m (fun _ s' => Framed s s') s

theorem LogOnly.pure (a : α) : LogOnly (Pure.pure a : T α) := ⟨fun s => Framed.refl s⟩

theorem LogOnly.bind {m : T α} {f : α → T β} (hm : LogOnly m) (hf : ∀ a, LogOnly (f a)) : LogOnly (m >>= f) := ⟨fun s =>
  tw_seq (hm.run s) fun a s1 h => tw_mono ((hf a).run s1) fun _ _ k => h.trans k⟩

theorem LogOnly.crash : LogOnly (T.crash : T α) := ⟨fun _ => trivial⟩

theorem LogOnly.report (w : Bool) (sp : Option Span) (msg : String) : LogOnly (report w sp msg) := ⟨fun _ =>
  ⟨rfl, rfl, List.prefix_append ..⟩⟩

theorem LogOnly.get : LogOnly T.get := ⟨fun s => Framed.refl s⟩

theorem LogOnly.ite {c : Prop} [Decidable c] {a b : T α} (ha : LogOnly a) (hb : LogOnly b) :
    LogOnly (if c then a else b) := by split <;> assumption

theorem LogOnly.whenT {c : Prop} [Decidable c] {m : T Unit} (h : LogOnly m) : LogOnly (whenT c m) :=
  .ite h (.pure _)

theorem LogOnly.addErrorV (v : Value) (msg : String) : LogOnly (addErrorV v msg) := by
  unfold Cssc.addErrorV
  split
  · exact .crash
  · exact .report ..

theorem LogOnly.addWarnV (v : Value) (msg : String) : LogOnly (addWarnV v msg) := by
  unfold Cssc.addWarnV
  split
  · exact .crash
  · exact .report ..

theorem LogOnly.mapConcat {f : α → T (List β)} : ∀ {xs : List α}, (∀ x ∈ xs, LogOnly (f x)) → LogOnly (mapConcat f xs)
  | [], _ => .pure _
  | x :: xs, h => by
    rw [Cssc.mapConcat]
    exact .bind (h x (List.mem_cons_self ..)) fun _ =>
      .bind (LogOnly.mapConcat fun y hy => h y (List.mem_cons_of_mem _ hy)) fun _ => .pure _

theorem LogOnly.ok {m : T α} (h : LogOnly m) {s s' : TSt} {a : α} (e : m s = .ok a s') : Framed s s' :=
  tw_ok (Q := fun _ s' => Framed s s') (h.run s) e

theorem LogOnly.mathResult (fo : FloatOps) (l : Value) (a b op u : Bytes) : LogOnly (mathResult fo l a b op u) := by
  unfold Cssc.mathResult
  split
  · exact .bind (.addErrorV ..) fun _ => .pure _
  · exact .pure _

theorem LogOnly.applyOp (fo : FloatOps) (op : Bytes) (l r : Value) : LogOnly (applyOp fo op l r) := by
  unfold Cssc.applyOp
  split
  · split
    · split
      · split
        · exact .bind (.whenT (.report ..)) fun _ => .bind (.whenT (.report ..)) fun _ => .pure _
        · exact .mathResult ..
      · exact .pure _
    · exact .bind (.addErrorV ..) fun _ => .pure _
  · split
    · split
      · split
        · exact .bind (.addErrorV ..) fun _ => .pure _
        · split
          · exact .mathResult ..
          · exact .mathResult ..
      · exact .pure _
    · split
      · split
        · split
          · exact .mathResult ..
          · exact .bind (.addErrorV ..) fun _ => .pure _
        · exact .bind (.addErrorV ..) fun _ => .pure _
      · exact .bind (.addErrorV ..) fun _ => .pure _

theorem LogOnly.evalOperand (fo : FloatOps) : ∀ (v : Value), LogOnly (evalOperand fo v)
  | .math sp op l r => by
    rw [Cssc.evalOperand]
    refine .bind (LogOnly.evalOperand fo l) fun _ => .bind (LogOnly.evalOperand fo r) fun _ =>
      .bind (.applyOp ..) fun _ => ?_
    split <;> exact .pure _
  | .nil => .pure _
  | .str .. => .pure _
  | .dim .. => .pure _
  | .ident .. => .pure _
  | .hex .. => .pure _
  | .brackets .. => .pure _
  | .func .. => .pure _
  | .paren .. => .pure _
  | .raw .. => .pure _
  | .comma .. => .pure _

theorem LogOnly.evaluateMath (fo : FloatOps) (l r : Value) (op : Bytes) : LogOnly (evaluateMathExpression fo l r op) :=
  .bind (.evalOperand fo l) fun _ => .bind (.evalOperand fo r) fun _ => .applyOp ..

theorem LogOnly.substVar (v : Value) (name : Bytes) (args : List Value) : LogOnly (substVar v name args) := by
  unfold Cssc.substVar
  refine .ite (.pure _) (.bind .get fun s => ?_)
  split
  · exact .pure _
  · split
    · exact .bind (.addErrorV ..) fun _ => .pure _
    · split
      · exact .pure _
      · split
        · exact .pure _
        · exact .bind (.addWarnV ..) fun _ => .pure _
    · exact .bind (.addErrorV ..) fun _ => .pure _

theorem LogOnly.reduceCalc {fo : FloatOps} {o : TOpts} {rec : List Value → T (List Value)} {v : Value} {name : Bytes}
    {args cur : List Value} (h : ∀ vs, LogOnly (rec vs)) : LogOnly (reduceCalc fo o rec v name args cur) := by
  unfold Cssc.reduceCalc
  refine .ite (.pure _) (.ite (.pure _) ?_)
  split
  · refine .bind (h _) fun _ => ?_
    split
    · refine .bind (h _) fun _ => .bind (h _) fun _ => ?_
      split
      · split
        · refine .bind (.evaluateMath ..) fun _ => ?_
          split <;> exact .pure _
        · exact .bind (.addWarnV ..) fun _ => .pure _
      · exact .bind (.addWarnV ..) fun _ => .pure _
    · exact .pure _
    · exact .bind (.addWarnV ..) fun _ => .pure _
  · exact .bind (.addWarnV ..) fun _ => .pure _

theorem LogOnly.timeout : LogOnly (T.timeout : T α) := ⟨fun _ => trivial⟩

theorem LogOnly.transformValue (fo : FloatOps) (o : TOpts) : ∀ (n : Nat) (v : Value), LogOnly (transformValue fo o n v)
  | 0, _ => .timeout
  | n + 1, v => by
    cases v with
    | func sp name args =>
      rw [Cssc.transformValue]
      exact .bind (.substVar ..) fun _ => .reduceCalc fun vs =>
        .mapConcat fun x _ => LogOnly.transformValue fo o n x
    | _ => exact .pure _

theorem LogOnly.transformValues (fo : FloatOps) (o : TOpts) (n : Nat) (vs : List Value) :
    LogOnly (transformValues fo o n vs) := .mapConcat fun v _ => .transformValue fo o n v

theorem LogOnly.transformDeclarations (fo : FloatOps) (o : TOpts) (n : Nat) (ds : List Decl) :
    LogOnly (transformDeclarations fo o n ds) := .mapConcat fun d _ => by
  unfold transformDecl
  split
  · exact .bind (.transformValues ..) fun _ => .pure _
  · exact .pure _

theorem LogOnly.addToValue (fo : FloatOps) (v : Value) (d : Option fo.F) : LogOnly (addToValue fo v d) := by
  unfold Cssc.addToValue
  split
  · exact .pure _
  · split
    · split
      · exact .bind (.addErrorV ..) fun _ => .pure _
      · exact .pure _
    · exact .bind (.addErrorV ..) fun _ => .pure _

theorem LogOnly.range (fo : FloatOps) (o : TOpts) (p : MQPart) (prop : Bytes) (l : Value) (op : Bytes) (r : Value) :
    LogOnly (transformMediaFeatureRange fo o p prop l op r) := by
  have hp : ∀ d prop v, LogOnly (rangePart fo d prop v) := fun d prop v => .bind (.addToValue ..) fun _ => .pure _
  unfold transformMediaFeatureRange
  refine .ite (.pure _) (.bind (.ite (.pure _) (.bind (hp ..) fun _ => .pure _)) fun _ =>
    .bind (.ite (.pure _) (.bind (hp ..) fun _ => .pure _)) fun _ => .pure _)

theorem LogOnly.transformMQPart (fo : FloatOps) (o : TOpts) (p : MQPart) : LogOnly (transformMQPart fo o p) := by
  unfold Cssc.transformMQPart
  split
  · refine .ite (.pure _) (.bind .get fun s => ?_)
    split
    · exact .pure _
    · split <;> exact .pure _
  · exact .range ..
  · exact .pure _

theorem LogOnly.transformMediaQueries (fo : FloatOps) (o : TOpts) (qs : List MQ) :
    LogOnly (transformMediaQueries fo o qs) := .mapConcat fun _ _ =>
  .bind (.mapConcat fun _ _ => .transformMQPart ..) fun _ => .pure _

end Cssc
