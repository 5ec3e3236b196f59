import Verif.Proofs.Transform

/-!
# The transformer does not read its log

What a transformer method returns, and what it reports, does not depend on what has been reported before.
-/

namespace Cssc

/-- The result, the maps and the new reports do not depend on the log. -/
structure LogIrr (m : T α) : Prop where
  run : ∀ s a s', m s = .ok a s' → ∃ d, s'.log = s.log ++ d ∧ ∀ l, m { s with log := l } = .ok a { s' with log := l ++ d }

theorem LogIrr.pure (a : α) : LogIrr (Pure.pure a : T α) := ⟨fun s b s' h => by
  obtain ⟨rfl, rfl⟩ := tpure_ok h
  exact ⟨[], by simp, fun l => by rw [List.append_nil]; rfl⟩⟩

theorem LogIrr.bind {m : T α} {f : α → T β} (hm : LogIrr m) (hf : ∀ a, LogIrr (f a)) : LogIrr (m >>= f) :=
  ⟨fun s b s' h => by
  obtain ⟨a, s1, h1, h2⟩ := tbind_ok h
  obtain ⟨d1, e1, k1⟩ := hm.run _ _ _ h1
  obtain ⟨d2, e2, k2⟩ := (hf a).run _ _ _ h2
  refine ⟨d1 ++ d2, by rw [e2, e1, List.append_assoc], fun l => ?_⟩
  rw [tbind_eq_ok (k1 l), k2, List.append_assoc]⟩

theorem LogIrr.crash : LogIrr (T.crash : T α) := ⟨fun _ _ _ h => by cases h⟩

theorem LogIrr.timeout : LogIrr (T.timeout : T α) := ⟨fun _ _ _ h => by cases h⟩

theorem LogIrr.report (w : Bool) (sp : Option Span) (msg : String) : LogIrr (report w sp msg) := ⟨fun s _ _ h => by
  cases h
  exact ⟨[⟨w, sp, msg⟩], rfl, fun l => rfl⟩⟩

theorem LogIrr.getBind {k : TSt → T α} (h : ∀ s, LogIrr (k s)) (hk : ∀ s l, k { s with log := l } = k s) :
    LogIrr (T.get >>= k) := ⟨fun s a s' e => by
  rw [tbind_eq_ok (show T.get s = .ok s s from rfl)] at e
  obtain ⟨d, e1, e2⟩ := (h s).run _ _ _ e
  refine ⟨d, e1, fun l => ?_⟩
  rw [tbind_eq_ok (show T.get { s with log := l } = .ok { s with log := l } { s with log := l } from rfl), hk]
  exact e2 l⟩

theorem LogIrr.ite {c : Prop} [Decidable c] {a b : T α} (ha : LogIrr a) (hb : LogIrr b) :
    LogIrr (if c then a else b) := by split <;> assumption

theorem LogIrr.whenT {c : Prop} [Decidable c] {m : T Unit} (h : LogIrr m) : LogIrr (whenT c m) :=
  .ite h (.pure _)

theorem LogIrr.addErrorV (v : Value) (msg : String) : LogIrr (addErrorV v msg) := by
  unfold Cssc.addErrorV
  split
  · exact .crash
  · exact .report ..

theorem LogIrr.addWarnV (v : Value) (msg : String) : LogIrr (addWarnV v msg) := by
  unfold Cssc.addWarnV
  split
  · exact .crash
  · exact .report ..

theorem LogIrr.mapConcat {f : α → T (List β)} : ∀ {xs : List α}, (∀ x ∈ xs, LogIrr (f x)) → LogIrr (mapConcat f xs)
  | [], _ => .pure _
  | x :: xs, h => by
    rw [Cssc.mapConcat]
    exact .bind (h x (List.mem_cons_self ..)) fun _ =>
      .bind (LogIrr.mapConcat fun y hy => h y (List.mem_cons_of_mem _ hy)) fun _ => .pure _

theorem LogIrr.mathResult (fo : FloatOps) (l : Value) (a b op u : Bytes) : LogIrr (mathResult fo l a b op u) := by
  unfold Cssc.mathResult
  split
  · exact .bind (.addErrorV ..) fun _ => .pure _
  · exact .pure _

theorem LogIrr.applyOp (fo : FloatOps) (op : Bytes) (l r : Value) : LogIrr (applyOp fo op l r) := by
  unfold Cssc.applyOp
  split
  · split
    · split
      · split
        · exact .bind (.whenT (.report ..)) fun _ => .bind (.whenT (.report ..)) fun _ => .pure _
        · exact .mathResult ..
      · exact .pure _
    · exact .bind (.addErrorV ..) fun _ => .pure _
  · split
    · split
      · split
        · exact .bind (.addErrorV ..) fun _ => .pure _
        · split
          · exact .mathResult ..
          · exact .mathResult ..
      · exact .pure _
    · split
      · split
        · split
          · exact .mathResult ..
          · exact .bind (.addErrorV ..) fun _ => .pure _
        · exact .bind (.addErrorV ..) fun _ => .pure _
      · exact .bind (.addErrorV ..) fun _ => .pure _

theorem LogIrr.evalOperand (fo : FloatOps) : ∀ (v : Value), LogIrr (evalOperand fo v)
  | .math sp op l r => by
    rw [Cssc.evalOperand]
    refine .bind (LogIrr.evalOperand fo l) fun _ => .bind (LogIrr.evalOperand fo r) fun _ =>
      .bind (.applyOp ..) fun _ => ?_
    split <;> exact .pure _
  | .nil => .pure _
  | .str .. => .pure _
  | .dim .. => .pure _
  | .ident .. => .pure _
  | .hex .. => .pure _
  | .brackets .. => .pure _
  | .func .. => .pure _
  | .paren .. => .pure _
  | .raw .. => .pure _
  | .comma .. => .pure _

theorem LogIrr.evaluateMath (fo : FloatOps) (l r : Value) (op : Bytes) : LogIrr (evaluateMathExpression fo l r op) :=
  .bind (.evalOperand fo l) fun _ => .bind (.evalOperand fo r) fun _ => .applyOp ..

theorem LogIrr.substVar (v : Value) (name : Bytes) (args : List Value) : LogIrr (substVar v name args) := by
  unfold Cssc.substVar
  refine .ite (.pure _) (.getBind (fun s => ?_) fun _ _ => rfl)
  split
  · exact .pure _
  · split
    · exact .bind (.addErrorV ..) fun _ => .pure _
    · split
      · exact .pure _
      · split
        · exact .pure _
        · exact .bind (.addWarnV ..) fun _ => .pure _
    · exact .bind (.addErrorV ..) fun _ => .pure _

theorem LogIrr.reduceCalc {fo : FloatOps} {o : TOpts} {rec : List Value → T (List Value)} {v : Value} {name : Bytes}
    {args cur : List Value} (h : ∀ vs, LogIrr (rec vs)) : LogIrr (reduceCalc fo o rec v name args cur) := by
  unfold Cssc.reduceCalc
  refine .ite (.pure _) (.ite (.pure _) ?_)
  split
  · refine .bind (h _) fun _ => ?_
    split
    · refine .bind (h _) fun _ => .bind (h _) fun _ => ?_
      split
      · split
        · refine .bind (.evaluateMath ..) fun _ => ?_
          split <;> exact .pure _
        · exact .bind (.addWarnV ..) fun _ => .pure _
      · exact .bind (.addWarnV ..) fun _ => .pure _
    · exact .pure _
    · exact .bind (.addWarnV ..) fun _ => .pure _
  · exact .bind (.addWarnV ..) fun _ => .pure _

theorem LogIrr.transformValue (fo : FloatOps) (o : TOpts) : ∀ (n : Nat) (v : Value), LogIrr (transformValue fo o n v)
  | 0, _ => .timeout
  | n + 1, v => by
    cases v with
    | func sp name args =>
      rw [Cssc.transformValue]
      exact .bind (.substVar ..) fun _ => .reduceCalc fun vs =>
        .mapConcat fun x _ => LogIrr.transformValue fo o n x
    | _ => exact .pure _

theorem LogIrr.transformValues (fo : FloatOps) (o : TOpts) (n : Nat) (vs : List Value) :
    LogIrr (transformValues fo o n vs) := .mapConcat fun v _ => .transformValue fo o n v

theorem LogIrr.transformDeclarations (fo : FloatOps) (o : TOpts) (n : Nat) (ds : List Decl) :
    LogIrr (transformDeclarations fo o n ds) := .mapConcat fun d _ => by
  unfold transformDecl
  split
  · exact .bind (.transformValues ..) fun _ => .pure _
  · exact .pure _

theorem LogIrr.addToValue (fo : FloatOps) (v : Value) (d : Option fo.F) : LogIrr (addToValue fo v d) := by
  unfold Cssc.addToValue
  split
  · exact .pure _
  · split
    · split
      · exact .bind (.addErrorV ..) fun _ => .pure _
      · exact .pure _
    · exact .bind (.addErrorV ..) fun _ => .pure _

theorem LogIrr.range (fo : FloatOps) (o : TOpts) (p : MQPart) (prop : Bytes) (l : Value) (op : Bytes) (r : Value) :
    LogIrr (transformMediaFeatureRange fo o p prop l op r) := by
  have hp : ∀ d prop v, LogIrr (rangePart fo d prop v) := fun d prop v => .bind (.addToValue ..) fun _ => .pure _
  unfold transformMediaFeatureRange
  refine .ite (.pure _) (.bind (.ite (.pure _) (.bind (hp ..) fun _ => .pure _)) fun _ =>
    .bind (.ite (.pure _) (.bind (hp ..) fun _ => .pure _)) fun _ => .pure _)

theorem LogIrr.transformMQPart (fo : FloatOps) (o : TOpts) (p : MQPart) : LogIrr (transformMQPart fo o p) := by
  unfold Cssc.transformMQPart
  split
  · refine .ite (.pure _) (.getBind (fun s => ?_) fun _ _ => rfl)
    split
    · exact .pure _
    · split <;> exact .pure _
  · exact .range ..
  · exact .pure _

theorem LogIrr.transformMediaQueries (fo : FloatOps) (o : TOpts) (qs : List MQ) :
    LogIrr (transformMediaQueries fo o qs) := .mapConcat fun _ _ =>
  .bind (.mapConcat fun _ _ => .transformMQPart ..) fun _ => .pure _

theorem LogIrr.collectVars : ∀ (ds : List Decl), LogIrr (collectVars ds)
  | [] => .pure _
  | .raw sp v :: ds => by
    rw [Cssc.collectVars]
    exact .bind (LogIrr.collectVars ds) fun _ => .pure _
  | .decl sp prop vals imp :: ds => by
    rw [Cssc.collectVars]
    have ih := LogIrr.collectVars ds
    have keep : LogIrr (Cssc.collectVars ds >>= fun rest => Pure.pure (.decl sp prop vals imp :: rest)) :=
      .bind ih fun _ => .pure _
    split
    · refine ⟨fun s a s' h => ?_⟩
      obtain ⟨_ | vars, media, log⟩ := s <;> dsimp only at h ⊢
      · exact keep.run _ _ _ h
      · exact ih.run _ _ _ h
    · exact ⟨fun s a s' h => keep.run _ _ _ h⟩

theorem LogIrr.collectMedia (ps : List AtPrelude) : LogIrr (collectMedia ps) := ⟨fun s a s' h => by
  unfold Cssc.collectMedia at h ⊢
  obtain ⟨vars, _ | media, log⟩ := s <;> dsimp only at h ⊢
  · cases h
    exact ⟨[], by simp, fun l => by simp⟩
  · split at h
    · cases h
      exact ⟨[], by simp, fun l => by simp⟩
    · cases h
      exact ⟨[], by simp, fun l => by simp⟩⟩

theorem LogIrr.transformRule (fo : FloatOps) (o : TOpts) (n : Nat) (r : QRule) : LogIrr (transformRule fo o n r) := by
  unfold Cssc.transformRule
  split
  · split
    · exact .crash
    · split
      · exact .crash
      · refine .bind (.ite (.collectVars _) (.pure _)) fun _ => .bind (.transformDeclarations ..) fun _ =>
          .ite (.pure _) (.pure _)
  · exact .crash
  · exact .bind (.report ..) fun _ => .crash

theorem LogIrr.transformAt {fo : FloatOps} {o : TOpts} {repl : Replacements} {rec : List Node → T (List Node)}
    (h : ∀ ns, LogIrr (rec ns)) (a : AtRule) : LogIrr (transformAt fo o repl rec a) := by
  unfold Cssc.transformAt
  refine .ite ?_ (.ite (.bind (.collectMedia _) fun _ => .pure _) (.ite ?_ (.pure _)))
  · split
    · exact .pure _
    · split
      · exact .pure _
      · exact .bind (.whenT (.report ..)) fun _ => h _
  · split
    · exact .bind (.transformMediaQueries ..) fun _ => .pure _
    · exact .crash

theorem LogIrr.transformNode (fo : FloatOps) (o : TOpts) (repl : Replacements) : ∀ (n : Nat) (x : Node),
    LogIrr (transformNode fo o repl n x)
  | 0, _ => .timeout
  | n + 1, .rule r => by
    rw [Cssc.transformNode]
    exact .transformRule ..
  | n + 1, .at a => by
    rw [Cssc.transformNode]
    exact .transformAt (fun ns => .mapConcat fun x _ => LogIrr.transformNode fo o repl n x) a

theorem LogIrr.transformNodes (fo : FloatOps) (o : TOpts) (repl : Replacements) (n : Nat) (ns : List Node) :
    LogIrr (transformNodes fo o repl n ns) := .mapConcat fun x _ => .transformNode fo o repl n x

end Cssc
