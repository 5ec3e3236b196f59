import Verif.Spec.Items
import Verif.Proofs.TransformLit

/-!
# Where the transformer reports

Every span that the transformer reports or leaves in the tree is a span of the tree, a span of a tree that replaces
an import, or the span `0..0` of a computed value.
-/

namespace Cssc

/-- All spans among the items satisfy `P`. -/
def SpansIn (P : Span → Prop) (l : List Item) : Prop := ∀ sp, Item.span sp ∈ l → P sp

variable {P : Span → Prop}

theorem SpansIn.nil : SpansIn P [] := fun _ h => by cases h

theorem spansIn_append {a b : List Item} : SpansIn P (a ++ b) ↔ SpansIn P a ∧ SpansIn P b :=
  ⟨fun h => ⟨fun sp hm => h sp (List.mem_append_left _ hm), fun sp hm => h sp (List.mem_append_right _ hm)⟩,
    fun h sp hm => (List.mem_append.1 hm).elim (h.1 sp) (h.2 sp)⟩

theorem spansIn_span {sp : Span} {l : List Item} : SpansIn P (.span sp :: l) ↔ P sp ∧ SpansIn P l := by
  unfold SpansIn; simp [or_imp, forall_and]

theorem spansIn_flatMap {α : Type} {f : α → List Item} {l : List α} : SpansIn P (l.flatMap f) ↔ ∀ x ∈ l, SpansIn P (f x) := by
  constructor
  · exact fun h x hx sp hm => h sp (List.mem_flatMap.2 ⟨x, hx, hm⟩)
  · intro h sp hm
    obtain ⟨x, hx, hm⟩ := List.mem_flatMap.1 hm
    exact h x hx sp hm

/-- An item that is not a span does not matter. -/
theorem spansIn_other {i : Item} {l : List Item} (hi : ∀ sp, i ≠ .span sp) : SpansIn P (i :: l) ↔ SpansIn P l := by
  unfold SpansIn
  constructor
  · exact fun h sp hm => h sp (List.mem_cons_of_mem _ hm)
  · intro h sp hm
    rcases List.mem_cons.1 hm with e | hm
    · exact absurd e.symm (hi sp)
    · exact h sp hm

theorem itemsL_eq : ∀ vs : List Value, Value.itemsL vs = vs.flatMap Value.items
  | [] => by simp [Value.itemsL]
  | v :: vs => by simp [Value.itemsL, itemsL_eq vs]

/-- The state of the transformer. -/
structure SpSt (P : Span → Prop) (s : TSt) : Prop where
  vars : ∀ vars, s.vars = some vars → ∀ d ∈ vars, ∀ v ∈ d.2, SpansIn P v.items
  media : ∀ media, s.media = some media → ∀ d ∈ media, ∀ p ∈ d.2.parts, SpansIn P p.items
  log : ∀ r ∈ s.log, ∀ sp, r.span = some sp → P sp

theorem SpSt.report {s : TSt} (h : SpSt P s) {sp : Span} (hp : P sp) (w : Bool) (msg : String) :
    tw True (report w (some sp) msg) (fun _ s' => SpSt P s') s := by
  refine ⟨h.vars, h.media, fun r hr => ?_⟩
  rcases List.mem_append.1 hr with hr | hr
  · exact h.log r hr
  · rw [List.mem_singleton.1 hr]
    rintro _ ⟨⟩
    exact hp

theorem loc_spans {v : Value} {sp : Span} (h : SpansIn P v.items) (hl : v.loc? = some sp) : P sp := by
  cases v <;> cases hl <;> exact h _ (by simp [Value.items])

theorem SpSt.addErrorV {s : TSt} (h : SpSt P s) {v : Value} (hv : SpansIn P v.items) (msg : String) :
    tw True (addErrorV v msg) (fun _ s' => SpSt P s') s := by
  unfold Cssc.addErrorV
  split
  · exact tw_crash trivial
  · exact h.report (loc_spans hv ‹_›) _ _

theorem SpSt.addWarnV {s : TSt} (h : SpSt P s) {v : Value} (hv : SpansIn P v.items) (msg : String) :
    tw True (addWarnV v msg) (fun _ s' => SpSt P s') s := by
  unfold Cssc.addWarnV
  split
  · exact tw_crash trivial
  · exact h.report (loc_spans hv ‹_›) _ _

theorem SpSt.whenT {s : TSt} (h : SpSt P s) {c : Prop} [Decidable c] {m : T Unit} (hm : tw True m (fun _ s' => SpSt P s') s) :
    tw True (whenT c m) (fun _ s' => SpSt P s') s := by
  unfold Cssc.whenT
  split
  · exact hm
  · exact h

/-! ### Values -/

theorem spans_nil : SpansIn P Value.nil.items := by rw [Value.items]; exact SpansIn.nil

theorem spans_dim {sp : Span} {a b : Bytes} : SpansIn P (Value.dim sp a b).items ↔ P sp := by
  rw [Value.items, spansIn_other (by simp), spansIn_span, spansIn_other (by simp), spansIn_other (by simp)]
  exact ⟨fun h => h.1, fun h => ⟨h, SpansIn.nil⟩⟩

/-- One value, and a state as before. -/
abbrev VPost (P : Span → Prop) (v : Value) (s : TSt) : Prop := SpansIn P v.items ∧ SpSt P s

/-- Several values, and a state as before. -/
abbrev VsPost (P : Span → Prop) (vs : List Value) (s : TSt) : Prop := (∀ v ∈ vs, SpansIn P v.items) ∧ SpSt P s

variable (h0 : P ⟨0, 0⟩)
include h0

theorem mathResult_spans {fo : FloatOps} {l : Value} {a b op u : Bytes} {s : TSt} (hs : SpSt P s) (hl : SpansIn P l.items) :
    tw True (mathResult fo l a b op u) (VPost P) s := by
  unfold mathResult
  split
  · exact tw_seq (hs.addErrorV hl _) fun _ _ h => tw_pure ⟨spans_nil, h⟩
  · exact tw_pure ⟨spans_dim.2 h0, hs⟩

theorem applyOp_spans {fo : FloatOps} {op : Bytes} {l r : Value} {s : TSt} (hs : SpSt P s) (hl : SpansIn P l.items) :
    tw True (applyOp fo op l r) (VPost P) s := by
  have err : ∀ msg, tw True (do addErrorV l msg; pure .nil : T Value) (VPost P) s :=
    fun msg => tw_seq (hs.addErrorV hl msg) fun _ _ h => tw_pure ⟨spans_nil, h⟩
  have nil : tw True (pure Value.nil : T Value) (VPost P) s := tw_pure ⟨spans_nil, hs⟩
  unfold applyOp
  split
  · split
    · split
      · split
        · have hp := spans_dim.1 hl
          exact tw_seq (hs.whenT (hs.report hp _ _)) fun _ _ h1 => tw_seq (h1.whenT (h1.report hp _ _)) fun _ _ h2 =>
            tw_pure ⟨spans_nil, h2⟩
        · exact mathResult_spans h0 hs hl
      · exact nil
    · exact err _
  · split
    · split
      · split
        · exact err _
        · split
          · exact mathResult_spans h0 hs hl
          · exact mathResult_spans h0 hs hl
      · exact nil
    · split
      · split
        · split
          · exact mathResult_spans h0 hs hl
          · exact err _
        · exact err _
      · exact err _

theorem evalOperand_spans {fo : FloatOps} : ∀ {v : Value} {s : TSt}, SpSt P s → SpansIn P v.items →
    tw True (evalOperand fo v) (VPost P) s
  | .math sp op l r, s, hs, hv => by
    have hv' := hv
    rw [Value.items, spansIn_other (by simp), spansIn_span, spansIn_other (by simp), spansIn_append] at hv'
    rw [evalOperand]
    refine tw_seq (evalOperand_spans hs hv'.2.1) fun _ _ hl => tw_seq (evalOperand_spans hl.2 hv'.2.2) fun _ _ hr =>
      tw_seq (applyOp_spans h0 hr.2 hl.1) fun v _ hw => ?_
    split
    · exact tw_pure ⟨hv, hw.2⟩
    · exact tw_pure hw
  | .nil, _, hs, h | .str _ _, _, hs, h | .dim _ _ _, _, hs, h | .ident _ _, _, hs, h | .hex _ _, _, hs, h
  | .brackets _ _, _, hs, h | .func _ _ _, _, hs, h | .paren _ _, _, hs, h | .raw _ _, _, hs, h | .comma _, _, hs, h => by
    rw [evalOperand]
    · exact tw_pure ⟨h, hs⟩
    · simp

omit h0 in
theorem func_spans {sp : Span} {name : Bytes} {args : List Value} (h : SpansIn P (Value.func sp name args).items) :
    ∀ v ∈ args, SpansIn P v.items := by
  rw [Value.items, spansIn_other (by simp), spansIn_span, spansIn_other (by simp), itemsL_eq, spansIn_flatMap] at h
  exact h.2

omit h0 in
theorem substVar_spans {sp : Span} {name : Bytes} {args : List Value} {s : TSt} (hs : SpSt P s)
    (hv : SpansIn P (Value.func sp name args).items) :
    tw True (substVar (.func sp name args) name args) (VsPost P) s := by
  have self : ∀ s, SpSt P s → tw True (pure [.func sp name args] : T (List Value)) (VsPost P) s :=
    fun s hs => tw_pure ⟨by simpa using hv, hs⟩
  unfold substVar
  split
  · exact self _ hs
  · refine tw_bind (tw_get ?_)
    rcases hvars : s.vars with _ | vars
    · exact self _ hs
    · dsimp only
      split
      · exact tw_seq (hs.addErrorV hv _) fun _ _ h => self _ h
      · split
        · exact tw_pure ⟨hs.vars _ hvars _ (assoc_mem ‹_›), hs⟩
        · split
          · exact tw_pure ⟨fun w hw => func_spans hv w (List.mem_cons_of_mem _ (List.mem_cons_of_mem _ hw)), hs⟩
          · exact tw_seq (hs.addWarnV hv _) fun _ _ h => self _ h
      · exact tw_seq (hs.addErrorV hv _) fun _ _ h => self _ h

theorem reduceCalc_spans {fo : FloatOps} {o : TOpts} {rec : List Value → T (List Value)} {sp : Span} {name : Bytes}
    {args cur : List Value} {s : TSt} (hv : SpansIn P (Value.func sp name args).items)
    (hrec : ∀ v s, SpansIn P v.items → SpSt P s → tw True (rec [v]) (VsPost P) s) (hc : VsPost P cur s) :
    tw True (reduceCalc fo o rec (.func sp name args) name args cur) (VsPost P) s := by
  have self : ∀ s, SpSt P s → tw True (pure cur : T (List Value)) (VsPost P) s := fun s hs => tw_pure ⟨hc.1, hs⟩
  unfold reduceCalc
  split
  · exact self _ hc.2
  · split
    · exact self _ hc.2
    · split
      · refine tw_seq (hrec _ _ (func_spans hv _ (by simp)) hc.2) fun _ _ h1 => ?_
        split
        · have hm := h1.1 _ (List.mem_singleton.2 rfl)
          rw [Value.items, spansIn_other (by simp), spansIn_span, spansIn_other (by simp), spansIn_append] at hm
          refine tw_seq (hrec _ _ hm.2.1 h1.2) fun _ _ h2 => tw_seq (hrec _ _ hm.2.2 h2.2) fun _ _ h3 => ?_
          split
          · split
            · refine tw_seq (R := VPost P) ?_ fun nv _ hnv => ?_
              · unfold evaluateMathExpression
                exact tw_seq (evalOperand_spans h0 h3.2 (h2.1 _ (by simp))) fun _ _ hl =>
                  tw_seq (evalOperand_spans h0 hl.2 (h3.1 _ (by simp))) fun _ _ hr => applyOp_spans h0 hr.2 hl.1
              · split
                · exact self _ hnv.2
                · exact tw_pure ⟨by simpa using hnv.1, hnv.2⟩
            · exact tw_seq (h3.2.addWarnV hm.2.2 _) fun _ _ h => self _ h
          · exact tw_seq (h3.2.addWarnV hm.2.1 _) fun _ _ h => self _ h
        · exact self _ h1.2
        · exact tw_seq (h1.2.addWarnV hv _) fun _ _ h => self _ h
      · exact tw_seq (hc.2.addWarnV hv _) fun _ _ h => self _ h

theorem transformValue_spans {fo : FloatOps} {o : TOpts} : ∀ {n : Nat} {v : Value} {s : TSt}, SpansIn P v.items → SpSt P s →
    tw True (transformValue fo o n v) (VsPost P) s := by
  intro n
  induction n with
  | zero => intros; trivial
  | succ n ih =>
    intro v s hv hs
    cases v with
    | func sp name args =>
      rw [transformValue]
      refine tw_seq (substVar_spans hs hv) fun cur s1 hc => reduceCalc_spans h0 hv (fun v s hv hs => ?_) hc
      rw [mapConcat]
      refine tw_seq (ih hv hs) fun a s1 ha => ?_
      rw [mapConcat]
      refine tw_seq (tw_pure (Q := fun a s' => a = [] ∧ s' = s1) ⟨rfl, rfl⟩) ?_
      rintro _ _ ⟨rfl, rfl⟩
      exact tw_pure ⟨by simpa using ha.1, ha.2⟩
    | _ => exact tw_pure ⟨by simpa using hv, hs⟩

/-! ### Declarations -/

omit h0 in
theorem decl_spans {sp : Span} {prop : Bytes} {vals : List Value} {imp : Bool} :
    SpansIn P (Decl.decl sp prop vals imp).items ↔ P sp ∧ ∀ v ∈ vals, SpansIn P v.items := by
  rw [Decl.items, spansIn_other (by simp), spansIn_span, spansIn_other (by simp), itemsL_eq, spansIn_flatMap]

theorem transformDecl_spans {fo : FloatOps} {o : TOpts} {n : Nat} {d : Decl} {s : TSt} (hd : SpansIn P d.items) (hs : SpSt P s) :
    tw True (transformDecl fo o n d) (fun ds s' => SpSt P s' ∧ ∀ e ∈ ds, SpansIn P e.items) s := by
  cases d with
  | raw sp v => exact tw_pure ⟨hs, by simpa using hd⟩
  | decl sp prop vals imp =>
    rw [decl_spans] at hd
    unfold transformDecl
    refine tw_seq (tw_mapConcat hs fun v hv s hs => tw_mono (transformValue_spans h0 (hd.2 v hv) hs) fun _ _ h => ⟨h.2, h.1⟩)
      fun ws s1 hw => tw_pure ⟨hw.1, fun e he => ?_⟩
    rw [List.mem_singleton.1 he, decl_spans]
    exact ⟨hd.1, hw.2⟩

omit h0 in
theorem collectVars_spans : ∀ {ds : List Decl} {s : TSt}, (∀ d ∈ ds, SpansIn P d.items) → SpSt P s →
    tw True (collectVars ds) (fun ds' s' => SpSt P s' ∧ ∀ d ∈ ds', SpansIn P d.items) s
  | [], s, _, hs => tw_pure ⟨hs, by simp⟩
  | .raw sp v :: ds, s, hd, hs => by
    rw [collectVars]
    refine tw_seq (collectVars_spans (fun d h => hd d (by simp [h])) hs) fun rest s1 h => tw_pure ⟨h.1, fun d hm => ?_⟩
    rcases List.mem_cons.1 hm with rfl | hm
    · exact hd _ (by simp)
    · exact h.2 d hm
  | .decl sp prop vals imp :: ds, s, hd, hs => by
    have hd' : ∀ d ∈ ds, SpansIn P d.items := fun d h => hd d (by simp [h])
    have h1 := hd (.decl sp prop vals imp) (by simp)
    have keep : tw True (do let rest ← collectVars ds; pure (Decl.decl sp prop vals imp :: rest) : T (List Decl))
        (fun ds' s' => SpSt P s' ∧ ∀ d ∈ ds', SpansIn P d.items) s := by
      refine tw_seq (collectVars_spans hd' hs) fun rest s1 h => tw_pure ⟨h.1, fun d hm => ?_⟩
      rcases List.mem_cons.1 hm with rfl | hm
      · exact h1
      · exact h.2 d hm
    unfold tw
    rw [collectVars]
    dsimp only
    split
    · rename_i a s1 h
      split at h
      · split at h
        · rename_i vars hv
          refine tw_ok (collectVars_spans (s := { s with vars := some ((prop, vals) :: vars) }) hd' ⟨fun vars' e => ?_, hs.media, hs.log⟩) h
          cases e
          rintro d (_ | ⟨_, hm⟩)
          · exact (decl_spans.1 h1).2
          · exact hs.vars _ hv d hm
        · exact tw_ok keep h
      · exact tw_ok keep h
    · trivial
    · trivial

/-! ### Selectors -/

omit h0 in
theorem sel_spans {sp : Span} {ps : List SelPart} : SpansIn P (Sel.mk sp ps).items ↔ P sp ∧ ∀ p ∈ ps, SpansIn P p.items := by
  have : ∀ ps : List SelPart, SelPart.itemsL ps = ps.flatMap SelPart.items := by
    intro ps
    induction ps with
    | nil => simp [SelPart.itemsL]
    | cons p ps ih => simp [SelPart.itemsL, ih]
  rw [Sel.items, spansIn_other (by simp), spansIn_span, this, spansIn_flatMap]

omit h0 in
theorem selItemsL_eq : ∀ l : List Sel, Sel.itemsL l = l.flatMap Sel.items
  | [] => by simp [Sel.itemsL]
  | s :: l => by simp [Sel.itemsL, selItemsL_eq l]

theorem transformSelectors_spans {o : TOpts} {l : List Sel} (h : ∀ x ∈ l, SpansIn P x.items) :
    ∀ x ∈ transformSelectors o l, SpansIn P x.items := by
  intro t ht
  obtain ⟨s, hs, ht⟩ := List.mem_flatMap.1 ht
  have := h s hs
  obtain ⟨sp, ps⟩ := s
  rw [sel_spans] at this
  have key : ∀ name, SpansIn P (Sel.mk sp (ps.map (replaceAnyLink o name))).items := by
    intro name
    rw [sel_spans]
    refine ⟨this.1, fun p hp => ?_⟩
    obtain ⟨q, hq, rfl⟩ := List.mem_map.1 hp
    unfold replaceAnyLink
    split
    · rw [SelPart.items, spansIn_other (by simp), spansIn_span, spansIn_other (by simp), spansIn_other (by simp), PArgs.items]
      exact ⟨h0, SpansIn.nil⟩
    · exact this.2 q hq
  rw [transformSelector] at ht
  rcases List.mem_append.1 ht with ht | ht
  · rw [(List.mem_replicate.1 ht).2]
    exact key _
  · rw [List.mem_singleton.1 ht]
    exact key _

/-! ### Media queries -/

theorem addToValue_spans {fo : FloatOps} {v : Value} {d : Option fo.F} {s : TSt} (hv : SpansIn P v.items) (hs : SpSt P s) :
    tw True (addToValue fo v d) (VPost P) s := by
  unfold addToValue
  split
  · exact tw_pure ⟨hv, hs⟩
  · split
    · split
      · exact tw_seq (hs.addErrorV hv _) fun _ _ h => tw_pure ⟨hv, h⟩
      · exact tw_pure ⟨spans_dim.2 h0, hs⟩
    · exact tw_seq (hs.addErrorV hv _) fun _ _ h => tw_pure ⟨hv, h⟩

theorem rangePart_spans {fo : FloatOps} {dir : Bytes × Option fo.F} {prop : Bytes} {v : Value} {s : TSt}
    (hv : SpansIn P v.items) (hs : SpSt P s) :
    tw True (rangePart fo dir prop v) (fun p s' => SpSt P s' ∧ SpansIn P p.items) s := by
  unfold rangePart
  refine tw_seq (addToValue_spans h0 hv hs) fun w _ hw => tw_pure ⟨hw.2, ?_⟩
  rw [MQPart.items, spansIn_other (by simp), spansIn_span, spansIn_span, spansIn_other (by simp)]
  exact ⟨h0, h0, hw.1⟩

theorem transformMQPart_spans {fo : FloatOps} {o : TOpts} {p : MQPart} {s : TSt} (hp : SpansIn P p.items) (hs : SpSt P s) :
    tw True (transformMQPart fo o p) (fun ps s' => SpSt P s' ∧ ∀ q ∈ ps, SpansIn P q.items) s := by
  have self : ∀ s, SpSt P s → tw True (pure [p] : T (List MQPart)) (fun ps s' => SpSt P s' ∧ ∀ q ∈ ps, SpansIn P q.items) s :=
    fun s hs => tw_pure ⟨hs, by simpa using hp⟩
  cases p with
  | ident => exact self _ hs
  | inParens => exact self _ hs
  | plain sp psp prop value =>
    unfold transformMQPart
    dsimp only
    split
    · exact self _ hs
    · refine tw_bind (tw_get ?_)
      rcases hm : s.media with _ | media
      · exact self _ hs
      · dsimp only
        split
        · exact self _ hs
        · exact tw_pure ⟨hs, fun q hq => hs.media _ hm _ (assoc_mem ‹_›) q hq⟩
  | range sp psp prop left op right =>
    have hp' := hp
    rw [MQPart.items, spansIn_other (by simp), spansIn_span, spansIn_span, spansIn_other (by simp), spansIn_other (by simp),
      spansIn_append] at hp'
    obtain ⟨-, -, hl, hr⟩ := hp'
    unfold transformMQPart transformMediaFeatureRange
    dsimp only
    split
    · exact self _ hs
    · refine tw_seq (R := fun ps s' => SpSt P s' ∧ ∀ q ∈ ps, SpansIn P q.items) ?_ fun a _ ha =>
        tw_seq (R := fun ps s' => SpSt P s' ∧ ∀ q ∈ ps, SpansIn P q.items) ?_ fun b _ hb => tw_pure ⟨hb.1, fun q hq => ?_⟩
      · split
        · exact tw_pure ⟨hs, by simp⟩
        · exact tw_seq (rangePart_spans h0 hl hs) fun p _ h => tw_pure ⟨h.1, by simpa using h.2⟩
      · split
        · exact tw_pure ⟨ha.1, by simp⟩
        · exact tw_seq (rangePart_spans h0 hr ha.1) fun p _ h => tw_pure ⟨h.1, by simpa using h.2⟩
      · rcases List.mem_append.1 hq with hq | hq
        · rcases List.mem_append.1 hq with hq | hq
          · exact ha.2 q hq
          · split at hq
            · cases hq
            · rw [List.mem_singleton.1 hq, MQPart.items, spansIn_other (by simp), spansIn_span, spansIn_other (by simp)]
              exact ⟨h0, SpansIn.nil⟩
        · exact hb.2 q hq

omit h0 in
theorem mq_spans {q : MQ} : SpansIn P q.items ↔ P q.sp ∧ ∀ p ∈ q.parts, SpansIn P p.items := by
  rw [MQ.items, spansIn_other (by simp), spansIn_span, spansIn_flatMap]

theorem transformMQ_spans {fo : FloatOps} {o : TOpts} {q : MQ} {s : TSt} (hp : SpansIn P q.items) (hs : SpSt P s) :
    tw True (transformMQ fo o q) (fun qs s' => SpSt P s' ∧ ∀ r ∈ qs, SpansIn P r.items) s := by
  rw [mq_spans] at hp
  unfold transformMQ
  refine tw_seq (tw_mapConcat hs fun p hm s hs => transformMQPart_spans h0 (hp.2 p hm) hs) fun ps s1 h => tw_pure ⟨h.1, fun r hr => ?_⟩
  rw [List.mem_singleton.1 hr, mq_spans]
  exact ⟨hp.1, h.2⟩

/-! ### Nodes -/

theorem transformRule_spans {fo : FloatOps} {o : TOpts} {n : Nat} {r : QRule} {s : TSt} (hr : SpansIn P (Node.rule r).items)
    (hs : SpSt P s) :
    tw True (transformRule fo o n r) (fun ns s' => SpSt P s' ∧ ∀ x ∈ ns, SpansIn P x.items) s := by
  rw [Node.items, QRule.items, spansIn_other (by simp), spansIn_span, spansIn_append, spansIn_flatMap] at hr
  obtain ⟨hsp, hp, hb⟩ := hr
  unfold transformRule
  rcases e : r.prelude with _ | l | ⟨ksp, kfs⟩
  · exact tw_crash trivial
  · rw [e, Prelude.items, spansIn_other (by simp), spansIn_span, selItemsL_eq, spansIn_flatMap] at hp
    dsimp only
    split
    · exact tw_crash trivial
    · split
      · exact tw_crash trivial
      · rename_i b eb
        have hb := hb b (by rw [eb]; simp)
        rw [DeclBlock.items, spansIn_span, spansIn_flatMap] at hb
        refine tw_seq (R := fun ds s' => SpSt P s' ∧ ∀ d ∈ ds, SpansIn P d.items) ?_ fun ds s1 h1 => ?_
        · split
          · exact collectVars_spans hb.2 hs
          · exact tw_pure ⟨hs, hb.2⟩
        · refine tw_seq (tw_mapConcat h1.1 fun d hm s hs => transformDecl_spans h0 (h1.2 d hm) hs) fun ds' s2 h2 => ?_
          split
          · exact tw_pure ⟨h2.1, by simp⟩
          · refine tw_pure ⟨h2.1, fun x hx => ?_⟩
            rw [List.mem_singleton.1 hx, Node.items, QRule.items, spansIn_other (by simp), spansIn_span, spansIn_append,
              Prelude.items, spansIn_other (by simp), spansIn_span, selItemsL_eq, spansIn_flatMap, spansIn_flatMap]
            refine ⟨hsp, ⟨hp.1, transformSelectors_spans h0 hp.2⟩, fun b' hb' => ?_⟩
            simp only [Option.toList_some, List.mem_singleton] at hb'
            rw [hb', DeclBlock.items, spansIn_span, spansIn_flatMap]
            exact ⟨hb.1, h2.2⟩
  · exact tw_seq tw_any fun _ _ _ => tw_crash trivial

/-- The spans of the replacements. -/
def ReplSpans (P : Span → Prop) (repl : Replacements) : Prop := ∀ m, repl = some m → ∀ d ∈ m, SpansIn P d.2.items

omit h0 in
theorem at_spans {a : AtRule} : SpansIn P (Node.at a).items ↔
    P a.sp ∧ (∀ p ∈ a.preludes, SpansIn P p.items) ∧ SpansIn P a.block.items := by
  rw [Node.items, AtRule.items, spansIn_other (by simp), spansIn_span, spansIn_other (by simp), spansIn_append, spansIn_flatMap]

theorem transformNode_spans {fo : FloatOps} {o : TOpts} {repl : Replacements} (hr : ReplSpans P repl) : ∀ {n : Nat} {x : Node} {s : TSt},
    SpansIn P x.items → SpSt P s →
    tw True (transformNode fo o repl n x) (fun ns s' => SpSt P s' ∧ ∀ x ∈ ns, SpansIn P x.items) s := by
  intro n
  induction n with
  | zero => intros; trivial
  | succ n ih =>
    intro x s hx hs
    cases x with
    | rule r => exact transformRule_spans h0 hx hs
    | «at» a =>
      have hself : ∀ s, SpSt P s → tw True (pure [.at a] : T (List Node)) (fun ns s' => SpSt P s' ∧ ∀ x ∈ ns, SpansIn P x.items) s :=
        fun s hs => tw_pure ⟨hs, by simpa using hx⟩
      have ha := at_spans.1 hx
      rw [transformNode]
      unfold transformAt
      split
      · split
        · exact tw_pure ⟨hs, by simpa using hx⟩
        · rename_i m
          split
          · exact hself _ hs
          · rename_i imported he
            have hm := hr m rfl _ (lookupImport_in he)
            rw [Stylesheet.items, spansIn_flatMap] at hm
            exact tw_seq (hs.whenT (hs.report ha.1 _ _)) fun _ s1 h1 => tw_mapConcat h1 fun x hx s hs => ih (hm x hx) hs
      · split
        · refine tw_seq (R := fun _ s' => SpSt P s') ?_ fun _ s1 h1 => tw_pure ⟨h1, by simp⟩
          unfold tw collectMedia
          rcases hmed : s.media with _ | media
          · exact hs
          · dsimp only
            split
            · rename_i h
              split at h
              · rename_i nsp name q e
                cases h
                refine ⟨hs.vars, fun media' e' => ?_, hs.log⟩
                cases e'
                rintro d (_ | ⟨_, hm⟩)
                · have := ha.2.1 (.mq q) (by rw [e]; simp)
                  rw [AtPrelude.items, mq_spans] at this
                  exact this.2
                · exact hs.media _ hmed d hm
              · cases h; exact hs
            · trivial
            · trivial
        · split
          · split
            · rename_i l rest e
              have hl := ha.2.1 (.mql (some l)) (by rw [e]; simp)
              simp only [AtPrelude.items, Option.toList_some, List.flatMap_cons, List.flatMap_nil, List.append_nil, MQList.items] at hl
              rw [spansIn_other (by simp), spansIn_span, spansIn_flatMap] at hl
              refine tw_seq (tw_mapConcat hs fun q hq s hs => transformMQ_spans h0 (hl.2 q hq) hs) fun qs s1 h1 =>
                tw_pure ⟨h1.1, fun x hx => ?_⟩
              rw [List.mem_singleton.1 hx, at_spans]
              refine ⟨ha.1, fun p hp => ?_, ha.2.2⟩
              rcases List.mem_cons.1 hp with rfl | hp
              · simp only [AtPrelude.items, Option.toList_some, List.flatMap_cons, List.flatMap_nil, List.append_nil, MQList.items]
                rw [spansIn_other (by simp), spansIn_span, spansIn_flatMap]
                exact ⟨hl.1, h1.2⟩
              · exact ha.2.1 p (by rw [e]; exact List.mem_cons_of_mem _ hp)
            · exact tw_crash trivial
          · exact hself _ hs

/-- Reports and result of `Transform`. -/
theorem transform_spans {fo : FloatOps} {o : TOpts} {repl : Replacements} {n : Nat} {ss ss' : Stylesheet} {s : TSt}
    (hr : ReplSpans P repl) (hss : SpansIn P ss.items) (h : transform fo o repl n ss = .ok ss' s) :
    SpansIn P ss'.items ∧ ∀ r ∈ s.log, ∀ sp, r.span = some sp → P sp := by
  unfold transform at h
  rw [Stylesheet.items, spansIn_flatMap] at hss
  split at h
  · rename_i nodes s1 e
    cases h
    have hi : SpSt P (TSt.init o repl) := by
      unfold TSt.init
      refine ⟨fun vars e => ?_, fun media e => ?_, fun r hr => ?_⟩
      · dsimp only at e; split at e <;> cases e; simp
      · dsimp only at e; split at e <;> cases e; simp
      · dsimp only at hr
        split at hr
        · rw [List.mem_singleton.1 hr]; simp
        · cases hr
    have := tw_ok (tw_mapConcat (P := fun x => SpansIn P x.items) hi fun x hx s hs => transformNode_spans (o := o) (fo := fo) (n := n) h0 hr (hss x hx) hs) e
    exact ⟨by rw [Stylesheet.items, spansIn_flatMap]; exact this.2, this.1.log⟩
  · cases h
  · cases h

end Cssc
