import Verif.Proofs.TransformLit

/-!
# The transformer keeps what printing keeps

If no construct of the input is lost in printing, then none of the output is, computed numbers apart.
-/

namespace Cssc

/-- The conditions on sources, and that media queries are not empty. -/
def Item.Fair : Item → Prop
  | .mq q => q.parts ≠ []
  | it => it.Ready

def AllFair (is : List Item) : Prop := ∀ it ∈ is, it.Fair

def UnitFair (unit : Bytes) : Prop := Clean unit ∧ expLike unit = false

/-- The unit of a value, if it has one, is kept. -/
def Value.UnitKept (v : Value) : Prop := ∀ sp num unit, v = .dim sp num unit → UnitFair unit

theorem AllFair.unit {v : Value} (h : AllFair v.items) : v.UnitKept := by
  rintro sp num unit rfl
  exact h (.value (.dim sp num unit)) (by simp [Value.items])

theorem UnitFair.dim {sp : Span} {num unit : Bytes} (h : UnitFair unit) : AllFair (Value.dim sp num unit).items := by
  intro it hi
  simp only [Value.items, List.mem_cons, List.not_mem_nil, or_false] at hi
  rcases hi with rfl | rfl | rfl | rfl <;> first | exact h | trivial

theorem AllFair.mem {vs : List Value} (h : AllFair (Value.itemsL vs)) {v : Value} (hv : v ∈ vs) : AllFair v.items :=
  fun it hi => h it (mem_itemsL hv hi)

theorem allFair_list {vs : List Value} (h : ∀ v ∈ vs, AllFair v.items) : AllFair (Value.itemsL vs) := by
  induction vs with
  | nil => intro it hi; simp [Value.itemsL] at hi
  | cons v vs ih =>
    intro it hi
    rw [Value.itemsL, List.mem_append] at hi
    rcases hi with hi | hi
    · exact h v (by simp) it hi
    · exact ih (fun w hw => h w (by simp [hw])) it hi

/-- What the transformer has collected is kept. -/
structure FairSt (s : TSt) : Prop where
  vars : ∀ vars, s.vars = some vars → ∀ d ∈ vars, ∀ v ∈ d.2, AllFair v.items
  media : ∀ media, s.media = some media → ∀ d ∈ media, AllFair d.2.items

theorem FairSt.framed {s s' : TSt} (h : FairSt s) (f : Framed s s') : FairSt s' :=
  ⟨fun vars e => h.vars vars (f.vars ▸ e), fun media e => h.media media (f.media ▸ e)⟩

/-! ### Values -/

theorem mathResult_fair {fo : FloatOps} {l : Value} {a b op u : Bytes} {s : TSt} (hu : UnitFair u) :
    tw True (mathResult fo l a b op u) (fun v _ => v = .nil ∨ ∃ num unit, v = .dim ⟨0, 0⟩ num unit ∧ UnitFair unit) s := by
  unfold mathResult
  split
  · exact tw_seq tw_any fun _ _ _ => tw_pure (.inl rfl)
  · exact tw_pure (.inr ⟨_, _, rfl, hu⟩)

theorem applyOp_fair {fo : FloatOps} {op : Bytes} {l r : Value} {s : TSt} (hl : l.UnitKept) (hr : r.UnitKept) :
    tw True (applyOp fo op l r) (fun v _ => v = .nil ∨ ∃ num unit, v = .dim ⟨0, 0⟩ num unit ∧ UnitFair unit) s := by
  have nil : ∀ s, tw True (pure Value.nil : T Value) (fun v _ => v = .nil ∨ ∃ num unit, v = .dim ⟨0, 0⟩ num unit ∧ UnitFair unit) s :=
    fun s => tw_pure (.inl rfl)
  unfold applyOp
  split
  · split
    · split
      · split
        · exact tw_seq tw_any fun _ _ _ => tw_seq tw_any fun _ _ _ => nil _
        · exact mathResult_fair (hl _ _ _ rfl)
      · exact nil _
    · exact tw_seq tw_any fun _ _ _ => nil _
  · split
    · split
      · split
        · exact tw_seq tw_any fun _ _ _ => nil _
        · split
          · exact mathResult_fair (hr _ _ _ rfl)
          · exact mathResult_fair (hl _ _ _ rfl)
      · exact nil _
    · split
      · split
        · split
          · exact mathResult_fair (hl _ _ _ rfl)
          · exact tw_seq tw_any fun _ _ _ => nil _
        · exact tw_seq tw_any fun _ _ _ => nil _
      · exact tw_seq tw_any fun _ _ _ => nil _

theorem evalOperand_fair {fo : FloatOps} : ∀ {v : Value} {s : TSt}, AllFair v.items → tw True (evalOperand fo v) (fun w _ => w.UnitKept) s
  | .math sp op l r, s, h => by
    rw [evalOperand]
    refine tw_seq (evalOperand_fair fun it hi => h it (by simp [Value.items, hi])) fun _ _ hl =>
      tw_seq (evalOperand_fair fun it hi => h it (by simp [Value.items, hi])) fun _ _ hr =>
      tw_seq (applyOp_fair hl hr) fun v _ hv => ?_
    split
    · exact tw_pure fun _ _ _ e => by cases e
    · rcases hv with rfl | ⟨_, _, rfl, hv⟩
      · exact tw_pure fun _ _ _ e => by cases e
      · refine tw_pure fun _ _ _ e => ?_
        cases e; exact hv
  | .nil, _, h | .str _ _, _, h | .dim _ _ _, _, h | .ident _ _, _, h | .hex _ _, _, h | .brackets _ _, _, h
  | .func _ _ _, _, h | .paren _ _, _, h | .raw _ _, _, h | .comma _, _, h => by
    rw [evalOperand]
    · exact tw_pure h.unit
    · simp

theorem substVar_fair {sp : Span} {name : Bytes} {args : List Value} {s : TSt} (hv : AllFair (Value.func sp name args).items) (hs : FairSt s) :
    tw True (substVar (.func sp name args) name args) (fun vs _ => ∀ w ∈ vs, AllFair w.items) s := by
  have self : ∀ s, tw True (pure [.func sp name args] : T (List Value)) (fun vs _ => ∀ w ∈ vs, AllFair w.items) s :=
    fun s => tw_pure (by simpa using hv)
  have ha : AllFair (Value.itemsL args) := fun it hi => hv it (by simp [Value.items, hi])
  unfold substVar
  split
  · exact self _
  · refine tw_bind (tw_get ?_)
    rcases hvars : s.vars with _ | vars
    · exact self _
    · dsimp only
      split
      · exact tw_seq tw_any fun _ _ _ => self _
      · split
        · exact tw_pure (hs.vars _ hvars _ (assoc_mem ‹_›))
        · split
          · exact tw_pure fun w hw => ha.mem (List.mem_cons_of_mem _ (List.mem_cons_of_mem _ hw))
          · exact tw_seq tw_any fun _ _ _ => self _
      · exact tw_seq tw_any fun _ _ _ => self _

theorem reduceCalc_fair {fo : FloatOps} {o : TOpts} {rec : List Value → T (List Value)} {sp : Span} {name : Bytes}
    {args cur : List Value} {s : TSt} (hv : AllFair (Value.func sp name args).items) (hs : FairSt s)
    (hrec : ∀ v s, AllFair v.items → FairSt s → tw True (rec [v]) (fun vs s' => FairSt s' ∧ ∀ w ∈ vs, AllFair w.items) s)
    (hc : ∀ w ∈ cur, AllFair w.items) :
    tw True (reduceCalc fo o rec (.func sp name args) name args cur) (fun vs _ => ∀ w ∈ vs, AllFair w.items) s := by
  have self : ∀ s, tw True (pure cur : T (List Value)) (fun vs _ => ∀ w ∈ vs, AllFair w.items) s := fun s => tw_pure hc
  have ha : AllFair (Value.itemsL args) := fun it hi => hv it (by simp [Value.items, hi])
  unfold reduceCalc
  split
  · exact self _
  · split
    · exact self _
    · split
      · refine tw_seq (hrec _ _ (ha.mem (by simp)) hs) fun _ _ h1 => ?_
        split
        · have hm := h1.2 _ (List.mem_singleton.2 rfl)
          refine tw_seq (hrec _ _ (fun it hi => hm it (by simp [Value.items, hi])) h1.1) fun _ _ h2 =>
            tw_seq (hrec _ _ (fun it hi => hm it (by simp [Value.items, hi])) h2.1) fun _ _ h3 => ?_
          split
          · split
            · refine tw_seq (R := fun v _ => v = .nil ∨ ∃ num unit, v = .dim ⟨0, 0⟩ num unit ∧ UnitFair unit) ?_ fun nv _ hnv => ?_
              · unfold evaluateMathExpression
                exact tw_seq (evalOperand_fair (h2.2 _ (by simp))) fun _ _ hl =>
                  tw_seq (evalOperand_fair (h3.2 _ (by simp))) fun _ _ hr => applyOp_fair hl hr
              · split
                · exact self _
                · rcases hnv with rfl | ⟨_, _, rfl, hu⟩
                  · exact absurd rfl ‹_›
                  · exact tw_pure (by simpa using hu.dim)
            · exact tw_seq tw_any fun _ _ _ => self _
          · exact tw_seq tw_any fun _ _ _ => self _
        · exact self _
        · exact tw_seq tw_any fun _ _ _ => self _
      · exact tw_seq tw_any fun _ _ _ => self _

theorem transformValue_fair {fo : FloatOps} {o : TOpts} : ∀ {n : Nat} {v : Value} {s : TSt}, AllFair v.items → FairSt s →
    tw True (transformValue fo o n v) (fun vs s' => FairSt s' ∧ ∀ w ∈ vs, AllFair w.items) s := by
  intro n
  induction n with
  | zero => intros; trivial
  | succ n ih =>
    intro v s hv hs
    have lo := (LogOnly.transformValue fo o (n + 1) v)
    suffices tw True (transformValue fo o (n + 1) v) (fun vs _ => ∀ w ∈ vs, AllFair w.items) s by
      unfold tw at this ⊢
      rcases e : transformValue fo o (n + 1) v s with ⟨a, s'⟩ | _ | _ <;> rw [e] at this
      · exact ⟨hs.framed (lo.ok e), this⟩
      · trivial
      · trivial
    cases v with
    | func sp name args =>
      rw [transformValue]
      have hlo := LogOnly.substVar (.func sp name args) name args
      have h1 := substVar_fair hv hs
      have h1 : tw True (substVar (.func sp name args) name args) (fun vs s' => FairSt s' ∧ ∀ w ∈ vs, AllFair w.items) s := by
        unfold tw at h1 ⊢
        rcases e : substVar (.func sp name args) name args s with ⟨a, s'⟩ | _ | _ <;> rw [e] at h1
        · exact ⟨hs.framed (hlo.ok e), h1⟩
        · trivial
        · trivial
      refine tw_seq h1 fun cur s1 hc => reduceCalc_fair hv hc.1 (fun v s hv hs => ?_) hc.2
      exact tw_mapConcat hs fun w hw s hs => by rw [List.mem_singleton.1 hw]; exact ih hv hs
    | _ => exact tw_pure (by simpa using hv)

/-! ### Declarations -/

theorem decl_fair {sp : Span} {prop : Bytes} {vals : List Value} {imp : Bool} (hp : NoEsc prop) (hv : ∀ v ∈ vals, AllFair v.items) :
    AllFair (Decl.decl sp prop vals imp).items := by
  intro it hi
  simp only [Decl.items, List.mem_cons] at hi
  rcases hi with rfl | rfl | rfl | hi
  · exact hp
  · trivial
  · trivial
  · exact allFair_list hv it hi

theorem AllFair.decl {sp : Span} {prop : Bytes} {vals : List Value} {imp : Bool} (h : AllFair (Decl.decl sp prop vals imp).items) :
    NoEsc prop ∧ ∀ v ∈ vals, AllFair v.items :=
  ⟨h (.decl (.decl sp prop vals imp)) (by simp [Decl.items]),
    fun v hv => AllFair.mem (vs := vals) (fun it hi => h it (by simp [Decl.items, hi])) hv⟩

theorem transformDecl_fair {fo : FloatOps} {o : TOpts} {n : Nat} {d : Decl} {s : TSt} (hd : AllFair d.items) (hs : FairSt s) :
    tw True (transformDecl fo o n d) (fun ds s' => FairSt s' ∧ ∀ e ∈ ds, AllFair e.items) s := by
  cases d with
  | raw sp v => exact absurd (hd (.decl (.raw sp v)) (by simp [Decl.items])) (fun h => h)
  | decl sp prop vals imp =>
    have h := hd.decl
    unfold transformDecl
    refine tw_seq (tw_mapConcat hs fun v hv s hs => transformValue_fair (h.2 v hv) hs) fun ws s1 hw => tw_pure ⟨hw.1, fun e he => ?_⟩
    rw [List.mem_singleton.1 he]
    exact decl_fair h.1 hw.2

theorem collectVars_fair : ∀ {ds : List Decl} {s : TSt}, (∀ d ∈ ds, AllFair d.items) → FairSt s →
    tw True (collectVars ds) (fun ds' s' => FairSt s' ∧ ∀ d ∈ ds', AllFair d.items) s
  | [], s, _, hs => tw_pure ⟨hs, by simp⟩
  | .raw sp v :: ds, s, hd, hs => absurd (hd (.raw sp v) (by simp) (.decl (.raw sp v)) (by simp [Decl.items])) (fun h => h)
  | .decl sp prop vals imp :: ds, s, hd, hs => by
    have hd' : ∀ d ∈ ds, AllFair d.items := fun d h => hd d (by simp [h])
    have h0 := hd (.decl sp prop vals imp) (by simp)
    have keep : tw True (do let rest ← collectVars ds; pure (Decl.decl sp prop vals imp :: rest) : T (List Decl))
        (fun ds' s' => FairSt s' ∧ ∀ d ∈ ds', AllFair d.items) s := by
      refine tw_seq (collectVars_fair hd' hs) fun rest s1 h => tw_pure ⟨h.1, fun d hm => ?_⟩
      rcases List.mem_cons.1 hm with rfl | hm
      · exact h0
      · exact h.2 d hm
    unfold tw
    rw [collectVars]
    dsimp only
    split
    · rename_i a s1 h
      split at h
      · split at h
        · rename_i vars hv
          refine tw_ok (collectVars_fair (s := { s with vars := some ((prop, vals) :: vars) }) hd' ⟨fun vars' e => ?_, hs.media⟩) h
          cases e
          rintro d (_ | ⟨_, hm⟩)
          · exact h0.decl.2
          · exact hs.vars _ hv d hm
        · exact tw_ok keep h
      · exact tw_ok keep h
    · trivial
    · trivial

/-! ### Selectors -/

theorem replaceAnyLink_cases (o : TOpts) (name : Bytes) (p : SelPart) :
    replaceAnyLink o name p = p ∨ ∃ sp args, p = .pclass sp b!"any-link" args ∧ replaceAnyLink o name p = .pclass ⟨0, 0⟩ name .nil := by
  unfold replaceAnyLink
  split
  · rename_i h
    unfold isAnyLink at h
    cases p with
    | pclass sp n args => simp at h; exact .inr ⟨sp, args, by rw [h.1], rfl⟩
    | _ => simp at h
  · exact .inl rfl

theorem replaceAnyLink_same {o : TOpts} {name : Bytes} {p : SelPart} (h : AllFair p.items) :
    (replaceAnyLink o name p).isWs = p.isWs ∧ (replaceAnyLink o name p).isAttr = p.isAttr ∧
      (replaceAnyLink o name p).wordy = p.wordy ∧ ∀ sp n, replaceAnyLink o name p = .type sp n → p = .type sp n := by
  rcases replaceAnyLink_cases o name p with e | ⟨sp, args, rfl, e⟩
  · rw [e]; exact ⟨rfl, rfl, rfl, fun _ _ => id⟩
  · rw [e]
    have : args = .nil := (h (.part (.pclass sp b!"any-link" args)) (by simp [SelPart.items])).2 rfl
    subst this
    exact ⟨rfl, rfl, rfl, fun _ _ e => by cases e⟩

theorem replaceAnyLink_fair {o : TOpts} {name : Bytes} {p : SelPart} (hn : NoEsc name ∧ name ≠ b!"any-link") (h : AllFair p.items) :
    AllFair (replaceAnyLink o name p).items := by
  rcases replaceAnyLink_cases o name p with e | ⟨sp, args, rfl, e⟩
  · rw [e]; exact h
  · rw [e]
    intro it hi
    simp only [SelPart.items, PArgs.items, List.mem_cons, List.not_mem_nil, or_false] at hi
    rcases hi with rfl | rfl | rfl | rfl
    · exact ⟨hn.1, fun e => absurd e hn.2⟩
    · trivial
    · trivial
    · trivial

theorem mem_partsL {ps : List SelPart} {it : Item} : it ∈ SelPart.itemsL ps ↔ ∃ p ∈ ps, it ∈ p.items := by
  induction ps with
  | nil => simp [SelPart.itemsL]
  | cons p ps ih => rw [SelPart.itemsL, List.mem_append, ih]; simp

theorem mem_selsL {ps : List Sel} {it : Item} : it ∈ Sel.itemsL ps ↔ ∃ p ∈ ps, it ∈ p.items := by
  induction ps with
  | nil => simp [Sel.itemsL]
  | cons p ps ih => rw [Sel.itemsL, List.mem_append, ih]; simp

theorem replaced_spacing {o : TOpts} {name : Bytes} : ∀ {ps : List SelPart}, (∀ p ∈ ps, AllFair p.items) → Spacing ps → Apart ps →
    Spacing (ps.map (replaceAnyLink o name)) ∧ Apart (ps.map (replaceAnyLink o name))
  | [], _, _, _ => ⟨trivial, trivial⟩
  | p :: ps, hp, hs, ha => by
    have ih := replaced_spacing (o := o) (name := name) (fun q hq => hp q (by simp [hq])) hs.2 ha.2
    have h1 := replaceAnyLink_same (o := o) (name := name) (hp p (by simp))
    refine ⟨⟨fun h q hq => ?_, ih.1⟩, fun h sp n hq => ?_, ih.2⟩
    · rw [h1.1, h1.2.1] at h
      rw [List.head?_map, Option.map_eq_some_iff] at hq
      obtain ⟨q', hq', rfl⟩ := hq
      have hm : q' ∈ ps := List.mem_of_head? hq'
      rw [(replaceAnyLink_same (hp q' (by simp [hm]))).1]
      exact hs.1 h q' hq'
    · rw [h1.2.2.1] at h
      rw [List.head?_map, Option.map_eq_some_iff] at hq
      obtain ⟨q', hq', e⟩ := hq
      have hm : q' ∈ ps := List.mem_of_head? hq'
      have := (replaceAnyLink_same (o := o) (name := name) (hp q' (by simp [hm]))).2.2.2 sp n e
      exact ha.1 h sp n (by rw [hq', this])

theorem transformSelector_fair {o : TOpts} {x y : Sel} (h : AllFair x.items) (hy : y ∈ transformSelector o x) :
    AllFair y.items ∧ (x.NoLead → y.NoLead) := by
  obtain ⟨sp, ps⟩ := x
  have hps : ∀ p ∈ ps, AllFair p.items := fun p hp it hi => h it (by simp only [Sel.items, List.mem_cons, mem_partsL]; exact .inr (.inr ⟨p, hp, hi⟩))
  have h0 : Spacing ps ∧ Apart ps ∧ ∃ p ∈ ps, p.isWs = false := h (.sel (.mk sp ps)) (by simp [Sel.items])
  have key : ∀ name, NoEsc name ∧ name ≠ b!"any-link" → AllFair (Sel.mk sp (ps.map (replaceAnyLink o name))).items ∧
      ((Sel.mk sp ps).NoLead → (Sel.mk sp (ps.map (replaceAnyLink o name))).NoLead) := by
    intro name hn
    have h1 := replaced_spacing (o := o) (name := name) hps h0.1 h0.2.1
    refine ⟨fun it hi => ?_, fun hl p hp => ?_⟩
    · simp only [Sel.items, List.mem_cons, mem_partsL] at hi
      rcases hi with rfl | rfl | ⟨p, hp, hi⟩
      · refine ⟨h1.1, h1.2, ?_⟩
        obtain ⟨p, hp, hw⟩ := h0.2.2
        exact ⟨_, List.mem_map_of_mem hp, by rw [(replaceAnyLink_same (hps p hp)).1]; exact hw⟩
      · trivial
      · obtain ⟨q, hq, rfl⟩ := List.mem_map.1 hp
        exact replaceAnyLink_fair hn (hps q hq) it hi
    · rw [List.head?_map, Option.map_eq_some_iff] at hp
      obtain ⟨q, hq, rfl⟩ := hp
      rw [(replaceAnyLink_same (hps q (List.mem_of_head? hq))).1]
      exact hl q hq
  rw [transformSelector] at hy
  rcases List.mem_append.1 hy with hy | hy
  · rw [(List.mem_replicate.1 hy).2]
    exact key _ ⟨by decide, by decide⟩
  · rw [List.mem_singleton.1 hy]
    exact key _ ⟨by decide, by decide⟩

/-! ### Media queries -/

theorem addToValue_fair {fo : FloatOps} {v : Value} {d : Option fo.F} {s : TSt} (hv : AllFair v.items) :
    tw True (addToValue fo v d) (fun w _ => AllFair w.items) s := by
  unfold addToValue
  split
  · exact tw_pure hv
  · split
    · split
      · exact tw_seq tw_any fun _ _ _ => tw_pure hv
      · exact tw_pure (UnitFair.dim (hv.unit _ _ _ rfl))
    · exact tw_seq tw_any fun _ _ _ => tw_pure hv

theorem rangePart_fair {fo : FloatOps} {dir : Bytes × Option fo.F} {prop : Bytes} {v : Value} {s : TSt}
    (hd : NoEsc dir.1) (hp : NoEsc prop) (hv : AllFair v.items) :
    tw True (rangePart fo dir prop v) (fun p _ => AllFair p.items) s := by
  unfold rangePart
  refine tw_seq (addToValue_fair hv) fun w _ hw => tw_pure fun it hi => ?_
  simp only [MQPart.items, List.mem_cons] at hi
  rcases hi with rfl | rfl | rfl | rfl | hi
  · intro b hb
    rcases List.mem_append.1 hb with hb | hb
    · rcases List.mem_append.1 hb with hb | hb
      · exact hd b hb
      · exact (by decide : NoEsc b!"-") b hb
    · exact hp b hb
  · trivial
  · trivial
  · trivial
  · exact hw it hi

theorem leftDir_clean (fo : FloatOps) (op : Bytes) : NoEsc (leftDir fo op).1 := by
  unfold leftDir
  repeat' split
  all_goals first | exact (by decide : NoEsc b!"min") | exact (by decide : NoEsc b!"max") | exact (by decide : NoEsc [])

theorem rightDir_clean (fo : FloatOps) (op : Bytes) : NoEsc (rightDir fo op).1 := by
  unfold rightDir
  repeat' split
  all_goals first | exact (by decide : NoEsc b!"min") | exact (by decide : NoEsc b!"max") | exact (by decide : NoEsc [])

theorem MQ.fair_parts {q : MQ} (h : AllFair q.items) : q.parts ≠ [] ∧ ∀ p ∈ q.parts, AllFair p.items :=
  ⟨h (.mq q) (by simp [MQ.items]), fun p hp it hi => h it (by
    simp only [MQ.items, List.mem_cons, List.mem_flatMap]
    exact .inr (.inr ⟨p, hp, hi⟩))⟩

theorem MQ.fair_of {q : MQ} (h : q.parts ≠ [] ∧ ∀ p ∈ q.parts, AllFair p.items) : AllFair q.items := by
  intro it hi
  simp only [MQ.items, List.mem_cons, List.mem_flatMap] at hi
  rcases hi with rfl | rfl | ⟨p, hp, hi⟩
  · exact h.1
  · trivial
  · exact h.2 p hp it hi

theorem transformMQPart_fair {fo : FloatOps} {o : TOpts} {p : MQPart} {s : TSt} (hp : AllFair p.items) (hs : FairSt s) :
    tw True (transformMQPart fo o p) (fun ps s' => FairSt s' ∧ ps ≠ [] ∧ ∀ q ∈ ps, AllFair q.items) s := by
  suffices tw True (transformMQPart fo o p) (fun ps _ => ps ≠ [] ∧ ∀ q ∈ ps, AllFair q.items) s by
    unfold tw at this ⊢
    rcases e : transformMQPart fo o p s with ⟨a, s'⟩ | _ | _ <;> rw [e] at this
    · exact ⟨hs.framed ((LogOnly.transformMQPart fo o p).ok e), this⟩
    · trivial
    · trivial
  have self : ∀ s, tw True (pure [p] : T (List MQPart)) (fun ps _ => ps ≠ [] ∧ ∀ q ∈ ps, AllFair q.items) s :=
    fun s => tw_pure ⟨by simp, by simpa using hp⟩
  cases p with
  | ident => exact self _
  | inParens => exact self _
  | plain sp psp prop value =>
    unfold transformMQPart
    dsimp only
    split
    · exact self _
    · refine tw_bind (tw_get ?_)
      rcases hm : s.media with _ | media
      · exact self _
      · dsimp only
        split
        · exact self _
        · exact tw_pure (MQ.fair_parts (hs.media _ hm _ (assoc_mem ‹_›)))
  | range sp psp prop left op right =>
    have h0 : NoEsc prop ∧ (left = .nil → right ≠ .nil ∧ ∀ sp v, right ≠ .ident sp v) :=
      hp (.mqpart (.range sp psp prop left op right)) (by simp [MQPart.items])
    unfold transformMQPart transformMediaFeatureRange
    dsimp only
    split
    · exact self _
    · refine tw_seq (R := fun ps _ => (left ≠ .nil → ps ≠ []) ∧ ∀ q ∈ ps, AllFair q.items) ?_ fun a _ ha =>
        tw_seq (R := fun ps _ => (right ≠ .nil → ps ≠ []) ∧ ∀ q ∈ ps, AllFair q.items) ?_ fun b _ hb => tw_pure ⟨?_, fun q hq => ?_⟩
      · split
        · rename_i hn
          exact tw_pure ⟨fun h => absurd (by cases left <;> simp_all [Value.isNil]) h, by simp⟩
        · exact tw_seq (rangePart_fair (leftDir_clean fo op) h0.1 fun it hi => hp it (by simp [MQPart.items, hi])) fun p _ h =>
            tw_pure ⟨by simp, by simpa using h⟩
      · split
        · rename_i hn
          exact tw_pure ⟨fun h => absurd (by cases right <;> simp_all [Value.isNil]) h, by simp⟩
        · exact tw_seq (rangePart_fair (rightDir_clean fo op) h0.1 fun it hi => hp it (by simp [MQPart.items, hi])) fun p _ h =>
            tw_pure ⟨by simp, by simpa using h⟩
      · intro e
        simp only [List.append_eq_nil_iff] at e
        by_cases hl : left = .nil
        · exact hb.1 (h0.2 hl).1 e.2
        · exact ha.1 hl e.1.1
      · rcases List.mem_append.1 hq with hq | hq
        · rcases List.mem_append.1 hq with hq | hq
          · exact ha.2 q hq
          · split at hq
            · cases hq
            · rw [List.mem_singleton.1 hq]
              intro it hi
              simp only [MQPart.items, List.mem_cons, List.not_mem_nil, or_false] at hi
              rcases hi with rfl | rfl | rfl
              · exact (by decide : NoEsc b!"and")
              · trivial
              · trivial
        · exact hb.2 q hq

theorem transformMQ_fair {fo : FloatOps} {o : TOpts} {q : MQ} {s : TSt} (hq : AllFair q.items) (hs : FairSt s) :
    tw True (transformMQ fo o q) (fun qs s' => FairSt s' ∧ ∀ r ∈ qs, AllFair r.items) s := by
  have key : ∀ {ps : List MQPart} {s : TSt}, (∀ p ∈ ps, AllFair p.items) → FairSt s →
      tw True (mapConcat (transformMQPart fo o) ps) (fun qs s' => FairSt s' ∧ (ps ≠ [] → qs ≠ []) ∧ ∀ r ∈ qs, AllFair r.items) s := by
    intro ps
    induction ps with
    | nil => intro s _ hs; exact tw_pure ⟨hs, fun h => absurd rfl h, by simp⟩
    | cons p ps ih =>
      intro s hp hs
      rw [mapConcat]
      refine tw_seq (transformMQPart_fair (hp p (by simp)) hs) fun a s1 ha =>
        tw_seq (ih (fun p h => hp p (by simp [h])) ha.1) fun b s2 hb => tw_pure ⟨hb.1, fun _ => by simp [ha.2.1], fun r hr => ?_⟩
      rcases List.mem_append.1 hr with hr | hr
      · exact ha.2.2 r hr
      · exact hb.2.2 r hr
  unfold transformMQ
  have hf := MQ.fair_parts hq
  refine tw_seq (key hf.2 hs) fun ps s1 h => tw_pure ⟨h.1, fun r hr => ?_⟩
  rw [List.mem_singleton.1 hr]
  exact MQ.fair_of ⟨h.2.1 hf.1, h.2.2⟩

/-! ### Nodes -/

theorem transformRule_fair {fo : FloatOps} {o : TOpts} {n : Nat} {r : QRule} {s : TSt} (hr : AllFair r.items) (hs : FairSt s) :
    tw True (transformRule fo o n r) (fun ns s' => FairSt s' ∧ ∀ x ∈ ns, AllFair x.items) s := by
  have h0 : (∃ l, r.prelude = .sels l ∧ ∀ s ∈ l.sels, s.NoLead) ∨ ∃ sp k, r.prelude = .keyframes sp [k] :=
    hr (.rule r) (by simp [QRule.items])
  unfold transformRule
  rcases e : r.prelude with _ | l | ⟨ksp, kfs⟩
  · exact tw_crash trivial
  · dsimp only
    split
    · exact tw_crash trivial
    · rcases hb : r.block with _ | b
      · exact tw_crash trivial
      · dsimp only
        have hd : ∀ d ∈ b.decls, AllFair d.items := fun d hd it hi => hr it (by
          simp only [QRule.items, hb, Option.toList_some, List.flatMap_singleton, DeclBlock.items, List.mem_cons, List.mem_append, List.mem_flatMap]
          exact .inr (.inr (.inr (.inr ⟨d, hd, hi⟩))))
        have hsel : ∀ x ∈ l.sels, AllFair x.items := fun x hx it hi => hr it (by
          simp only [QRule.items, e, Prelude.items, List.mem_cons, List.mem_append, mem_selsL]
          exact .inr (.inr (.inl (.inr (.inr ⟨x, hx, hi⟩)))))
        refine tw_seq (R := fun ds s' => FairSt s' ∧ ∀ d ∈ ds, AllFair d.items) ?_ fun ds s1 h1 => ?_
        · split
          · exact collectVars_fair hd hs
          · exact tw_pure ⟨hs, hd⟩
        · refine tw_seq (tw_mapConcat h1.1 fun d hm s hs => transformDecl_fair (h1.2 d hm) hs) fun ds' s2 h2 => ?_
          split
          · exact tw_pure ⟨h2.1, by simp⟩
          · refine tw_pure ⟨h2.1, fun x hx => ?_⟩
            rw [List.mem_singleton.1 hx]
            intro it hi
            simp only [Node.items, QRule.items, Prelude.items, Option.toList_some, List.flatMap_singleton, DeclBlock.items, List.mem_cons,
              List.mem_append, List.mem_flatMap, mem_selsL] at hi
            rcases hi with rfl | rfl | (rfl | rfl | ⟨y, hy, hi⟩) | rfl | ⟨d, hd, hi⟩
            · left
              refine ⟨_, rfl, fun y hy => ?_⟩
              obtain ⟨x, hx, hy⟩ := List.mem_flatMap.1 hy
              rcases h0 with ⟨l', e', h0⟩ | ⟨_, _, e'⟩ <;> rw [e] at e' <;> cases e'
              exact (transformSelector_fair (hsel x hx) hy).2 (h0 x hx)
            · trivial
            · trivial
            · trivial
            · obtain ⟨x, hx, hy⟩ := List.mem_flatMap.1 hy
              exact (transformSelector_fair (hsel x hx) hy).1 it hi
            · trivial
            · exact h2.2 d hd it hi
  · exact tw_seq tw_any fun _ _ _ => tw_crash trivial

/-- The replacements are kept. -/
def ReplFair (repl : Replacements) : Prop := ∀ m, repl = some m → ∀ d ∈ m, ∀ x ∈ d.2.nodes, AllFair x.items

theorem transformNode_fair {fo : FloatOps} {o : TOpts} {repl : Replacements} (hr : ReplFair repl) : ∀ {n : Nat} {x : Node} {s : TSt},
    AllFair x.items → FairSt s →
    tw True (transformNode fo o repl n x) (fun ns s' => FairSt s' ∧ ∀ x ∈ ns, AllFair x.items) s := by
  intro n
  induction n with
  | zero => intros; trivial
  | succ n ih =>
    intro x s hx hs
    cases x with
    | rule r => exact transformRule_fair hx hs
    | «at» a =>
      have hself : ∀ s, FairSt s → tw True (pure [.at a] : T (List Node)) (fun ns s' => FairSt s' ∧ ∀ x ∈ ns, AllFair x.items) s :=
        fun s hs => tw_pure ⟨hs, by simpa using hx⟩
      have hpre : ∀ p ∈ a.preludes, AllFair p.items := fun p hp it hi => hx it (by
        simp only [Node.items, AtRule.items, List.mem_cons, List.mem_append, List.mem_flatMap]
        exact .inr (.inr (.inr (.inl ⟨p, hp, hi⟩))))
      rw [transformNode]
      unfold transformAt
      split
      · split
        · exact tw_pure ⟨hs, by simpa using hx⟩
        · rename_i m
          split
          · exact hself _ hs
          · rename_i imported he
            have hm := hr m rfl _ (lookupImport_in he)
            refine tw_seq (R := fun _ s' => FairSt s') ?_ fun _ s1 h1 => tw_mapConcat h1 fun x hx s hs => ih (hm x hx) hs
            unfold whenT
            split
            · exact ⟨hs.vars, hs.media⟩
            · exact hs
      · split
        · refine tw_seq (R := fun _ s' => FairSt s') ?_ fun _ s1 h1 => tw_pure ⟨h1, by simp⟩
          unfold tw collectMedia
          rcases hmed : s.media with _ | media
          · exact hs
          · dsimp only
            split
            · rename_i h
              split at h
              · rename_i nsp name q e
                cases h
                refine ⟨hs.vars, fun media' e' => ?_⟩
                cases e'
                rintro d (_ | ⟨_, hm⟩)
                · exact hpre (.mq q) (by rw [e]; simp)
                · exact hs.media _ hmed d hm
              · cases h; exact hs
            · trivial
            · trivial
        · split
          · split
            · rename_i h1 h2 h3 _ l rest e
              have hl : ∀ q ∈ l.queries, AllFair q.items := fun q hq it hi => hpre (.mql (some l)) (by rw [e]; simp) it (by
                simp only [AtPrelude.items, Option.toList_some, List.flatMap_singleton, MQList.items, List.mem_cons, List.mem_flatMap]
                exact .inr (.inr ⟨q, hq, hi⟩))
              refine tw_seq (tw_mapConcat hs fun q hq s hs => transformMQ_fair (hl q hq) hs) fun qs s1 h => tw_pure ⟨h.1, fun x hx' => ?_⟩
              rw [List.mem_singleton.1 hx']
              intro it hi
              simp only [Node.items, AtRule.items, List.flatMap_cons, AtPrelude.items, Option.toList_some, List.flatMap_nil, MQList.items,
                List.mem_cons, List.mem_append, List.mem_flatMap] at hi
              have hat : NoEsc a.name ∧ a.preludes ≠ [.mql none] ∧ (∀ sp v, .str sp v ∈ a.preludes → Quotable v) ∧
                  ∀ sp v, .ident sp v ∈ a.preludes → NoEsc v := hx (.at a) (by simp [Node.items, AtRule.items])
              rcases hi with rfl | rfl | rfl | (((rfl | rfl | ⟨q, hq, hi⟩) | hi) | ⟨p, hp, hi⟩) | hi
              · refine ⟨hat.1, by simp, fun sp v hm => ?_, fun sp v hm => ?_⟩
                · exact hat.2.2.1 sp v (by rw [e]; simpa using hm)
                · exact hat.2.2.2 sp v (by rw [e]; simpa using hm)
              · trivial
              · trivial
              · trivial
              · trivial
              · exact h.2 q hq it hi
              · cases hi
              · exact hpre p (by rw [e]; simp [hp]) it hi
              · exact hx it (by simp [Node.items, AtRule.items, hi])
            · exact tw_crash trivial
          · exact hself _ hs

theorem FairSt.init (o : TOpts) (repl : Replacements) : FairSt (TSt.init o repl) := by
  constructor
  · intro vars e
    unfold TSt.init at e
    dsimp only at e
    split at e
    · cases e; simp
    · cases e
  · intro media e
    unfold TSt.init at e
    dsimp only at e
    split at e
    · cases e; simp
    · cases e

/-- The items of a transformed stylesheet. -/
theorem transform_fair {fo : FloatOps} {o : TOpts} {repl : Replacements} {n : Nat} {ss out : Stylesheet} {s : TSt}
    (hss : ∀ x ∈ ss.nodes, AllFair x.items) (hr : ReplFair repl) (h : transform fo o repl n ss = .ok out s) :
    ∀ x ∈ out.nodes, AllFair x.items := by
  unfold transform at h
  rcases e : transformNodes fo o repl n ss.nodes (TSt.init o repl) with ⟨nodes, s1⟩ | _ | _ <;> rw [e] at h <;> cases h
  exact (tw_ok (tw_mapConcat (cr := True) (FairSt.init o repl) fun x hx s hs => transformNode_fair (fo := fo) (o := o) hr (hss x hx) hs) e).2

/-- Parsed stylesheets. -/
theorem fair_of_ready {src : Bytes} {n : Node} (h : NodeOk src n) (hk : ∀ it ∈ n.items, it.Ready) : AllFair n.items := by
  intro it hi
  have h1 := hk it hi
  cases it with
  | mq q => exact (h.items _ hi).2.2.1
  | _ => exact h1

theorem clean_digits {f : Bytes} (h : ∀ b ∈ f, isAD b = true) : Clean f := fun b hb =>
  ⟨(isAD_lt (h b hb)).1, (isAD_lt (h b hb)).2, fun e => absurd (h b hb) (by rw [e]; decide)⟩

theorem Clean.append {a b : Bytes} (ha : Clean a) (hb : Clean b) : Clean (a ++ b) := fun x hx =>
  (List.mem_append.1 hx).elim (ha x) (hb x)

theorem IsSign.clean {a : Bytes} (h : IsSign a) : Clean a := by
  rcases h with rfl | rfl | rfl <;> decide

theorem IsNum.clean {n : Bytes} (h : IsNum n) : Clean n := by
  obtain ⟨sgn, ds, fr, ex, h, rfl⟩ := h
  refine h.sgnOk.clean.append ((clean_digits h.dsOk).append (Clean.append ?_ ?_))
  · rcases h.frOk with rfl | ⟨f, rfl, -, hf⟩
    · decide
    · exact Clean.append (a := [46]) (by decide) (clean_digits hf)
  · rcases h.exOk with rfl | ⟨e, sg, f, rfl, he, hs, -, hf⟩
    · decide
    · exact Clean.append (a := [e]) (by rcases he with rfl | rfl <;> decide) (hs.clean.append (clean_digits hf))

/-- Back, when the numbers and the arithmetic can be written. -/
theorem Item.Fair.fit {it : Item} (h : it.Fair) (hn : it.Reckoned) : it.Keeps ∧ it.Whole := by
  cases it with
  | value v =>
    cases v with
    | dim sp num unit =>
      have : IsNum num := hn
      exact ⟨⟨(fun e => by obtain ⟨b, t, e', -⟩ := this.head; rw [e] at e'; cases e'), this.clean, h⟩, this⟩
    | math => exact ⟨hn, trivial⟩
    | _ => exact ⟨h, trivial⟩
  | part p =>
    cases p with
    | pclass => exact ⟨h.1, trivial⟩
    | _ => exact ⟨h, trivial⟩
  | mq q => exact ⟨trivial, h⟩
  | _ => exact ⟨h, trivial⟩

end Cssc
