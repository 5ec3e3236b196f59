import Verif.Proofs.Print
import Verif.Spec.Items

/-!
# When printing succeeds

`Fine m`: the method succeeds (in every state, since it is plain).  For each kind of node, printing is fine
exactly when nothing is missing inside.
-/

namespace Cssc

/-- The method succeeds. -/
def Fine (m : Pr Unit) : Prop := ∃ t, Writes m t

theorem Fine.pure : Fine (pure ()) := ⟨_, writes_pure⟩
theorem Fine.write (b : Bytes) : Fine (write b) := ⟨_, writes_write b⟩

theorem not_fine_error : ¬ Fine Pr.error := fun ⟨_, h⟩ => by cases h PrSt.init
theorem not_fine_panic : ¬ Fine Pr.panic := fun ⟨_, h⟩ => by cases h PrSt.init

theorem Fine.bind {m n : Pr Unit} (h1 : Fine m) (h2 : Fine n) : Fine (do m; n) := by
  obtain ⟨t, h1⟩ := h1
  obtain ⟨u, h2⟩ := h2
  exact ⟨_, h1.bind h2⟩

theorem fine_bind {m n : Pr Unit} (p : Plain m) (q : Plain n) : Fine (do m; n) ↔ Fine m ∧ Fine n := by
  constructor
  · rintro ⟨t, h⟩
    obtain ⟨a, st1, h1, h2⟩ := Pr.bind_eq_ok (h PrSt.init)
    obtain ⟨u, hu, _⟩ := p.ok h1
    obtain ⟨w, hw, _⟩ := q.ok h2
    exact ⟨⟨u, hu⟩, ⟨w, hw⟩⟩
  · rintro ⟨h1, h2⟩; exact h1.bind h2

theorem fine_when {c : Prop} [Decidable c] {m : Pr Unit} : Fine (whenPr c m) ↔ (c → Fine m) := by
  unfold whenPr
  split
  · rename_i h; exact ⟨fun h' _ => h', fun h' => h' h⟩
  · rename_i h; exact ⟨fun _ h' => absurd h' h, fun _ => Fine.pure⟩

theorem fine_write_bind {b : Bytes} {n : Pr Unit} (q : Plain n) : Fine (do write b; n) ↔ Fine n :=
  (fine_bind (Plain.write b) q).trans ⟨fun h => h.2, fun h => ⟨Fine.write b, h⟩⟩

theorem fine_bind_write {b : Bytes} {m : Pr Unit} (p : Plain m) : Fine (do m; write b) ↔ Fine m :=
  (fine_bind p (Plain.write b)).trans ⟨fun h => h.1, fun h => ⟨h, Fine.write b⟩⟩

/-- A method that writes a separator, or nothing, between. -/
theorem fine_sep {c : Prop} [Decidable c] {b : Bytes} {n : Pr Unit} (q : Plain n) :
    Fine (do whenPr c (write b); n) ↔ Fine n :=
  (fine_bind (Plain.when fun _ => Plain.write b) q).trans
    ⟨fun h => h.2, fun h => ⟨fine_when.2 fun _ => Fine.write b, h⟩⟩

/-! ### Values -/

mutual
/-- Nothing missing inside a value. -/
def Value.whole : Value → Prop
  | .nil => False
  | .brackets _ vs => Value.wholeL vs
  | .func _ _ args => Value.wholeL args
  | .math _ _ l r => l.whole ∧ r.whole
  | .paren _ v => v.whole
  | _ => True
def Value.wholeL : List Value → Prop
  | [] => True
  | v :: vs => v.whole ∧ Value.wholeL vs
end

mutual
theorem fine_value : ∀ v, Fine (printValue v) ↔ v.whole
  | .nil => by unfold printValue Value.whole; exact iff_false_intro not_fine_error
  | .comma _ => by unfold printValue Value.whole; exact iff_true_intro (Fine.write _)
  | .dim _ _ _ => by unfold printValue Value.whole; exact iff_true_intro ((Fine.write _).bind (Fine.write _))
  | .str _ _ => by
    unfold printValue Value.whole
    exact iff_true_intro ((Fine.write _).bind ((Fine.write _).bind (Fine.write _)))
  | .ident _ _ => by unfold printValue Value.whole; exact iff_true_intro (Fine.write _)
  | .func _ _ args => by
    unfold printValue Value.whole
    rw [fine_write_bind ((Plain.write _).bind ((printArgs_plain args).bind (Plain.write _))),
      fine_write_bind ((printArgs_plain args).bind (Plain.write _)), fine_bind_write (printArgs_plain args)]
    exact fine_args args
  | .brackets _ vs => by
    unfold printValue Value.whole
    rw [fine_write_bind ((printSpaced_plain vs).bind (Plain.write _)), fine_bind_write (printSpaced_plain vs)]
    exact fine_spaced vs
  | .paren _ v => by
    unfold printValue Value.whole
    rw [fine_write_bind ((printValue_plain v).bind (Plain.write _)), fine_bind_write (printValue_plain v)]
    exact fine_value v
  | .math _ _ l r => by
    unfold printValue Value.whole
    rw [fine_bind (printValue_plain l) ((Plain.write _).bind (printValue_plain r)),
      fine_write_bind (printValue_plain r), fine_value l, fine_value r]
  | .hex _ _ => by unfold printValue Value.whole; exact iff_true_intro ((Fine.write _).bind (Fine.write _))
  | .raw _ _ => by unfold printValue Value.whole; exact iff_true_intro (Fine.write _)
theorem fine_args : ∀ vs, Fine (printArgs vs) ↔ Value.wholeL vs
  | [] => by unfold printArgs Value.wholeL; exact iff_true_intro Fine.pure
  | v :: vs => by
    unfold printArgs Value.wholeL
    rw [fine_bind (printValue_plain v) (printArgs_plain vs), fine_value v, fine_args vs]
theorem fine_spaced : ∀ vs, Fine (printSpaced vs) ↔ Value.wholeL vs
  | [] => by unfold printSpaced Value.wholeL; exact iff_true_intro Fine.pure
  | v :: vs => by
    unfold printSpaced Value.wholeL
    rw [fine_bind (printValue_plain v) ((Plain.when fun _ => Plain.write _).bind (printSpaced_plain vs)),
      fine_sep (printSpaced_plain vs), fine_value v, fine_spaced vs]
end

/-- A value that may be missing. -/
def Value.optWhole (v : Value) : Prop := v = .nil ∨ v.whole

theorem fine_opt {v : Value} {m : Pr Unit} (h : Fine m ↔ v.whole) :
    Fine (whenPr (!v.isNil) m) ↔ v.optWhole := by
  rw [fine_when]
  unfold Value.optWhole
  cases v <;> simp_all [Value.isNil]

theorem fine_declValues : ∀ vs, Fine (printDeclValues vs) ↔ Value.wholeL vs
  | [] => by unfold Value.wholeL; exact iff_true_intro Fine.pure
  | v :: vs => by
    unfold printDeclValues Value.wholeL
    have hg : Fine (printGap v vs) := by
      cases vs with
      | nil => exact Fine.pure
      | cons w ws => exact fine_when.2 fun _ => Fine.write _
    rw [fine_bind (printValue_plain v) ((printGap_plain v vs).bind (printDeclValues_plain vs)),
      fine_bind (printGap_plain v vs) (printDeclValues_plain vs), fine_value v, fine_declValues vs]
    simp [hg]

def Decl.whole : Decl → Prop
  | .decl _ _ vals _ => Value.wholeL vals
  | .raw _ _ => True

theorem fine_decl : ∀ d, Fine (printDecl d) ↔ d.whole
  | .decl _ _ vals imp => by
    unfold printDecl Decl.whole
    rw [fine_write_bind ((Plain.write _).bind ((printDeclValues_plain vals).bind (Plain.when fun _ => Plain.write _))),
      fine_write_bind ((printDeclValues_plain vals).bind (Plain.when fun _ => Plain.write _)),
      fine_bind (printDeclValues_plain vals) (Plain.when fun _ => Plain.write _), fine_declValues vals]
    exact ⟨fun h => h.1, fun h => ⟨h, fine_when.2 fun _ => Fine.write _⟩⟩
  | .raw _ _ => iff_true_intro (Fine.write _)

theorem fine_decls : ∀ ds, Fine (printDecls ds) ↔ ∀ d ∈ ds, Decl.whole d
  | [] => iff_of_true Fine.pure (fun _ h => by cases h)
  | d :: ds => by
    unfold printDecls
    rw [fine_bind (printDecl_plain d) ((Plain.when fun _ => Plain.write _).bind (printDecls_plain ds)),
      fine_sep (printDecls_plain ds), fine_decl d, fine_decls ds, List.forall_mem_cons]

/-! ### Selectors -/

mutual
def SelPart.whole : SelPart → Prop
  | .attr _ _ _ value _ => value.optWhole
  | .pclass _ _ args => args.whole
  | .pelem _ _ _ args => args.whole
  | _ => True
def PArgs.whole : PArgs → Prop
  | .sels _ l => Sel.wholeL l
  | _ => True
def Sel.whole : Sel → Prop
  | .mk _ parts => SelPart.wholeL parts
def Sel.wholeL : List Sel → Prop
  | [] => True
  | s :: ss => s.whole ∧ Sel.wholeL ss
def SelPart.wholeL : List SelPart → Prop
  | [] => True
  | p :: ps => p.whole ∧ SelPart.wholeL ps
end

theorem Fine.anb (a op b : Bytes) : Fine (printANB a op b) := by
  unfold printANB
  refine Fine.bind (fine_when.2 fun _ => ?_) (Fine.bind (fine_when.2 fun _ => Fine.write _)
    (fine_when.2 fun _ => Fine.bind (fine_when.2 fun _ => Fine.write _) (Fine.write _)))
  split
  · exact Fine.write _
  · split <;> exact Fine.write _

mutual
theorem fine_part : ∀ p, Fine (printSelPart p) ↔ p.whole
  | .ws _ => by unfold printSelPart SelPart.whole; exact iff_true_intro (Fine.write _)
  | .attr _ _ _ value _ => by
    have hp : Plain (whenPr (!value.isNil) (do write b!"="; printValue value)) :=
      Plain.when fun _ => (Plain.write _).bind (printValue_plain value)
    unfold printSelPart SelPart.whole
    rw [fine_write_bind ((Plain.write _).bind (hp.bind (Plain.write _))),
      fine_write_bind (hp.bind (Plain.write _)), fine_bind_write hp]
    exact fine_opt ((fine_write_bind (printValue_plain value)).trans (fine_value value))
  | .type _ _ => by unfold printSelPart SelPart.whole; exact iff_true_intro (Fine.write _)
  | .cls _ _ => by unfold printSelPart SelPart.whole; exact iff_true_intro ((Fine.write _).bind (Fine.write _))
  | .id _ _ => by unfold printSelPart SelPart.whole; exact iff_true_intro ((Fine.write _).bind (Fine.write _))
  | .comb _ _ => by unfold printSelPart SelPart.whole; exact iff_true_intro (Fine.write _)
  | .pelem _ _ _ args => by
    unfold printSelPart SelPart.whole
    rw [fine_write_bind ((Plain.write _).bind ((Plain.write _).bind (printPArgs_plain args))),
      fine_write_bind ((Plain.write _).bind (printPArgs_plain args)), fine_write_bind (printPArgs_plain args)]
    exact fine_pargs args
  | .pclass _ _ args => by
    unfold printSelPart SelPart.whole
    rw [fine_write_bind ((Plain.write _).bind (printPArgs_plain args)), fine_write_bind (printPArgs_plain args)]
    exact fine_pargs args
theorem fine_pargs : ∀ a, Fine (printPArgs a) ↔ a.whole
  | .nil => by unfold printPArgs PArgs.whole; exact iff_true_intro Fine.pure
  | .sels _ l => by
    unfold printPArgs PArgs.whole
    rw [fine_write_bind ((printSels_plain l).bind (Plain.write _)), fine_bind_write (printSels_plain l)]
    exact fine_sels l
  | .ident _ _ => by
    unfold printPArgs PArgs.whole
    exact iff_true_intro ((Fine.write _).bind ((Fine.write _).bind (Fine.write _)))
  | .anb _ _ _ _ => by
    unfold printPArgs PArgs.whole
    exact iff_true_intro ((Fine.write _).bind ((Fine.anb _ _ _).bind (Fine.write _)))
theorem fine_sel : ∀ s, Fine (printSel s) ↔ s.whole
  | .mk _ parts => by unfold printSel Sel.whole; exact fine_parts parts
theorem fine_parts : ∀ ps, Fine (printParts ps) ↔ SelPart.wholeL ps
  | [] => by unfold printParts SelPart.wholeL; exact iff_true_intro Fine.pure
  | p :: ps => by
    unfold printParts SelPart.wholeL
    rw [fine_bind (Plain.when fun _ => printSelPart_plain p) (printParts_plain ps), fine_when, fine_part p,
      fine_parts ps]
    cases hw : p.isWs with
    | false => simp
    | true =>
      have : p.whole := by cases p <;> simp_all [SelPart.isWs, SelPart.whole]
      simp [this]
theorem fine_sels : ∀ ss, Fine (printSels ss) ↔ Sel.wholeL ss
  | [] => by unfold printSels Sel.wholeL; exact iff_true_intro Fine.pure
  | s :: ss => by
    unfold printSels Sel.wholeL
    rw [fine_bind (printSel_plain s) ((Plain.when fun _ => Plain.write _).bind (printSels_plain ss)),
      fine_sep (printSels_plain ss), fine_sel s, fine_sels ss]
end

theorem Fine.ksels : ∀ ks, Fine (printKSels ks)
  | [] => Fine.pure
  | .pct _ _ :: ks => (Fine.write _).bind ((Fine.write _).bind (Fine.ksels ks))
  | .ident _ _ :: ks => (Fine.write _).bind (Fine.ksels ks)

def Prelude.whole : Prelude → Prop
  | .nil => False
  | .sels l => Sel.wholeL l.sels
  | .keyframes _ _ => True

theorem fine_prelude : ∀ p, Fine (printPrelude p) ↔ p.whole
  | .nil => iff_false_intro not_fine_error
  | .sels l => fine_sels l.sels
  | .keyframes _ l => iff_true_intro (Fine.ksels l)

def QRule.whole (r : QRule) : Prop :=
  r.prelude.whole ∧ ∃ b, r.block = some b ∧ ∀ d ∈ b.decls, Decl.whole d

theorem fine_rule (r : QRule) : Fine (printRule none r) ↔ r.whole := by
  obtain ⟨sp, pre, block⟩ := r
  have h0 : Plain (addMapping none sp) := .inl ⟨_, addMapping_none _⟩
  have hb := printBlock_plain block
  unfold printRule QRule.whole
  dsimp only
  rw [fine_bind h0 ((printPrelude_plain pre).bind ((Plain.write _).bind (hb.bind (Plain.write _)))),
    fine_bind (printPrelude_plain pre) ((Plain.write _).bind (hb.bind (Plain.write _))),
    fine_write_bind (hb.bind (Plain.write _)), fine_bind_write hb, fine_prelude]
  have e0 : Fine (addMapping none sp) := ⟨_, addMapping_none _⟩
  cases block with
  | none =>
    have : ¬ Fine (printBlock none) := not_fine_error
    simp [this]
  | some b =>
    have : Fine (printBlock (some b)) ↔ _ := fine_decls b.decls
    simp [this, e0]

theorem fine_rules : ∀ rs, Fine (printRules none rs) ↔ ∀ r ∈ rs, QRule.whole r
  | [] => iff_of_true Fine.pure (fun _ h => by cases h)
  | r :: rs => by
    unfold printRules
    rw [fine_bind (printRule_none r) (printRules_none rs), fine_rule, fine_rules rs, List.forall_mem_cons]

/-! ### Media queries and at-rules -/

def MQPart.whole : MQPart → Prop
  | .ident _ _ => True
  | .plain _ _ _ value => value.optWhole
  | .range _ _ _ left _ right => left.optWhole ∧ right.optWhole
  | .inParens _ _ => False

theorem fine_mqpart : ∀ p, Fine (printMQPart p) ↔ p.whole
  | .ident _ _ => iff_true_intro (Fine.write _)
  | .plain _ _ _ value => by
    have hp : Plain (whenPr (!value.isNil) (do write b!":"; printValue value)) :=
      Plain.when fun _ => (Plain.write _).bind (printValue_plain value)
    unfold printMQPart MQPart.whole
    rw [fine_write_bind ((Plain.write _).bind (hp.bind (Plain.write _))),
      fine_write_bind (hp.bind (Plain.write _)), fine_bind_write hp]
    exact fine_opt ((fine_write_bind (printValue_plain value)).trans (fine_value value))
  | .range _ _ _ left op right => by
    have hl : Plain (whenPr (!left.isNil) (do printValue left; write op)) :=
      Plain.when fun _ => (printValue_plain left).bind (Plain.write _)
    have hr : Plain (whenPr (!right.isNil) (do write op; printValue right)) :=
      Plain.when fun _ => (Plain.write _).bind (printValue_plain right)
    unfold printMQPart MQPart.whole
    rw [fine_write_bind (hl.bind ((Plain.write _).bind (hr.bind (Plain.write _)))),
      fine_bind hl ((Plain.write _).bind (hr.bind (Plain.write _))),
      fine_write_bind (hr.bind (Plain.write _)), fine_bind_write hr,
      fine_opt ((fine_bind_write (printValue_plain left)).trans (fine_value left)),
      fine_opt ((fine_write_bind (printValue_plain right)).trans (fine_value right))]
  | .inParens _ _ => iff_false_intro not_fine_panic

theorem fine_mqparts : ∀ ps, Fine (printMQParts ps) ↔ ∀ p ∈ ps, MQPart.whole p
  | [] => iff_of_true Fine.pure (fun _ h => by cases h)
  | p :: ps => by
    unfold printMQParts
    rw [fine_bind (printMQPart_plain p) ((Plain.when fun _ => Plain.write _).bind (printMQParts_plain ps)),
      fine_sep (printMQParts_plain ps), fine_mqpart, fine_mqparts ps, List.forall_mem_cons]

def MQ.whole (q : MQ) : Prop := ∀ p ∈ q.parts, MQPart.whole p

theorem fine_mqs : ∀ qs, Fine (printMQs qs) ↔ ∀ q ∈ qs, MQ.whole q
  | [] => iff_of_true Fine.pure (fun _ h => by cases h)
  | q :: qs => by
    unfold printMQs
    rw [fine_bind (printMQParts_plain q.parts) ((Plain.when fun _ => Plain.write _).bind (printMQs_plain qs)),
      fine_sep (printMQs_plain qs), fine_mqparts, fine_mqs qs, List.forall_mem_cons]
    rfl

def AtPrelude.whole : AtPrelude → Prop
  | .mql none => False
  | .mql (some l) => ∀ q ∈ l.queries, MQ.whole q
  | .mq q => q.whole
  | _ => True

theorem fine_atprelude : ∀ p, Fine (printAtPrelude p) ↔ p.whole
  | .str _ _ => iff_true_intro ((Fine.write _).bind ((Fine.write _).bind (Fine.write _)))
  | .ident _ _ => iff_true_intro (Fine.write _)
  | .mql none => iff_false_intro not_fine_error
  | .mql (some l) => fine_mqs l.queries
  | .mq q => fine_mqparts q.parts

theorem fine_atpreludes : ∀ ps, Fine (printAtPreludes ps) ↔ ∀ p ∈ ps, AtPrelude.whole p
  | [] => iff_of_true Fine.pure (fun _ h => by cases h)
  | p :: ps => by
    unfold printAtPreludes
    rw [fine_bind (printAtPrelude_plain p) ((Plain.when fun _ => Plain.write _).bind (printAtPreludes_plain ps)),
      fine_sep (printAtPreludes_plain ps), fine_atprelude, fine_atpreludes ps, List.forall_mem_cons]

def Block.whole : Block → Prop
  | .none => True
  | .decls b => ∀ d ∈ b.decls, Decl.whole d
  | .rules _ rs => ∀ r ∈ rs, QRule.whole r

theorem fine_atblock : ∀ b, Fine (printAtBlock none b) ↔ b.whole
  | .none => iff_true_intro (Fine.write _)
  | .decls b => by
    unfold printAtBlock Block.whole
    rw [fine_write_bind ((printDecls_plain _).bind (Plain.write _)), fine_bind_write (printDecls_plain _)]
    exact fine_decls _
  | .rules _ rs => by
    unfold printAtBlock Block.whole
    rw [fine_write_bind ((printRules_none _).bind (Plain.write _)), fine_bind_write (printRules_none _)]
    exact fine_rules _

def AtRule.whole (a : AtRule) : Prop := (∀ p ∈ a.preludes, AtPrelude.whole p) ∧ a.block.whole

theorem fine_at (a : AtRule) : Fine (printAtRule none a) ↔ a.whole := by
  have h0 : Plain (addMapping none a.sp) := .inl ⟨_, addMapping_none _⟩
  have e0 : Fine (addMapping none a.sp) := ⟨_, addMapping_none _⟩
  rw [printAtRule_eq, fine_bind h0 ((atHead_plain a).bind (printAtBlock_none _)),
    fine_bind (atHead_plain a) (printAtBlock_none _), fine_atblock]
  unfold atHead AtRule.whole
  have hp : Plain (do write b!" "; printAtPreludes a.preludes) := (Plain.write _).bind (printAtPreludes_plain _)
  have hw : Plain (whenPr (a.preludes ≠ []) (do write b!" "; printAtPreludes a.preludes)) := Plain.when fun _ => hp
  rw [fine_write_bind ((Plain.write _).bind hw), fine_write_bind hw, fine_when,
    fine_write_bind (printAtPreludes_plain _), fine_atpreludes]
  constructor
  · rintro ⟨_, h1, h2⟩
    refine ⟨fun p hp => h1 ?_ p hp, h2⟩
    intro e; rw [e] at hp; cases hp
  · rintro ⟨h1, h2⟩; exact ⟨e0, fun _ => h1, h2⟩

def Node.whole : Node → Prop
  | .rule r => r.whole
  | .at a => a.whole

theorem fine_node : ∀ n, Fine (printNode none n) ↔ n.whole
  | .rule r => fine_rule r
  | .at a => fine_at a

theorem fine_nodes : ∀ ns, Fine (printNodes none ns) ↔ ∀ n ∈ ns, Node.whole n
  | [] => iff_of_true Fine.pure (fun _ h => by cases h)
  | n :: ns => by
    unfold printNodes
    rw [fine_bind (printNode_none n) (printNodes_none ns), fine_node, fine_nodes ns, List.forall_mem_cons]

end Cssc
