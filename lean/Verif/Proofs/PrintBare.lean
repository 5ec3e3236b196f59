import Verif.Spec.Printable
import Verif.Printer

/-!
# Printing does not depend on positions

Without a source, nodes that differ only in positions (and white space at the end of selectors) are printed
alike.
-/

namespace Cssc

theorem whenPr_congr {c d : Prop} [Decidable c] [Decidable d] (h : c ↔ d) (m : Pr Unit) : whenPr c m = whenPr d m := by
  unfold whenPr
  by_cases hc : c
  · rw [if_pos hc, if_pos (h.1 hc)]
  · rw [if_neg hc, if_neg fun hd => hc (h.2 hd)]

theorem map_ne_nil {f : α → β} {l : List α} : l.map f ≠ [] ↔ l ≠ [] := by cases l <;> simp

mutual

theorem printValue_bare : ∀ v : Value, printValue v.bare = printValue v
  | .nil => rfl
  | .comma _ => rfl
  | .dim _ _ _ => rfl
  | .str _ _ => rfl
  | .ident _ _ => rfl
  | .func _ name args => by rw [Value.bare, printValue, printValue, printArgs_bare args]
  | .brackets _ vs => by rw [Value.bare, printValue, printValue, printSpaced_bare vs]
  | .paren _ v => by rw [Value.bare, printValue, printValue, printValue_bare v]
  | .math _ op l r => by rw [Value.bare, printValue, printValue, printValue_bare l, printValue_bare r]
  | .hex _ _ => rfl
  | .raw _ _ => rfl

theorem printArgs_bare : ∀ vs : List Value, printArgs (bareVals vs) = printArgs vs
  | [] => rfl
  | v :: vs => by rw [bareVals, printArgs, printArgs, printValue_bare v, printArgs_bare vs]

theorem printSpaced_bare : ∀ vs : List Value, printSpaced (bareVals vs) = printSpaced vs
  | [] => rfl
  | v :: vs => by
    rw [bareVals, printSpaced, printSpaced, printValue_bare v, printSpaced_bare vs]
    rw [whenPr_congr (c := bareVals vs ≠ []) (d := vs ≠ []) (by cases vs <;> simp [bareVals])]

end

theorem Value.bare_isComma (v : Value) : v.bare.isComma = v.isComma := by cases v <;> rfl

theorem Value.bare_isNil (v : Value) : v.bare.isNil = v.isNil := by cases v <;> rfl

theorem printDeclValues_bare : ∀ vs : List Value, printDeclValues (bareVals vs) = printDeclValues vs
  | [] => rfl
  | v :: vs => by
    rw [bareVals, printDeclValues, printDeclValues, printValue_bare v, printDeclValues_bare vs]
    have : printGap v.bare (bareVals vs) = printGap v vs := by
      cases vs with
      | nil => rfl
      | cons w vs => exact whenPr_congr (by rw [Value.bare_isComma, Value.bare_isComma]) _
    rw [this]

theorem printDecl_bare (d : Decl) : printDecl d.bare = printDecl d := by
  cases d with
  | raw => rfl
  | decl _ p vs i => rw [Decl.bare, printDecl, printDecl, printDeclValues_bare]

theorem printDecls_bare : ∀ ds : List Decl, printDecls (ds.map Decl.bare) = printDecls ds
  | [] => rfl
  | d :: ds => by
    rw [List.map_cons, printDecls, printDecls, printDecl_bare, printDecls_bare ds]
    rw [whenPr_congr map_ne_nil]

theorem printBlock_bare (b : Option DeclBlock) : printBlock (b.map DeclBlock.bare) = printBlock b := by
  cases b with
  | none => rfl
  | some b => exact printDecls_bare b.decls

/-! ### Selectors -/

theorem bareParts_nil : ∀ {ps : List SelPart}, bareParts ps = [] → printParts ps = pure ()
  | [], _ => rfl
  | p :: ps, h => by
    rw [bareParts] at h
    split at h
    · rename_i hc
      obtain ⟨h1, h2⟩ := Bool.and_eq_true _ _ ▸ hc
      cases ps with
      | cons => cases h1
      | nil =>
        rw [printParts, printParts, hc]
        rfl
    · cases h

theorem printParts_whole {p : SelPart} {ps : List SelPart} (h : ¬ (ps.isEmpty && p.isWs) = true) :
    printParts (p :: ps) = (do printSelPart p; printParts ps) := by
  rw [printParts, whenPr, if_pos (by rw [Bool.not_eq_true] at h; rw [h]; rfl)]

mutual

theorem printSelPart_bare : ∀ p q : SelPart, p.bare = q.bare → printSelPart p = printSelPart q
  | .ws _, q, h => by
    cases q <;> first | (simp [SelPart.bare] at h; done) | rfl
  | .type _ _, q, h => by
    cases q <;> first | (simp [SelPart.bare] at h; done) | (simp [SelPart.bare] at h; subst h; rfl)
  | .cls _ _, q, h => by
    cases q <;> first | (simp [SelPart.bare] at h; done) | (simp [SelPart.bare] at h; subst h; rfl)
  | .id _ _, q, h => by
    cases q <;> first | (simp [SelPart.bare] at h; done) | (simp [SelPart.bare] at h; subst h; rfl)
  | .comb _ _, q, h => by
    cases q <;> first | (simp [SelPart.bare] at h; done) | (simp [SelPart.bare] at h; subst h; rfl)
  | .attr _ _ _ v _, q, h => by
    cases q with
    | attr _ _ _ w _ =>
      simp only [SelPart.bare, SelPart.attr.injEq] at h
      obtain ⟨_, rfl, _, hv, _⟩ := h
      rw [printSelPart, printSelPart, ← printValue_bare v, ← printValue_bare w, ← v.bare_isNil, ← w.bare_isNil, hv]
    | _ => simp [SelPart.bare] at h
  | .pclass _ _ a, q, h => by
    cases q with
    | pclass _ _ b =>
      simp only [SelPart.bare, SelPart.pclass.injEq] at h
      obtain ⟨_, rfl, ha⟩ := h
      rw [printSelPart, printSelPart, printPArgs_bare a b ha]
    | _ => simp [SelPart.bare] at h
  | .pelem _ _ _ a, q, h => by
    cases q with
    | pelem _ _ _ b =>
      simp only [SelPart.bare, SelPart.pelem.injEq] at h
      obtain ⟨_, _, rfl, ha⟩ := h
      rw [printSelPart, printSelPart, printPArgs_bare a b ha]
    | _ => simp [SelPart.bare] at h

theorem printPArgs_bare : ∀ a b : PArgs, a.bare = b.bare → printPArgs a = printPArgs b
  | .nil, b, h => by cases b <;> first | (simp [PArgs.bare] at h; done) | rfl
  | .ident _ _, b, h => by
    cases b <;> first | (simp [PArgs.bare] at h; done) | (simp [PArgs.bare] at h; subst h; rfl)
  | .anb _ _ _ _, b, h => by
    cases b <;> first
      | (simp [PArgs.bare] at h; done)
      | (simp [PArgs.bare] at h; obtain ⟨rfl, rfl, rfl⟩ := h; rfl)
  | .sels _ l, b, h => by
    cases b with
    | sels _ k =>
      simp only [PArgs.bare, PArgs.sels.injEq] at h
      rw [printPArgs, printPArgs, printSels_bare l k h.2]
    | _ => simp [PArgs.bare] at h

theorem printSel_bare : ∀ s t : Sel, s.bare = t.bare → printSel s = printSel t
  | .mk _ ps, .mk _ qs, h => by
    rw [printSel, printSel]
    simp only [Sel.bare, Sel.mk.injEq] at h
    exact printParts_bare ps qs h.2

theorem printParts_bare : ∀ ps qs : List SelPart, bareParts ps = bareParts qs → printParts ps = printParts qs
  | [], qs, h => (bareParts_nil (ps := qs) (by rw [← h]; rfl)).symm
  | p :: ps, qs, h => by
    by_cases hp : (ps.isEmpty && p.isWs) = true
    · have hb : bareParts (p :: ps) = [] := by rw [bareParts, if_pos hp]
      rw [bareParts_nil hb, bareParts_nil (h ▸ hb)]
    · rw [bareParts, if_neg hp] at h
      cases qs with
      | nil => rw [bareParts] at h; cases h
      | cons q qs =>
        rw [bareParts] at h
        by_cases hq : (qs.isEmpty && q.isWs) = true
        · rw [if_pos hq] at h; cases h
        · rw [if_neg hq, List.cons.injEq] at h
          rw [printParts_whole hp, printParts_whole hq, printSelPart_bare p q h.1, printParts_bare ps qs h.2]

theorem printSels_bare : ∀ l k : List Sel, bareSels l = bareSels k → printSels l = printSels k
  | [], k, h => by
    cases k with
    | nil => rfl
    | cons => simp [bareSels] at h
  | s :: l, k, h => by
    cases k with
    | nil => simp [bareSels] at h
    | cons t k =>
      simp only [bareSels, List.cons.injEq] at h
      rw [printSels, printSels, printSel_bare s t h.1, printSels_bare l k h.2]
      have : l ≠ [] ↔ k ≠ [] := by
        cases l <;> cases k <;> simp [bareSels] at h ⊢
      rw [whenPr_congr this]

end

/-! ### Rules and at-rules -/

theorem printKSels_bare : ∀ l : List KSel, printKSels (l.map KSel.bare) = printKSels l
  | [] => rfl
  | .pct _ _ :: l => by rw [List.map_cons, KSel.bare, printKSels, printKSels, printKSels_bare l]
  | .ident _ _ :: l => by rw [List.map_cons, KSel.bare, printKSels, printKSels, printKSels_bare l]

theorem printPrelude_bare {p q : Prelude} (h : p.bare = q.bare) : printPrelude p = printPrelude q := by
  cases p with
  | nil => cases q <;> first | (simp [Prelude.bare] at h; done) | rfl
  | sels l =>
    cases q with
    | sels k =>
      simp only [Prelude.bare, Prelude.sels.injEq, SelList.mk.injEq] at h
      exact printSels_bare _ _ h.2
    | _ => simp [Prelude.bare] at h
  | keyframes _ l =>
    cases q with
    | keyframes _ k =>
      simp only [Prelude.bare, Prelude.keyframes.injEq] at h
      rw [printPrelude, printPrelude, ← printKSels_bare l, ← printKSels_bare k, h.2]
    | _ => simp [Prelude.bare] at h

theorem printRule_bare {r q : QRule} (h : r.bare = q.bare) : printRule none r = printRule none q := by
  simp only [QRule.bare, QRule.mk.injEq] at h
  rw [printRule, printRule, printPrelude_bare h.2.1, ← printBlock_bare r.block, ← printBlock_bare q.block, h.2.2]
  rfl

theorem printRules_bare : ∀ rs qs : List QRule, rs.map QRule.bare = qs.map QRule.bare → printRules none rs = printRules none qs
  | [], [], _ => rfl
  | [], _ :: _, h => by cases h
  | _ :: _, [], h => by cases h
  | r :: rs, q :: qs, h => by
    simp only [List.map_cons, List.cons.injEq] at h
    rw [printRules, printRules, printRule_bare h.1, printRules_bare rs qs h.2]

theorem printMQPart_bare (p : MQPart) : printMQPart p.bare = printMQPart p := by
  cases p with
  | ident => rfl
  | inParens => rfl
  | plain _ _ _ v => rw [MQPart.bare, printMQPart, printMQPart, printValue_bare, whenPr_congr (by rw [Value.bare_isNil v])]
  | range _ _ _ l _ r =>
    rw [MQPart.bare, printMQPart, printMQPart, printValue_bare, printValue_bare, whenPr_congr (by rw [Value.bare_isNil l]),
      whenPr_congr (c := (!r.bare.isNil) = true) (d := (!r.isNil) = true) (by rw [Value.bare_isNil r])]

theorem printMQParts_bare : ∀ ps : List MQPart, printMQParts (ps.map MQPart.bare) = printMQParts ps
  | [] => rfl
  | p :: ps => by
    rw [List.map_cons, printMQParts, printMQParts, printMQPart_bare, printMQParts_bare ps]
    rw [whenPr_congr map_ne_nil]

theorem printMQs_bare : ∀ qs : List MQ, printMQs (qs.map MQ.bare) = printMQs qs
  | [] => rfl
  | q :: qs => by
    rw [List.map_cons, printMQs, printMQs, printMQs_bare qs, MQ.bare, printMQParts_bare]
    rw [whenPr_congr map_ne_nil]

theorem printAtPrelude_bare (p : AtPrelude) : printAtPrelude p.bare = printAtPrelude p := by
  cases p with
  | str => rfl
  | ident => rfl
  | mq q => exact printMQParts_bare q.parts
  | mql l =>
    cases l with
    | none => rfl
    | some l => exact printMQs_bare l.queries

theorem printAtPreludes_bare : ∀ ps : List AtPrelude, printAtPreludes (ps.map AtPrelude.bare) = printAtPreludes ps
  | [] => rfl
  | p :: ps => by
    rw [List.map_cons, printAtPreludes, printAtPreludes, printAtPrelude_bare, printAtPreludes_bare ps]
    rw [whenPr_congr map_ne_nil]

theorem printAtBlock_bare {a b : Block} (h : a.bare = b.bare) : printAtBlock none a = printAtBlock none b := by
  cases a with
  | none => cases b <;> first | (simp [Block.bare] at h; done) | rfl
  | decls x =>
    cases b with
    | decls y =>
      simp only [Block.bare, Block.decls.injEq, DeclBlock.bare, DeclBlock.mk.injEq] at h
      rw [printAtBlock, printAtBlock, ← printDecls_bare x.decls, ← printDecls_bare y.decls, h.2]
    | _ => simp [Block.bare] at h
  | rules _ x =>
    cases b with
    | rules _ y =>
      simp only [Block.bare, Block.rules.injEq] at h
      rw [printAtBlock, printAtBlock, printRules_bare x y h.2]
    | _ => simp [Block.bare] at h

theorem printAtRule_bare {a b : AtRule} (h : a.bare = b.bare) : printAtRule none a = printAtRule none b := by
  simp only [AtRule.bare, AtRule.mk.injEq] at h
  obtain ⟨_, _, h1, h2, h3⟩ := h
  have : a.preludes ≠ [] ↔ b.preludes ≠ [] := by
    cases ha : a.preludes <;> cases hb : b.preludes <;> simp [ha, hb] at h2 ⊢
  rw [printAtRule, printAtRule, h1, printAtBlock_bare h3, ← printAtPreludes_bare a.preludes, ← printAtPreludes_bare b.preludes,
    h2]
  rw [whenPr_congr this]
  rfl

theorem printNode_bare {a b : Node} (h : a.bare = b.bare) : printNode none a = printNode none b := by
  cases a with
  | rule r =>
    cases b with
    | rule q => simp only [Node.bare, Node.rule.injEq] at h; exact printRule_bare h
    | «at» => simp [Node.bare] at h
  | «at» r =>
    cases b with
    | «at» q => simp only [Node.bare, Node.at.injEq] at h; exact printAtRule_bare h
    | rule => simp [Node.bare] at h

theorem printNodes_bare : ∀ ms ns : List Node, ms.map Node.bare = ns.map Node.bare → printNodes none ms = printNodes none ns
  | [], [], _ => rfl
  | [], _ :: _, h => by cases h
  | _ :: _, [], h => by cases h
  | m :: ms, n :: ns, h => by
    simp only [List.map_cons, List.cons.injEq] at h
    rw [printNodes, printNodes, printNode_bare h.1, printNodes_bare ms ns h.2]

end Cssc
