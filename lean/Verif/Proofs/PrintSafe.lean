import Verif.Proofs.Print

/-!
# The printer does not panic

Only a `MediaInParens` node makes `print` panic with a value that `Print` does not recover.
-/

namespace Cssc

/-- The method does not panic. -/
def NoPanic (m : Pr Unit) : Prop := ∀ st, m st ≠ .panic

theorem NoPanic.pure : NoPanic (pure ()) := fun _ h => by cases h
theorem NoPanic.write (b : Bytes) : NoPanic (write b) := fun _ h => by cases h
theorem NoPanic.error : NoPanic Pr.error := fun _ h => by cases h

theorem NoPanic.bind {m n : Pr Unit} (h1 : NoPanic m) (h2 : NoPanic n) : NoPanic (do m; n) := by
  intro st h
  rcases hm : m st with ⟨_, st1⟩ | _ | _
  · rw [Pr.bind_ok hm] at h; exact h2 _ h
  · rw [Pr.bind_error hm] at h; cases h
  · exact h1 _ hm

theorem NoPanic.when {c : Prop} [Decidable c] {m : Pr Unit} (h : c → NoPanic m) : NoPanic (whenPr c m) := by
  unfold whenPr; split
  · exact h ‹_›
  · exact NoPanic.pure

theorem NoPanic.ite {c : Prop} [Decidable c] {m n : Pr Unit} (h1 : NoPanic m) (h2 : NoPanic n) :
    NoPanic (if c then m else n) := by
  split <;> assumption

theorem addMapping_np (src : Option Source) (sp : Span) : NoPanic (addMapping src sp) := fun st h => by
  rcases addMapping_s src sp st with h' | ⟨_, h', _⟩ <;> rw [h'] at h <;> cases h

mutual
theorem printValue_np : ∀ v, NoPanic (printValue v)
  | .nil => by unfold printValue; exact NoPanic.error
  | .comma _ => by unfold printValue; exact NoPanic.write _
  | .dim _ _ _ => by unfold printValue; exact (NoPanic.write _).bind (NoPanic.write _)
  | .str _ _ => by unfold printValue; exact (NoPanic.write _).bind ((NoPanic.write _).bind (NoPanic.write _))
  | .ident _ _ => by unfold printValue; exact NoPanic.write _
  | .func _ _ args => by
    unfold printValue
    exact (NoPanic.write _).bind ((NoPanic.write _).bind ((printArgs_np args).bind (NoPanic.write _)))
  | .brackets _ vs => by
    unfold printValue; exact (NoPanic.write _).bind ((printSpaced_np vs).bind (NoPanic.write _))
  | .paren _ v => by
    unfold printValue; exact (NoPanic.write _).bind ((printValue_np v).bind (NoPanic.write _))
  | .math _ _ l r => by
    unfold printValue; exact (printValue_np l).bind ((NoPanic.write _).bind (printValue_np r))
  | .hex _ _ => by unfold printValue; exact (NoPanic.write _).bind (NoPanic.write _)
  | .raw _ _ => by unfold printValue; exact NoPanic.write _
theorem printArgs_np : ∀ vs, NoPanic (printArgs vs)
  | [] => by unfold printArgs; exact NoPanic.pure
  | v :: vs => by unfold printArgs; exact (printValue_np v).bind (printArgs_np vs)
theorem printSpaced_np : ∀ vs, NoPanic (printSpaced vs)
  | [] => by unfold printSpaced; exact NoPanic.pure
  | v :: vs => by
    unfold printSpaced
    exact (printValue_np v).bind ((NoPanic.when fun _ => NoPanic.write _).bind (printSpaced_np vs))
end

theorem printGap_np (v : Value) : ∀ vs, NoPanic (printGap v vs)
  | [] => NoPanic.pure
  | _ :: _ => NoPanic.when fun _ => NoPanic.write _

theorem printDeclValues_np : ∀ vs, NoPanic (printDeclValues vs)
  | [] => NoPanic.pure
  | v :: vs => (printValue_np v).bind ((printGap_np v vs).bind (printDeclValues_np vs))

theorem printDecl_np : ∀ d, NoPanic (printDecl d)
  | .decl _ _ vals _ => (NoPanic.write _).bind ((NoPanic.write _).bind ((printDeclValues_np vals).bind
      (NoPanic.when fun _ => NoPanic.write _)))
  | .raw _ _ => NoPanic.write _

theorem printDecls_np : ∀ ds, NoPanic (printDecls ds)
  | [] => NoPanic.pure
  | d :: ds => (printDecl_np d).bind ((NoPanic.when fun _ => NoPanic.write _).bind (printDecls_np ds))

theorem printANB_np (a op b : Bytes) : NoPanic (printANB a op b) :=
  (NoPanic.when fun _ => NoPanic.ite (NoPanic.write _) (NoPanic.ite (NoPanic.write _) (NoPanic.write _))).bind
    ((NoPanic.when fun _ => NoPanic.write _).bind
      (NoPanic.when fun _ => (NoPanic.when fun _ => NoPanic.write _).bind (NoPanic.write _)))

mutual
theorem printSelPart_np : ∀ p, NoPanic (printSelPart p)
  | .ws _ => by unfold printSelPart; exact NoPanic.write _
  | .attr _ _ _ value _ => by
    unfold printSelPart
    exact (NoPanic.write _).bind ((NoPanic.write _).bind ((NoPanic.when fun _ =>
      (NoPanic.write _).bind (printValue_np value)).bind (NoPanic.write _)))
  | .type _ _ => by unfold printSelPart; exact NoPanic.write _
  | .cls _ _ => by unfold printSelPart; exact (NoPanic.write _).bind (NoPanic.write _)
  | .id _ _ => by unfold printSelPart; exact (NoPanic.write _).bind (NoPanic.write _)
  | .comb _ _ => by unfold printSelPart; exact NoPanic.write _
  | .pelem _ _ _ args => by
    unfold printSelPart
    exact (NoPanic.write _).bind ((NoPanic.write _).bind ((NoPanic.write _).bind (printPArgs_np args)))
  | .pclass _ _ args => by
    unfold printSelPart
    exact (NoPanic.write _).bind ((NoPanic.write _).bind (printPArgs_np args))
theorem printPArgs_np : ∀ a, NoPanic (printPArgs a)
  | .nil => by unfold printPArgs; exact NoPanic.pure
  | .sels _ l => by
    unfold printPArgs; exact (NoPanic.write _).bind ((printSels_np l).bind (NoPanic.write _))
  | .ident _ _ => by unfold printPArgs; exact (NoPanic.write _).bind ((NoPanic.write _).bind (NoPanic.write _))
  | .anb _ _ _ _ => by
    unfold printPArgs; exact (NoPanic.write _).bind ((printANB_np _ _ _).bind (NoPanic.write _))
theorem printSel_np : ∀ s, NoPanic (printSel s)
  | .mk _ parts => by unfold printSel; exact printParts_np parts
theorem printParts_np : ∀ ps, NoPanic (printParts ps)
  | [] => by unfold printParts; exact NoPanic.pure
  | p :: ps => by
    unfold printParts; exact (NoPanic.when fun _ => printSelPart_np p).bind (printParts_np ps)
theorem printSels_np : ∀ ss, NoPanic (printSels ss)
  | [] => by unfold printSels; exact NoPanic.pure
  | s :: ss => by
    unfold printSels
    exact (printSel_np s).bind ((NoPanic.when fun _ => NoPanic.write _).bind (printSels_np ss))
end

theorem printKSels_np : ∀ ks, NoPanic (printKSels ks)
  | [] => NoPanic.pure
  | .pct _ _ :: ks => (NoPanic.write _).bind ((NoPanic.write _).bind (printKSels_np ks))
  | .ident _ _ :: ks => (NoPanic.write _).bind (printKSels_np ks)

theorem printPrelude_np : ∀ p, NoPanic (printPrelude p)
  | .nil => NoPanic.error
  | .sels l => printSels_np l.sels
  | .keyframes _ l => printKSels_np l

theorem printBlock_np : ∀ b, NoPanic (printBlock b)
  | none => NoPanic.error
  | some b => printDecls_np b.decls

/-- Not a parenthesised media condition. -/
def MQPart.noParens : MQPart → Prop
  | .inParens _ _ => False
  | _ => True

theorem printMQPart_np : ∀ p, MQPart.noParens p → NoPanic (printMQPart p)
  | .ident _ _, _ => NoPanic.write _
  | .plain _ _ _ value, _ => (NoPanic.write _).bind ((NoPanic.write _).bind ((NoPanic.when fun _ =>
      (NoPanic.write _).bind (printValue_np value)).bind (NoPanic.write _)))
  | .range _ _ _ left _ right, _ => (NoPanic.write _).bind ((NoPanic.when fun _ =>
      (printValue_np left).bind (NoPanic.write _)).bind ((NoPanic.write _).bind ((NoPanic.when fun _ =>
      (NoPanic.write _).bind (printValue_np right)).bind (NoPanic.write _))))
  | .inParens _ _, h => h.elim

theorem printMQParts_np : ∀ ps, (∀ p ∈ ps, MQPart.noParens p) → NoPanic (printMQParts ps)
  | [], _ => NoPanic.pure
  | p :: ps, h => (printMQPart_np p (h p (by simp))).bind ((NoPanic.when fun _ => NoPanic.write _).bind
      (printMQParts_np ps fun q hq => h q (by simp [hq])))

theorem printMQs_np : ∀ qs, (∀ q ∈ qs, ∀ p ∈ q.parts, MQPart.noParens p) → NoPanic (printMQs qs)
  | [], _ => NoPanic.pure
  | q :: qs, h => (printMQParts_np q.parts (h q (by simp))).bind ((NoPanic.when fun _ => NoPanic.write _).bind
      (printMQs_np qs fun q' hq => h q' (by simp [hq])))

def AtPrelude.noParens : AtPrelude → Prop
  | .mql (some l) => ∀ q ∈ l.queries, ∀ p ∈ q.parts, MQPart.noParens p
  | .mq q => ∀ p ∈ q.parts, MQPart.noParens p
  | _ => True

theorem printAtPrelude_np : ∀ p, AtPrelude.noParens p → NoPanic (printAtPrelude p)
  | .str _ _, _ => (NoPanic.write _).bind ((NoPanic.write _).bind (NoPanic.write _))
  | .ident _ _, _ => NoPanic.write _
  | .mql none, _ => NoPanic.error
  | .mql (some l), h => printMQs_np l.queries h
  | .mq q, h => printMQParts_np q.parts h

theorem printAtPreludes_np : ∀ ps, (∀ p ∈ ps, AtPrelude.noParens p) → NoPanic (printAtPreludes ps)
  | [], _ => NoPanic.pure
  | p :: ps, h => (printAtPrelude_np p (h p (by simp))).bind ((NoPanic.when fun _ => NoPanic.write _).bind
      (printAtPreludes_np ps fun q hq => h q (by simp [hq])))

theorem printRule_np (src : Option Source) (r : QRule) : NoPanic (printRule src r) :=
  (addMapping_np _ _).bind ((printPrelude_np _).bind ((NoPanic.write _).bind ((printBlock_np _).bind (NoPanic.write _))))

theorem printRules_np (src : Option Source) : ∀ rs, NoPanic (printRules src rs)
  | [] => NoPanic.pure
  | r :: rs => (printRule_np src r).bind (printRules_np src rs)

theorem printAtBlock_np (src : Option Source) : ∀ b, NoPanic (printAtBlock src b)
  | .none => NoPanic.write _
  | .decls b => (NoPanic.write _).bind ((printDecls_np b.decls).bind (NoPanic.write _))
  | .rules _ rs => (NoPanic.write _).bind ((printRules_np src rs).bind (NoPanic.write _))

def Node.noParens : Node → Prop
  | .rule _ => True
  | .at a => ∀ p ∈ a.preludes, AtPrelude.noParens p

theorem printNode_np (src : Option Source) : ∀ n, Node.noParens n → NoPanic (printNode src n)
  | .rule r, _ => printRule_np src r
  | .at a, h => (addMapping_np _ _).bind ((NoPanic.write _).bind ((NoPanic.write _).bind ((NoPanic.when fun _ =>
      (NoPanic.write _).bind (printAtPreludes_np _ h)).bind (printAtBlock_np src _))))

theorem printNodes_np (src : Option Source) : ∀ ns, (∀ n ∈ ns, Node.noParens n) → NoPanic (printNodes src ns)
  | [], _ => NoPanic.pure
  | n :: ns, h => (printNode_np src n (h n (by simp))).bind (printNodes_np src ns fun m hm => h m (by simp [hm]))

end Cssc
