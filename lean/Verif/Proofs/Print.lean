import Verif.Printer

/-!
# The printer writes one fixed text per node

Every printer method except `addMapping` either appends a text that does not depend on the state, or fails
whatever the state.
-/

namespace Cssc

/-- The method appends a fixed text and changes nothing else. -/
def Writes (m : Pr Unit) (t : Bytes) : Prop := ∀ st, m st = .ok () { st with s := st.s ++ t }

/-- The method returns an error (a recovered panic) in every state. -/
def FailsE (m : Pr Unit) : Prop := ∀ st, m st = .error

/-- The method panics in every state. -/
def FailsP (m : Pr Unit) : Prop := ∀ st, m st = .panic

/-- One of the three. -/
def Plain (m : Pr Unit) : Prop := (∃ t, Writes m t) ∨ FailsE m ∨ FailsP m

theorem Pr.bind_ok {m : Pr α} {f : α → Pr β} {st st' : PrSt} {a : α} (h : m st = .ok a st') :
    (m >>= f) st = f a st' := by
  show Pr.bind m f st = _
  unfold Pr.bind; rw [h]

theorem Pr.bind_error {m : Pr α} {f : α → Pr β} {st : PrSt} (h : m st = .error) :
    (m >>= f) st = .error := by
  show Pr.bind m f st = _
  unfold Pr.bind; rw [h]

theorem Pr.bind_panic {m : Pr α} {f : α → Pr β} {st : PrSt} (h : m st = .panic) :
    (m >>= f) st = .panic := by
  show Pr.bind m f st = _
  unfold Pr.bind; rw [h]

/-- A successful sequence is a success of both. -/
theorem Pr.bind_eq_ok {m : Pr α} {f : α → Pr β} {st st' : PrSt} {b : β} (h : (m >>= f) st = .ok b st') :
    ∃ a st1, m st = .ok a st1 ∧ f a st1 = .ok b st' := by
  rcases hm : m st with ⟨a, st1⟩ | _ | _
  · rw [Pr.bind_ok hm] at h; exact ⟨a, st1, rfl, h⟩
  · rw [Pr.bind_error hm] at h; cases h
  · rw [Pr.bind_panic hm] at h; cases h

theorem writes_pure : Writes (pure ()) [] := fun st => by
  show PrRes.ok () st = _; rw [List.append_nil]

theorem writes_write (b : Bytes) : Writes (write b) b := fun _ => rfl

theorem Writes.bind {m n : Pr Unit} {t u : Bytes} (h1 : Writes m t) (h2 : Writes n u) :
    Writes (do m; n) (t ++ u) := fun st => by
  rw [Pr.bind_ok (h1 st), h2, List.append_assoc]

theorem Writes.when {c : Prop} [Decidable c] {m : Pr Unit} {t : Bytes} (h : c → Writes m t) :
    Writes (whenPr c m) (if c then t else []) := by
  unfold whenPr; split
  · exact h ‹_›
  · exact writes_pure

theorem Writes.unique {m : Pr Unit} {t u : Bytes} (h1 : Writes m t) (h2 : Writes m u) : t = u := by
  have := (h1 PrSt.init).symm.trans (h2 PrSt.init)
  simpa [PrSt.init] using this

theorem Plain.pure : Plain (pure ()) := .inl ⟨_, writes_pure⟩
theorem Plain.write (b : Bytes) : Plain (write b) := .inl ⟨_, writes_write b⟩
theorem Plain.error : Plain Pr.error := .inr (.inl fun _ => rfl)
theorem Plain.panic : Plain Pr.panic := .inr (.inr fun _ => rfl)

theorem Plain.bind {m n : Pr Unit} (h1 : Plain m) (h2 : Plain n) : Plain (do m; n) := by
  rcases h1 with ⟨t, h1⟩ | h1 | h1
  · rcases h2 with ⟨u, h2⟩ | h2 | h2
    · exact .inl ⟨_, h1.bind h2⟩
    · exact .inr (.inl fun st => by rw [Pr.bind_ok (h1 st), h2])
    · exact .inr (.inr fun st => by rw [Pr.bind_ok (h1 st), h2])
  · exact .inr (.inl fun st => Pr.bind_error (h1 st))
  · exact .inr (.inr fun st => Pr.bind_panic (h1 st))

theorem Plain.when {c : Prop} [Decidable c] {m : Pr Unit} (h : c → Plain m) : Plain (whenPr c m) := by
  unfold whenPr; split
  · exact h ‹_›
  · exact Plain.pure

theorem Plain.ite {c : Prop} [Decidable c] {m n : Pr Unit} (h1 : Plain m) (h2 : Plain n) :
    Plain (if c then m else n) := by
  split <;> assumption

/-- A success of a plain method. -/
theorem Plain.ok {m : Pr Unit} (h : Plain m) {st st' : PrSt} (e : m st = .ok () st') :
    ∃ t, Writes m t ∧ st' = { st with s := st.s ++ t } := by
  rcases h with ⟨t, h⟩ | h | h
  · rw [h] at e; cases e; exact ⟨t, h, rfl⟩
  · rw [h] at e; cases e
  · rw [h] at e; cases e

/-! ### Every method but `addMapping` is plain -/

mutual
theorem printValue_plain : ∀ v, Plain (printValue v)
  | .nil => by unfold printValue; exact Plain.error
  | .comma _ => by unfold printValue; exact Plain.write _
  | .dim _ _ _ => by unfold printValue; exact (Plain.write _).bind (Plain.write _)
  | .str _ _ => by unfold printValue; exact (Plain.write _).bind ((Plain.write _).bind (Plain.write _))
  | .ident _ _ => by unfold printValue; exact Plain.write _
  | .func _ _ args => by
    unfold printValue
    exact (Plain.write _).bind ((Plain.write _).bind ((printArgs_plain args).bind (Plain.write _)))
  | .brackets _ vs => by
    unfold printValue; exact (Plain.write _).bind ((printSpaced_plain vs).bind (Plain.write _))
  | .paren _ v => by
    unfold printValue; exact (Plain.write _).bind ((printValue_plain v).bind (Plain.write _))
  | .math _ _ l r => by
    unfold printValue; exact (printValue_plain l).bind ((Plain.write _).bind (printValue_plain r))
  | .hex _ _ => by unfold printValue; exact (Plain.write _).bind (Plain.write _)
  | .raw _ _ => by unfold printValue; exact Plain.write _
theorem printArgs_plain : ∀ vs, Plain (printArgs vs)
  | [] => by unfold printArgs; exact Plain.pure
  | v :: vs => by unfold printArgs; exact (printValue_plain v).bind (printArgs_plain vs)
theorem printSpaced_plain : ∀ vs, Plain (printSpaced vs)
  | [] => by unfold printSpaced; exact Plain.pure
  | v :: vs => by
    unfold printSpaced
    exact (printValue_plain v).bind ((Plain.when fun _ => Plain.write _).bind (printSpaced_plain vs))
end

theorem printGap_plain (v : Value) : ∀ vs, Plain (printGap v vs)
  | [] => Plain.pure
  | _ :: _ => Plain.when fun _ => Plain.write _

theorem printDeclValues_plain : ∀ vs, Plain (printDeclValues vs)
  | [] => Plain.pure
  | v :: vs => (printValue_plain v).bind ((printGap_plain v vs).bind (printDeclValues_plain vs))

theorem printDecl_plain : ∀ d, Plain (printDecl d)
  | .decl _ _ vals _ => (Plain.write _).bind ((Plain.write _).bind ((printDeclValues_plain vals).bind
      (Plain.when fun _ => Plain.write _)))
  | .raw _ _ => Plain.write _

theorem printDecls_plain : ∀ ds, Plain (printDecls ds)
  | [] => Plain.pure
  | d :: ds => (printDecl_plain d).bind ((Plain.when fun _ => Plain.write _).bind (printDecls_plain ds))

theorem printANB_plain (a op b : Bytes) : Plain (printANB a op b) :=
  (Plain.when fun _ => Plain.ite (Plain.write _) (Plain.ite (Plain.write _) (Plain.write _))).bind
    ((Plain.when fun _ => Plain.write _).bind
      (Plain.when fun _ => (Plain.when fun _ => Plain.write _).bind (Plain.write _)))

mutual
theorem printSelPart_plain : ∀ p, Plain (printSelPart p)
  | .ws _ => by unfold printSelPart; exact Plain.write _
  | .attr _ _ _ value _ => by
    unfold printSelPart
    exact (Plain.write _).bind ((Plain.write _).bind ((Plain.when fun _ =>
      (Plain.write _).bind (printValue_plain value)).bind (Plain.write _)))
  | .type _ _ => by unfold printSelPart; exact Plain.write _
  | .cls _ _ => by unfold printSelPart; exact (Plain.write _).bind (Plain.write _)
  | .id _ _ => by unfold printSelPart; exact (Plain.write _).bind (Plain.write _)
  | .comb _ _ => by unfold printSelPart; exact Plain.write _
  | .pelem _ _ _ args => by
    unfold printSelPart
    exact (Plain.write _).bind ((Plain.write _).bind ((Plain.write _).bind (printPArgs_plain args)))
  | .pclass _ _ args => by
    unfold printSelPart
    exact (Plain.write _).bind ((Plain.write _).bind (printPArgs_plain args))
theorem printPArgs_plain : ∀ a, Plain (printPArgs a)
  | .nil => by unfold printPArgs; exact Plain.pure
  | .sels _ l => by
    unfold printPArgs; exact (Plain.write _).bind ((printSels_plain l).bind (Plain.write _))
  | .ident _ _ => by unfold printPArgs; exact (Plain.write _).bind ((Plain.write _).bind (Plain.write _))
  | .anb _ _ _ _ => by
    unfold printPArgs; exact (Plain.write _).bind ((printANB_plain _ _ _).bind (Plain.write _))
theorem printSel_plain : ∀ s, Plain (printSel s)
  | .mk _ parts => by unfold printSel; exact printParts_plain parts
theorem printParts_plain : ∀ ps, Plain (printParts ps)
  | [] => by unfold printParts; exact Plain.pure
  | p :: ps => by
    unfold printParts; exact (Plain.when fun _ => printSelPart_plain p).bind (printParts_plain ps)
theorem printSels_plain : ∀ ss, Plain (printSels ss)
  | [] => by unfold printSels; exact Plain.pure
  | s :: ss => by
    unfold printSels
    exact (printSel_plain s).bind ((Plain.when fun _ => Plain.write _).bind (printSels_plain ss))
end

theorem printKSels_plain : ∀ ks, Plain (printKSels ks)
  | [] => Plain.pure
  | .pct _ _ :: ks => (Plain.write _).bind ((Plain.write _).bind (printKSels_plain ks))
  | .ident _ _ :: ks => (Plain.write _).bind (printKSels_plain ks)

theorem printPrelude_plain : ∀ p, Plain (printPrelude p)
  | .nil => Plain.error
  | .sels l => printSels_plain l.sels
  | .keyframes _ l => printKSels_plain l

theorem printBlock_plain : ∀ b, Plain (printBlock b)
  | none => Plain.error
  | some b => printDecls_plain b.decls

theorem printMQPart_plain : ∀ p, Plain (printMQPart p)
  | .ident _ _ => Plain.write _
  | .plain _ _ _ value => (Plain.write _).bind ((Plain.write _).bind ((Plain.when fun _ =>
      (Plain.write _).bind (printValue_plain value)).bind (Plain.write _)))
  | .range _ _ _ left _ right => (Plain.write _).bind ((Plain.when fun _ =>
      (printValue_plain left).bind (Plain.write _)).bind ((Plain.write _).bind ((Plain.when fun _ =>
      (Plain.write _).bind (printValue_plain right)).bind (Plain.write _))))
  | .inParens _ _ => Plain.panic

theorem printMQParts_plain : ∀ ps, Plain (printMQParts ps)
  | [] => Plain.pure
  | p :: ps => (printMQPart_plain p).bind ((Plain.when fun _ => Plain.write _).bind (printMQParts_plain ps))

theorem printMQs_plain : ∀ qs, Plain (printMQs qs)
  | [] => Plain.pure
  | q :: qs => (printMQParts_plain q.parts).bind ((Plain.when fun _ => Plain.write _).bind (printMQs_plain qs))

theorem printAtPrelude_plain : ∀ p, Plain (printAtPrelude p)
  | .str _ _ => (Plain.write _).bind ((Plain.write _).bind (Plain.write _))
  | .ident _ _ => Plain.write _
  | .mql none => Plain.error
  | .mql (some l) => printMQs_plain l.queries
  | .mq q => printMQParts_plain q.parts

theorem printAtPreludes_plain : ∀ ps, Plain (printAtPreludes ps)
  | [] => Plain.pure
  | p :: ps => (printAtPrelude_plain p).bind ((Plain.when fun _ => Plain.write _).bind (printAtPreludes_plain ps))

/-- A rule, after its mapping. -/
def ruleBody (r : QRule) : Pr Unit := do
  printPrelude r.prelude
  write b!"{"
  printBlock r.block
  write b!"}"

theorem ruleBody_plain (r : QRule) : Plain (ruleBody r) :=
  (printPrelude_plain _).bind ((Plain.write _).bind ((printBlock_plain _).bind (Plain.write _)))

/-- An at-rule between its mapping and its block. -/
def atHead (a : AtRule) : Pr Unit := do
  write b!"@"
  write a.name
  whenPr (a.preludes ≠ []) do write b!" "; printAtPreludes a.preludes

theorem atHead_plain (a : AtRule) : Plain (atHead a) :=
  (Plain.write _).bind ((Plain.write _).bind (Plain.when fun _ => (Plain.write _).bind (printAtPreludes_plain _)))

theorem printRule_eq (src : Option Source) (r : QRule) (st : PrSt) :
    printRule src r st = (do addMapping src r.sp; ruleBody r : Pr Unit) st := rfl

theorem Pr.bind_assoc {α β γ : Type} (m : Pr α) (f : α → Pr β) (g : β → Pr γ) :
    (m >>= f) >>= g = m >>= fun a => f a >>= g := by
  funext st
  show Pr.bind (Pr.bind m f) g st = Pr.bind m (fun a => Pr.bind (f a) g) st
  unfold Pr.bind
  cases m st <;> rfl

theorem printAtRule_eq (src : Option Source) (a : AtRule) :
    printAtRule src a = (do addMapping src a.sp; atHead a; printAtBlock src a.block : Pr Unit) := by
  unfold printAtRule atHead
  simp only [Pr.bind_assoc]

theorem addMapping_none (sp : Span) : Writes (addMapping none sp) [] := fun st => by
  show PrRes.ok () st = _; rw [List.append_nil]

/-- `addMapping` leaves the text alone and never panics. -/
theorem addMapping_s (src : Option Source) (sp : Span) (st : PrSt) :
    addMapping src sp st = .error ∨ ∃ st', addMapping src sp st = .ok () st' ∧ st'.s = st.s := by
  unfold addMapping
  cases src with
  | none => exact .inr ⟨st, rfl, rfl⟩
  | some source =>
    dsimp only
    cases source.lineAndCol sp with
    | none => exact .inl rfl
    | some lc =>
      obtain ⟨line, col⟩ := lc
      dsimp only
      split
      · exact .inl rfl
      · split
        · split
          · exact .inl rfl
          · split
            · exact .inr ⟨_, rfl, rfl⟩
            · exact .inr ⟨_, rfl, rfl⟩
        · exact .inr ⟨_, rfl, rfl⟩

theorem printRule_none (r : QRule) : Plain (printRule none r) :=
  Plain.bind (.inl ⟨_, addMapping_none _⟩) (ruleBody_plain r)

theorem printRules_none : ∀ rs, Plain (printRules none rs)
  | [] => Plain.pure
  | r :: rs => (printRule_none r).bind (printRules_none rs)

theorem printAtBlock_none : ∀ b, Plain (printAtBlock none b)
  | .none => Plain.write _
  | .decls b => (Plain.write _).bind ((printDecls_plain b.decls).bind (Plain.write _))
  | .rules _ rs => (Plain.write _).bind ((printRules_none rs).bind (Plain.write _))

theorem printNode_none : ∀ n, Plain (printNode none n)
  | .rule r => printRule_none r
  | .at a => by
    show Plain (printAtRule none a)
    rw [printAtRule_eq]
    exact Plain.bind (.inl ⟨_, addMapping_none _⟩) ((atHead_plain a).bind (printAtBlock_none _))

theorem printNodes_none : ∀ ns, Plain (printNodes none ns)
  | [] => Plain.pure
  | n :: ns => (printNode_none n).bind (printNodes_none ns)

/-! ### The text does not depend on the source -/

/-- `m1` writes at least what `m0` writes whenever it succeeds, and they agree on panics. -/
def SameText (m0 m1 : Pr Unit) : Prop := ∀ st0 st1, st0.s = st1.s →
  match m1 st1 with
  | .ok () st1' => ∃ st0', m0 st0 = .ok () st0' ∧ st0'.s = st1'.s
  | .error => True
  | .panic => m0 st0 = .panic

theorem Plain.sameText {m : Pr Unit} (h : Plain m) : SameText m m := by
  intro st0 st1 e
  rcases h with ⟨t, h⟩ | h | h
  · rw [h st1]; exact ⟨_, h st0, by simp [e]⟩
  · rw [h st1]; trivial
  · rw [h st1]; exact h st0

theorem SameText.bind {m0 m1 n0 n1 : Pr Unit} (h1 : SameText m0 m1) (h2 : SameText n0 n1) :
    SameText (do m0; n0) (do m1; n1) := by
  intro st0 st1 e
  have a := h1 st0 st1 e
  rcases hm : m1 st1 with ⟨_, st1'⟩ | _ | _
  · rw [hm] at a
    obtain ⟨st0', a1, a2⟩ := a
    rw [Pr.bind_ok hm, Pr.bind_ok a1]
    exact h2 st0' st1' a2
  · rw [Pr.bind_error hm]; trivial
  · rw [hm] at a; dsimp only at a
    rw [Pr.bind_panic hm]; exact Pr.bind_panic a

theorem addMapping_sameText (src : Option Source) (sp : Span) : SameText (addMapping none sp) (addMapping src sp) := by
  intro st0 st1 e
  rcases addMapping_s src sp st1 with h | ⟨st', h, hs⟩
  · rw [h]; trivial
  · rw [h]; exact ⟨st0, rfl, e.trans hs.symm⟩

theorem printRule_sameText (src : Option Source) (r : QRule) : SameText (printRule none r) (printRule src r) :=
  (addMapping_sameText src r.sp).bind (ruleBody_plain r).sameText

theorem printRules_sameText (src : Option Source) : ∀ rs, SameText (printRules none rs) (printRules src rs)
  | [] => Plain.pure.sameText
  | r :: rs => (printRule_sameText src r).bind (printRules_sameText src rs)

theorem printAtBlock_sameText (src : Option Source) : ∀ b, SameText (printAtBlock none b) (printAtBlock src b)
  | .none => (Plain.write _).sameText
  | .decls _ => (printAtBlock_none (.decls _)).sameText
  | .rules _ rs => (Plain.write _).sameText.bind ((printRules_sameText src rs).bind (Plain.write _).sameText)

theorem printNode_sameText (src : Option Source) : ∀ n, SameText (printNode none n) (printNode src n)
  | .rule r => printRule_sameText src r
  | .at a => by
    show SameText (printAtRule none a) (printAtRule src a)
    rw [printAtRule_eq, printAtRule_eq]
    exact (addMapping_sameText src a.sp).bind ((atHead_plain a).sameText.bind (printAtBlock_sameText src _))

theorem printNodes_sameText (src : Option Source) : ∀ ns, SameText (printNodes none ns) (printNodes src ns)
  | [] => Plain.pure.sameText
  | n :: ns => (printNode_sameText src n).bind (printNodes_sameText src ns)

end Cssc
