import Verif.Spec.Printable
import Verif.Proofs.Print

/-!
# What the printer writes for a tree that has a text

For every tree of the shapes of `Spec/Printable.lean`, the printer appends the texts of the tree's tokens.
-/

namespace Cssc

theorem texts_append (a b : List PTok) : texts (a ++ b) = texts a ++ texts b := by
  induction a with
  | nil => rfl
  | cons t a ih => simp [texts, ih]

theorem texts_cons (t : PTok) (b : List PTok) : texts (t :: b) = t.text ++ texts b := rfl

theorem texts_delims (op : Bytes) : texts (op.map PTok.delim) = op := by
  induction op with
  | nil => rfl
  | cons b op ih => simp [texts, PTok.text, ih]

theorem Writes.congr {m : Pr Unit} {t u : Bytes} (h : Writes m t) (e : t = u) : Writes m u := e ▸ h

theorem dim_text (num unit : Bytes) :
    (if unit = [] then PTok.number num else if unit = [37] then .percentage num else .dimension num unit).text = num ++ unit := by
  split
  · subst_vars; simp [PTok.text]
  · split
    · subst_vars; rfl
    · rfl

theorem writes_args : ∀ vs, (∀ v ∈ vs, Writes (printValue v) (texts v.toks)) → Writes (printArgs vs) (texts (argsToks vs))
  | [], _ => by unfold printArgs; exact writes_pure
  | v :: vs, h => by
    unfold printArgs argsToks
    rw [texts_append]
    exact (h v (by simp)).bind (writes_args vs fun w hw => h w (by simp [hw]))

theorem writes_spaced : ∀ vs, (∀ v ∈ vs, Writes (printValue v) (texts v.toks)) → Writes (printSpaced vs) (texts (spacedToks vs))
  | [], _ => by unfold printSpaced; exact writes_pure
  | v :: vs, h => by
    unfold printSpaced spacedToks
    rw [texts_append]
    have ih := writes_spaced vs fun w hw => h w (by simp [hw])
    refine (h v (by simp)).bind ?_
    cases vs with
    | nil => exact (Writes.bind writes_pure ih)
    | cons w vs => exact (Writes.bind (writes_write b!" ") ih)

theorem writes_func {sp : Span} {name : Bytes} {args : List Value} (hu : isUrlCall name args = false)
    (h : Writes (printArgs args) (texts (argsToks args))) :
    Writes (printValue (.func sp name args)) (texts (Value.func sp name args).toks) := by
  have e : (Value.func sp name args).toks = .func name :: (argsToks args ++ [.punct 41]) := by
    rw [Value.toks]
    intro isp v h1 h2
    subst h1; subst h2
    simp [isUrlCall] at hu
  rw [e]
  unfold printValue
  refine (Writes.bind (writes_write _) (Writes.bind (writes_write _) (h.bind (writes_write _)))).congr ?_
  simp [texts_append, texts, PTok.text]

theorem Value.Shape.writes {m : VMode} {v : Value} (h : v.Shape m) : Writes (printValue v) (texts v.toks) := by
  induction h with
  | str =>
    unfold printValue Value.toks
    exact (Writes.bind (writes_write _) (Writes.bind (writes_write _) (writes_write _))).congr (by simp [texts, PTok.text])
  | @dim sp num unit =>
    unfold printValue Value.toks
    refine (Writes.bind (writes_write _) (writes_write _)).congr ?_
    rw [texts_cons, dim_text]; simp [texts]
  | ident => unfold printValue Value.toks; exact (writes_write _).congr (by simp [texts, PTok.text])
  | hex => unfold printValue Value.toks; exact (Writes.bind (writes_write _) (writes_write _)).congr (by simp [texts, PTok.text])
  | brackets _ ih =>
    unfold printValue Value.toks
    exact (Writes.bind (writes_write _) (Writes.bind (writes_spaced _ ih) (writes_write _))).congr
      (by simp [texts, PTok.text, texts_append])
  | url =>
    unfold printValue Value.toks printArgs printArgs printValue
    exact (Writes.bind (writes_write _) (Writes.bind (writes_write _)
      (Writes.bind (Writes.bind (writes_write _) writes_pure) (writes_write _)))).congr (by simp [texts, PTok.text])
  | @func sp name args hm hu hargs ih =>
    refine writes_func hu (writes_args _ fun v hv => ?_)
    by_cases hc : ∃ csp, v = .comma csp
    · obtain ⟨csp, rfl⟩ := hc
      unfold printValue Value.toks; exact (writes_write _).congr (by simp [texts, PTok.text])
    · exact ih v hv fun csp e => hc ⟨csp, e⟩
  | @mathFunc sp name args hm hargs ih =>
    refine writes_func ?_ (writes_args _ fun v hv => ?_)
    · unfold isUrlCall
      split
      · simp [isMathName] at hm
      · rfl
    by_cases hc : ∃ csp, v = .comma csp
    · obtain ⟨csp, rfl⟩ := hc
      unfold printValue Value.toks; exact (writes_write _).congr (by simp [texts, PTok.text])
    · exact ih v hv fun csp e => hc ⟨csp, e⟩
  | atom _ ih => exact ih
  | paren _ ih =>
    unfold printValue Value.toks
    exact (Writes.bind (writes_write _) (ih.bind (writes_write _))).congr (by simp [texts, PTok.text, texts_append])
  | prod _ ih => exact ih
  | mul _ _ _ ih1 ih2 =>
    unfold printValue Value.toks
    exact (ih1.bind (Writes.bind (writes_write _) ih2)).congr (by simp [texts_append, texts_delims])
  | sum _ ih => exact ih
  | add _ _ _ ih1 ih2 =>
    unfold printValue Value.toks
    exact (ih1.bind (Writes.bind (writes_write _) ih2)).congr (by simp [texts_append, texts_delims])

theorem Value.Shape.not_nil {m : VMode} {v : Value} (h : v.Shape m) : v ≠ .nil := by
  intro e; subst e
  generalize hv : Value.nil = v at h
  induction h <;> simp_all

theorem Value.InDecl.writes {v : Value} (h : v.InDecl) : Writes (printValue v) (texts v.toks) := by
  unfold Value.InDecl at h
  split at h
  · unfold printValue Value.toks; exact (writes_write _).congr (by simp [texts, PTok.text])
  · unfold printValue Value.toks; exact (writes_write _).congr (by simp [texts_delims])
  · exact h.writes

theorem writes_declValues : ∀ vs, (∀ v ∈ vs, v.InDecl) → Writes (printDeclValues vs) (texts (declToks vs))
  | [], _ => by unfold printDeclValues; exact writes_pure
  | [v], h => by
    unfold printDeclValues printDeclValues printGap declToks
    exact ((h v (by simp)).writes.bind (Writes.bind writes_pure writes_pure)).congr (by simp)
  | v :: w :: vs, h => by
    unfold printDeclValues printGap declToks
    rw [texts_append, texts_append]
    refine (h v (by simp)).writes.bind (Writes.bind ?_ (writes_declValues (w :: vs) fun x hx => h x (by simp [hx])))
    cases v <;> cases w <;> first | exact writes_pure | exact writes_write _

theorem propToks_text (prop : Bytes) : texts (propToks prop) = prop := by
  unfold propToks
  split <;> simp [texts, PTok.text]

theorem Decl.Shape.writes {d : Decl} (h : d.Shape) : Writes (printDecl d) (texts d.toks) := by
  cases d with
  | raw => exact absurd h id
  | decl sp prop vals important =>
    unfold printDecl Decl.toks
    rw [texts_append, texts_cons, texts_append, propToks_text]
    refine Writes.bind (writes_write _) (Writes.bind (writes_write _) (Writes.bind (writes_declValues _ h.2) ?_))
    cases important
    · exact writes_pure
    · exact (writes_write _).congr (by simp [texts, PTok.text])

theorem writes_decls : ∀ ds : List Decl, (∀ d ∈ ds, d.Shape) → Writes (printDecls ds) (texts (declsToks ds))
  | [], _ => by unfold printDecls; exact writes_pure
  | [d], h => by
    unfold printDecls printDecls declsToks
    exact ((h d (by simp)).writes.bind (Writes.bind writes_pure writes_pure)).congr (by simp [printed_lastToks])
  | d :: e :: ds, h => by
    unfold printDecls declsToks
    rw [texts_append, texts_cons]
    exact (h d (by simp)).writes.bind (Writes.bind (writes_write _) (writes_decls (e :: ds) fun x hx => h x (by simp [hx])))

/-! ### Selectors -/

theorem head_43 {a : Bytes} (h : a.head? ≠ some 43) : hasPrefix a b!"+" = false := by
  cases a with
  | nil => rfl
  | cons c a =>
    simp only [List.head?_cons, ne_eq, Option.some.injEq] at h
    simp [hasPrefix, h]

/-- What the printer writes for An+B. -/
def anbWritten (a op b : Bytes) : Bytes :=
  (if decide (a ≠ [] ∧ a ≠ b!"1" ∧ a ≠ b!"0") = true then
    (if a = b!"-1" then b!"-" else if hasPrefix a b!"+" then a.drop 1 else a) else []) ++
  ((if decide (a ≠ b!"0") = true then b!"n" else []) ++
  (if b ≠ [] ∧ b ≠ b!"0" then
    (if (decide (a ≠ [] ∧ a ≠ b!"1" ∧ a ≠ b!"0") || decide (a ≠ b!"0")) = true then op else []) ++ b else []))

theorem printANB_text (a op b : Bytes) : Writes (printANB a op b) (anbWritten a op b) := by
  unfold printANB anbWritten
  refine Writes.bind (Writes.when fun _ => ?_) (Writes.bind (Writes.when fun _ => writes_write _)
    (Writes.when fun _ => Writes.bind (Writes.when fun _ => writes_write _) (writes_write _)))
  split
  · exact writes_write _
  · split <;> exact writes_write _

theorem AnbShape.writes {a op b : Bytes} (h : AnbShape a op b) : Writes (printANB a op b) (texts (anbToks a op b)) := by
  refine (printANB_text a op b).congr ?_
  cases h with
  | n => decide
  | nPlus h1 h2 => simp [anbWritten, anbToks, texts, PTok.text, h1, h2]
  | neg => decide
  | negPlus h1 h2 => simp [anbWritten, anbToks, texts, PTok.text, h1, h2]
  | an h1 h2 h3 h4 h5 => simp [anbWritten, anbToks, texts, PTok.text, h1, h2, h3, h4, head_43 h5]
  | anPlus h1 h2 h3 h4 h5 h6 h7 => simp [anbWritten, anbToks, texts, PTok.text, h1, h2, h3, h4, head_43 h5, h6, h7]
  | anMinus h1 h2 h3 h4 h5 h6 h7 => simp [anbWritten, anbToks, texts, PTok.text, h1, h2, h3, h4, head_43 h5, h6, h7]
  | b h1 h2 h3 h4 => simp [anbWritten, anbToks, texts, PTok.text, h1, h2]

mutual

theorem SelPart.Shape.writes : ∀ {p : SelPart}, p.Shape → Writes (printSelPart p) (texts p.toks)
  | .ws _, _ => by unfold printSelPart SelPart.toks; exact (writes_write _).congr (by decide)
  | .type _ name, _ => by
    unfold printSelPart SelPart.toks
    refine (writes_write _).congr ?_
    split
    · subst_vars; decide
    · simp [texts, PTok.text]
  | .cls _ _, _ => by
    unfold printSelPart SelPart.toks; exact (Writes.bind (writes_write _) (writes_write _)).congr (by simp [texts, PTok.text])
  | .id _ _, _ => by
    unfold printSelPart SelPart.toks; exact (Writes.bind (writes_write _) (writes_write _)).congr (by simp [texts, PTok.text])
  | .comb _ _, _ => by unfold printSelPart SelPart.toks; exact (writes_write _).congr (by simp [texts_delims])
  | .pclass _ name args, h => by
    unfold printSelPart SelPart.toks
    unfold SelPart.Shape at h
    rw [texts_cons]
    exact Writes.bind (writes_write _) (h.writes)
  | .pelem _ _ name args, h => by
    unfold printSelPart SelPart.toks
    unfold SelPart.Shape at h
    rw [texts_cons, texts_cons]
    exact Writes.bind (writes_write _) (Writes.bind (writes_write _) h.writes)
  | .attr _ prop preOp value modifier, h => by
    unfold printSelPart SelPart.toks
    unfold SelPart.Shape at h
    rw [texts_cons, texts_cons, texts_append]
    refine Writes.bind (writes_write _) (Writes.bind (writes_write _) (Writes.bind ?_ (writes_write _)))
    obtain ⟨_, _, rfl | h⟩ := h
    · exact writes_pure
    · have hw := h.writes
      have hn := h.not_nil
      cases value <;> first | exact absurd rfl hn | exact Writes.bind (writes_write _) hw

theorem PArgs.Shape.writes {name : Bytes} : ∀ {a : PArgs}, a.Shape name → Writes (do write name; printPArgs a) (texts (a.toks name))
  | .nil, _ => by
    unfold printPArgs PArgs.toks
    exact (Writes.bind (writes_write _) writes_pure).congr (by simp [texts, PTok.text])
  | .sels _ l, h => by
    unfold printPArgs PArgs.toks
    unfold PArgs.Shape at h
    exact (Writes.bind (writes_write _) (Writes.bind (writes_write _) (Writes.bind (selsShape_writes h.2.2) (writes_write _)))).congr
      (by simp [texts, PTok.text, texts_append])
  | .ident _ v, h => by
    unfold printPArgs PArgs.toks
    exact (Writes.bind (writes_write _) (Writes.bind (writes_write _) (Writes.bind (writes_write _) (writes_write _)))).congr
      (by simp [texts, PTok.text])
  | .anb _ a op b, h => by
    unfold printPArgs PArgs.toks
    unfold PArgs.Shape at h
    exact (Writes.bind (writes_write _) (Writes.bind (writes_write _) (Writes.bind h.2.writes (writes_write _)))).congr
      (by simp [texts, PTok.text, texts_append])

theorem Sel.Shape.writes : ∀ {s : Sel}, s.Shape → Writes (printSel s) (texts s.toks)
  | .mk _ parts, h => by
    unfold printSel
    unfold Sel.Shape at h
    rw [printed_sel]; exact partsShape_writes h.1

theorem partsShape_writes : ∀ {ps : List SelPart}, partsShape ps → Writes (printParts ps) (texts (partsToks ps))
  | [], _ => by unfold printParts; exact writes_pure
  | p :: ps, h => by
    unfold printParts partsToks
    unfold partsShape at h
    rw [texts_append]
    refine Writes.bind ?_ (partsShape_writes h.2)
    have hp := h.1.writes
    unfold whenPr
    by_cases hc : (ps.isEmpty && p.isWs) = true
    · rw [if_pos hc, if_neg (by simp [hc])]; exact writes_pure
    · rw [if_neg hc, if_pos (by simp only [Bool.not_eq_true] at hc; rw [hc]; rfl)]; exact hp

theorem selsShape_writes : ∀ {l : List Sel}, selsShape l → Writes (printSels l) (texts (selsToks l))
  | [], _ => by unfold printSels; exact writes_pure
  | [s], h => by
    unfold printSels printSels selsToks
    unfold selsShape at h
    exact (h.1.writes.bind (Writes.bind writes_pure writes_pure)).congr (by simp)
  | s :: t :: l, h => by
    unfold printSels
    rw [selsToks]
    unfold selsShape at h
    rw [texts_append]
    exact h.1.writes.bind (Writes.bind (writes_write _) (selsShape_writes h.2))

end

/-! ### Rules, media queries, at-rules -/

theorem addMapping_none_writes (sp : Span) : Writes (addMapping none sp) [] := fun st => by
  show PrRes.ok () st = _; rw [List.append_nil]

theorem QRule.Shape.writes {r : QRule} (h : r.Shape) : Writes (printRule none r) (texts r.toks) := by
  obtain ⟨⟨l, hp, _, hs, _⟩, b, hb, hbs⟩ := h
  unfold printRule QRule.toks
  rw [hp, hb]
  refine ((addMapping_none_writes _).bind ((selsShape_writes hs).bind (Writes.bind (writes_write _)
    ((writes_decls b.decls hbs).bind (writes_write _))))).congr ?_
  simp [texts_append, texts, PTok.text, Prelude.toks]

theorem QRule.FrameShape.writes {r : QRule} (h : r.FrameShape) : Writes (printRule none r) (texts r.toks) := by
  obtain ⟨⟨sp, k, hp, hk⟩, b, hb, hbs⟩ := h
  unfold printRule QRule.toks
  rw [hp, hb]
  have hks : Writes (printPrelude (.keyframes sp [k])) (texts (Prelude.toks (.keyframes sp [k]))) := by
    cases k with
    | pct ksp v =>
      unfold printPrelude printKSels printKSels
      exact (Writes.bind (writes_write _) (Writes.bind (writes_write _) writes_pure)).congr
        (by simp [Prelude.toks, KSel.toks, texts, PTok.text])
    | ident ksp v =>
      unfold printPrelude printKSels printKSels
      exact (Writes.bind (writes_write _) writes_pure).congr
        (by simp [Prelude.toks, KSel.toks, texts, PTok.text])
  refine ((addMapping_none_writes _).bind (hks.bind (Writes.bind (writes_write _)
    ((writes_decls b.decls hbs).bind (writes_write _))))).congr ?_
  simp [texts_append, texts, PTok.text]

theorem writes_rules : ∀ rs : List QRule, (∀ r ∈ rs, r.Shape ∨ r.FrameShape) →
    Writes (printRules none rs) (texts (rulesToks rs))
  | [], _ => by unfold printRules; exact writes_pure
  | r :: rs, h => by
    unfold printRules rulesToks
    rw [texts_append]
    refine Writes.bind ?_ (writes_rules rs fun x hx => h x (by simp [hx]))
    exact (h r (by simp)).elim QRule.Shape.writes QRule.FrameShape.writes

theorem MQPart.Shape.writes {p : MQPart} (h : p.Shape) : Writes (printMQPart p) (texts p.toks) := by
  cases p with
  | ident => unfold printMQPart MQPart.toks; exact (writes_write _).congr (by simp [texts, PTok.text])
  | plain sp psp prop value =>
    unfold printMQPart MQPart.toks
    rw [texts_cons, texts_cons, texts_append]
    refine Writes.bind (writes_write _) (Writes.bind (writes_write _) (Writes.bind ?_ (writes_write _)))
    obtain rfl | h := h
    · exact writes_pure
    · have hw := h.writes
      have hn := h.not_nil
      cases value <;> first | exact absurd rfl hn | exact Writes.bind (writes_write _) hw
  | range sp psp prop left op right =>
    unfold printMQPart MQPart.toks
    rw [texts_cons, texts_append, texts_cons, texts_append]
    refine Writes.bind (writes_write _) (Writes.bind ?_ (Writes.bind (writes_write _) (Writes.bind ?_ (writes_write _))))
    · have hl : left = .nil ∨ left.Shape .val := by
        rcases h.2 with h | h
        · exact .inr h.1
        · exact .inl h.1
      obtain rfl | hl := hl
      · exact writes_pure
      · have hw : Writes (do printValue left; write op) (texts (left.toks ++ op.map .delim)) :=
          (Writes.bind hl.writes (writes_write _)).congr (by simp [texts_append, texts_delims])
        have hn := hl.not_nil
        cases left <;> first | exact absurd rfl hn | exact hw
    · have hl : right = .nil ∨ right.Shape .val := by
        rcases h.2 with h | h
        · exact h.2
        · exact .inr h.2.1
      obtain rfl | hl := hl
      · exact writes_pure
      · have hw : Writes (do write op; printValue right) (texts (op.map .delim ++ right.toks)) :=
          (Writes.bind (writes_write _) hl.writes).congr (by simp [texts_append, texts_delims])
        have hn := hl.not_nil
        cases right <;> first | exact absurd rfl hn | exact hw
  | inParens => exact absurd h id

theorem writes_mqParts : ∀ ps : List MQPart, (∀ p ∈ ps, p.Shape) → Writes (printMQParts ps) (texts (mqPartsToks ps))
  | [], _ => by unfold printMQParts; exact writes_pure
  | [p], h => by
    unfold printMQParts printMQParts mqPartsToks
    exact ((h p (by simp)).writes.bind (Writes.bind writes_pure writes_pure)).congr (by simp)
  | p :: q :: ps, h => by
    unfold printMQParts
    rw [mqPartsToks, texts_append]
    exact (h p (by simp)).writes.bind (Writes.bind (writes_write _) (writes_mqParts (q :: ps) fun x hx => h x (by simp [hx])))

theorem writes_mqs : ∀ qs : List MQ, (∀ q ∈ qs, q.Shape) → Writes (printMQs qs) (texts (mqsToks qs))
  | [], _ => by unfold printMQs; exact writes_pure
  | [q], h => by
    unfold printMQs printMQs mqsToks
    exact ((writes_mqParts _ (h q (by simp)).2).bind (Writes.bind writes_pure writes_pure)).congr (by simp)
  | q :: r :: qs, h => by
    unfold printMQs
    rw [mqsToks, texts_append]
    exact (writes_mqParts _ (h q (by simp)).2).bind (Writes.bind (writes_write _) (writes_mqs (r :: qs) fun x hx => h x (by simp [hx])))

theorem AtRule.Shape.writes {a : AtRule} (h : a.Shape) : Writes (printAtRule none a) (texts a.toks) := by
  cases h with
  | «import» =>
    refine ((addMapping_none_writes _).bind (Writes.bind (writes_write _) (Writes.bind (writes_write _)
      (Writes.bind (Writes.bind (writes_write _) (Writes.bind (Writes.bind (writes_write _) (Writes.bind (writes_write _) (writes_write _)))
      (Writes.bind writes_pure writes_pure))) (writes_write _))))).congr ?_
    simp [AtRule.toks, preludesToks, AtPrelude.toks, Block.toks, texts, PTok.text, PTok.space]
  | @importMedia src sp psp v l hl =>
    refine ((addMapping_none_writes _).bind (Writes.bind (writes_write _) (Writes.bind (writes_write _)
      (Writes.bind (Writes.bind (writes_write _) (Writes.bind (Writes.bind (writes_write _) (Writes.bind (writes_write _) (writes_write _)))
      (Writes.bind (writes_write _) (Writes.bind (writes_mqs l.queries hl.2) (Writes.bind writes_pure writes_pure))))) (writes_write _))))).congr ?_
    simp [AtRule.toks, preludesToks, AtPrelude.toks, Block.toks, texts, texts_append, PTok.text, PTok.space]
  | @media src sp l bsp rs hl hr =>
    refine ((addMapping_none_writes _).bind (Writes.bind (writes_write _) (Writes.bind (writes_write _)
      (Writes.bind (Writes.bind (writes_write _) (Writes.bind (writes_mqs l.queries hl.2) (Writes.bind writes_pure writes_pure)))
      (Writes.bind (writes_write _) (Writes.bind (writes_rules rs fun r hr' => .inl (hr r hr')) (writes_write _))))))).congr ?_
    simp [AtRule.toks, preludesToks, AtPrelude.toks, Block.toks, texts, texts_append, PTok.text, PTok.space]
  | @keyframes src sp name psp v bsp rs hn hr =>
    refine ((addMapping_none_writes _).bind (Writes.bind (writes_write _) (Writes.bind (writes_write _)
      (Writes.bind (Writes.bind (writes_write _) (Writes.bind (writes_write _) (Writes.bind writes_pure writes_pure)))
      (Writes.bind (writes_write _) (Writes.bind (writes_rules rs fun r hr' => .inr (hr r hr')) (writes_write _))))))).congr ?_
    simp [AtRule.toks, preludesToks, AtPrelude.toks, Block.toks, texts, texts_append, PTok.text, PTok.space]
  | @keyframesStr src sp name psp v bsp rs hn hr =>
    refine ((addMapping_none_writes _).bind (Writes.bind (writes_write _) (Writes.bind (writes_write _)
      (Writes.bind (Writes.bind (writes_write _) (Writes.bind (Writes.bind (writes_write _) (Writes.bind (writes_write _) (writes_write _)))
      (Writes.bind writes_pure writes_pure)))
      (Writes.bind (writes_write _) (Writes.bind (writes_rules rs fun r hr' => .inr (hr r hr')) (writes_write _))))))).congr ?_
    simp [AtRule.toks, preludesToks, AtPrelude.toks, Block.toks, texts, texts_append, PTok.text, PTok.space]
  | @customMedia src sp psp v q hq =>
    refine ((addMapping_none_writes _).bind (Writes.bind (writes_write _) (Writes.bind (writes_write _)
      (Writes.bind (Writes.bind (writes_write _) (Writes.bind (writes_write _)
      (Writes.bind (writes_write _) (Writes.bind (writes_mqParts q.parts hq.2) (Writes.bind writes_pure writes_pure)))))
      (writes_write _))))).congr ?_
    simp [AtRule.toks, preludesToks, AtPrelude.toks, Block.toks, texts, texts_append, PTok.text, PTok.space]
  | @generic src sp name b h1 h2 h3 h4 hb =>
    refine ((addMapping_none_writes _).bind (Writes.bind (writes_write _) (Writes.bind (writes_write _)
      (Writes.bind writes_pure (Writes.bind (writes_write _) (Writes.bind (writes_decls b.decls hb) (writes_write _))))))).congr ?_
    simp [AtRule.toks, preludesToks, Block.toks, texts, texts_append, PTok.text]

theorem writes_nodes : ∀ ns : List Node, (∀ n ∈ ns, n.Shape) → Writes (printNodes none ns) (texts (nodesToks ns))
  | [], _ => by unfold printNodes; exact writes_pure
  | n :: ns, h => by
    unfold printNodes nodesToks
    rw [texts_append]
    refine Writes.bind ?_ (writes_nodes ns fun x hx => h x (by simp [hx]))
    have hn := h n (by simp)
    cases n with
    | rule r => exact QRule.Shape.writes hn
    | «at» a => exact AtRule.Shape.writes hn

/-- The printed text of a stylesheet is the text of its tokens. -/
theorem print_texts {ss : Stylesheet} (h : ∀ n ∈ ss.nodes, n.Shape) : print none ss = .ok (texts (nodesToks ss.nodes)) := by
  unfold print
  rw [Pr.bind_ok (writes_nodes _ h _)]
  rfl

end Cssc
