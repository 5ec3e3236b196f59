import Verif.Proofs.TransformEnds

/-!
# Parsed values are not deep

The parser calls itself for every function in a value, so the fuel that was enough to parse a file bounds the depth of its
values.
-/

namespace Cssc

/-- What the computation returns, if it does. -/
def Gives (m : P α) (Q : α → Prop) : Prop := ∀ s a s', m s = .ok a s' → Q a

theorem Gives.pure {a : α} {Q : α → Prop} (h : Q a) : Gives (pure a : P α) Q := by
  intro s a' s' e
  cases e
  exact h

theorem Gives.timeout {Q : α → Prop} : Gives (P.timeout : P α) Q := by
  intro s a s' e
  cases e

theorem Gives.errorf {msg : String} {Q : α → Prop} : Gives (errorf msg : P α) Q := by
  intro s a s' e
  cases e

theorem Gives.seq {m : P α} {f : α → P β} {R : α → Prop} {Q : β → Prop} (hm : Gives m R) (hf : ∀ a, R a → Gives (f a) Q) :
    Gives (m >>= f) Q := by
  intro s b s' e
  change P.bind m f s = _ at e
  unfold P.bind at e
  cases h : m s with
  | ok a s1 => rw [h] at e; exact hf a (hm _ _ _ h) _ _ _ e
  | err => rw [h] at e; cases e
  | crash => rw [h] at e; cases e
  | timeout => rw [h] at e; cases e

theorem Gives.bind {m : P α} {f : α → P β} {Q : β → Prop} (hf : ∀ a, Gives (f a) Q) : Gives (m >>= f) Q :=
  Gives.seq (R := fun _ => True) (fun _ _ _ _ => trivial) fun a _ => hf a

theorem Gives.ite {c : Prop} [Decidable c] {a b : P α} {Q : α → Prop} (h1 : Gives a Q) (h2 : Gives b Q) : Gives (if c then a else b) Q := by
  split
  · exact h1
  · exact h2

theorem Gives.mono {m : P α} {Q R : α → Prop} (h : Gives m Q) (hq : ∀ a, Q a → R a) : Gives m R := fun s a s' e => hq a (h s a s' e)

theorem nestL_push {B : Nat} {vs : List Value} {v : Value} (h1 : Value.nestL vs ≤ B) (h2 : v.nest ≤ B) : Value.nestL (vs ++ [v]) ≤ B := by
  rw [nestL_le_iff] at h1 ⊢
  intro w hw
  rcases List.mem_append.1 hw with hw | hw
  · exact h1 w hw
  · rw [List.mem_singleton.1 hw]; exact h2

/-- The depths of what the functions for values return. -/
structure NestOk (n : Nat) : Prop where
  value : Gives (parseValue n) fun v => v.nest ≤ n
  brackets : ∀ start vs, Gives (bracketsLoop n start vs) fun v => v.nest ≤ 0
  args : ∀ B sp name as, n ≤ B → Value.nestL as ≤ B → Gives (argsLoop n sp name as) fun v => v.nest ≤ B + 1
  sum : Gives (parseMathSum n) fun v => v.nest ≤ n
  sumLoop : ∀ B left, n ≤ B → left.nest ≤ B → Gives (sumLoop n left) fun v => v.nest ≤ B
  product : Gives (parseMathProduct n) fun v => v.nest ≤ n
  productLoop : ∀ B left, n ≤ B → left.nest ≤ B → Gives (productLoop n left) fun v => v.nest ≤ B
  paren : Gives (parseMathParen n) fun v => v.nest ≤ n

theorem nestOk : ∀ n, NestOk n
  | 0 => by
    constructor <;> intros <;> first | (rw [parseValue]; exact .timeout) | (rw [bracketsLoop]; exact .timeout) |
      (rw [argsLoop]; exact .timeout) | (rw [parseMathSum]; exact .timeout) | (rw [sumLoop]; exact .timeout) |
      (rw [parseMathProduct]; exact .timeout) | (rw [productLoop]; exact .timeout) | (rw [parseMathParen]; exact .timeout)
  | n + 1 => by
    have ih := nestOk n
    constructor
    · rw [parseValue]
      refine .bind fun sp => .bind fun str => .bind fun num => .bind fun cur => ?_
      split
      · exact .bind fun _ => .pure (by simp [Value.nest])
      · exact .bind fun _ => (ih.brackets _ _).mono fun v h => by omega
      · exact .bind fun _ => .pure (by simp [Value.nest])
      · exact .bind fun _ => .pure (by simp [Value.nest])
      · exact .bind fun _ => .pure (by simp [Value.nest])
      · exact .bind fun _ => .pure (by simp [Value.nest])
      · exact .bind fun _ => .pure (by simp [Value.nest])
      · exact .bind fun _ => .pure (by simp [Value.nest, Value.nestL])
      · exact .bind fun _ => ih.args n _ _ _ (Nat.le_refl _) (by simp [Value.nestL])
      · exact .pure (by simp [Value.nest])
    · intro start vs
      rw [bracketsLoop]
      refine .bind fun cur => .ite (.bind fun _ => .bind fun _ => .pure (by simp [Value.nest])) (.bind fun v => ?_)
      split
      · exact .errorf
      · exact ih.brackets _ _
    · intro B sp name as hB has
      rw [argsLoop]
      refine .bind fun cur => ?_
      split
      · exact .bind fun _ => .bind fun _ => .pure (by rw [Value.nest]; omega)
      · exact .bind fun _ => .bind fun _ => ih.args B _ _ _ (by omega) (nestL_push has (by simp [Value.nest]))
      · refine .ite (.seq ih.sum fun v hv => ih.args B _ _ _ (by omega) (nestL_push has (by omega))) (.seq ih.value fun v hv => ?_)
        split
        · exact .pure (by rw [Value.nest]; omega)
        · exact ih.args B _ _ _ (by omega) (nestL_push has (by omega))
    · rw [parseMathSum]
      exact .seq ih.product fun v hv => (ih.sumLoop n v (Nat.le_refl _) hv).mono fun v h => by omega
    · intro B left hB hl
      rw [sumLoop]
      refine .bind fun op => .bind fun cur => .ite (.bind fun _ => .seq ih.product fun r hr => .bind fun _ => .bind fun _ => ?_) (.pure hl)
      exact ih.sumLoop B _ (by omega) (by rw [Value.nest]; omega)
    · rw [parseMathProduct]
      exact .seq ih.paren fun v hv => (ih.productLoop n v (Nat.le_refl _) hv).mono fun v h => by omega
    · intro B left hB hl
      rw [productLoop]
      refine .bind fun op => .bind fun cur => .ite (.bind fun _ => .seq ih.paren fun r hr => .bind fun _ => .bind fun _ => ?_) (.pure hl)
      exact ih.productLoop B _ (by omega) (by rw [Value.nest]; omega)
    · rw [parseMathParen]
      refine .bind fun cur => .ite (ih.value.mono fun v h => by omega) ?_
      exact .bind fun _ => .bind fun _ => .bind fun _ => .bind fun _ => .bind fun _ => .pure (by simp [Value.nest])

/-- The depth of the values of a declaration. -/
def Decl.nestLe (B : Nat) : Decl → Prop
  | .decl _ _ vals _ => Value.nestL vals ≤ B
  | .raw .. => True

theorem declLoop_nest : ∀ (n B : Nat) (prop : Bytes) (sp : Span) (vals : List Value) (imp : Bool), n ≤ B → Value.nestL vals ≤ B →
    Gives (declLoop n prop sp vals imp) (Decl.nestLe B)
  | 0, _, _, _, _, _, _, _ => by rw [declLoop]; exact .timeout
  | n + 1, B, prop, sp, vals, imp, hB, hv => by
    have ih := fun {sp vals imp} (h : Value.nestL vals ≤ B) => declLoop_nest n B prop sp vals imp (by omega) h
    rw [declLoop]
    refine .bind fun str => .bind fun tsp => .bind fun cur => ?_
    split
    · exact .errorf
    · exact .bind fun _ => ih (nestL_push hv (by simp [Value.nest]))
    · refine .ite (.bind fun _ => ih (nestL_push hv (by simp [Value.nest]))) (.bind fun _ => .bind fun _ => .ite .errorf ?_)
      exact .bind fun _ => .bind fun _ => ih hv
    · refine .seq (nestOk n).value fun v h => ?_
      split
      · split
        · exact .errorf
        · exact .bind fun _ => .pure hv
      · exact ih (nestL_push hv (by omega))

theorem fallback_nest {n B : Nat} (h : n ≤ B) : Gives (parseDeclarationOrFallback n) (Decl.nestLe B) := by
  have raw : Gives (parseRaw n) (Decl.nestLe B) := by
    unfold parseRaw
    exact .bind fun _ => .bind fun _ => .bind fun _ => .bind fun _ => .bind fun _ => .pure trivial
  have decl : Gives (parseDeclaration n) (Decl.nestLe B) := by
    unfold parseDeclaration
    exact .bind fun _ => .bind fun _ => .bind fun _ => .bind fun _ => .bind fun _ => .bind fun _ => .bind fun _ =>
      declLoop_nest _ _ _ _ _ _ h (by simp [Value.nestL])
  intro s a s' e
  unfold parseDeclarationOrFallback at e
  cases hd : parseDeclaration n s with
  | ok d s1 => rw [hd] at e; cases e; exact decl _ _ _ hd
  | err _ s1 => rw [hd] at e; exact raw _ _ _ e
  | crash s1 => rw [hd] at e; exact raw _ _ _ e
  | timeout => rw [hd] at e; cases e

theorem declsLoop_nest : ∀ (n B : Nat) (ds : List Decl), n ≤ B → (∀ d ∈ ds, d.nestLe B) →
    Gives (declsLoop n ds) fun ds => ∀ d ∈ ds, d.nestLe B
  | 0, _, _, _, _ => by rw [declsLoop]; exact .timeout
  | n + 1, B, ds, hB, hd => by
    rw [declsLoop]
    refine .bind fun cur => .ite (.pure hd) (.seq (fallback_nest (B := B) (by omega)) fun d h => .bind fun _ => .bind fun _ => ?_)
    refine declsLoop_nest n B _ (by omega) fun d' hd' => ?_
    rcases List.mem_append.1 hd' with hd' | hd'
    · exact hd d' hd'
    · rw [List.mem_singleton.1 hd']; exact h

theorem block_nest {n B : Nat} (h : n ≤ B) : Gives (parseDeclarationBlock n) fun b => ∀ d ∈ b.decls, d.nestLe B := by
  unfold parseDeclarationBlock
  exact .bind fun _ => .bind fun _ => .seq (declsLoop_nest n B [] h (by simp)) fun ds hd => .bind fun _ => .bind fun _ => .pure hd

/-- The depth of the values of a rule. -/
def QRule.nestLe (B : Nat) (r : QRule) : Prop := ∀ b, r.block = some b → ∀ d ∈ b.decls, d.nestLe B

theorem ruleLoop_nest {k : Bool} : ∀ (n B : Nat) (sp : Span) (p : Prelude), n ≤ B + 1 → Gives (ruleLoop k n sp p) (QRule.nestLe B)
  | 0, _, _, _, _ => by rw [ruleLoop]; exact .timeout
  | n + 1, B, sp, p, hB => by
    rw [ruleLoop]
    refine .bind fun cur => ?_
    split
    · exact .errorf
    · exact .seq (block_nest (B := B) (by omega)) fun b hb => .pure fun b' e => by cases e; exact hb
    · refine .ite (.bind fun _ => ?_) (.bind fun _ => ?_)
      · exact ruleLoop_nest n B _ _ (by omega)
      · exact ruleLoop_nest n B _ _ (by omega)

theorem parseAtRule_at {n : Nat} : Gives (parseAtRule n) fun x => ∀ r, x.1 ≠ .rule r := by
  have start : ∀ {m : St → P (Node × List ImportSpec)}, (∀ s0, Gives (m s0) fun x => ∀ r, x.1 ≠ .rule r) →
      Gives (fun s0 => m s0 s0) fun x => ∀ r, x.1 ≠ .rule r := fun h s a s' e => h s s a s' e
  unfold parseAtRule
  refine .bind fun name => .ite ?_ (.ite ?_ (.ite ?_ (.ite ?_ ?_)))
  · unfold parseImportAtRule
    refine start fun s0 => ?_
    repeat (first | (refine .bind fun _ => ?_) | (refine .pure ?_; intro r h; cases h))
  · unfold parseMediaAtRule
    refine start fun s0 => ?_
    repeat (first | (refine .bind fun _ => ?_) | (refine .pure ?_; intro r h; cases h))
  · unfold parseKeyframes
    refine start fun s0 => ?_
    repeat (first | (refine .bind fun _ => ?_) | (refine .pure ?_; intro r h; cases h))
  · unfold parseCustomMediaAtRule
    refine start fun s0 => .bind fun _ => .bind fun _ => .bind fun _ => .bind fun v => ?_
    split
    · refine .bind fun l => ?_
      split
      · intro s a s' e; cases e
      · refine .pure ?_; intro r h; cases h
      · exact .errorf
    · exact .errorf
  · unfold parseGenericAtRule
    refine start fun s0 => ?_
    repeat (first | (refine .bind fun _ => ?_) | (refine .pure ?_; intro r h; cases h))

theorem topLoop_nest : ∀ (n B : Nat) (ss : Stylesheet), n ≤ B + 2 → (∀ r, Node.rule r ∈ ss.nodes → r.nestLe B) →
    Gives (topLoop n ss) fun ss => ∀ r, Node.rule r ∈ ss.nodes → r.nestLe B
  | 0, _, _, _, _ => by rw [topLoop]; exact .timeout
  | n + 1, B, ss, hB, hs => by
    have ih := fun {ss} (h : ∀ r, Node.rule r ∈ ss.nodes → r.nestLe B) => topLoop_nest n B ss (by omega) h
    rw [topLoop]
    refine .bind fun cur => ?_
    split
    · exact .pure hs
    · refine .seq (R := fun x => ∀ r, x.1 ≠ .rule r) ?_ fun x hx => ih fun r hr => ?_
      · intro s x s' e r hr
        exact parseAtRule_at _ _ _ e r hr
      · rcases List.mem_append.1 hr with hr | hr
        · exact hs r hr
        · exact absurd (List.mem_singleton.1 hr).symm (hx r)
    · exact .bind fun _ => ih hs
    · exact .bind fun _ => ih hs
    · exact .bind fun _ => ih hs
    · unfold parseQualifiedRule
      refine .seq (R := QRule.nestLe B) (.bind fun _ => ruleLoop_nest n B _ _ (by omega)) fun r h => ih fun r' hr => ?_
      rcases List.mem_append.1 hr with hr | hr
      · exact hs r' hr
      · cases List.mem_singleton.1 hr
        exact h

/-- The values in the rules of a parsed stylesheet are less deep than the fuel. -/
theorem parse_nest {n id B : Nat} {src : Bytes} {ss : Stylesheet} {lines : List Nat} (h : parse n src id = .ok ss lines) (hB : n ≤ B + 2) :
    ∀ r, Node.rule r ∈ ss.nodes → r.nestLe B := by
  unfold parse at h
  cases h1 : newLexer (St.init src id) with
  | ok u s =>
    rw [h1] at h
    dsimp only at h
    cases h2 : topLoop n ⟨[], []⟩ s with
    | ok ss' s' =>
      rw [h2] at h
      cases h
      exact topLoop_nest n B ⟨[], []⟩ hB (by simp) _ _ _ h2
    | err => rw [h2] at h; cases h
    | crash => rw [h2] at h; cases h
    | timeout => rw [h2] at h; cases h
  | err => rw [h1] at h; cases h
  | crash => rw [h1] at h; cases h
  | timeout => rw [h1] at h; cases h

end Cssc
