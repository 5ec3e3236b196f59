import Verif.Proofs.Rel

/-!
# More fuel never changes a result

`m ⊑ m'`: wherever `m` does not time out, `m'` does the same.
-/

namespace Cssc

/-- `m'` agrees with `m` wherever `m` gives a result. -/
def FLe (m m' : P α) : Prop := ∀ s, m s = .timeout ∨ m s = m' s

infix:50 " ⊑ " => FLe

theorem FLe.rfl' {m : P α} : m ⊑ m := fun _ => .inr rfl
theorem FLe.timeout {m : P α} : (P.timeout : P α) ⊑ m := fun _ => .inl rfl

theorem FLe.trans {a b c : P α} (h : a ⊑ b) (h' : b ⊑ c) : a ⊑ c := fun s => by
  rcases h s with h1 | h1
  · exact .inl h1
  · rcases h' s with h2 | h2
    · exact .inl (h1.trans h2)
    · exact .inr (h1.trans h2)

theorem FLe.bind {m m' : P α} {f f' : α → P β} (h : m ⊑ m') (hf : ∀ a, f a ⊑ f' a) : (m >>= f) ⊑ (m' >>= f') := by
  intro s
  show P.bind m f s = .timeout ∨ P.bind m f s = P.bind m' f' s
  unfold P.bind
  rcases h s with h1 | h1
  · rw [h1]; exact .inl rfl
  · rw [← h1]
    cases m s with
    | ok a s' => exact hf a s'
    | err e s' => exact .inr rfl
    | crash s' => exact .inr rfl
    | timeout => exact .inl rfl

theorem FLe.ite {c : Prop} [Decidable c] {a a' b b' : P α} (h1 : c → a ⊑ a') (h2 : ¬ c → b ⊑ b') :
    (if c then a else b) ⊑ (if c then a' else b') := by
  by_cases h : c
  · rw [if_pos h, if_pos h]; exact h1 h
  · rw [if_neg h, if_neg h]; exact h2 h

theorem FLe.withRetain {b : Bool} {m m' : P α} (h : m ⊑ m') : withRetain b m ⊑ withRetain b m' := by
  intro s
  unfold Cssc.withRetain
  rcases h { s with lex := { s.lex with retainWS := b } } with h1 | h1
  · rw [h1]; exact .inl rfl
  · rw [h1]; exact .inr rfl

/-- A computation that also reads the state it starts in. -/
theorem FLe.fun {f f' : St → P α} (h : ∀ s, f s ⊑ f' s) : FLe (fun s => f s s) (fun s => f' s s) := fun s => h s s

/-- Proves `m ⊑ m'` for programs of the same shape. -/
macro "fle" : tactic => `(tactic| repeat' first
  | with_reducible exact FLe.rfl'
  | with_reducible exact FLe.timeout
  | with_reducible assumption
  | with_reducible refine FLe.bind ?_ fun _ => ?_
  | with_reducible refine FLe.ite (fun _ => ?_) fun _ => ?_
  | with_reducible refine FLe.withRetain ?_)

/-- All functions of the value parser at once. -/
structure ValueFuel (n : Nat) : Prop where
  value : parseValue n ⊑ parseValue (n + 1)
  brackets : ∀ a b, bracketsLoop n a b ⊑ bracketsLoop (n + 1) a b
  args : ∀ a b c, argsLoop n a b c ⊑ argsLoop (n + 1) a b c
  sum : parseMathSum n ⊑ parseMathSum (n + 1)
  sumL : ∀ a, sumLoop n a ⊑ sumLoop (n + 1) a
  prod : parseMathProduct n ⊑ parseMathProduct (n + 1)
  prodL : ∀ a, productLoop n a ⊑ productLoop (n + 1) a
  paren : parseMathParen n ⊑ parseMathParen (n + 1)

theorem valueFuel : ∀ n, ValueFuel n
  | 0 => ⟨FLe.timeout, fun _ _ => FLe.timeout, fun _ _ _ => FLe.timeout, FLe.timeout, fun _ => FLe.timeout,
      FLe.timeout, fun _ => FLe.timeout, FLe.timeout⟩
  | n + 1 => by
    have h := valueFuel n
    refine ⟨?_, ?_, ?_, ?_, ?_, ?_, ?_, ?_⟩
    · rw [parseValue, parseValue]
      refine .bind .rfl' fun sp => .bind .rfl' fun str => .bind .rfl' fun num => .bind .rfl' fun c => ?_
      cases c <;> fle
      · exact h.brackets _ _
      · exact h.args _ _ _
    · intro a b
      rw [bracketsLoop, bracketsLoop]
      fle
      · exact h.value
      · rename_i v
        cases v <;> fle <;> exact h.brackets _ _
    · intro a b c
      rw [argsLoop, argsLoop]
      refine .bind .rfl' fun t => ?_
      cases t <;> fle
      all_goals first
        | exact h.args _ _ _
        | exact h.sum
        | exact h.value
        | (rename_i v; cases v <;> fle <;> exact h.args _ _ _)
    · rw [parseMathSum, parseMathSum]
      fle
      · exact h.prod
      · exact h.sumL _
    · intro a
      rw [sumLoop, sumLoop]
      fle
      · exact h.prod
      · exact h.sumL _
    · rw [parseMathProduct, parseMathProduct]
      fle
      · exact h.paren
      · exact h.prodL _
    · intro a
      rw [productLoop, productLoop]
      fle
      · exact h.paren
      · exact h.prodL _
    · rw [parseMathParen, parseMathParen]
      fle
      · exact h.value
      · exact h.sum

theorem rawLoop_fuel : ∀ n, rawLoop n ⊑ rawLoop (n + 1)
  | 0 => FLe.timeout
  | n + 1 => by
    have h := rawLoop_fuel n
    rw [rawLoop, rawLoop]
    fle

theorem parseRaw_fuel (n : Nat) : parseRaw n ⊑ parseRaw (n + 1) := by
  have h := rawLoop_fuel n
  unfold parseRaw
  fle

theorem declLoop_fuel : ∀ n a b c d, declLoop n a b c d ⊑ declLoop (n + 1) a b c d
  | 0, _, _, _, _ => FLe.timeout
  | n + 1, a, b, c, d => by
    have h := declLoop_fuel n
    rw [declLoop, declLoop]
    refine .bind .rfl' fun str => .bind .rfl' fun tsp => .bind .rfl' fun t => ?_
    cases t <;> fle
    all_goals first
      | exact h _ _ _ _
      | exact (valueFuel n).value
      | (rename_i v; cases v <;> fle <;> exact h _ _ _ _)

theorem parseDeclaration_fuel (n : Nat) : parseDeclaration n ⊑ parseDeclaration (n + 1) := by
  unfold parseDeclaration
  fle
  exact declLoop_fuel n _ _ _ _

theorem fallback_fuel (n : Nat) : parseDeclarationOrFallback n ⊑ parseDeclarationOrFallback (n + 1) := by
  intro s
  unfold parseDeclarationOrFallback
  rcases parseDeclaration_fuel n s with h | h
  · rw [h]; exact .inl rfl
  · rw [← h]
    cases parseDeclaration n s with
    | ok a s' => exact .inr rfl
    | err e s' => exact parseRaw_fuel n _
    | crash s' => exact parseRaw_fuel n _
    | timeout => exact .inl rfl

theorem declsLoop_fuel : ∀ n a, declsLoop n a ⊑ declsLoop (n + 1) a
  | 0, _ => FLe.timeout
  | n + 1, a => by
    have h := declsLoop_fuel n
    have h' := fallback_fuel n
    rw [declsLoop, declsLoop]
    fle
    exact h _

theorem parseDeclarationBlock_fuel (n : Nat) : parseDeclarationBlock n ⊑ parseDeclarationBlock (n + 1) := by
  have h := declsLoop_fuel n []
  unfold parseDeclarationBlock
  fle

theorem parseAttributeSelector_fuel (n : Nat) : parseAttributeSelector n ⊑ parseAttributeSelector (n + 1) := by
  have h := (valueFuel n).value
  unfold parseAttributeSelector
  fle

/-- All functions of the selector parser at once. -/
structure SelFuel (n : Nat) : Prop where
  listL : ∀ a, selListLoop n a ⊑ selListLoop (n + 1) a
  list : parseSelectorList n ⊑ parseSelectorList (n + 1)
  sel : parseSelector n ⊑ parseSelector (n + 1)
  selL : ∀ a b, selLoop n a b ⊑ selLoop (n + 1) a b
  pseudo : ∀ a, parsePseudo n a ⊑ parsePseudo (n + 1) a
  name : ∀ a, parsePseudoName n a ⊑ parsePseudoName (n + 1) a

theorem selFuel : ∀ n, SelFuel n
  | 0 => ⟨fun _ => FLe.timeout, FLe.timeout, FLe.timeout, fun _ _ => FLe.timeout, fun _ => FLe.timeout,
      fun _ => FLe.timeout⟩
  | n + 1 => by
    have h := selFuel n
    refine ⟨?_, ?_, ?_, ?_, ?_, ?_⟩
    · intro a
      rw [selListLoop, selListLoop]
      fle
      · exact h.sel
      · exact h.listL _
    · rw [parseSelectorList, parseSelectorList]
      fle
      exact h.listL _
    · rw [parseSelector, parseSelector]
      fle
      exact h.selL _ _
    · intro a b
      rw [selLoop, selLoop]
      refine .bind .rfl' fun tsp => .bind .rfl' fun str => .bind .rfl' fun t => ?_
      cases t <;> fle
      all_goals first
        | exact h.selL _ _
        | exact h.pseudo _
        | exact parseAttributeSelector_fuel n
    · intro a
      rw [parsePseudo, parsePseudo]
      fle
      · exact h.name _
      · exact h.name _
    · intro a
      rw [parsePseudoName, parsePseudoName]
      refine .bind .rfl' fun name => .bind .rfl' fun t => ?_
      cases t <;> fle
      exact h.list

theorem ksLoop_fuel : ∀ n a, ksLoop n a ⊑ ksLoop (n + 1) a
  | 0, _ => FLe.timeout
  | n + 1, a => by
    have h := ksLoop_fuel n
    rw [ksLoop, ksLoop]
    refine .bind .rfl' fun sp => .bind .rfl' fun str => .bind .rfl' fun num => .bind .rfl' fun t => ?_
    cases t <;> fle <;> exact h _

theorem parseKeyframeSelectorList_fuel (n : Nat) : parseKeyframeSelectorList n ⊑ parseKeyframeSelectorList (n + 1) := by
  unfold parseKeyframeSelectorList
  fle
  exact ksLoop_fuel n _

theorem ruleLoop_fuel (k : Bool) : ∀ n a b, ruleLoop k n a b ⊑ ruleLoop k (n + 1) a b
  | 0, _, _ => FLe.timeout
  | n + 1, a, b => by
    have h := ruleLoop_fuel k n
    have h1 := parseDeclarationBlock_fuel n
    have h2 := parseKeyframeSelectorList_fuel n
    have h3 := (selFuel n).list
    rw [ruleLoop, ruleLoop]
    refine .bind .rfl' fun t => ?_
    cases t <;> fle <;> exact h _ _

theorem parseQualifiedRule_fuel (k : Bool) (n : Nat) : parseQualifiedRule k n ⊑ parseQualifiedRule k (n + 1) := by
  unfold parseQualifiedRule
  fle
  exact ruleLoop_fuel k n _ _

theorem mediaRange_fuel (n a : Nat) (b : Value) : mediaRange n a b ⊑ mediaRange (n + 1) a b := by
  have h := (valueFuel n).value
  unfold mediaRange
  fle
  rename_i v
  cases v <;> fle

theorem parseMediaFeature_fuel (n : Nat) : parseMediaFeature n ⊑ parseMediaFeature (n + 1) := by
  have h := (valueFuel n).value
  unfold parseMediaFeature
  fle
  rename_i v t
  cases t <;> fle
  · cases v <;> fle
  · exact mediaRange_fuel n _ _

theorem mqLoop_fuel : ∀ n a b, mqLoop n a b ⊑ mqLoop (n + 1) a b
  | 0, _, _ => FLe.timeout
  | n + 1, a, b => by
    have h := mqLoop_fuel n
    have h1 := parseMediaFeature_fuel n
    have h2 := (valueFuel n).value
    rw [mqLoop, mqLoop]
    refine .bind .rfl' fun t => ?_
    cases t <;> fle
    all_goals first
      | exact h _ _
      | (rename_i v; cases v <;> fle <;> exact h _ _)

theorem parseMediaQuery_fuel (n : Nat) : parseMediaQuery n ⊑ parseMediaQuery (n + 1) := by
  unfold parseMediaQuery
  fle
  exact mqLoop_fuel n _ _

theorem mqlLoop_fuel : ∀ n a, mqlLoop n a ⊑ mqlLoop (n + 1) a
  | 0, _ => FLe.timeout
  | n + 1, a => by
    have h := mqlLoop_fuel n
    have h1 := parseMediaQuery_fuel n
    rw [mqlLoop, mqlLoop]
    fle
    exact h _

theorem parseMediaQueryList_fuel (n : Nat) : parseMediaQueryList n ⊑ parseMediaQueryList (n + 1) := by
  unfold parseMediaQueryList
  fle
  exact mqlLoop_fuel n _

theorem parseImportAtRule_fuel (n : Nat) : parseImportAtRule n ⊑ parseImportAtRule (n + 1) := by
  have h := parseMediaQueryList_fuel n
  unfold parseImportAtRule
  refine FLe.fun fun s => ?_
  fle

theorem rulesLoop_fuel (k : Bool) : ∀ n a, rulesLoop k n a ⊑ rulesLoop k (n + 1) a
  | 0, _ => FLe.timeout
  | n + 1, a => by
    have h := rulesLoop_fuel k n
    have h1 := parseQualifiedRule_fuel k n
    rw [rulesLoop, rulesLoop]
    refine .bind .rfl' fun t => ?_
    cases t <;> fle <;> exact h _

theorem parseKeyframes_fuel (n : Nat) : parseKeyframes n ⊑ parseKeyframes (n + 1) := by
  have h := rulesLoop_fuel true n []
  unfold parseKeyframes
  refine FLe.fun fun s => ?_
  fle

theorem parseMediaAtRule_fuel (n : Nat) : parseMediaAtRule n ⊑ parseMediaAtRule (n + 1) := by
  have h := rulesLoop_fuel false n []
  have h1 := parseMediaQueryList_fuel n
  unfold parseMediaAtRule
  refine FLe.fun fun s => ?_
  fle

theorem parseCustomMediaAtRule_fuel (n : Nat) : parseCustomMediaAtRule n ⊑ parseCustomMediaAtRule (n + 1) := by
  have h := (valueFuel n).value
  have h1 := parseMediaQueryList_fuel n
  unfold parseCustomMediaAtRule
  refine FLe.fun fun s => ?_
  fle
  rename_i v
  cases v <;> fle

theorem parseGenericAtRule_fuel (n : Nat) : parseGenericAtRule n ⊑ parseGenericAtRule (n + 1) := by
  have h := parseDeclarationBlock_fuel n
  unfold parseGenericAtRule
  refine FLe.fun fun s => ?_
  fle

theorem parseAtRule_fuel (n : Nat) : parseAtRule n ⊑ parseAtRule (n + 1) := by
  have h1 := parseImportAtRule_fuel n
  have h2 := parseMediaAtRule_fuel n
  have h3 := parseKeyframes_fuel n
  have h4 := parseCustomMediaAtRule_fuel n
  have h5 := parseGenericAtRule_fuel n
  unfold parseAtRule
  fle

theorem topLoop_fuel : ∀ n a, topLoop n a ⊑ topLoop (n + 1) a
  | 0, _ => FLe.timeout
  | n + 1, a => by
    have h := topLoop_fuel n
    have h1 := parseAtRule_fuel n
    have h2 := parseQualifiedRule_fuel false n
    rw [topLoop, topLoop]
    refine .bind .rfl' fun t => ?_
    cases t <;> fle <;> exact h _

theorem fuel_le {f : Nat → P α} (h : ∀ n, f n ⊑ f (n + 1)) {n m : Nat} (hnm : n ≤ m) : f n ⊑ f m := by
  induction hnm with
  | refl => exact .rfl'
  | step _ ih => exact ih.trans (h _)

end Cssc
