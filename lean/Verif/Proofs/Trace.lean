import Verif.Proofs.ParseSpec
import Verif.Spec.Items

/-!
# How the parser moves through the text

Every function of the parser only moves the lexer forward, entering the line starts that it passes into the line
table.  The exception is the fallback to a raw declaration, which starts over.
-/

namespace Cssc

/-- The lexer has moved from `s` to `s'` and has entered what it passed into the line table. -/
structure Fwd0 (s s' : St) : Prop where
  src : s'.src = s.src
  inv : Inv s'
  pos : s.lex.pos ≤ s'.lex.pos
  lines : s'.lines = s.lines ++ nls s.src s.lex.pos s'.lex.pos

theorem Fwd0.refl {s : St} (h : Inv s) : Fwd0 s s := ⟨rfl, h, Nat.le_refl _, by rw [nls_self, List.append_nil]⟩

theorem Fwd0.trans {s s1 s2 : St} (h : Fwd0 s s1) (h' : Fwd0 s1 s2) : Fwd0 s s2 :=
  ⟨h'.src.trans h.src, h'.inv, Nat.le_trans h.pos h'.pos, by
    rw [h'.lines, h.lines, h.src, List.append_assoc, nls_append _ h.pos h'.pos]⟩

theorem Fwd0.of_adv {s s' : St} (h : Inv s) (a : Adv s s') : Fwd0 s s' := by
  refine ⟨a.src, a.inv, ?_, a.lines⟩
  have h2 := a.inv.pos
  rw [a.src] at h2
  rw [h.pos, h2]
  exact a.fwd.2.2

/-- Every outcome is a move forward. -/
def X0 (s : St) : Exc := ⟨fun _ s' => Fwd0 s s', fun s' => Fwd0 s s', True⟩

/-- A method that only moves forward. -/
def Tr (m : P α) : Prop := ∀ s, Inv s → wp m (fun _ s' => Fwd0 s s') (X0 s) s

theorem tr_bind {m : P α} {f : α → P β} (h : Tr m) (hf : ∀ a, Tr (f a)) : Tr (m >>= f) := by
  intro s hs
  rw [wp_bind]
  refine wp_mono (h s hs) fun a s1 h1 => ?_
  exact wp_conseq (hf a s1 h1.inv) (fun _ _ => h1.trans) (fun _ _ => h1.trans) (fun _ => h1.trans) id

theorem tr_pure {a : α} : Tr (pure a : P α) := fun _ h => Fwd0.refl h
theorem tr_errorf {msg : String} : Tr (errorf msg : P α) := fun _ h => Fwd0.refl h
theorem tr_crash : Tr (P.crash : P α) := fun _ h => Fwd0.refl h
theorem tr_timeout : Tr (P.timeout : P α) := fun _ _ => trivial
theorem tr_getCur : Tr getCur := fun _ h => Fwd0.refl h
theorem tr_getStr : Tr getStr := fun _ h => Fwd0.refl h
theorem tr_getNum : Tr getNum := fun _ h => Fwd0.refl h
theorem tr_tokenSpan : Tr tokenSpan := fun _ h => Fwd0.refl h
theorem tr_tokenEnd : Tr tokenEnd := fun _ h => Fwd0.refl h

theorem tr_slice {a b : Nat} : Tr (slice a b) := by
  intro s h
  unfold wp slice
  by_cases hc : a ≤ b ∧ b ≤ s.src.length
  · rw [if_pos hc]; exact Fwd0.refl h
  · rw [if_neg hc]; exact Fwd0.refl h

theorem tr_ite {c : Prop} [Decidable c] {m n : P α} (h : Tr m) (h' : Tr n) : Tr (if c then m else n) := by
  split <;> assumption

theorem tr_whenP {c : Prop} [Decidable c] {m : P Unit} (h : Tr m) : Tr (whenP c m) := tr_ite h tr_pure

theorem tr_locate {v : Value} : Tr (locate v) := by
  unfold locate
  split
  · exact tr_pure
  · exact tr_crash

theorem tr_next : Tr next := fun _ h =>
  wp_conseq (next_spec h) (fun _ _ t => .of_adv h t.adv) (fun _ _ t => .of_adv h t.1) (fun _ x => x.elim) (fun x => x.elim)

theorem tr_expect {t : Tok} : Tr (expect t) := by
  unfold expect
  exact tr_bind tr_getCur fun _ => tr_ite tr_errorf tr_next

theorem tr_withRetain {b : Bool} {m : P α} (h : Tr m) : Tr (withRetain b m) := by
  intro s hs
  have h0 := h { s with lex := { s.lex with retainWS := b } } ⟨hs.le, hs.ch, hs.pos⟩
  unfold wp withRetain at *
  cases hr : m { s with lex := { s.lex with retainWS := b } } <;> rw [hr] at h0 <;>
    first
      | trivial
      | exact ⟨h0.src, ⟨h0.inv.le, h0.inv.ch, h0.inv.pos⟩, h0.pos, h0.lines⟩

theorem tr_fun {f : St → P α} (h : ∀ s, Tr (f s)) : Tr (fun s => f s s) := fun s hs => h s s hs

/-- Take a method apart. -/
macro "tr" : tactic => `(tactic| repeat' first
  | assumption
  | with_reducible first
    | exact tr_pure | exact tr_errorf | exact tr_crash | exact tr_timeout | exact tr_next | exact tr_expect
    | exact tr_getCur | exact tr_getStr | exact tr_getNum | exact tr_tokenSpan | exact tr_tokenEnd | exact tr_slice
    | exact tr_locate
    | refine tr_bind ?_ fun _ => ?_
    | refine tr_ite ?_ ?_
    | refine tr_whenP ?_
    | refine tr_withRetain ?_
  | split)

/-! ### Values and declarations -/

structure ValueTr (n : Nat) : Prop where
  value : Tr (parseValue n)
  brackets : ∀ {start vs}, Tr (bracketsLoop n start vs)
  args : ∀ {sp name vs}, Tr (argsLoop n sp name vs)
  sum : Tr (parseMathSum n)
  sumL : ∀ {v}, Tr (sumLoop n v)
  prod : Tr (parseMathProduct n)
  prodL : ∀ {v}, Tr (productLoop n v)
  paren : Tr (parseMathParen n)

theorem valueTr : ∀ n, ValueTr n
  | 0 => ⟨tr_timeout, tr_timeout, tr_timeout, tr_timeout, tr_timeout, tr_timeout, tr_timeout, tr_timeout⟩
  | n + 1 => by
    obtain ⟨h1, h2, h3, h4, h5, h6, h7, h8⟩ := valueTr n
    refine ⟨?_, ?_, ?_, ?_, ?_, ?_, ?_, ?_⟩
    · rw [parseValue]; tr; exact h2; exact h3
    · intros; rw [bracketsLoop]; tr; exact h2
    · intros; rw [argsLoop]; tr <;> exact h3
    · rw [parseMathSum]; tr; exact h5
    · intros; rw [sumLoop]; tr; exact h5
    · rw [parseMathProduct]; tr; exact h7
    · intros; rw [productLoop]; tr; exact h7
    · rw [parseMathParen]; tr

theorem tr_parseValue {n : Nat} : Tr (parseValue n) := (valueTr n).value

theorem tr_rawLoop : ∀ {n : Nat}, Tr (rawLoop n)
  | 0 => tr_timeout
  | n + 1 => by rw [rawLoop]; tr; exact tr_rawLoop

theorem tr_parseRaw {n : Nat} : Tr (parseRaw n) := by
  unfold parseRaw; tr; exact tr_rawLoop

theorem tr_declLoop : ∀ {n : Nat} {prop : Bytes} {sp : Span} {vals : List Value} {imp : Bool},
    Tr (declLoop n prop sp vals imp)
  | 0, _, _, _, _ => tr_timeout
  | n + 1, _, _, _, _ => by rw [declLoop]; tr <;> first | exact tr_parseValue | exact tr_declLoop

theorem tr_parseDeclaration {n : Nat} : Tr (parseDeclaration n) := by
  unfold parseDeclaration; tr <;> exact tr_declLoop

/-! ### Selectors -/

theorem tr_parseANPlusB : Tr parseANPlusB := by
  unfold parseANPlusB
  refine tr_withRetain (tr_bind tr_tokenSpan fun sp => tr_bind ?_ fun x => ?_)
  · unfold anbFirst; tr
  · obtain ⟨a, op, b, stop⟩ := x
    unfold anbSecond; tr

theorem tr_parseAttributeSelector {n : Nat} : Tr (parseAttributeSelector n) := by
  unfold parseAttributeSelector; tr <;> exact tr_parseValue

theorem tr_parseNthArgs : Tr parseNthArgs := by
  unfold parseNthArgs; tr <;> exact tr_parseANPlusB

structure SelTr (n : Nat) : Prop where
  list : ∀ {acc}, Tr (selListLoop n acc)
  sels : Tr (parseSelectorList n)
  sel : Tr (parseSelector n)
  loop : ∀ {sp parts}, Tr (selLoop n sp parts)
  pseudo : ∀ {sp}, Tr (parsePseudo n sp)
  name : ∀ {sp}, Tr (parsePseudoName n sp)

theorem selTr : ∀ n, SelTr n
  | 0 => ⟨tr_timeout, tr_timeout, tr_timeout, tr_timeout, tr_timeout, tr_timeout⟩
  | n + 1 => by
    obtain ⟨h1, h2, h3, h4, h5, h6⟩ := selTr n
    refine ⟨?_, ?_, ?_, ?_, ?_, ?_⟩
    · intros; rw [selListLoop]; tr; exact h1
    · rw [parseSelectorList]; tr; exact h1
    · rw [parseSelector]; tr; exact h4
    · intros; rw [selLoop]; tr <;> first | exact h4 | exact h5 | exact tr_parseAttributeSelector
    · intros; rw [parsePseudo]; tr <;> exact h6
    · intros; rw [parsePseudoName]; tr; exact tr_parseNthArgs

theorem tr_ksLoop : ∀ {n : Nat} {acc : List KSel}, Tr (ksLoop n acc)
  | 0, _ => tr_timeout
  | n + 1, _ => by rw [ksLoop]; tr <;> exact tr_ksLoop

theorem tr_parseKeyframeSelectorList {n : Nat} : Tr (parseKeyframeSelectorList n) := by
  unfold parseKeyframeSelectorList; tr; exact tr_ksLoop

/-! ### Media queries -/

theorem tr_parseMediaRangeOperator : Tr parseMediaRangeOperator := by
  unfold parseMediaRangeOperator; tr

theorem tr_mediaRange {n start : Nat} {first : Value} : Tr (mediaRange n start first) := by
  unfold mediaRange; tr <;> first | exact tr_parseMediaRangeOperator | exact tr_parseValue

theorem tr_parseMediaFeature {n : Nat} : Tr (parseMediaFeature n) := by
  unfold parseMediaFeature; tr <;> first | exact tr_mediaRange | exact tr_parseValue

theorem tr_mqLoop : ∀ {n : Nat} {sp : Span} {parts : List MQPart}, Tr (mqLoop n sp parts)
  | 0, _, _ => tr_timeout
  | n + 1, _, _ => by
    rw [mqLoop]; tr <;> first | exact tr_parseMediaFeature | exact tr_parseValue | exact tr_mqLoop

theorem tr_mqlLoop : ∀ {n : Nat} {acc : List MQ}, Tr (mqlLoop n acc)
  | 0, _ => tr_timeout
  | n + 1, _ => by
    rw [mqlLoop]; unfold parseMediaQuery; tr <;> first | exact tr_mqLoop | exact tr_mqlLoop

theorem tr_parseMediaQueryList {n : Nat} : Tr (parseMediaQueryList n) := by
  unfold parseMediaQueryList; tr; exact tr_mqlLoop

theorem tr_parseImportAtRule {n : Nat} : Tr (parseImportAtRule n) := by
  unfold parseImportAtRule
  refine tr_fun fun s0 => ?_
  tr; exact tr_parseMediaQueryList

theorem tr_parseCustomMediaAtRule {n : Nat} : Tr (parseCustomMediaAtRule n) := by
  unfold parseCustomMediaAtRule
  refine tr_fun fun s0 => ?_
  tr <;> first | exact tr_parseMediaQueryList | exact tr_parseValue

end Cssc
