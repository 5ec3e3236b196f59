import Verif.Proofs.EndsRules
import Verif.Props.Parser

/-!
# Parse ends (C18)

`Props/Parser.lean` has a text on which `Parse` never returns.  Here: a large class of texts on which it does.
-/

namespace Cssc

theorem mathName_iff {t : Bytes} : isMathName t = true ↔ t ∈ [b!"calc", b!"min", b!"max", b!"clamp"] := by
  simp only [isMathName, Bool.or_eq_true, beq_iff_eq, List.mem_cons, List.not_mem_nil, or_false, or_assoc]

theorem CallAt.call {src t : Bytes} {e : Nat} (hm : isMathName t = true) (h : CallAt src t e) : MathCall src (src.drop e) := by
  obtain ⟨he, i, hi, h⟩ := h
  refine ⟨src.take i, t, mathName_iff.1 hm, ?_⟩
  have key : ∀ {x : Bytes}, t ++ x = sub src i e → src = src.take i ++ (t ++ (x ++ src.drop e)) := by
    intro x hx
    have hd : src.drop e = (src.drop i).drop (e - i) := by rw [List.drop_drop]; congr 1; omega
    rw [← List.append_assoc t, hx, sub, hd, List.take_append_drop, List.take_append_drop]
  rcases h with h | h
  · exact .inl (key h)
  · exact .inr (key h)

/-- The texts that end in a `;` followed by closing braces and white space satisfy the conditions of `Fair`. -/
theorem fair_of {st : Bool} {C : Prop} {pre tail src : Bytes} (hsrc : src = pre ++ 59 :: tail) (hcr : pre.getLast? ≠ some 13)
    (htail : ∀ b ∈ tail, b = 125 ∨ b = 32 ∨ b = 10 ∨ b = 9) (hclose : (125 : UInt8) ∈ tail)
    (hstuck : ∀ t ∈ [b!"-->", b!"<!--", b!".+", b!".-", b!".."], ¬ SliceOf src t)
    (hmath : ∀ r, MathCall src r → ArithText st 1 .first r) (h1 : st = false → C) (h2 : SliceOf src b!"@custom-media" → C) :
    Fair st src pre.length C := by
  refine ⟨⟨by simp [hsrc], fun q hq => ?_, fun i b hi hb => ?_⟩, ?_, ?_, fun t e hm h => hmath _ (h.call hm), h1, h2⟩
  · rw [hsrc, List.getElem?_append_left (by omega)]
    intro h
    apply hcr
    rw [List.getLast?_eq_getElem?, show pre.length - 1 = q by omega]
    exact h
  · rw [hsrc, List.getElem?_append_right (by omega), show i - pre.length = (i - pre.length - 1) + 1 by omega, List.getElem?_cons_succ] at hb
    exact htail b (List.mem_of_getElem? hb)
  · obtain ⟨i, hi, e⟩ := List.getElem_of_mem hclose
    refine ⟨pre.length + (i + 1), by omega, ?_⟩
    rw [hsrc, List.getElem?_append_right (by omega), show pre.length + (i + 1) - pre.length = i + 1 by omega, List.getElem?_cons_succ,
      List.getElem?_eq_getElem hi, e]
  · rintro (h | h | h | h | h) <;> exact hstuck _ (by simp) h

/-- What `Parse` does on such texts. -/
theorem parse_ends {st : Bool} {C : Prop} {src : Bytes} {p id n : Nat} (F : Fair st src p C) (hn : 10 * src.length + 9 ≤ n) :
    parse n src id ≠ .timeout ∧ ((∃ s, newLexer (St.init src id) = .ok () s) → parse n src id = .panic → C) := by
  obtain ⟨s1, e, hi, hs1, _, hlp, hws, hrc, _, _, _⟩ := first_step src id
  unfold parse
  split
  · exact ⟨by simp, fun ⟨s, h⟩ => by simp_all⟩
  · exact ⟨by simp, fun ⟨s, h⟩ => by simp_all⟩
  · rename_i hl
    rw [newLexer_eq e] at hl
    have := next_full hi hs1
    unfold wp at this
    rw [hl] at this
    exact this.elim
  · rename_i s hl
    have hp := newLexer_pi hl
    rw [newLexer_eq e] at hl
    have hz := (wp_ok (next_zone F.bar hi hs1) hl).1 (by omega)
    have ha := (wp_ok (next_full hi hs1) hl).1.adv
    have w := topLoop_ends F n (s := s) (ss := ⟨[], []⟩) ⟨hp, .inl hz, ha.retainComments.trans hrc⟩ (ha.retainWS.trans hws) (by omega)
    unfold wp at w
    split
    · exact ⟨by simp, fun _ h => by cases h⟩
    · exact ⟨by simp, fun _ h => by cases h⟩
    · rename_i ht
      rw [ht] at w
      exact ⟨by simp, fun _ _ => w.2.2⟩
    · rename_i ht
      rw [ht] at w
      exact w.elim

/-- **C18, partial**: `Parse` returns on every text that consists of anything at all, a `;`, and closing braces (at least
one) and white space, provided that the text has none of the sequences that the lexer does not consume
(`-->`, `<!--`, `.+`, `.-`, `..`) and that behind the opening parenthesis of a math function nothing but operands,
operators, commas and parentheses comes before the matching closing parenthesis.  The number of nested calls and
iterations it needs is at most linear in the length of the text.  Missing from the full statement: the texts excluded by
these conditions, on some of which `Parse` runs forever (`parse_terminates_refuted`, `parse_raw_forever`,
`parse_math_forever`). -/
theorem parse_terminates_partial {pre tail src : Bytes} {id n : Nat} (hsrc : src = pre ++ 59 :: tail)
    (hcr : pre.getLast? ≠ some 13) (htail : ∀ b ∈ tail, b = 125 ∨ b = 32 ∨ b = 10 ∨ b = 9) (hclose : (125 : UInt8) ∈ tail)
    (hstuck : ∀ t ∈ [b!"-->", b!"<!--", b!".+", b!".-", b!".."], ¬ SliceOf src t)
    (hmath : ∀ r, MathCall src r → ArithText false 1 .first r)
    (hn : 10 * src.length + 9 ≤ n) : parse n src id ≠ .timeout :=
  (parse_ends (fair_of (C := True) hsrc hcr htail hclose hstuck hmath (fun _ => trivial) fun _ => trivial) hn).1

/-- **C17 and C18 together, partial**: on such a text, if its first token can be read, it has no `@custom-media`, and in
the parentheses of math functions each operator stands behind an operand and before one, `Parse` returns a
stylesheet or an error. -/
theorem parse_returns_partial {pre tail src : Bytes} {id n : Nat} {s : St} (hsrc : src = pre ++ 59 :: tail)
    (hcr : pre.getLast? ≠ some 13) (htail : ∀ b ∈ tail, b = 125 ∨ b = 32 ∨ b = 10 ∨ b = 9) (hclose : (125 : UInt8) ∈ tail)
    (hstuck : ∀ t ∈ [b!"-->", b!"<!--", b!".+", b!".-", b!".."], ¬ SliceOf src t)
    (hmath : ∀ r, MathCall src r → ArithText true 1 .first r)
    (hl : newLexer (St.init src id) = .ok () s) (hc : ¬ SliceOf src b!"@custom-media")
    (hn : 10 * src.length + 9 ≤ n) :
    (∃ ss lines, parse n src id = .ok ss lines) ∨ ∃ e lines, parse n src id = .error e lines := by
  obtain ⟨h1, h2⟩ := parse_ends (id := id) (fair_of (C := False) hsrc hcr htail hclose hstuck hmath (fun e => by cases e) hc) hn
  cases h : parse n src id with
  | ok ss l => exact .inl ⟨_, _, rfl⟩
  | error e l => exact .inr ⟨_, _, rfl⟩
  | panic => exact (h2 ⟨_, hl⟩ h).elim
  | timeout => exact absurd h h1

/-! ### Examples -/

/-- The texts behind the opening parentheses of math functions. -/
def mathRests (src : Bytes) : List Bytes :=
  (List.range (src.length + 1)).flatMap fun i => [b!"calc", b!"min", b!"max", b!"clamp"].flatMap fun t =>
    [b!"(", b!"\r("].flatMap fun x =>
      if (src.drop i).take (t ++ x).length = t ++ x then [src.drop (i + (t ++ x).length)] else []

theorem MathCall.mem {src r : Bytes} (h : MathCall src r) : r ∈ mathRests src := by
  obtain ⟨a, t, ht, h⟩ := h
  have key : ∀ {x}, x ∈ [b!"(", b!"\r("] → src = a ++ (t ++ (x ++ r)) → r ∈ mathRests src := by
    intro x hx h
    subst h
    refine List.mem_flatMap.2 ⟨a.length, List.mem_range.2 (by simp; omega), List.mem_flatMap.2 ⟨t, ht, List.mem_flatMap.2 ⟨x, hx, ?_⟩⟩⟩
    rw [List.drop_left, ← List.append_assoc t, List.take_left, if_pos rfl, ← List.drop_drop, List.drop_left, List.drop_left]
    exact List.mem_singleton.2 rfl
  rcases h with h | h
  · exact key (by simp) h
  · exact key (by simp) h

/-- The conditions hold of ordinary text, and of text with every kind of mistake in it. -/
example : ∀ n, 10 * 64 + 9 ≤ n →
    parse n b!"@media (min-width:1px){a{b:;;c:d!;}}x{y:z} @font-face{q{e:[f;\n}\n" ≠ .timeout := by
  intro n hn
  refine parse_terminates_partial (pre := b!"@media (min-width:1px){a{b:;;c:d!;}}x{y:z} @font-face{q{e:[f")
    (tail := b!"\n}\n") (by rfl) (by decide) (by decide) (by decide) ?_ (fun r h => ?_) ?_
  · intro t ht
    refine not_slice ?_
    revert t
    decide +kernel
  · have := h.mem
    rw [show mathRests b!"@media (min-width:1px){a{b:;;c:d!;}}x{y:z} @font-face{q{e:[f;\n}\n" = [] by decide +kernel] at this
    cases this
  · show 10 * (List.length _) + 9 ≤ n
    rw [show List.length b!"@media (min-width:1px){a{b:;;c:d!;}}x{y:z} @font-face{q{e:[f;\n}\n" = 64 by decide]
    exact hn

/-- The arithmetic of the next example. -/
theorem example_arith (x : Bytes) : ArithText true 1 .first (b!"(1px + var(--x))/2 )" ++ x) := by
  refine .tok (w := []) (t := .punct 40) .nil rfl trivial .paren ?_
  refine .tok (w := []) (t := .dimension b!"1" b!"px") (r := b!" + var(--x))/2 )" ++ x) .nil
    ⟨⟨[], b!"1", [], [], ⟨.inl rfl, by decide, .inl rfl, .inl rfl, .inl (by decide)⟩, rfl⟩, by decide, by decide, by decide⟩
    ⟨.inr ⟨_, _, rfl, by decide, by decide, by decide, fun e => absurd e (by decide), fun e => absurd e (by decide)⟩, .inr ⟨_, _, rfl, by decide, by decide, by decide, by decide⟩⟩
    (.operand rfl) ?_
  refine .tok (w := b!" ") (t := .delim 43) (r := b!" var(--x))/2 )" ++ x) (.ws rfl .nil) (.inr (.inl rfl))
    (.inr (.inl ⟨rfl, fun h => ?_⟩)) (.op (by decide) fun _ => rfl) ?_
  · rcases h with h | ⟨h, _⟩ <;> exact absurd h (by simp [headRune, decodeRune] <;> decide)
  refine .tok (w := b!" ") (t := .func b!"var") (r := b!"--x))/2 )" ++ x) (.ws rfl .nil)
    ⟨by decide, .inl ⟨_, _, rfl, by decide⟩⟩ (fun h => absurd h.1 (by decide)) .func ?_
  refine .tok (w := []) (t := .ident b!"--x") (r := b!"))/2 )" ++ x) .nil
    ⟨by decide, .inr (.inr (.inr (.inr ⟨_, _, rfl⟩)))⟩ ⟨.inr ⟨_, _, rfl, by decide, by decide, by decide, by decide⟩, by simp⟩
    (.operand rfl) ?_
  refine .tok (w := []) (t := .punct 41) .nil rfl trivial (.close (by simp)) ?_
  refine .tok (w := []) (t := .punct 41) .nil rfl trivial (.close (by simp)) ?_
  refine .tok (w := []) (t := .delim 47) (r := b!"2 )" ++ x) .nil (.inr (.inr (.inr (.inr (.inl rfl)))))
    (.inr (.inr (.inr (.inr (.inl ⟨rfl, by simp⟩))))) (.op (by decide) fun _ => rfl) ?_
  refine .tok (w := []) (t := .number b!"2") (r := b!" )" ++ x) .nil
    ⟨[], b!"2", [], [], ⟨.inl rfl, by decide, .inl rfl, .inl rfl, .inl (by decide)⟩, rfl⟩
    ⟨.inr ⟨_, _, rfl, by decide, by decide, by decide, fun e => absurd e (by decide), fun e => absurd e (by decide)⟩, .inr ⟨_, _, rfl, by decide, by decide, by decide, by decide⟩, by simp⟩
    (.operand rfl) ?_
  exact .tok (w := b!" ") (t := .punct 41) (r := x) (.ws rfl .nil) rfl trivial (.close (by simp)) .done

/-- A text with arithmetic in a media query and in a declaration. -/
example : ∀ n, 10 * 73 + 9 ≤ n →
    (∃ ss lines, parse n b!"@media (a:calc((1px + var(--x))/2 )){a{width:calc((1px + var(--x))/2 );}}" = .ok ss lines) ∨
    ∃ e lines, parse n b!"@media (a:calc((1px + var(--x))/2 )){a{width:calc((1px + var(--x))/2 );}}" = .error e lines := by
  intro n hn
  have h : (newLexer (St.init b!"@media (a:calc((1px + var(--x))/2 )){a{width:calc((1px + var(--x))/2 );}}")).st?.isSome = true := by decide +kernel
  cases hl : newLexer (St.init b!"@media (a:calc((1px + var(--x))/2 )){a{width:calc((1px + var(--x))/2 );}}") with
  | ok a s =>
    refine parse_returns_partial (pre := b!"@media (a:calc((1px + var(--x))/2 )){a{width:calc((1px + var(--x))/2 )") (tail := b!"}}")
      (by rfl) (by decide) (by decide) (by decide) ?_ (fun r h => ?_) hl (not_slice (by decide +kernel)) ?_
    · intro t ht
      refine not_slice ?_
      revert t
      decide +kernel
    · have := h.mem
      rw [show mathRests b!"@media (a:calc((1px + var(--x))/2 )){a{width:calc((1px + var(--x))/2 );}}" =
        [b!"(1px + var(--x))/2 )" ++ b!"){a{width:calc((1px + var(--x))/2 );}}", b!"(1px + var(--x))/2 )" ++ b!";}}"] by decide +kernel] at this
      simp only [List.mem_cons, List.not_mem_nil, or_false] at this
      rcases this with e | e <;> subst e <;> exact example_arith _
    · rw [show List.length b!"@media (a:calc((1px + var(--x))/2 )){a{width:calc((1px + var(--x))/2 );}}" = 73 by decide]
      exact hn
  | _ => rw [hl] at h; cases h

/-! ### Texts on which Parse never returns

They show that conditions of the theorem cannot simply be dropped. -/

/-- Only running out of fuel. -/
def TO : Exc := ⟨fun _ _ => False, fun _ => False, True⟩

theorem timeout_of {m : P α} {s : St} (h : wp m (fun _ _ => False) TO s) : m s = .timeout := by
  unfold wp at h
  cases hm : m s <;> rw [hm] at h <;> first | rfl | exact h.elim

theorem wp_of_timeout {m : P α} {s : St} {Q : α → St → Prop} (h : m s = .timeout) : wp m Q TO s := by
  unfold wp
  rw [h]
  trivial

/-- With any amount of fuel, the known result or none. -/
theorem wp_known {f : Nat → P α} (hf : ∀ n, f n ⊑ f (n + 1)) {N : Nat} {s s' : St} {a : α} (h : f N s = .ok a s') (n : Nat) :
    wp (f n) (fun a' s'' => a' = a ∧ s'' = s') TO s := by
  unfold wp
  rcases Nat.le_total n N with hle | hle
  · rcases fuel_le hf hle s with h1 | h1
    · rw [h1]; trivial
    · rw [h1, h]; exact ⟨rfl, rfl⟩
  · rcases fuel_le hf hle s with h1 | h1
    · rw [h] at h1; cases h1
    · rw [← h1, h]; exact ⟨rfl, rfl⟩

theorem rawLoop_eof {s : St} (hc : s.lex.cur = .eof) (hn : next s = .ok () s) : ∀ n, rawLoop n s = .timeout
  | 0 => rfl
  | n + 1 => by
    refine timeout_of ?_
    rw [rawLoop]
    wpb
    refine wp_ite (fun h => by rw [hc] at h; cases h) fun _ => ?_
    refine wp_seq (R := fun _ s' => s' = s) (wp_of_eq hn rfl) fun _ s' e => ?_
    subst e
    exact wp_of_timeout (rawLoop_eof hc hn n)

theorem rawLoop_to {s s' : St} (hc : s.lex.cur ≠ .semicolon) (hn : next s = .ok () s') (h : ∀ n, rawLoop n s' = .timeout) :
    ∀ n, rawLoop n s = .timeout
  | 0 => rfl
  | n + 1 => by
    refine timeout_of ?_
    rw [rawLoop]
    wpb
    refine wp_ite (fun h => absurd h hc) fun _ => ?_
    refine wp_seq (R := fun _ s'' => s'' = s') (wp_of_eq hn rfl) fun _ s' e => ?_
    subst e
    exact wp_of_timeout (h n)

/-- A rule whose block is never finished. -/
theorem topLoop_block {s0 s1 s2 : St} {l : SelList} (hc0 : s0.lex.cur = .ident) (h1 : parseSelectorList 20 s0 = .ok l s1)
    (hc1 : s1.lex.cur = .lcurly) (h2 : next s1 = .ok () s2) (hc2 : s2.lex.cur = .ident)
    (hd : ∀ n, parseDeclarationOrFallback n s2 = .timeout) : ∀ n, topLoop n ⟨[], []⟩ s0 = .timeout := by
  intro n
  cases n with
  | zero => rfl
  | succ n =>
    refine timeout_of ?_
    rw [topLoop]
    wpb
    rw [hc0]
    show wp (parseQualifiedRule false n >>= _) _ _ _
    rw [parseQualifiedRule, wpb_assoc]
    wpb
    cases n with
    | zero => trivial
    | succ n =>
      rw [ruleLoop]
      rw [wpb_assoc]
      wpb
      rw [hc0]
      show wp (((if false = true then _ else parseSelectorList n >>= _) : P QRule) >>= _) _ _ _
      simp only [Bool.false_eq_true, if_false]
      rw [wpb_assoc]
      refine wp_seq (wp_known (fun n => (selFuel n).list) h1 n) fun l' s1' ⟨e1, e2⟩ => ?_
      subst e1 e2
      cases n with
      | zero => trivial
      | succ n =>
        rw [ruleLoop]
        rw [wpb_assoc]
        wpb
        rw [hc1]
        show wp ((parseDeclarationBlock n >>= _) >>= _) _ _ _
        rw [wpb_assoc, parseDeclarationBlock, wpb_assoc]
        wpb
        rw [wpb_assoc]
        refine wp_seq (R := fun _ s' => s' = s2) (wp_of_eq h2 rfl) fun _ s' e => ?_
        subst e
        rw [wpb_assoc]
        refine wp_seq (R := fun _ _ => False) (wp_of_timeout ?_) fun _ _ h => h.elim
        cases n with
        | zero => rfl
        | succ n =>
          refine timeout_of ?_
          rw [declsLoop]
          wpb
          rw [hc2]
          simp only [reduceCtorEq, if_false]
          exact wp_seq (R := fun _ _ => False) (wp_of_timeout (hd n)) fun _ _ h => h.elim

theorem st?_any {r : Res α} {f : St → Bool} (h : r.st?.any f = true) : ∃ a s, r = .ok a s ∧ f s = true := by
  cases r <;> first | exact ⟨_, _, rfl, h⟩ | cases h

theorem errSt?_any {r : Res α} {f : St → Bool} (h : r.errSt?.any f = true) : ∃ e s, r = .err e s ∧ f s = true := by
  cases r <;> first | exact ⟨_, _, rfl, h⟩ | cases h

theorem parse_timeout {src : Bytes} {id : Nat} {s : St} (hs : newLexer (St.init src id) = .ok () s)
    (h : ∀ n, topLoop n ⟨[], []⟩ s = .timeout) (n : Nat) : parse n src id = .timeout := by
  unfold parse
  rw [hs]
  dsimp only
  rw [h n]

/-- A block with something else than a declaration and no `;` after it: `Parse` runs forever looking for one. -/
theorem parse_raw_forever (n : Nat) : parse n b!"a{b}" = .timeout := by
  have h : (newLexer (St.init b!"a{b}")).st?.any (fun s0 => decide (s0.lex.cur = .ident) &&
      (parseSelectorList 20 s0).st?.any fun s1 => decide (s1.lex.cur = .lcurly) &&
      (next s1).st?.any fun s2 => decide (s2.lex.cur = .ident) &&
      (parseDeclaration 0 s2).errSt?.any fun s3 =>
      (next { s3 with lex := s2.lex }).st?.any fun s4 => decide (s4.lex.cur = .rcurly) &&
      (next s4).st?.any fun s5 => decide (s5.lex.cur = .eof) && decide (next s5 = .ok () s5)) = true := by decide +kernel
  obtain ⟨_, s0, h0, h⟩ := st?_any h
  simp only [Bool.and_eq_true, decide_eq_true_eq] at h
  obtain ⟨c0, h⟩ := h
  obtain ⟨l, s1, h1, h⟩ := st?_any h
  simp only [Bool.and_eq_true, decide_eq_true_eq] at h
  obtain ⟨c1, h⟩ := h
  obtain ⟨_, s2, h2, h⟩ := st?_any h
  simp only [Bool.and_eq_true, decide_eq_true_eq] at h
  obtain ⟨c2, h⟩ := h
  obtain ⟨e3, s3, h3, h⟩ := errSt?_any h
  obtain ⟨_, s4, h4, h⟩ := st?_any h
  simp only [Bool.and_eq_true, decide_eq_true_eq] at h
  obtain ⟨c4, h⟩ := h
  obtain ⟨_, s5, h5, h⟩ := st?_any h
  simp only [Bool.and_eq_true, decide_eq_true_eq] at h
  obtain ⟨c5, h6⟩ := h
  refine parse_timeout h0 (topLoop_block c0 h1 c1 h2 c2 fun n => ?_) n
  have hd : parseDeclaration n s2 = .err e3 s3 := by
    rcases fuel_le parseDeclaration_fuel (Nat.zero_le n) s2 with h | h
    · rw [h3] at h; cases h
    · rw [← h, h3]
  unfold parseDeclarationOrFallback
  rw [hd]
  dsimp only
  refine timeout_of ?_
  rw [parseRaw]
  wpb
  refine wp_seq (R := fun _ _ => False) (wp_of_timeout ?_) fun _ _ h => h.elim
  exact rawLoop_to (by show s2.lex.cur ≠ _; rw [c2]; simp) h4 (rawLoop_to (by rw [c4]; simp) h5 (rawLoop_eof c5 h6)) n

/-- No value was read. -/
def nilAt (s : St) : Res Value → Bool
  | .ok .nil s' => decide (s' = s)
  | _ => false

theorem nilAt_eq {s : St} {r : Res Value} (h : nilAt s r = true) : r = .ok .nil s := by
  unfold nilAt at h
  split at h
  · rw [of_decide_eq_true h]
  · cases h

/-- A math function with an argument missing: `Parse` collects missing arguments forever. -/
theorem parse_math_forever (n : Nat) : parse n b!"a{b:calc(;}" = .timeout := by
  have h : (newLexer (St.init b!"a{b:calc(;}")).st?.any (fun s0 => decide (s0.lex.cur = .ident) &&
      (parseSelectorList 20 s0).st?.any fun s1 => decide (s1.lex.cur = .lcurly) &&
      (next s1).st?.any fun s2 => decide (s2.lex.cur = .ident) &&
      (next s2).st?.any fun s3 => decide (s3.lex.cur = .colon) &&
      (next s3).st?.any fun s4 => decide (s4.lex.cur = .functionStart) && decide (isMathName s4.lex.str = true) &&
      (next s4).st?.any fun s5 => decide (s5.lex.cur = .semicolon) && nilAt s5 (parseMathSum 6 s5)) = true := by decide +kernel
  obtain ⟨_, s0, h0, h⟩ := st?_any h
  simp only [Bool.and_eq_true, decide_eq_true_eq] at h
  obtain ⟨c0, h⟩ := h
  obtain ⟨l, s1, h1, h⟩ := st?_any h
  simp only [Bool.and_eq_true, decide_eq_true_eq] at h
  obtain ⟨c1, h⟩ := h
  obtain ⟨_, s2, h2, h⟩ := st?_any h
  simp only [Bool.and_eq_true, decide_eq_true_eq] at h
  obtain ⟨c2, h⟩ := h
  obtain ⟨_, s3, h3, h⟩ := st?_any h
  simp only [Bool.and_eq_true, decide_eq_true_eq] at h
  obtain ⟨c3, h⟩ := h
  obtain ⟨_, s4, h4, h⟩ := st?_any h
  simp only [Bool.and_eq_true, decide_eq_true_eq] at h
  obtain ⟨⟨c4, m4⟩, h⟩ := h
  obtain ⟨_, s5, h5, h⟩ := st?_any h
  simp only [Bool.and_eq_true, decide_eq_true_eq] at h
  obtain ⟨h, hnil⟩ := h
  refine parse_timeout h0 (topLoop_block c0 h1 c1 h2 c2 fun n => ?_) n
  have hv : ∀ n, parseValue n s4 = .timeout := by
    intro n
    cases n with
    | zero => rfl
    | succ n =>
      refine timeout_of ?_
      rw [parseValue]
      wpb
      rw [c4]
      refine wp_seq (R := fun _ s' => s' = s5) (wp_of_eq h5 rfl) fun _ s' e => ?_
      subst e
      exact wp_of_timeout (argsLoop_stuck m4 (nilAt_eq hnil) (by rw [h]; simp) (by rw [h]; simp) n _ _)
  have hd : parseDeclaration n s2 = .timeout := by
    refine timeout_of ?_
    rw [parseDeclaration]
    wpb
    have hp : decide (s2.lex.cur = .delim ∧ s2.lex.str = b!"*") = false := by rw [c2]; simp
    rw [hp]
    refine wp_seq (R := fun _ s' => s' = s2) rfl fun _ s' e => ?_
    subst e
    wpb
    have hx : ∀ {s s' : St} {t : Tok}, s.lex.cur = t → next s = .ok () s' → wp (expect t) (fun _ s'' => s'' = s') TO s := by
      intro s s' t hc hn
      rw [expect]
      wpb
      refine wp_ite (fun h => absurd hc h) fun _ => wp_of_eq hn rfl
    refine wp_seq (hx c2 h3) fun _ s' e => ?_
    subst e
    refine wp_seq (hx c3 h4) fun _ s' e => ?_
    subst e
    cases n with
    | zero => trivial
    | succ n =>
      rw [declLoop]
      wpb
      rw [c4]
      exact wp_seq (R := fun _ _ => False) (wp_of_timeout (hv n)) fun _ _ h => h.elim
  unfold parseDeclarationOrFallback
  rw [hd]

end Cssc
