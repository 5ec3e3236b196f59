import Verif.Proofs.LexBar
import Verif.Proofs.ParseRules
import Verif.Proofs.Skip
import Verif.Spec.Arith

/-!
# Texts on which the parser ends

`Bar src p` (`Proofs/LexBar.lean`): the last `;` of the text is at `p` and only closing braces and white space follow.
If moreover at least one brace follows, no token of the text has zero width and the parentheses of each math function
are closed behind nothing but operands and operators, then every loop of the parser ends: each round consumes a token, and the loop that skips a bad declaration meets that `;`.
-/

namespace Cssc

/-- The texts of the theorem.  `C` is what a run-time panic needs. -/
structure Fair (st : Bool) (src : Bytes) (p : Nat) (C : Prop) : Prop where
  bar : Bar src p
  close : ∃ i, p < i ∧ src[i]? = some 125
  stuck : ¬ StuckIn src
  math : ∀ t e, isMathName t = true → CallAt src t e → ArithText st 1 .first (src.drop e)
  crash : st = false → C
  custom : SliceOf src b!"@custom-media" → C

theorem Fair.any {st : Bool} {src : Bytes} {p : Nat} {C : Prop} (F : Fair st src p C) : Fair st src p True :=
  ⟨F.bar, F.close, F.stuck, F.math, fun _ => trivial, fun _ => trivial⟩

/-- The state between tokens: not beyond the last `;`, or at one of the tokens that can follow it. -/
structure TI (src : Bytes) (p id : Nat) (s : St) : Prop where
  pi : PI src id s
  z : Zone p s ∨ (p < s.lex.lastPos ∧ (s.lex.cur = .rcurly ∨ s.lex.cur = .eof ∨ s.lex.cur = .whitespace))
  rc : s.lex.retainComments = false

/-- Any outcome but running out of fuel, and panics only if `C`. -/
def EX (C : Prop) (src : Bytes) (id : Nat) : Exc where
  err _ s' := s'.src = src ∧ s'.id = id
  crash s' := s'.src = src ∧ s'.id = id ∧ C
  timeout := False

/-- After one token. -/
structure Stp (src : Bytes) (p id : Nat) (s s' : St) : Prop where
  ti : TI src p id s'
  ret : s'.lex.retainWS = s.lex.retainWS
  mono : s.lex.start ≤ s'.lex.start
  lt : s.lex.cur ≠ .eof → s.lex.start < s'.lex.start
  zone : Zone p s → s.lex.cur ≠ .semicolon → Zone p s'
  over : Zone p s → s.lex.retainWS = false → Zone p s' ∨ s'.lex.cur = .rcurly

/-- After any part of a value. -/
structure Go (src : Bytes) (p id : Nat) (s s' : St) : Prop where
  ti : TI src p id s'
  ret : s'.lex.retainWS = s.lex.retainWS
  mono : s.lex.start ≤ s'.lex.start
  zone : Zone p s → Zone p s'

section
variable {st : Bool} {src : Bytes} {p id : Nat} {C : Prop}

theorem TI.len {s : St} (h : TI src p id s) : s.lex.start ≤ src.length := Nat.le_trans h.pi.start_le h.pi.end_le

theorem TI.zone_of {s : St} (h : TI src p id s) (h1 : s.lex.cur ≠ .rcurly) (h2 : s.lex.cur ≠ .eof)
    (h3 : s.lex.cur ≠ .whitespace) : Zone p s := by
  rcases h.z with h | ⟨_, h | h | h⟩
  · exact h
  · exact absurd h h1
  · exact absurd h h2
  · exact absurd h h3

theorem Zone.ne_eof (F : Fair st src p C) {s : St} (h : Zone p s) (hp : PI src id s) : s.lex.cur ≠ .eof := by
  intro e
  rcases h with h | ⟨h, _⟩
  · have h1 := hp.more.eof e
    have h2 := hp.start_le
    have h3 := F.bar.lt
    omega
  · rw [e] at h; cases h

theorem next_go (F : Fair st src p C) {s : St} (h : TI src p id s) :
    wp next (fun _ s' => Stp src p id s s') (EX C src id) s := by
  refine wp_conseq (wp_and (next_full h.pi.inv h.pi.srcEq) (next_zone F.bar h.pi.inv h.pi.srcEq)) ?_ ?_ (fun _ x => x.elim) (fun x => x.elim)
  · rintro _ s' ⟨⟨t, d⟩, z1, z2⟩
    have hp := h.pi.of_tokd t d
    have hst := t.start
    have hsl := h.pi.start_le
    have hsl' := hp.start_le
    refine ⟨⟨hp, ?_, t.adv.retainComments.trans h.rc⟩, t.adv.retainWS, by omega, fun hne => ?_, fun hz hc => ?_, fun hz hr => ?_⟩
    · by_cases hlo : s.lex.lastPos ≤ p
      · exact .inl (z1 hlo)
      · exact .inr ⟨by omega, (z2 (by omega)).1⟩
    · rcases h.pi.more.prog hne with h1 | h1
      · omega
      · exact absurd h1 F.stuck
    · rcases hz with hz | ⟨hz, _⟩
      · exact z1 hz
      · exact absurd hz hc
    · rcases hz with hz | ⟨_, _, hz⟩
      · exact .inl (z1 hz)
      · obtain ⟨i, hi, hb⟩ := F.close
        exact .inr ((z2 (by omega)).2 hr ⟨i, by omega, hb⟩)
  · rintro e s' ⟨a, _⟩
    exact ⟨a.src.trans h.pi.srcEq, a.id.trans h.pi.idEq⟩

theorem TI.ex {s : St} (h : TI src p id s) : s.src = src ∧ s.id = id := ⟨h.pi.srcEq, h.pi.idEq⟩
theorem TI.crash {s : St} (h : TI src p id s) (c : C) : s.src = src ∧ s.id = id ∧ C := ⟨h.pi.srcEq, h.pi.idEq, c⟩

theorem errorf_go {s : St} (h : TI src p id s) (msg : String) {Q : α → St → Prop} :
    wp (errorf msg) Q (EX C src id) s := by
  rw [wp_errorf]
  exact h.ex

theorem expect_go (F : Fair st src p C) {s : St} (h : TI src p id s) (t : Tok) :
    wp (expect t) (fun _ s' => Stp src p id s s' ∧ s.lex.cur = t) (EX C src id) s := by
  rw [expect]
  wpb
  refine wp_ite (fun _ => errorf_go h _) fun hc => ?_
  exact wp_mono (next_go F h) fun _ s' a => ⟨a, Classical.not_not.1 hc⟩

theorem Go.refl {s : St} (h : TI src p id s) : Go src p id s s := ⟨h, rfl, Nat.le_refl _, fun z => z⟩

theorem Go.trans {s s1 s2 : St} (h : Go src p id s s1) (h' : Go src p id s1 s2) : Go src p id s s2 :=
  ⟨h'.ti, h'.ret.trans h.ret, Nat.le_trans h.mono h'.mono, fun z => h'.zone (h.zone z)⟩

theorem Stp.go {s s' : St} (h : Stp src p id s s') (hc : s.lex.cur ≠ .semicolon) : Go src p id s s' :=
  ⟨h.ti, h.ret, h.mono, fun z => h.zone z hc⟩

theorem locate_go {s : St} (h : TI src p id s) {v : Value} (hv : v ≠ .nil ∨ C) :
    wp (locate v) (fun _ s' => s' = s) (EX C src id) s :=
  locate_wp (fun _ => rfl) fun e => h.crash (hv.resolve_left (absurd e))

theorem slice_go {s : St} (h : TI src p id s) {a b : Nat} (h1 : a ≤ b) (h2 : b ≤ src.length) :
    wp (slice a b) (fun _ s' => s' = s) (EX C src id) s := by
  unfold wp slice
  rw [if_pos ⟨h1, by rw [h.pi.srcEq]; exact h2⟩]

/-! ### Arithmetic -/

/-- A token with which an operand begins. -/
def isOpd : Tok → Bool
  | .dimension | .percentage | .number | .ident | .hash | .string | .url | .functionStart | .lparen => true
  | _ => false

/-- The token at which the lexer is may stand at the place. -/
def Here (st : Bool) (d : Nat) (pl : Slot) (s : St) : Prop :=
  d = 0 ∨ ∃ t d' pl' r, ArithTok st t d pl d' pl' ∧ ArithText st d' pl' r ∧ On s r ∧ s.lex.cur = t.tok ∧
    ∀ x, t.str = some x → s.lex.str = x

/-- The open parentheses after a token. -/
def depthAfter (c : Tok) (d : Nat) : Nat :=
  if d = 0 then 0 else if c = .rparen then d - 1 else if c = .lparen ∨ c = .functionStart then d + 1 else d

/-- The place after a token. -/
def placeAfter (c : Tok) : Slot :=
  if c = .lparen ∨ c = .functionStart ∨ c = .comma then .first else if c = .delim then .due else .behind

/-- An operator of products. -/
def AtMul (s : St) : Prop := s.lex.cur = .delim ∧ (s.lex.str = b!"*" ∨ s.lex.str = b!"/")
/-- An operator of sums. -/
def AtAdd (s : St) : Prop := s.lex.cur = .delim ∧ (s.lex.str = b!"+" ∨ s.lex.str = b!"-")

theorem ArithTok.after {t : PTok} {d d' : Nat} {pl pl' : Slot} (h : ArithTok st t d pl d' pl') :
    d' = depthAfter t.tok d ∧ pl' = placeAfter t.tok := by
  cases h with
  | operand ht => cases t <;> cases ht <;> exact ⟨rfl, rfl⟩
  | _ => exact ⟨rfl, rfl⟩

theorem ArithTok.behind {t : PTok} {d d' : Nat} {pl pl' : Slot} (h : ArithTok st t d pl d' pl') : ArithTok st t d .behind d' pl' := by
  cases h with
  | operand h => exact .operand h
  | paren => exact .paren
  | func => exact .func
  | close _ => exact .close (by simp)
  | comma _ => exact .comma (by simp)
  | op h _ => exact .op h (by simp)

theorem ArithTok.less {t : PTok} {d d' : Nat} {pl pl' : Slot} (h : ArithTok st t (d + 2) pl d' pl') :
    ∃ d'', d' = d'' + 1 ∧ ArithTok st t (d + 1) pl d'' pl' := by
  cases h with
  | operand h => exact ⟨_, rfl, .operand h⟩
  | paren => exact ⟨_, rfl, .paren⟩
  | func => exact ⟨_, rfl, .func⟩
  | close h => exact ⟨_, rfl, .close h⟩
  | comma h => exact ⟨_, rfl, .comma h⟩
  | op h h' => exact ⟨_, rfl, .op h h'⟩

theorem ArithTok.ne_ws {t : PTok} {d d' : Nat} {pl pl' : Slot} (h : ArithTok st t d pl d' pl') : t.tok ≠ .whitespace := by
  cases h with
  | operand h => cases t <;> cases h <;> simp [PTok.tok]
  | _ => simp [PTok.tok, punctTok]

theorem ArithText.less {e : Nat} {pl : Slot} {r : Bytes} (h : ArithText st e pl r) : ∀ {d}, e = d + 1 → ArithText st d pl r := by
  induction h with
  | done => intro d e; cases e
  | tok g w f t _ ih =>
    intro d e
    subst e
    cases d with
    | zero => exact .done
    | succ d =>
      obtain ⟨d'', e, t'⟩ := t.less
      exact .tok g w f t' (ih e)

theorem Here.zero (pl : Slot) (s : St) : Here st 0 pl s := .inl rfl

theorem Here.behind {d : Nat} {pl : Slot} {s : St} (h : Here st d pl s) : Here st d .behind s := by
  rcases h with h | ⟨t, d', pl', r, h1, h2⟩
  · exact .inl h
  · exact .inr ⟨t, d', pl', r, h1.behind, h2⟩

theorem Here.less {d : Nat} {pl : Slot} {s : St} (h : Here st (d + 1) pl s) : Here st d pl s := by
  rcases h with h | ⟨t, d', pl', r, h1, h2, h3⟩
  · cases h
  · cases d with
    | zero => exact .inl rfl
    | succ d =>
      obtain ⟨d'', e, t'⟩ := h1.less
      exact .inr ⟨t, d'', pl', r, t', h2.less e, h3⟩

theorem Here.pred {d : Nat} {pl : Slot} {s : St} (h : Here st d pl s) : Here st (d - 1) pl s := by
  cases d with
  | zero => exact h
  | succ d => exact h.less

/-- The tokens that can be at a place. -/
theorem Here.cur {d : Nat} {pl : Slot} {s : St} (h : Here st d pl s) (hd : d ≠ 0) :
    (isOpd s.lex.cur = true ∨ s.lex.cur = .rparen ∨ s.lex.cur = .comma ∨ AtMul s ∨ AtAdd s) ∧
    (st = true → pl = .first → ¬ AtMul s ∧ ¬ AtAdd s) ∧ (st = true → pl = .due → isOpd s.lex.cur = true) := by
  rcases h with h | ⟨t, d', pl', r, h1, h2, h3, h4, h5⟩
  · exact absurd h hd
  · unfold AtMul AtAdd
    rw [h4]
    cases h1 with
    | operand h => cases t <;> cases h <;> simp [PTok.tok, isOpd]
    | paren => simp [PTok.tok, punctTok, isOpd]
    | func => simp [PTok.tok, isOpd]
    | close hp =>
      refine ⟨.inr (.inl rfl), fun _ _ => by simp [PTok.tok, punctTok], fun e1 e2 => absurd e2 (hp e1)⟩
    | comma hp =>
      refine ⟨.inr (.inr (.inl rfl)), fun _ _ => by simp [PTok.tok, punctTok], fun e1 e2 => absurd e2 (hp e1)⟩
    | op hb hp =>
      refine ⟨?_, fun e1 e2 => ?_, fun e1 e2 => ?_⟩
      · rw [h5 _ rfl]
        rcases hb with rfl | rfl | rfl | rfl <;> simp [PTok.tok]
      · rw [hp e1] at e2; cases e2
      · rw [hp e1] at e2; cases e2

/-- Reading the next token. -/
theorem next_here {s : St} {d : Nat} {pl : Slot} {r : Bytes} (h : ArithText st d pl r) (o : On s r) (h1 : s.lex.retainWS = false)
    (h2 : s.lex.retainComments = false) : wp next (fun _ s' => Here st d pl s') XT s := by
  cases h with
  | done =>
    unfold wp
    cases next s <;> first | exact .inl rfl | trivial
  | tok g w f t a =>
    refine wp_mono (fwd_next g w f o h1 h2 t.ne_ws) fun _ s' ⟨s1, _, _, rd⟩ => ?_
    exact .inr ⟨_, _, _, _, t, a, rd.on, rd.cur, rd.str⟩

theorem next_arith (F : Fair st src p C) {s : St} {d : Nat} {pl : Slot} (h : TI src p id s) (hr : s.lex.retainWS = false)
    (hh : Here st d pl s) :
    wp next (fun _ s' => Stp src p id s s' ∧ Here st (depthAfter s.lex.cur d) (placeAfter s.lex.cur) s') (EX C src id) s := by
  rcases hh with rfl | ⟨t, d', pl', r, h1, h2, h3, h4, _⟩
  · exact wp_mono (next_go F h) fun _ s' a => ⟨a, .inl rfl⟩
  · obtain ⟨e1, e2⟩ := h1.after
    rw [h4, ← e1, ← e2]
    exact wp_and (next_go F h) (next_here h2 h3 hr h.rc)

theorem next_arith_expect (F : Fair st src p C) {s : St} {d : Nat} {pl : Slot} {k : Tok} (h : TI src p id s) (hr : s.lex.retainWS = false)
    (hh : Here st d pl s) :
    wp (expect k) (fun _ s' => Here st (depthAfter s.lex.cur d) (placeAfter s.lex.cur) s') (EX C src id) s := by
  rw [expect]
  wpb
  refine wp_ite (fun _ => errorf_go h _) fun hc => ?_
  exact wp_mono (next_arith F h hr hh) fun _ s' a => a.2

theorem math_not_urlString {t : Bytes} (h : isMathName t = true) : isURLString t = false := by
  simp only [isMathName, Bool.or_eq_true, beq_iff_eq] at h
  rcases h with ((h | h) | h) | h <;> subst h <;> decide

/-- Entering the parentheses of a math function. -/
theorem next_math (F : Fair st src p C) {s : St} {d : Nat} {pl : Slot} (h : TI src p id s) (hr : s.lex.retainWS = false)
    (hh : Here st d pl s) (hc : s.lex.cur = .functionStart) (hm : isMathName s.lex.str = true) :
    wp next (fun _ s' => Stp src p id s s' ∧ Here st (d + 1) .first s') (EX C src id) s := by
  cases d with
  | succ d =>
    have := next_arith F h hr hh
    rw [hc] at this
    exact this
  | zero =>
    have a := F.math _ _ hm (h.pi.more.call hc (math_not_urlString hm))
    refine wp_and (next_go F h) (next_here a ⟨h.pi.inv, ?_⟩ hr h.rc)
    rw [h.pi.srcEq]

/-! ### Values -/

/-- After a value that may be missing. -/
structure VGo (src : Bytes) (p id : Nat) (s : St) (v : Value) (s' : St) : Prop where
  go : Go src p id s s'
  nil : v = .nil → s' = s
  lt : v ≠ .nil → s.lex.start < s'.lex.start
  cl : s.lex.cur = .rcurly → v = .nil
  no : v = .nil → isOpd s.lex.cur = false ∨ s.lex.cur = .lparen

/-- After an operand that may be missing. -/
structure OGo (src : Bytes) (p id : Nat) (s : St) (v : Value) (s' : St) : Prop where
  go : Go src p id s s'
  nil : v = .nil → s' = s
  lt : v ≠ .nil → s.lex.start < s'.lex.start
  no : v = .nil → isOpd s.lex.cur = false

structure ValueEnds (st : Bool) (C : Prop) (src : Bytes) (p id n : Nat) : Prop where
  value : ∀ {s d pl}, TI src p id s → s.lex.retainWS = false → Here st d pl s → 10 * (src.length - s.lex.start) + 1 ≤ n →
    wp (parseValue n) (fun v s' => VGo src p id s v s' ∧ Here st d .behind s') (EX C src id) s
  brackets : ∀ {s start vs}, TI src p id s → s.lex.retainWS = false → 10 * (src.length - s.lex.start) + 2 ≤ n →
    wp (bracketsLoop n start vs) (fun v s' => v ≠ .nil ∧ Go src p id s s') (EX C src id) s
  args : ∀ {s sp name vs d pl}, TI src p id s → s.lex.retainWS = false → Here st d pl s →
    (isMathName name = true → d ≠ 0 ∧ (st = true → ¬ AtMul s ∧ ¬ AtAdd s)) → 10 * (src.length - s.lex.start) + 5 ≤ n →
    wp (argsLoop n sp name vs) (fun v s' => v ≠ .nil ∧ Go src p id s s' ∧ Here st (d - 1) .behind s') (EX C src id) s
  sum : ∀ {s d pl}, TI src p id s → s.lex.retainWS = false → Here st d pl s → d ≠ 0 → (st = true → ¬ AtMul s ∧ ¬ AtAdd s) →
    10 * (src.length - s.lex.start) + 4 ≤ n →
    wp (parseMathSum n) (fun v s' => OGo src p id s v s' ∧ Here st d .behind s' ∧ ¬ AtMul s' ∧ ¬ AtAdd s') (EX C src id) s
  sumLoop : ∀ {s d pl left}, TI src p id s → s.lex.retainWS = false → Here st d pl s → d ≠ 0 →
    (left = .nil → st = true → ¬ AtAdd s) → ¬ AtMul s → 10 * (src.length - s.lex.start) + 1 ≤ n →
    wp (sumLoop n left) (fun v s' => Go src p id s s' ∧ (left = .nil → v = .nil ∧ s' = s) ∧ (left ≠ .nil → v ≠ .nil) ∧
      Here st d .behind s' ∧ ¬ AtMul s' ∧ ¬ AtAdd s') (EX C src id) s
  product : ∀ {s d pl}, TI src p id s → s.lex.retainWS = false → Here st d pl s → d ≠ 0 → (st = true → ¬ AtMul s) →
    10 * (src.length - s.lex.start) + 3 ≤ n →
    wp (parseMathProduct n) (fun v s' => OGo src p id s v s' ∧ Here st d .behind s' ∧ ¬ AtMul s') (EX C src id) s
  productLoop : ∀ {s d pl left}, TI src p id s → s.lex.retainWS = false → Here st d pl s → d ≠ 0 →
    (left = .nil → st = true → ¬ AtMul s) → 10 * (src.length - s.lex.start) + 1 ≤ n →
    wp (productLoop n left) (fun v s' => Go src p id s s' ∧ (left = .nil → v = .nil ∧ s' = s) ∧ (left ≠ .nil → v ≠ .nil) ∧
      Here st d .behind s' ∧ ¬ AtMul s') (EX C src id) s
  paren : ∀ {s d pl}, TI src p id s → s.lex.retainWS = false → Here st d pl s → d ≠ 0 → 10 * (src.length - s.lex.start) + 2 ≤ n →
    wp (parseMathParen n) (fun v s' => OGo src p id s v s' ∧ Here st d .behind s') (EX C src id) s

theorem valueEnds (F : Fair st src p C) : ∀ n, ValueEnds st C src p id n
  | 0 => ⟨fun _ _ _ h => absurd h (by omega), fun _ _ h => absurd h (by omega), fun _ _ _ _ h => absurd h (by omega),
      fun _ _ _ _ _ h => absurd h (by omega), fun _ _ _ _ _ _ h => absurd h (by omega), fun _ _ _ _ _ h => absurd h (by omega),
      fun _ _ _ _ _ h => absurd h (by omega), fun _ _ _ _ h => absurd h (by omega)⟩
  | n + 1 => by
    have ih := valueEnds F n
    have one : ∀ {s : St} {v : Value} {d : Nat} {pl : Slot}, TI src p id s → s.lex.retainWS = false → Here st d pl s →
        v ≠ .nil → (isOpd s.lex.cur = true ∧ s.lex.cur ≠ .lparen ∧ s.lex.cur ≠ .functionStart) →
        wp (next >>= fun _ => pure v) (fun v s' => VGo src p id s v s' ∧ Here st d .behind s') (EX C src id) s := by
      intro s v d pl h hr hh hv ⟨h1, h2, h3⟩
      refine wp_seq (next_arith F h hr hh) fun _ s1 ⟨a, b⟩ => ?_
      wpb
      have n1 : s.lex.cur ≠ .eof := fun e => by rw [e] at h1; cases h1
      have n2 : s.lex.cur ≠ .semicolon := fun e => by rw [e] at h1; cases h1
      have n3 : s.lex.cur ≠ .rcurly := fun e => by rw [e] at h1; cases h1
      have n4 : s.lex.cur ≠ .rparen := fun e => by rw [e] at h1; cases h1
      refine ⟨⟨a.go n2, fun e => absurd e hv, fun _ => a.lt n1, fun e => absurd e n3, fun e => absurd e hv⟩, ?_⟩
      have b := b.behind
      unfold depthAfter at b
      by_cases hd : d = 0
      · subst hd; exact .inl rfl
      · rwa [if_neg hd, if_neg n4, if_neg fun e => e.elim h2 h3] at b
    refine ⟨?_, ?_, ?_, ?_, ?_, ?_, ?_, ?_⟩
    · intro s d pl h hr hh hn
      have hlen := h.len
      rw [parseValue]
      wpb
      split
      · rename_i hc; exact one h hr hh (by simp) (by simp [hc, isOpd])
      · rename_i hc
        have hd : d = 0 := by
          by_cases hd : d = 0
          · exact hd
          · obtain ⟨h1 | h1 | h1 | h1 | h1, _⟩ := hh.cur hd <;> simp [hc, isOpd, AtMul, AtAdd] at h1
        subst hd
        refine wp_seq (next_go F h) fun _ s1 a => ?_
        have hlt := a.lt (by simp [hc])
        have hlen1 := a.ti.len
        refine wp_mono (ih.brackets a.ti (a.ret.trans hr) (by omega)) fun v s2 ⟨hv, g⟩ => ?_
        have := g.mono
        exact ⟨⟨(a.go (by simp [hc])).trans g, fun e => absurd e hv, fun _ => by omega,
          fun e => absurd (hc.symm.trans e) (by simp), fun e => absurd e hv⟩, .inl rfl⟩
      · rename_i hc; exact one h hr hh (by simp) (by simp [hc, isOpd])
      · rename_i hc; exact one h hr hh (by simp) (by simp [hc, isOpd])
      · rename_i hc; exact one h hr hh (by simp) (by simp [hc, isOpd])
      · rename_i hc; exact one h hr hh (by simp) (by simp [hc, isOpd])
      · rename_i hc; exact one h hr hh (by simp) (by simp [hc, isOpd])
      · rename_i hc; exact one h hr hh (by simp) (by simp [hc, isOpd])
      · rename_i hc
        have key : ∀ {s1 e ple}, Stp src p id s s1 → Here st e ple s1 →
            (isMathName s.lex.str = true → e ≠ 0 ∧ (st = true → ¬ AtMul s1 ∧ ¬ AtAdd s1)) → (Here st (e - 1) .behind = Here st d .behind) →
            wp (argsLoop n ⟨s.lex.start, s.lex.lastPos⟩ s.lex.str []) (fun v s' => VGo src p id s v s' ∧ Here st d .behind s') (EX C src id) s1 := by
          intro s1 e ple a hh1 hm1 he
          have hlt := a.lt (by simp [hc])
          have hlen1 := a.ti.len
          refine wp_mono (ih.args a.ti (a.ret.trans hr) hh1 hm1 (by omega)) fun v s2 ⟨hv, g, g2⟩ => ?_
          have := g.mono
          rw [he] at g2
          exact ⟨⟨(a.go (by simp [hc])).trans g, fun e => absurd e hv, fun _ => by omega,
            fun e => absurd (hc.symm.trans e) (by simp), fun e => absurd e hv⟩, g2⟩
        cases hm : isMathName s.lex.str with
        | true =>
          refine wp_seq (next_math F h hr hh hc hm) fun _ s1 ⟨a, b⟩ => key a b (fun _ => ⟨by simp, fun e => ?_⟩) rfl
          exact (b.cur (by simp)).2.1 e rfl
        | false =>
          refine wp_seq (next_arith F h hr hh) fun _ s1 ⟨a, b⟩ => key a b (fun e => by rw [hm] at e; cases e) ?_
          rw [hc]
          unfold depthAfter
          by_cases hd : d = 0
          · rw [if_pos hd, hd]
          · rw [if_neg hd, if_neg (by simp), if_pos (by simp)]; rfl
      · rename_i h1 h2 h3 h4 h5 h6 h7 h8 h9
        refine ⟨⟨.refl h, fun _ => rfl, fun e => absurd rfl e, fun _ => rfl, fun _ => ?_⟩, hh.behind⟩
        cases hc : s.lex.cur <;> first | exact .inl rfl | exact .inr rfl | (exfalso; simp_all; done)
    · intro s start vs h hr hn
      have hlen := h.len
      rw [bracketsLoop]
      wpb
      refine wp_ite (fun hc => ?_) fun _ => ?_
      · wpb
        refine wp_seq (next_go F h) fun _ s1 a => ?_
        wpb
        exact ⟨by simp, a.go (by simp [hc])⟩
      · refine wp_seq (ih.value h hr (.zero .first s) (by omega)) fun v s1 ⟨a, _⟩ => ?_
        have step : v ≠ .nil → wp (bracketsLoop n start (vs ++ [v])) (fun v s' => v ≠ .nil ∧ Go src p id s s') (EX C src id) s1 := by
          intro hv
          have := a.lt hv
          have := a.go.ti.len
          exact wp_mono (ih.brackets a.go.ti (a.go.ret.trans hr) (by omega)) fun v s2 ⟨hv, g⟩ => ⟨hv, a.go.trans g⟩
        cases v <;> first | exact errorf_go a.go.ti _ | exact step (by simp)
    · intro s sp name vs d pl h hr hh hm hn
      have hlen := h.len
      rw [argsLoop]
      wpb
      split
      · rename_i hc
        wpb
        refine wp_seq (next_arith F h hr hh) fun _ s1 ⟨a, b⟩ => ?_
        wpb
        refine ⟨by simp, a.go (by simp [hc]), ?_⟩
        rw [hc] at b
        unfold depthAfter at b
        by_cases hd : d = 0
        · subst hd; exact .inl rfl
        · rw [if_neg hd, if_pos rfl] at b; exact b.behind
      · rename_i hc
        wpb
        refine wp_seq (next_arith F h hr hh) fun _ s1 ⟨a, b⟩ => ?_
        have := a.lt (by simp [hc])
        have := a.ti.len
        rw [hc] at b
        have b : Here st d .first s1 := by
          unfold depthAfter at b
          by_cases hd : d = 0
          · subst hd; exact .inl rfl
          · rw [if_neg hd, if_neg (by simp), if_neg (by simp)] at b; exact b
        refine wp_mono (ih.args a.ti (a.ret.trans hr) b (fun e => ⟨(hm e).1, fun e' => ?_⟩) (by omega))
          fun v s2 ⟨hv, g, g2⟩ => ⟨hv, (a.go (by simp [hc])).trans g, g2⟩
        exact (b.cur (hm e).1).2.1 e' rfl
      · rename_i hc1 hc2
        cases hmn : isMathName name with
        | true =>
          simp only [if_true]
          obtain ⟨hd, hop⟩ := hm hmn
          refine wp_seq (ih.sum h hr hh hd hop (by omega)) fun v s1 ⟨a, b, c1, c2⟩ => ?_
          have hv : v ≠ .nil := by
            intro e
            have e1 := a.nil e
            have e2 := a.no e
            subst e1
            obtain ⟨h1 | h1 | h1 | h1 | h1, _⟩ := hh.cur hd
            · rw [e2] at h1; cases h1
            · exact hc1 h1
            · exact hc2 h1
            · exact c1 h1
            · exact c2 h1
          have := a.lt hv
          have := a.go.ti.len
          exact wp_mono (ih.args a.go.ti (a.go.ret.trans hr) b (fun _ => ⟨hd, fun _ => ⟨c1, c2⟩⟩) (by omega))
            fun v s2 ⟨hv, g, g2⟩ => ⟨hv, a.go.trans g, g2⟩
        | false =>
          simp only [Bool.false_eq_true, if_false]
          refine wp_seq (ih.value h hr hh (by omega)) fun v s1 ⟨a, b⟩ => ?_
          have step : v ≠ .nil → wp (argsLoop n sp name (vs ++ [v]))
              (fun v s' => v ≠ .nil ∧ Go src p id s s' ∧ Here st (d - 1) .behind s') (EX C src id) s1 := by
            intro hv
            have := a.lt hv
            have := a.go.ti.len
            exact wp_mono (ih.args a.go.ti (a.go.ret.trans hr) b (fun e => by rw [hmn] at e; cases e) (by omega))
              fun v s2 ⟨hv, g, g2⟩ => ⟨hv, a.go.trans g, g2⟩
          cases v <;> first | exact ⟨by simp, a.go, b.pred⟩ | exact step (by simp)
    · intro s d pl h hr hh hd hop hn
      rw [parseMathSum]
      refine wp_seq (ih.product h hr hh hd (fun e => (hop e).1) (by omega)) fun left s1 ⟨a, b, c⟩ => ?_
      have := a.go.mono
      have := a.go.ti.len
      refine wp_mono (ih.sumLoop a.go.ti (a.go.ret.trans hr) b hd (fun e e' => ?_) c (by omega)) fun v s2 ⟨g, g1, g2, g3, g4⟩ => ?_
      · rw [a.nil e]; exact (hop e').2
      · have := g.mono
        refine ⟨⟨a.go.trans g, fun e => ?_, fun e => ?_, fun e => ?_⟩, g3, g4⟩
        · by_cases hl : left = .nil
          · rw [(g1 hl).2, a.nil hl]
          · exact absurd e (g2 hl)
        · have := a.lt fun hl => e (g1 hl).1
          omega
        · by_cases hl : left = .nil
          · exact a.no hl
          · exact absurd e (g2 hl)
    · intro s d pl left h hr hh hd hl hmul hn
      have hlen := h.len
      rw [Cssc.sumLoop]
      wpb
      refine wp_ite (fun hc => ?_) fun hc => ?_
      · refine wp_seq (R := fun _ s' => Stp src p id s s' ∧ Here st d .due s') ?_ fun _ s1 ⟨a, b⟩ => ?_
        · refine wp_mono (wp_and (expect_go F h _) (next_arith_expect F h hr hh)) fun _ s1 ⟨⟨a, _⟩, b⟩ => ⟨a, ?_⟩
          rw [hc.1] at b
          unfold depthAfter at b
          rw [if_neg hd, if_neg (by simp), if_neg (by simp)] at b
          exact b
        have hlt := a.lt (by simp [hc.1])
        have := a.ti.len
        have hdue := (b.cur hd).2.2
        refine wp_seq (ih.product a.ti (a.ret.trans hr) b hd (fun e => ?_) (by omega)) fun right s2 ⟨a2, b2, c2⟩ => ?_
        · rintro ⟨e1, _⟩
          have := hdue e rfl
          rw [e1] at this; cases this
        have := a2.go.mono
        have := a2.go.ti.len
        have hcl : left ≠ .nil ∨ C := by
          by_cases e : left = .nil
          · refine .inr (F.crash ?_)
            cases hst : st
            · rfl
            · exact absurd hc (hl e hst)
          · exact .inl e
        have hcr : right ≠ .nil ∨ C := by
          by_cases e : right = .nil
          · refine .inr (F.crash ?_)
            cases hst : st
            · rfl
            · have h1 := hdue hst rfl
              have h2 := a2.no e
              rw [h1] at h2
              cases h2
          · exact .inl e
        refine wp_seq (R := fun _ s' => s' = s2 ∧ left ≠ .nil) ?_ fun _ s3 ⟨e, hln⟩ => ?_
        · exact locate_wp (fun e => ⟨rfl, e⟩) fun e => a2.go.ti.crash (hcl.resolve_left (absurd e))
        subst e
        refine wp_seq (locate_go a2.go.ti hcr) fun _ s3 e => ?_
        subst e
        refine wp_mono (ih.sumLoop a2.go.ti (a2.go.ret.trans (a.ret.trans hr)) b2 hd (fun e => by cases e) c2 (by omega))
          fun v s4 ⟨g, g1, g2, g3⟩ => ?_
        exact ⟨(a.go (by simp [hc.1])).trans (a2.go.trans g), fun e => absurd e hln, fun _ => g2 (by simp), g3⟩
      · wpb
        exact ⟨.refl h, fun e => ⟨e, trivial⟩, fun e => e, hh.behind, hmul, hc⟩
    · intro s d pl h hr hh hd hop hn
      rw [parseMathProduct]
      refine wp_seq (ih.paren h hr hh hd (by omega)) fun left s1 ⟨a, b⟩ => ?_
      have := a.go.mono
      have := a.go.ti.len
      refine wp_mono (ih.productLoop a.go.ti (a.go.ret.trans hr) b hd (fun e e' => ?_) (by omega)) fun v s2 ⟨g, g1, g2, g3, g4⟩ => ?_
      · rw [a.nil e]; exact hop e'
      · have := g.mono
        refine ⟨⟨a.go.trans g, fun e => ?_, fun e => ?_, fun e => ?_⟩, g3, g4⟩
        · by_cases hl : left = .nil
          · rw [(g1 hl).2, a.nil hl]
          · exact absurd e (g2 hl)
        · have := a.lt fun hl => e (g1 hl).1
          omega
        · by_cases hl : left = .nil
          · exact a.no hl
          · exact absurd e (g2 hl)
    · intro s d pl left h hr hh hd hl hn
      have hlen := h.len
      rw [Cssc.productLoop]
      wpb
      refine wp_ite (fun hc => ?_) fun hc => ?_
      · refine wp_seq (R := fun _ s' => Stp src p id s s' ∧ Here st d .due s') ?_ fun _ s1 ⟨a, b⟩ => ?_
        · refine wp_mono (wp_and (expect_go F h _) (next_arith_expect F h hr hh)) fun _ s1 ⟨⟨a, _⟩, b⟩ => ⟨a, ?_⟩
          rw [hc.1] at b
          unfold depthAfter at b
          rw [if_neg hd, if_neg (by simp), if_neg (by simp)] at b
          exact b
        have hlt := a.lt (by simp [hc.1])
        have := a.ti.len
        have hdue := (b.cur hd).2.2
        refine wp_seq (ih.paren a.ti (a.ret.trans hr) b hd (by omega)) fun right s2 ⟨a2, b2⟩ => ?_
        have := a2.go.mono
        have := a2.go.ti.len
        have hcl : left ≠ .nil ∨ C := by
          by_cases e : left = .nil
          · refine .inr (F.crash ?_)
            cases hst : st
            · rfl
            · exact absurd hc (hl e hst)
          · exact .inl e
        have hcr : right ≠ .nil ∨ C := by
          by_cases e : right = .nil
          · refine .inr (F.crash ?_)
            cases hst : st
            · rfl
            · have h1 := hdue hst rfl
              have h2 := a2.no e
              rw [h1] at h2
              cases h2
          · exact .inl e
        refine wp_seq (R := fun _ s' => s' = s2 ∧ left ≠ .nil) ?_ fun _ s3 ⟨e, hln⟩ => ?_
        · exact locate_wp (fun e => ⟨rfl, e⟩) fun e => a2.go.ti.crash (hcl.resolve_left (absurd e))
        subst e
        refine wp_seq (locate_go a2.go.ti hcr) fun _ s3 e => ?_
        subst e
        refine wp_mono (ih.productLoop a2.go.ti (a2.go.ret.trans (a.ret.trans hr)) b2 hd (fun e => by cases e) (by omega))
          fun v s4 ⟨g, g1, g2, g3⟩ => ?_
        exact ⟨(a.go (by simp [hc.1])).trans (a2.go.trans g), fun e => absurd e hln, fun _ => g2 (by simp), g3⟩
      · wpb
        exact ⟨.refl h, fun e => ⟨e, trivial⟩, fun e => e, hh.behind, hc⟩
    · intro s d pl h hr hh hd hn
      have hlen := h.len
      rw [parseMathParen]
      wpb
      refine wp_ite (fun hc => ?_) fun hc => ?_
      · refine wp_mono (ih.value h hr hh (by omega)) fun v s1 ⟨a, b⟩ => ?_
        exact ⟨⟨a.go, a.nil, a.lt, fun e => (a.no e).resolve_right hc⟩, b⟩
      · have hc : s.lex.cur = .lparen := Classical.not_not.1 hc
        wpb
        refine wp_seq (R := fun _ s' => Stp src p id s s' ∧ Here st (d + 1) .first s') ?_ fun _ s1 ⟨a, b⟩ => ?_
        · refine wp_mono (wp_and (expect_go F h _) (next_arith_expect F h hr hh)) fun _ s1 ⟨⟨a, _⟩, b⟩ => ⟨a, ?_⟩
          rw [hc] at b
          unfold depthAfter at b
          rw [if_neg hd, if_neg (by simp), if_pos (by simp)] at b
          exact b
        have hlt := a.lt (by simp [hc])
        have := a.ti.len
        refine wp_seq (ih.sum a.ti (a.ret.trans hr) b (by simp) (fun e => (b.cur (by simp)).2.1 e rfl) (by omega)) fun v s2 ⟨a2, b2, _⟩ => ?_
        wpb
        refine wp_seq (wp_and (expect_go F a2.go.ti _) (next_arith_expect F a2.go.ti (a2.go.ret.trans (a.ret.trans hr)) b2))
          fun _ s3 ⟨⟨a3, hc3⟩, b3⟩ => ?_
        wpb
        have := a2.go.mono
        have := a3.mono
        refine ⟨⟨(a.go (by simp [hc])).trans (a2.go.trans (a3.go (by simp [hc3]))), fun e => (by cases e), fun _ => by omega,
          fun e => (by cases e)⟩, ?_⟩
        rw [hc3] at b3
        exact b3.behind

/-! ### Declarations -/

theorem rawLoop_ends (F : Fair st src p C) : ∀ (n : Nat) {s : St}, TI src p id s → Zone p s →
    10 * (src.length - s.lex.start) + 1 ≤ n →
    wp (rawLoop n) (fun _ s' => Go src p id s s' ∧ Zone p s' ∧ s'.lex.cur = .semicolon) (EX C src id) s
  | 0, _, _, _, h => absurd h (by omega)
  | n + 1, s, h, hz, hn => by
    rw [rawLoop]
    wpb
    refine wp_ite (fun hc => ?_) fun hc => ?_
    · wpb
      exact ⟨.refl h, hz, hc⟩
    · refine wp_seq (next_go F h) fun _ s1 a => ?_
      have := a.lt (hz.ne_eof F h.pi)
      have := a.ti.len
      exact wp_mono (rawLoop_ends F n a.ti (a.zone hz hc) (by omega)) fun _ s2 ⟨g, z, e⟩ => ⟨(a.go hc).trans g, z, e⟩

/-- After a declaration, or part of one. -/
structure DGo (src : Bytes) (p id : Nat) (s s' : St) : Prop where
  ti : TI src p id s'
  ret : s'.lex.retainWS = s.lex.retainWS
  mono : s.lex.start ≤ s'.lex.start
  z : Zone p s' ∨ s'.lex.cur = .rcurly

theorem parseRaw_ends (F : Fair st src p C) {n : Nat} {s : St} (h : TI src p id s) (hz : Zone p s) (hr : s.lex.retainWS = false)
    (hn : 10 * (src.length - s.lex.start) + 1 ≤ n) :
    wp (parseRaw n) (fun _ s' => DGo src p id s s' ∧ s.lex.start < s'.lex.start) (EX C src id) s := by
  rw [parseRaw]
  wpb
  refine wp_seq (rawLoop_ends F n h hz hn) fun _ s1 ⟨g, z, e⟩ => ?_
  wpb
  refine wp_seq (next_go F g.ti) fun _ s2 a => ?_
  refine wp_seq (slice_go a.ti (Nat.le_trans g.mono g.ti.pi.start_le) g.ti.pi.end_le) fun _ s3 e3 => ?_
  subst e3
  wpb
  have := g.mono
  have := a.lt (by simp [e])
  exact ⟨⟨a.ti, a.ret.trans g.ret, by omega, a.over z (g.ret.trans hr)⟩, by omega⟩

theorem Stp.dgo {s s' : St} (a : Stp src p id s s') (hz : Zone p s) (hr : s.lex.retainWS = false) : DGo src p id s s' :=
  ⟨a.ti, a.ret, a.mono, a.over hz hr⟩

theorem DGo.trans {s s1 s2 : St} (h : DGo src p id s s1) (h' : DGo src p id s1 s2) : DGo src p id s s2 :=
  ⟨h'.ti, h'.ret.trans h.ret, Nat.le_trans h.mono h'.mono, h'.z⟩

theorem declLoop_ends (F : Fair st src p C) (c : C) : ∀ (n : Nat) {s : St} {prop : Bytes} {sp : Span} {vals : List Value} {imp : Bool},
    TI src p id s → (Zone p s ∨ s.lex.cur = .rcurly) → s.lex.retainWS = false → 10 * (src.length - s.lex.start) + 2 ≤ n →
    wp (declLoop n prop sp vals imp) (fun _ s' => DGo src p id s s') (EX C src id) s
  | 0, _, _, _, _, _, _, _, _, h => absurd h (by omega)
  | n + 1, s, prop, sp, vals, imp, h, hz, hr, hn => by
    have hlen := h.len
    have again : ∀ {s1 prop sp vals imp}, DGo src p id s s1 → s.lex.start < s1.lex.start →
        wp (declLoop n prop sp vals imp) (fun _ s' => DGo src p id s s') (EX C src id) s1 := by
      intro s1 prop sp vals imp a hlt
      have := a.ti.len
      exact wp_mono (declLoop_ends F c n a.ti a.z (a.ret.trans hr) (by omega)) fun _ s2 g => a.trans g
    rw [declLoop]
    wpb
    split
    · exact errorf_go h _
    · rename_i hc
      have hz : Zone p s := hz.resolve_right (by simp [hc])
      exact wp_seq (next_go F h) fun _ s1 a => again (a.dgo hz hr) (a.lt (by simp [hc]))
    · rename_i hc
      have hz : Zone p s := hz.resolve_right (by simp [hc])
      refine wp_ite (fun _ => ?_) fun _ => ?_
      · exact wp_seq (next_go F h) fun _ s1 a => again (a.dgo hz hr) (a.lt (by simp [hc]))
      · refine wp_seq (next_go F h) fun _ s1 a => ?_
        have hlt := a.lt (by simp [hc])
        have hz1 := a.zone hz (by simp [hc])
        wpb
        refine wp_ite (fun _ => errorf_go a.ti _) fun _ => ?_
        wpb
        refine wp_seq (next_go F a.ti) fun _ s2 b => ?_
        have := b.mono
        exact again ((a.dgo hz hr).trans (b.dgo hz1 (a.ret.trans hr))) (by omega)
    · refine wp_seq ((valueEnds F n).value h hr (.zero .first s) (by omega)) fun v s1 ⟨a, _⟩ => ?_
      have hz1 : Zone p s1 ∨ s1.lex.cur = .rcurly := by
        rcases hz with hz | hz
        · exact .inl (a.go.zone hz)
        · have := a.nil (a.cl hz)
          subst this
          exact .inr hz
      have ag : DGo src p id s s1 := ⟨a.go.ti, a.go.ret, a.go.mono, hz1⟩
      have step : v ≠ .nil → wp (declLoop n prop sp (vals ++ [v]) imp) (fun _ s' => DGo src p id s s') (EX C src id) s1 :=
        fun hv => again ag (a.lt hv)
      have stop : wp (match vals.getLast? with
          | none => errorf "declaration must have a value"
          | some last => do
            let lsp ← locate last
            pure (.decl ⟨sp.start, if sp.stop < lsp.stop then lsp.stop else sp.stop⟩ prop vals imp) : P Decl)
          (fun _ s' => DGo src p id s s') (EX C src id) s1 := by
        split
        · exact errorf_go a.go.ti _
        · refine wp_seq (locate_go a.go.ti (.inr c)) fun _ s2 e => ?_
          subst e
          exact ag
      cases v <;> first | exact stop | exact step (by simp)

theorem parseDeclaration_ends (F : Fair st src p C) (c : C) {n : Nat} {s : St} (h : TI src p id s) (hz : Zone p s)
    (hr : s.lex.retainWS = false) (hn : 10 * (src.length - s.lex.start) + 2 ≤ n) :
    wp (parseDeclaration n) (fun _ s' => DGo src p id s s' ∧ s.lex.start < s'.lex.start) (EX C src id) s := by
  rw [parseDeclaration]
  wpb
  refine wp_seq (R := fun _ s' => Go src p id s s' ∧ Zone p s') ?_ fun _ s1 ⟨g, z⟩ => ?_
  · refine wp_whenP (fun hc => ?_) fun _ => ⟨.refl h, hz⟩
    simp only [decide_eq_true_eq] at hc
    exact wp_mono (next_go F h) fun _ s1 a => ⟨a.go (by simp [hc.1]), a.zone hz (by simp [hc.1])⟩
  wpb
  refine wp_seq (expect_go F g.ti _) fun _ s2 ⟨a, hc⟩ => ?_
  have z2 := a.zone z (by simp [hc])
  refine wp_seq (expect_go F a.ti _) fun _ s3 ⟨b, hc2⟩ => ?_
  have z3 := b.zone z2 (by simp [hc2])
  have l1 := g.mono
  have l2 := a.lt (by simp [hc])
  have l3 := b.mono
  have := b.ti.len
  have r3 := b.ret.trans (a.ret.trans g.ret)
  refine wp_mono (declLoop_ends F c n b.ti (.inl z3) (r3.trans hr) (by omega)) fun _ s4 d => ?_
  have := d.mono
  exact ⟨⟨d.ti, d.ret.trans r3, by omega, d.z⟩, by omega⟩

theorem parseDeclarationOrFallback_ends (F : Fair st src p C) {n : Nat} {s : St} (h : TI src p id s) (hz : Zone p s)
    (hr : s.lex.retainWS = false) (hn : 10 * (src.length - s.lex.start) + 2 ≤ n) :
    wp (parseDeclarationOrFallback n) (fun _ s' => DGo src p id s s' ∧ s.lex.start < s'.lex.start) (EX C src id) s := by
  have hd := parseDeclaration_ends F.any trivial h hz hr hn
  have raw : ∀ s' : St, s'.src = src ∧ s'.id = id →
      wp (parseRaw n) (fun _ s' => DGo src p id s s' ∧ s.lex.start < s'.lex.start) (EX C src id) { s' with lex := s.lex } := by
    intro s' ⟨e1, e2⟩
    refine wp_mono (parseRaw_ends F (s := { s' with lex := s.lex }) ⟨?_, h.z, h.rc⟩ hz hr (by dom)) fun _ s2 ⟨d, l⟩ =>
      ⟨⟨d.ti, d.ret, d.mono, d.z⟩, l⟩
    have h := h.pi
    refine ⟨e1, e2, ⟨?_, ?_, ?_⟩, h.start_le, h.ident, h.delim, h.number, h.dimension, h.lit, h.pct, h.more⟩
    · have := h.inv.le; rw [h.srcEq] at this; rw [e1]; exact this
    · have := h.inv.ch; rw [h.srcEq] at this; rw [e1]; exact this
    · have := h.inv.pos; rw [h.srcEq] at this; rw [e1]; exact this
  unfold wp at hd
  unfold wp parseDeclarationOrFallback
  cases hm : parseDeclaration n s with
  | ok d s' => rw [hm] at hd; exact hd
  | err e s' => rw [hm] at hd; exact raw s' hd
  | crash s' => rw [hm] at hd; exact raw s' ⟨hd.1, hd.2.1⟩
  | timeout => rw [hm] at hd; exact hd

theorem declsLoop_ends (F : Fair st src p C) : ∀ (n : Nat) {s : St} {ds : List Decl},
    TI src p id s → (Zone p s ∨ s.lex.cur = .rcurly) → s.lex.retainWS = false → 10 * (src.length - s.lex.start) + 3 ≤ n →
    wp (declsLoop n ds) (fun _ s' => DGo src p id s s' ∧ s'.lex.cur = .rcurly) (EX C src id) s
  | 0, _, _, _, _, _, h => absurd h (by omega)
  | n + 1, s, ds, h, hz, hr, hn => by
    have hlen := h.len
    rw [declsLoop]
    wpb
    refine wp_ite (fun hc => ?_) fun hc => ?_
    · wpb
      exact ⟨⟨h, rfl, Nat.le_refl _, hz⟩, hc⟩
    · refine wp_seq (parseDeclarationOrFallback_ends F h (hz.resolve_right hc) hr (by omega)) fun d s1 ⟨a, hlt⟩ => ?_
      wpb
      refine wp_seq (R := fun _ s' => DGo src p id s1 s') ?_ fun _ s2 b => ?_
      · refine wp_whenP (fun hc => ?_) fun _ => ⟨a.ti, rfl, Nat.le_refl _, a.z⟩
        exact wp_mono (next_go F a.ti) fun _ s2 b => b.dgo (a.z.resolve_right (by simp [hc])) (a.ret.trans hr)
      · have g := a.trans b
        have := b.mono
        have := g.ti.len
        exact wp_mono (declsLoop_ends F n g.ti g.z (g.ret.trans hr) (by omega)) fun _ s3 ⟨c, e⟩ => ⟨g.trans c, e⟩

/-- After anything that consumes a token, outside declarations. -/
structure Moves (src : Bytes) (p id : Nat) (s s' : St) : Prop where
  ti : TI src p id s'
  ret : s'.lex.retainWS = s.lex.retainWS
  mono : s.lex.start ≤ s'.lex.start

theorem Moves.refl {s : St} (h : TI src p id s) : Moves src p id s s := ⟨h, rfl, Nat.le_refl _⟩

theorem Moves.trans {s s1 s2 : St} (h : Moves src p id s s1) (h' : Moves src p id s1 s2) : Moves src p id s s2 :=
  ⟨h'.ti, h'.ret.trans h.ret, Nat.le_trans h.mono h'.mono⟩

theorem Stp.run {s s' : St} (h : Stp src p id s s') : Moves src p id s s' := ⟨h.ti, h.ret, h.mono⟩
theorem Go.run {s s' : St} (h : Go src p id s s') : Moves src p id s s' := ⟨h.ti, h.ret, h.mono⟩
theorem DGo.run {s s' : St} (h : DGo src p id s s') : Moves src p id s s' := ⟨h.ti, h.ret, h.mono⟩

theorem parseDeclarationBlock_ends (F : Fair st src p C) {n : Nat} {s : St} (h : TI src p id s) (hz : Zone p s)
    (hr : s.lex.retainWS = false) (hn : 10 * (src.length - s.lex.start) + 3 ≤ n) :
    wp (parseDeclarationBlock n) (fun _ s' => Moves src p id s s' ∧ s.lex.start < s'.lex.start) (EX C src id) s := by
  rw [parseDeclarationBlock]
  wpb
  refine wp_seq (next_go F h) fun _ s1 a => ?_
  have l1 := a.lt (hz.ne_eof F h.pi)
  have := a.ti.len
  refine wp_seq (declsLoop_ends F n a.ti (a.over hz hr) (a.ret.trans hr) (by omega)) fun _ s2 ⟨b, e⟩ => ?_
  wpb
  refine wp_seq (next_go F b.ti) fun _ s3 c => ?_
  wpb
  have l2 := b.mono
  have l3 := c.mono
  exact ⟨a.run.trans (b.run.trans c.run), by omega⟩

end

end Cssc
