import Verif.Props.Lexer
import Verif.Proofs.Escapes

/-!
# Properties of the lexer: C14, C15, C16

The specification side is `Spec/Tok.lean`: the text of tokens (`PTok`), and of white space and comments
(`Gap`).
-/

namespace Cssc

/-! ### C14: white space and comments -/

/-- **C14** (first half): with retention off, no white space or comment token is reported. -/
theorem next_skips_gaps {src : Bytes} {id : Nat} {h : List (Tok × Span)} {s s' : St} (r : Run src id h s)
    (hn : next s = .ok () s') :
    (s.lex.retainWS = false → s'.lex.cur ≠ .whitespace) ∧
    (s.lex.retainComments = false → s'.lex.cur ≠ .comment) := by
  have t := wp_ok (next_spec (run_inv r).inv) hn
  constructor
  · intro h1 h2
    have := t.tok.ws h2
    rw [t.adv.retainWS, h1] at this
    cases this
  · intro h1 h2
    have := t.tok.comment h2
    rw [t.adv.retainComments, h1] at this
    cases this

/-- Does a token of this kind carry text (`CurrentString`)? -/
def carriesStr : Tok → Bool
  | .ident | .delim | .string | .url | .functionStart | .at | .hash | .dimension => true
  | _ => false

/-- Does a token of this kind carry a numeral (`CurrentNumeral`)? -/
def carriesNum : Tok → Bool
  | .number | .percentage | .dimension => true
  | _ => false

/-- Two lexer calls gave the same token, or the same error, the first one `k` bytes further on. -/
inductive ShiftedBy (k : Nat) : Res Unit → Res Unit → Prop where
  | token {s t : St} : s.lex.cur = t.lex.cur → s.lex.start = t.lex.start + k →
      s.lex.lastPos = t.lex.lastPos + k →
      (carriesStr t.lex.cur = true → s.lex.str = t.lex.str) →
      (carriesNum t.lex.cur = true → s.lex.num = t.lex.num) → ShiftedBy k (.ok () s) (.ok () t)
  | error {e f : LexErr} {s t : St} : e.msg = f.msg → e.span.start = f.span.start + k →
      e.span.stop = f.span.stop + k → ShiftedBy k (.err e s) (.err f t)

theorem carriesStr_hasStr {c : Tok} (h : carriesStr c = true) : hasStr c := by
  cases c <;> simp [carriesStr, hasStr] at h ⊢
theorem carriesNum_hasNum {c : Tok} (h : carriesNum c = true) : hasNum c := by
  cases c <;> simp [carriesNum, hasNum] at h ⊢

theorem shifted_of_sim {k : Nat} {r₁ r₂ : Res Unit} (h : SimR k (TokV k) r₁ r₂) {src₁ src₂ : Bytes}
    (h1 : Safe src₁ r₁) (h2 : Safe src₂ r₂) : ShiftedBy k r₁ r₂ := by
  rcases h1 with ⟨s, rfl⟩ | ⟨e, s, rfl, _⟩ <;> rcases h2 with ⟨t, rfl⟩ | ⟨f, t, rfl, _⟩
  · obtain ⟨c, h⟩ := h
    have hc := h.cur c rfl
    refine .token (by rw [hc.1, hc.2]) (h.start trivial) h.lastPos (fun x => ?_) fun x => ?_
    · rw [hc.2] at x; exact h.str (carriesStr_hasStr x)
    · rw [hc.2] at x; exact h.num (carriesNum_hasNum x)
  · exact absurd h id
  · exact absurd h id
  · exact .error h.1.1 h.1.2.1 h.1.2.2

/-- A lexer in front of `t` and a lexer just created on `t`. -/
theorem sim_fresh {s t1 : St} {t : Bytes} {id : Nat} (o : On s t) (h1 : s.lex.retainWS = false)
    (h2 : s.lex.retainComments = false) (e : step (St.init t id) = .ok () t1) :
    Sim s.lex.lastPos False none False False s t1 := by
  rw [step_init t id] at e
  cases e
  refine ⟨o.rest, o.inv.le, o.chEq, ?_, ?_, h1, h2, False.elim, by simp, False.elim, False.elim⟩
  · rw [o.posEq]
    show _ = (curAt t 0).2 + s.lex.lastPos
    omega
  · show _ = 0 + _; omega

/-- Skipping a gap is the same as starting behind it. -/
theorem skip_sim {s : St} {w t : Bytes} {id : Nat} (hw : Gap w) (o : On s (w ++ t))
    (h1 : s.lex.retainWS = false) (h2 : s.lex.retainComments = false) :
    SimR (s.lex.lastPos + w.length) (TokV (s.lex.lastPos + w.length)) (next s) (newLexer (St.init t id)) := by
  obtain ⟨t1, e, _⟩ := first_step t id
  rw [newLexer_eq e]
  have key : wp next (fun _ s' => SimR (s.lex.lastPos + w.length) (TokV (s.lex.lastPos + w.length)) (.ok () s') (next t1))
      ⟨fun e' s' => SimR (s.lex.lastPos + w.length) (TokV (s.lex.lastPos + w.length)) (.err e' s') (next t1),
       fun s' => SimR (s.lex.lastPos + w.length) (TokV (s.lex.lastPos + w.length)) (.crash s') (next t1), True⟩ s := by
    rw [next]
    wpb
    have hl := o.len
    rw [List.length_append] at hl
    refine fwd_skip hw o h1 h2 (by omega) fun s1 j o1 a1 hj => ?_
    have hs := sim_fresh o1 (a1.retainWS.trans h1) (a1.retainComments.trans h2) e
    have hlp : s1.lex.lastPos = s.lex.lastPos + w.length := by
      have := o1.len
      rw [a1.src] at this
      omega
    rw [hlp] at hs
    have := sim_nextLoop j (t1.src.length + 2) hs.cursor
    have hn : next t1 = nextLoop (t1.src.length + 2) t1 := rfl
    rw [← hn] at this
    unfold wp
    cases hr : nextLoop j s1 <;> rw [hr] at this
    · exact this
    · exact this
    · exact this
    · trivial
  unfold wp at key
  cases hr : next s <;> rw [hr] at key
  · exact key
  · exact key
  · exact key
  · trivial

/-- **C14** (partial): white space and comments in front of a text are transparent.  In every state of a run, with
retention off, if the text ahead is a gap `w` and a text `t`, `Next` gives the token (or error) that a
new lexer gives on `t` alone, at offsets larger by the offset of `t`.  Missing: comments that contain
`*`, CR, `/` in sequence, for which it is false (`gap_transparent_refuted`). -/
theorem gap_transparent_partial {src : Bytes} {id id' : Nat} {h : List (Tok × Span)} {s : St} (r : Run src id h s)
    (h1 : s.lex.retainWS = false) (h2 : s.lex.retainComments = false) {w t : Bytes} (hw : Gap w)
    (ht : src.drop s.lex.lastPos = w ++ t) :
    ShiftedBy (s.lex.lastPos + w.length) (next s) (newLexer (St.init t id')) := by
  have hr := run_inv r
  have o : On s (w ++ t) := ⟨hr.inv, by rw [hr.srcEq]; exact ht⟩
  exact shifted_of_sim (skip_sim hw o h1 h2) (next_safe r) (newLexer_safe t id')

/-- The tokens and spans seen by a client that reads `n` tokens after the first. -/
def seen (src : Bytes) (n : Nat) : Option (Tok × Span) :=
  (stateAfter src n).map fun s => (s.lex.cur, ⟨s.lex.start, s.lex.lastPos⟩)

/-- **C14** (partial, whole text): every token of `w ++ t` is the token of `t` with the same number, at
offsets larger by the length of the gap. -/
theorem gap_transparent_all_partial {w t : Bytes} (hw : Gap w) (n : Nat) :
    seen (w ++ t) n = (seen t n).map fun p => (p.1, ⟨p.2.start + w.length, p.2.stop + w.length⟩) := by
  obtain ⟨s1, e1, hi, hsrc, _, hlp, hf1, hf2, _⟩ := first_step (w ++ t) 0
  have o : On s1 (w ++ t) := ⟨hi, by rw [hsrc, hlp]; rfl⟩
  have h0 := skip_sim (id := 0) hw o hf1 hf2
  rw [← newLexer_eq e1, hlp, Nat.zero_add] at h0
  have hs1 := newLexer_safe (w ++ t) 0
  have hs2 := newLexer_safe t 0
  unfold seen stateAfter
  -- the iteration keeps the states related
  have iter : ∀ (n : Nat) (l₁ l₂ : List (Tok × Span)) (s s' : St), Run (w ++ t) 0 l₁ s → Run t 0 l₂ s' →
      SameTok w.length s s' →
      ((iterNext n s).map fun s => ((s.lex.cur, ⟨s.lex.start, s.lex.lastPos⟩) : Tok × Span)) =
      ((iterNext n s').map fun s => ((s.lex.cur, ⟨s.lex.start, s.lex.lastPos⟩) : Tok × Span)).map
        fun p => (p.1, ⟨p.2.start + w.length, p.2.stop + w.length⟩) := by
    intro n
    induction n with
    | zero =>
      intro l₁ l₂ s s' _ _ ⟨c, hs⟩
      have hc := hs.cur c rfl
      simp only [iterNext, Option.map_some, hc.1, hc.2, hs.start trivial, hs.lastPos]
    | succ n ih =>
      intro l₁ l₂ s s' r₁ r₂ ⟨c, hs⟩
      have hsim := sim_next hs
      have k1 := next_safe r₁
      have k2 := next_safe r₂
      simp only [iterNext]
      rcases k1 with ⟨u, hu⟩ | ⟨e, u, hu, _⟩ <;> rcases k2 with ⟨v, hv⟩ | ⟨f, v, hv, _⟩ <;>
        rw [hu, hv] at hsim ⊢
      · exact ih _ _ u v (r₁.next hu) (r₂.next hv) hsim
      · exact absurd hsim id
      · exact absurd hsim id
      · rfl
  rcases hs1 with ⟨u, hu⟩ | ⟨e, u, hu, _⟩ <;> rcases hs2 with ⟨v, hv⟩ | ⟨f, v, hv, _⟩ <;> rw [hu, hv] at h0 ⊢
  · exact iter n _ _ u v (.start hu) (.start hv) h0
  · exact absurd h0 id
  · exact absurd h0 id
  · rfl

/-- The token read by a call. -/
def tokOf : Res Unit → Option (Tok × Bytes)
  | .ok _ s => some (s.lex.cur, s.lex.str)
  | _ => none

theorem shifted_ident {k : Nat} {r₁ r₂ : Res Unit} (h : ShiftedBy k r₁ r₂) {x y : Bytes}
    (h1 : tokOf r₁ = some (.ident, x)) (h2 : tokOf r₂ = some (.ident, y)) : x = y := by
  cases h with
  | token a _ _ d _ =>
    simp only [tokOf, Option.some.injEq, Prod.mk.injEq] at h1 h2
    rw [← h1.2, ← h2.2, d (by rw [h2.1]; rfl)]
  | error => simp [tokOf] at h1

/-- The full claim of C14: any terminated comment (a body without `*/`) is transparent. -/
def CommentTransparent : Prop :=
  ∀ (body t : Bytes), ¬ [42, 47] <:+: body →
    ShiftedBy (body.length + 4) (newLexer (St.init (47 :: 42 :: (body ++ 42 :: 47 :: t)))) (newLexer (St.init t))

theorem cr_comment_tok : tokOf (newLexer (St.init (47 :: 42 :: ([97, 42, 13, 47, 98] ++ 42 :: 47 :: b!"c")))) =
    some (.ident, b!"b") := by decide +kernel
theorem c_tok : tokOf (newLexer (St.init b!"c")) = some (.ident, b!"c") := by decide +kernel

/-- **C14, refuted** for comments containing `*`, CR, `/`: the lexer ends the comment there.  The text is
`/*a*<CR>/b*/c`; the first token should be `c`, and is `b`. -/
theorem gap_transparent_refuted : ¬ CommentTransparent := fun h =>
  absurd (shifted_ident (h [97, 42, 13, 47, 98] b!"c" (by decide)) cr_comment_tok c_tok) (by decide)

/-- The hypotheses are met: a gap with all its forms, in the middle of a text. -/
example : Gap (b!"  \t\n" ++ [13, 10] ++ b!"/* a * / b **/ ") := by
  refine .ws rfl (.ws rfl (.ws rfl (.ws rfl (.crlf ?_))))
  exact .comment (body := b!" a * / b *") (w := b!" ") ⟨by decide, by decide⟩ (.ws rfl .nil)

example : ∃ l s, Run b!"a /**/b{" 0 l s ∧ s.lex.retainWS = false ∧ s.lex.retainComments = false ∧
    b!"a /**/b{".drop s.lex.lastPos = b!" /**/" ++ b!"b{" := by
  obtain ⟨s, hs, h⟩ : ∃ s, stateAfter b!"a /**/b{" 0 = some s ∧
      (s.lex.retainWS, s.lex.retainComments, s.lex.lastPos) = (false, false, 1) := by
    have h : (stateAfter b!"a /**/b{" 0).map (fun s => (s.lex.retainWS, s.lex.retainComments, s.lex.lastPos)) =
      some (false, false, 1) := by decide +kernel
    simpa only [Option.map_eq_some_iff] using h
  obtain ⟨l, r, _⟩ := stateAfter_run hs
  simp only [Prod.mk.injEq] at h
  exact ⟨l, s, r, h.1, h.2.1, by rw [h.2.2]; rfl⟩

/-! ### C15: tokens -/

theorem wp_total {m : P Unit} {Q : Unit → St → Prop} {s : St} (h : wp m Q ⟨fun _ _ => False, fun _ => False, False⟩ s) :
    ∃ s', m s = .ok () s' ∧ Q () s' := by
  unfold wp at h
  split at h
  · exact ⟨_, ‹_›, h⟩
  · exact absurd h id
  · exact absurd h id
  · exact absurd h id

/-- The lexer stands on the token `t`. -/
structure Shows (s : St) (t : PTok) : Prop where
  cur : s.lex.cur = t.tok
  str : ∀ b, t.str = some b → s.lex.str = b
  num : ∀ b, t.num = some b → s.lex.num = b

/-- **C15**: in every state of a run, if the text ahead is a gap, a well-formed token and a text that
does not continue the token, then `Next` succeeds, reports that token with its literal, and the token
covers exactly its text. -/
theorem next_reads_token {src : Bytes} {id : Nat} {h : List (Tok × Span)} {s : St} (r : Run src id h s)
    (h1 : s.lex.retainWS = false) (h2 : s.lex.retainComments = false) {w rest : Bytes} {t : PTok} (hw : Gap w)
    (ht : t.Wf) (hf : t.Follow rest) (hws : ∀ v, t ≠ .ws v) (hsrc : src.drop s.lex.lastPos = w ++ (t.text ++ rest)) :
    ∃ s', next s = .ok () s' ∧ Shows s' t ∧ s'.lex.start = s.lex.lastPos + w.length ∧
      s'.lex.lastPos = s.lex.lastPos + w.length + t.text.length := by
  have hr := run_inv r
  have o : On s (w ++ (t.text ++ rest)) := ⟨hr.inv, by rw [hr.srcEq]; exact hsrc⟩
  have hne : t.tok ≠ .whitespace := by
    cases t <;> simp [PTok.tok] at hws ⊢
    rename_i b
    simp only [PTok.Wf] at ht
    unfold punctTok at ht ⊢
    split <;> simp_all
  obtain ⟨s', hs', s1, o1, a1, rd⟩ := wp_total (fwd_next hw ht hf o h1 h2 hne)
  have l0 := o.len
  have l1 := o1.len
  have l2 := rd.on.len
  rw [a1.src] at l1
  rw [rd.adv.src, a1.src] at l2
  simp only [List.length_append] at l0 l1
  refine ⟨s', hs', ⟨rd.cur, rd.str, rd.num⟩, ?_, ?_⟩
  · rw [rd.start]; omega
  · omega

/-- A text laid out as a sequence of tokens with gaps between them. -/
inductive Layout : List PTok → Bytes → Prop where
  | nil {w : Bytes} : Gap w → Layout [] w
  | cons {w rest : Bytes} {t : PTok} {ts : List PTok} : Gap w → t.Wf → (∀ v, t ≠ .ws v) → t.Follow rest →
      Layout ts rest → Layout (t :: ts) (w ++ (t.text ++ rest))

/-- **C15** (whole texts): a text laid out as a sequence of tokens is read as exactly these tokens, and then
the end of the text for ever. -/
theorem layout_tokens {ts : List PTok} {src : Bytes} (hl : Layout ts src) (n : Nat) :
    ∃ s, stateAfter src n = some s ∧
      ((∀ t, ts[n]? = some t → Shows s t) ∧ (ts.length ≤ n → s.lex.cur = .eof)) := by
  have one : ∀ {ts : List PTok} {src : Bytes} {s : St}, Layout ts src → On s src → s.lex.retainWS = false →
      s.lex.retainComments = false → ∃ s' rest, next s = .ok () s' ∧ On s' rest ∧ Layout ts.tail rest ∧
        s'.lex.retainWS = false ∧ s'.lex.retainComments = false ∧
        (∀ t, ts[0]? = some t → Shows s' t) ∧ (ts = [] → s'.lex.cur = .eof) := by
    intro ts src s hl o h1 h2
    cases hl with
    | nil hw =>
      obtain ⟨s', e, o', a, c⟩ := wp_total (fwd_eof hw o h1 h2)
      exact ⟨s', [], e, o', .nil .nil, a.retainWS.trans h1, a.retainComments.trans h2, by simp, fun _ => c⟩
    | cons hw ht hws hf hl =>
      rename_i w rest t ts
      have hne : t.tok ≠ .whitespace := by
        cases t <;> simp [PTok.tok] at hws ⊢
        rename_i b
        simp only [PTok.Wf] at ht
        unfold punctTok at ht ⊢
        split <;> simp_all
      obtain ⟨s', e, s1, o1, a1, rd⟩ := wp_total (fwd_next hw ht hf o h1 h2 hne)
      refine ⟨s', rest, e, rd.on, hl, rd.adv.retainWS.trans (a1.retainWS.trans h1),
        rd.adv.retainComments.trans (a1.retainComments.trans h2), ?_, by simp⟩
      intro u hu
      simp only [List.getElem?_cons_zero, Option.some.injEq] at hu
      subst hu
      exact ⟨rd.cur, rd.str, rd.num⟩
  have iter : ∀ (n : Nat) {ts : List PTok} {src : Bytes} {s : St}, Layout ts src → On s src → s.lex.retainWS = false →
      s.lex.retainComments = false → ∃ s', iterNext (n + 1) s = some s' ∧
        (∀ t, ts[n]? = some t → Shows s' t) ∧ (ts.length ≤ n → s'.lex.cur = .eof) := by
    intro n
    induction n with
    | zero =>
      intro ts src s hl o h1 h2
      obtain ⟨s', rest, e, _, _, _, _, h, h'⟩ := one hl o h1 h2
      exact ⟨s', by simp [iterNext, e], h, fun hn => h' (List.length_eq_zero_iff.1 (by omega))⟩
    | succ n ih =>
      intro ts src s hl o h1 h2
      obtain ⟨s', rest, e, o', hl', h1', h2', _, _⟩ := one hl o h1 h2
      obtain ⟨s'', e', h, h'⟩ := ih hl' o' h1' h2'
      refine ⟨s'', by rw [iterNext, e]; exact e', ?_, fun hn => h' (by rw [List.length_tail]; omega)⟩
      intro t ht
      apply h
      rw [List.getElem?_tail]
      exact ht
  obtain ⟨s1, e1, hi, hsrc, _, hlp, hf1, hf2, _⟩ := first_step src 0
  have o : On s1 src := ⟨hi, by rw [hsrc, hlp]; rfl⟩
  obtain ⟨s', e, h⟩ := iter n hl o hf1 hf2
  refine ⟨s', ?_, h⟩
  unfold stateAfter
  rw [newLexer_eq e1]
  unfold iterNext at e
  exact e

/-- A text of every kind of token that meets the hypotheses. -/
example : Layout
    [.at b!"media", .ident b!"--x", .punct 123, .hash b!"0f", .delim 43, .func b!"calc", .number b!"-1.5e+3",
      .percentage b!"50", .punct 41, .dimension b!".5" b!"em", .string 34 b!"a'b", .punct 125]
    b!"@media --x{#0f + calc(-1.5e+3 /**/50%).5em\n\"a'b\"}" := by
  refine .cons (w := []) (rest := b!" --x{#0f + calc(-1.5e+3 /**/50%).5em\n\"a'b\"}") .nil ?_ (by simp) ?_ ?_
  · exact ⟨by decide, by decide, by decide⟩
  · exact .inr ⟨32, _, rfl, by decide, by decide, by decide, by decide⟩
  refine .cons (w := b!" ") (rest := b!"{#0f + calc(-1.5e+3 /**/50%).5em\n\"a'b\"}") (.ws rfl .nil) ?_ (by simp) ?_ ?_
  · exact ⟨by decide, .inr (.inr (.inr (.inr ⟨_, _, rfl⟩)))⟩
  · exact ⟨.inr ⟨_, _, rfl, by decide, by decide, by decide, by decide⟩, by simp⟩
  refine .cons (w := []) (rest := b!"#0f + calc(-1.5e+3 /**/50%).5em\n\"a'b\"}") .nil rfl (by simp) trivial ?_
  refine .cons (w := []) (rest := b!" + calc(-1.5e+3 /**/50%).5em\n\"a'b\"}") .nil ⟨by decide, by decide⟩ (by simp) ?_ ?_
  · exact .inr ⟨_, _, rfl, by decide, by decide, by decide, by decide⟩
  refine .cons (w := b!" ") (rest := b!" calc(-1.5e+3 /**/50%).5em\n\"a'b\"}") (.ws rfl .nil) (.inr (.inl rfl)) (by simp) ?_ ?_
  · exact .inr (.inl ⟨rfl, by decide⟩)
  refine .cons (w := b!" ") (rest := b!"-1.5e+3 /**/50%).5em\n\"a'b\"}") (.ws rfl .nil) ?_ (by simp) ?_ ?_
  · exact ⟨by decide, .inl ⟨_, _, rfl, by decide⟩⟩
  · intro hu; exact absurd hu (by unfold IsUrlWord; decide)
  refine .cons (w := []) (rest := b!" /**/50%).5em\n\"a'b\"}") .nil ?_ (by simp) ?_ ?_
  · exact ⟨[45], [49], b!".5", b!"e+3", ⟨.inr (.inr rfl), by decide, .inr ⟨_, rfl, by decide, by decide⟩,
      .inr ⟨101, [43], [51], rfl, .inl rfl, .inr (.inl rfl), by decide, by decide⟩, .inl (by decide)⟩, rfl⟩
  · refine ⟨.inr ⟨32, _, rfl, by decide, by decide, by decide, fun h => absurd h (by decide), fun h => absurd h (by decide)⟩,
      .inr ⟨_, _, rfl, by decide, by decide, by decide, by decide⟩, by simp⟩
  refine .cons (w := b!" /**/") (rest := b!").5em\n\"a'b\"}") ?_ ?_ (by simp) trivial ?_
  · exact .ws rfl (.comment (body := []) ⟨by decide, by decide⟩ .nil)
  · exact ⟨[], b!"50", [], [], ⟨.inl rfl, by decide, .inl rfl, .inl rfl, .inl (by decide)⟩, rfl⟩
  refine .cons (w := []) (rest := b!".5em\n\"a'b\"}") .nil rfl (by simp) trivial ?_
  refine .cons (w := []) (rest := b!"\n\"a'b\"}") .nil ?_ (by simp) ?_ ?_
  · exact ⟨⟨[], [], b!".5", [], ⟨.inl rfl, by decide, .inr ⟨_, rfl, by decide, by decide⟩, .inl rfl, .inr (by decide)⟩, rfl⟩,
      by decide, by decide, by decide⟩
  · exact ⟨.inr ⟨101, _, rfl, by decide, by decide, by decide, fun h => absurd h (by decide), fun _ => by decide +kernel⟩,
      .inr ⟨_, _, rfl, by decide, by decide, by decide, by decide⟩⟩
  refine .cons (w := b!"\n") (rest := b!"}") (.ws rfl .nil) ⟨.inl rfl, by decide⟩ (by simp) trivial ?_
  exact .cons (w := []) (rest := []) .nil rfl (by simp) trivial (.nil .nil)

/-! ### C16: escapes -/

/-- The full claim of C16 for strings: an escaped quote does not end a string. -/
def EscapedQuoteInside : Prop :=
  ∀ (a b : Bytes), (∀ c ∈ a, isStringByte 34 c = true) → (∀ c ∈ b, isStringByte 34 c = true) →
    tokOf (newLexer (St.init (34 :: (a ++ 92 :: 34 :: b ++ [34])))) = some (.string, a ++ 92 :: 34 :: b)

/-- The full claim of C16 for identifiers: an escaped character that is not a hexadecimal digit belongs to
the identifier. -/
def EscapedCharInside : Prop :=
  ∀ (a b : Bytes) (c : UInt8), IsIdent a → (∀ d ∈ b, isNameByte d = true) → c.toNat < 0x80 → c ≠ 10 → c ≠ 13 →
    isHexByte c = false →
    tokOf (newLexer (St.init (a ++ 92 :: c :: b))) = some (.ident, a ++ 92 :: c :: b)

theorem quote_tok : tokOf (newLexer (St.init (34 :: (b!"a" ++ 92 :: 34 :: b!"b" ++ [34])))) = some (.string, b!"a\\") := by
  decide +kernel
theorem dot_tok : tokOf (newLexer (St.init (b!"a" ++ 92 :: 46 :: b!"b"))) = some (.ident, b!"a\\") := by
  decide +kernel

/-- **C16, refuted** for strings: `"a\"b"` is read as the string `a\`. -/
theorem escaped_quote_refuted : ¬ EscapedQuoteInside := fun h => by
  have := h b!"a" b!"b" (by decide) (by decide)
  rw [quote_tok] at this
  exact absurd this (by decide)

/-- **C16, refuted** for identifiers: `a\.b` is read as the identifier `a\`, and then `.`. -/
theorem escaped_char_refuted : ¬ EscapedCharInside := fun h => by
  have := h b!"a" b!"b" 46 ⟨by decide, .inl ⟨_, _, rfl, by decide⟩⟩ (by decide) (by decide) (by decide) (by decide) (by decide)
  rw [dot_tok] at this
  exact absurd this (by decide)

/-- What holds of C16 for strings: a string with any escapes, line breaks and backslashes included, none of them of a
quote of the same kind, is one token. -/
theorem escaped_string_partial {src : Bytes} {id : Nat} {h : List (Tok × Span)} {s : St} (r : Run src id h s)
    {mark : UInt8} {w rest : Bytes} (hm : mark = 34 ∨ mark = 39) (hw : isStringBody mark w = true)
    (hsrc : src.drop s.lex.lastPos = mark :: (w ++ mark :: rest)) :
    ∃ s', next s = .ok () s' ∧ s'.lex.cur = .string ∧ s'.lex.str = w ∧
      s'.lex.lastPos = s.lex.lastPos + w.length + 2 := by
  have hr := run_inv r
  have o : On s (mark :: (w ++ mark :: rest)) := ⟨hr.inv, by rw [hr.srcEq]; exact hsrc⟩
  obtain ⟨s', hs', rd⟩ := wp_total (m := next) (s := s) (by
    rw [next]; wpb
    exact fwd_tok_string (n := s.src.length + 1) o hm hw)
  have l0 := o.len
  have l2 := rd.on.len
  rw [rd.adv.src] at l2
  simp only [List.length_append, List.length_cons] at l0
  exact ⟨s', hs', rd.cur, rd.str _ rfl, by omega⟩

/-- What holds of C16 for identifiers: with hexadecimal escapes, not followed by white space. -/
theorem escaped_ident_partial {src : Bytes} {id : Nat} {h : List (Tok × Span)} {s : St} (r : Run src id h s)
    {b : UInt8} {w rest : Bytes} (hb : isLetter b = true) (hw : IsEscName (b :: w)) (hr : WordStop rest)
    (hws : isWhitespace (chOf rest) = false) (hp : ∀ t, rest ≠ 40 :: t)
    (hsrc : src.drop s.lex.lastPos = (b :: w) ++ rest) :
    ∃ s', next s = .ok () s' ∧ s'.lex.cur = .ident ∧ s'.lex.str = b :: w ∧
      s'.lex.lastPos = s.lex.lastPos + (b :: w).length := by
  have hi := run_inv r
  have o : On s ((b :: w) ++ rest) := ⟨hi.inv, by rw [hi.srcEq]; exact hsrc⟩
  obtain ⟨s', hs', rd⟩ := wp_total (m := next) (s := s) (by
    rw [next]; wpb
    exact fwd_tok_esc_ident (n := s.src.length + 1) o hb hw hr hws hp)
  have l0 := o.len
  have l2 := rd.on.len
  rw [rd.adv.src] at l2
  rw [List.length_append] at l0
  exact ⟨s', hs', rd.cur, rd.str _ rfl, by omega⟩

/-- What holds of C16 for unquoted urls: any escapes but of quotes, parentheses, line breaks and control characters, in
any number and with white space, belong to the one token. -/
theorem escaped_url_partial {src : Bytes} {id : Nat} {h : List (Tok × Span)} {s : St} (r : Run src id h s)
    {w v rest : Bytes} (hw : IsUrlWord w) (hv : isUrlBody v = true)
    (hsrc : src.drop s.lex.lastPos = w ++ 40 :: (v ++ 41 :: rest)) :
    ∃ s', next s = .ok () s' ∧ s'.lex.cur = .url ∧ s'.lex.str = v ∧
      s'.lex.lastPos = s.lex.lastPos + (w.length + v.length + 2) := by
  have hi := run_inv r
  have o : On s ((PTok.url w v).text ++ rest) := ⟨hi.inv, by rw [hi.srcEq, hsrc]; simp [PTok.text]⟩
  obtain ⟨s', hs', rd⟩ := wp_total (m := next) (s := s) (by
    rw [next]; wpb
    exact fwd_tok (n := s.src.length + 1) (t := .url w v) ⟨hw, hv⟩ trivial (by simp [PTok.tok]) o)
  have l0 := o.len
  have l2 := rd.on.len
  rw [rd.adv.src] at l2
  simp only [List.length_append, PTok.text, List.length_cons, List.length_nil] at l0
  exact ⟨s', hs', rd.cur, rd.str _ rfl, by omega⟩

example : isUrlBody b!"a\\62 c d\\!/\\\\" = true ∧
    tokOf (newLexer (St.init b!"Url( a\\62 c d\\!/\\\\) e")) = some (.url, b!"a\\62 c d\\!/\\\\") := by
  decide +kernel
example : isStringBody 34 b!"a\\62 \\'c\\\\d\\\n\\\\" = true ∧
    tokOf (newLexer (St.init b!"\"a\\62 \\'c\\\\d\\\n\\\\\" e")) = some (.string, b!"a\\62 \\'c\\\\d\\\n\\\\") := by
  decide +kernel
example : IsEscName b!"a\\62\\0b" := by
  refine .byte rfl (.esc rfl (.byte rfl (.byte rfl (.esc rfl (.byte rfl (.byte rfl .nil))))))

end Cssc
