import Verif.Proofs.LexSpec

/-!
# Properties of the lexer: C06, C10, C11, C12, C13

The specification side of this file is `Run` (the sequences of tokens a client of the lexer can see)
and `lineStarts` (what a line table should be).
-/

namespace Cssc

/-! ### Specification -/

/-- `Run src h s`: a client created a lexer on `src` and made some calls of `Next`, setting the
retention flags as it liked; it saw the tokens and spans `h` and the lexer is now in state `s`. -/
inductive Run (src : Bytes) (id : Nat) : List (Tok × Span) → St → Prop where
  | start {s : St} : newLexer (St.init src id) = .ok () s →
      Run src id [(s.lex.cur, ⟨s.lex.start, s.lex.lastPos⟩)] s
  | flags {h : List (Tok × Span)} {s : St} (ws comments : Bool) : Run src id h s →
      Run src id h { s with lex := { s.lex with retainWS := ws, retainComments := comments } }
  | next {h : List (Tok × Span)} {s s' : St} : Run src id h s → next s = .ok () s' →
      Run src id (h ++ [(s'.lex.cur, ⟨s'.lex.start, s'.lex.lastPos⟩)]) s'

/-- The offset after each newline byte, counting from `k`. -/
def lineStartsFrom (k : Nat) : Bytes → List Nat
  | [] => []
  | b :: t => if b = 10 then (k + 1) :: lineStartsFrom (k + 1) t else lineStartsFrom (k + 1) t

/-- The line table of a text: the offset of the first byte of every line. -/
def lineStarts (src : Bytes) : List Nat := 0 :: lineStartsFrom 0 src

/-! ### Supporting facts -/

theorem nls_eq_lineStartsFrom (pre : Bytes) : ∀ (t : Bytes),
    nls (pre ++ t) pre.length (pre.length + t.length) = lineStartsFrom pre.length t := by
  intro t
  induction t generalizing pre with
  | nil => simp [nls_self, lineStartsFrom]
  | cons b t ih =>
    have ih := ih (pre ++ [b])
    simp only [List.append_assoc, List.singleton_append, List.length_append, List.length_singleton] at ih
    rw [← nls_append (b := pre.length + 1) _ (by omega) (by simp only [List.length_cons]; omega), nls_one]
    have e : (pre ++ b :: t)[pre.length]? = some b := by simp
    rw [e, show pre.length + (b :: t).length = pre.length + 1 + t.length by simp only [List.length_cons]; omega, ih]
    simp only [lineStartsFrom, Option.some.injEq]
    split <;> simp

theorem lineStarts_eq (src : Bytes) : lineStarts src = 0 :: nls src 0 src.length := by
  have := nls_eq_lineStartsFrom [] src
  simp only [List.nil_append, List.length_nil, Nat.zero_add] at this
  rw [lineStarts, this]

/-- What holds of every state of a run. -/
structure RunInv (src : Bytes) (s : St) : Prop where
  srcEq : s.src = src
  inv : Inv s
  lines : s.lines = 0 :: nls src 0 s.lex.pos
  start_le : s.lex.start ≤ s.lex.lastPos
  ident : s.lex.cur = .ident → s.lex.str = sub src s.lex.start s.lex.lastPos
  delim : s.lex.cur = .delim → s.lex.str = sub src s.lex.start s.lex.lastPos
  number : s.lex.cur = .number → s.lex.num = sub src s.lex.start s.lex.lastPos
  dimension : s.lex.cur = .dimension →
    s.lex.num ++ s.lex.str = sub src s.lex.start s.lex.lastPos
  eof : s.lex.cur = .eof → s.lex.start = src.length

/-- The state in which the first token is read. -/
theorem first_step (src : Bytes) (id : Nat) : ∃ s1, step (St.init src id) = .ok () s1 ∧
    Inv s1 ∧ s1.src = src ∧ s1.lines = 0 :: nls src 0 s1.lex.pos ∧ s1.lex.lastPos = 0 ∧
    s1.lex.retainWS = false ∧ s1.lex.retainComments = false ∧ s1.id = id ∧ s1.lex.str = [] ∧
    s1.lex.num = [] :=
  ⟨_, step_init src id, ⟨Nat.zero_le _, rfl, rfl⟩, rfl, rfl, rfl, rfl, rfl, rfl, rfl, rfl⟩

theorem RunInv.of_tokd {src : Bytes} {s s' : St} (hsrc : s.src = src) (hi : Inv s)
    (hl : s.lines = 0 :: nls src 0 s.lex.pos) (t : Tokd s s') : RunInv src s' where
  srcEq := t.adv.src.trans hsrc
  inv := t.adv.inv
  lines := by
    have h1 := hi.pos
    have h2 := t.adv.inv.pos
    rw [t.adv.src] at h2
    rw [t.adv.lines, hl, hsrc, List.cons_append, nls_append src (Nat.zero_le _)]
    rw [h1, h2]; exact t.adv.fwd.2.2
  start_le := t.tok.start_le
  ident h := by have := t.tok.ident h; rwa [t.adv.src, hsrc] at this
  delim h := by have := t.tok.delim h; rwa [t.adv.src, hsrc] at this
  number h := by have := t.tok.number h; rwa [t.adv.src, hsrc] at this
  dimension h := by have := t.tok.dimension h; rwa [t.adv.src, hsrc] at this
  eof h := by have := t.tok.eof h; rwa [t.adv.src, hsrc] at this

theorem newLexer_eq {src : Bytes} {id : Nat} {s1 : St} (h : step (St.init src id) = .ok () s1) :
    newLexer (St.init src id) = next s1 := by
  show P.bind step (fun _ => next) _ = _
  unfold P.bind
  rw [h]

theorem run_inv {src : Bytes} {id : Nat} {h : List (Tok × Span)} {s : St} (r : Run src id h s) :
    RunInv src s := by
  induction r with
  | start hs =>
    obtain ⟨s1, e, hi, hsrc, hl, _⟩ := first_step src id
    rw [newLexer_eq e] at hs
    have t := wp_ok (next_spec hi) hs
    exact RunInv.of_tokd hsrc hi hl t
  | flags ws comments _ ih =>
    exact ⟨ih.srcEq, ⟨ih.inv.le, ih.inv.ch, ih.inv.pos⟩, ih.lines, ih.start_le, ih.ident, ih.delim,
      ih.number, ih.dimension, ih.eof⟩
  | next _ hn ih =>
    have t := wp_ok (next_spec ih.inv) hn
    exact RunInv.of_tokd ih.srcEq ih.inv ih.lines t

/-! ### C10: termination and memory safety of the lexer -/

/-- The outcome of a lexer call that is allowed by C10: a token, or an error whose span lies in the
text. -/
def Safe (src : Bytes) (r : Res Unit) : Prop :=
  (∃ s', r = .ok () s') ∨ ∃ e s', r = .err e s' ∧ e.span.start ≤ e.span.stop ∧ e.span.stop ≤ src.length

theorem safe_of_spec {src : Bytes} {s : St} (hs : s.src = src)
    (h : wp next (fun _ s' => Tokd s s') (NX s) s) : Safe src (next s) := by
  unfold wp at h
  cases hn : next s with
  | ok a s' => exact .inl ⟨s', rfl⟩
  | err e s' =>
    rw [hn] at h
    obtain ⟨a, _, h2, h3⟩ := h
    refine .inr ⟨e, s', rfl, ?_⟩
    rw [h3]
    exact ⟨h2, by have := a.src_le; rw [hs] at this; exact this⟩
  | crash s' => rw [hn] at h; exact absurd h id
  | timeout => rw [hn] at h; exact absurd h id

/-- **C10** (creation): creating a lexer on any text ends, without an out-of-range access, in a first
token or in an error located inside the text. -/
theorem newLexer_safe (src : Bytes) (id : Nat) : Safe src (newLexer (St.init src id)) := by
  obtain ⟨s1, e, hi, hsrc, _⟩ := first_step src id
  rw [newLexer_eq e]
  exact safe_of_spec hsrc (next_spec hi)

/-- **C10** (every call): in every state a client can bring the lexer into, with any retention
settings, `Next` ends in a token or an error located inside the text; it does not loop forever and does
not index or slice out of range. -/
theorem next_safe {src : Bytes} {id : Nat} {h : List (Tok × Span)} {s : St} (r : Run src id h s) :
    Safe src (next s) :=
  safe_of_spec (run_inv r).srcEq (next_spec (run_inv r).inv)

/-! ### C11: token spans -/

/-- **C11**: the spans of all tokens seen lie inside the text and follow one another without overlap. -/
theorem token_spans_ordered {src : Bytes} {id : Nat} {h : List (Tok × Span)} {s : St}
    (r : Run src id h s) :
    (∀ t ∈ h, t.2.start ≤ t.2.stop ∧ t.2.stop ≤ src.length) ∧
      h.Pairwise (fun a b => a.2.stop ≤ b.2.start) := by
  have key : (∀ t ∈ h, t.2.start ≤ t.2.stop ∧ t.2.stop ≤ s.lex.lastPos) ∧
      h.Pairwise (fun a b => a.2.stop ≤ b.2.start) := by
    induction r with
    | start hs =>
      have hr := run_inv (.start hs)
      refine ⟨fun t ht => ?_, List.pairwise_singleton _ _⟩
      simp only [List.mem_singleton] at ht
      subst ht
      exact ⟨hr.start_le, Nat.le_refl _⟩
    | flags ws comments _ ih => exact ih
    | @next h s s' hr hn ih =>
      have hi := run_inv hr
      have t := wp_ok (next_spec hi.inv) hn
      have h1 := t.start
      have h2 := t.tok.start_le
      refine ⟨fun t ht => ?_, ?_⟩
      · rw [List.mem_append, List.mem_singleton] at ht
        rcases ht with ht | rfl
        · have := ih.1 t ht; omega
        · exact ⟨h2, Nat.le_refl _⟩
      · rw [List.pairwise_append]
        refine ⟨ih.2, List.pairwise_singleton _ _, fun a ha b hb => ?_⟩
        rw [List.mem_singleton] at hb
        subst hb
        have := ih.1 a ha
        simp only; omega
  have hr := run_inv r
  have hle := hr.inv.le
  rw [hr.srcEq] at hle
  exact ⟨fun t ht => ⟨(key.1 t ht).1, by have := (key.1 t ht).2; omega⟩, key.2⟩

/-! ### C12: token text -/

/-- **C12**: the literals of identifier, delimiter, number and dimension tokens are exactly the source
text of the token's span. -/
theorem token_text {src : Bytes} {id : Nat} {h : List (Tok × Span)} {s : St} (r : Run src id h s) :
    (s.lex.cur = .ident → s.lex.str = (src.drop s.lex.start).take (s.lex.lastPos - s.lex.start)) ∧
    (s.lex.cur = .delim → s.lex.str = (src.drop s.lex.start).take (s.lex.lastPos - s.lex.start)) ∧
    (s.lex.cur = .number → s.lex.num = (src.drop s.lex.start).take (s.lex.lastPos - s.lex.start)) ∧
    (s.lex.cur = .dimension →
      s.lex.num ++ s.lex.str = (src.drop s.lex.start).take (s.lex.lastPos - s.lex.start)) :=
  ⟨(run_inv r).ident, (run_inv r).delim, (run_inv r).number, (run_inv r).dimension⟩

/-! ### C06: the line table -/

/-- **C06**: once the end-of-file token has been read, the source's line table is the exact table of
line starts. -/
theorem lexer_line_table {src : Bytes} {id : Nat} {h : List (Tok × Span)} {s : St}
    (r : Run src id h s) (heof : s.lex.cur = .eof) : s.lines = lineStarts src := by
  have hr := run_inv r
  have h1 := hr.eof heof
  have h2 := hr.start_le
  have h3 := hr.inv.pos_le
  rw [hr.srcEq] at h3
  rw [hr.lines, lineStarts_eq]
  congr 2
  omega

/-- At any time before, the table is exact for the part of the text that has been read. -/
theorem lexer_line_table_prefix {src : Bytes} {id : Nat} {h : List (Tok × Span)} {s : St}
    (r : Run src id h s) : s.lines = (lineStarts src).filter (· ≤ s.lex.pos) := by
  have hr := run_inv r
  have h3 := hr.inv.pos_le
  rw [hr.srcEq] at h3
  rw [hr.lines, lineStarts_eq, ← nls_append src (Nat.zero_le _) h3.2]
  rw [List.filter_cons_of_pos (by simp), List.filter_append]
  have e1 : (nls src 0 s.lex.pos).filter (· ≤ s.lex.pos) = nls src 0 s.lex.pos := by
    rw [List.filter_eq_self]
    intro a ha
    unfold nls at ha
    simp only [List.mem_map, List.mem_filter, List.mem_range'_1] at ha
    obtain ⟨i, ⟨hi, _⟩, rfl⟩ := ha
    simp only [decide_eq_true_eq]; omega
  have e2 : (nls src s.lex.pos src.length).filter (· ≤ s.lex.pos) = [] := by
    rw [List.filter_eq_nil_iff]
    intro a ha
    unfold nls at ha
    simp only [List.mem_map, List.mem_filter, List.mem_range'_1] at ha
    obtain ⟨i, ⟨hi, _⟩, rfl⟩ := ha
    simp only [decide_eq_true_eq]; omega
  rw [e1, e2, List.append_nil]

/-! ### C13: progress -/

/-- The full claim of C13: whenever the lexer is not at the end of the text, a successful `Next`
consumes at least one byte. -/
def NextAlwaysProgresses : Prop :=
  ∀ (src : Bytes) (id : Nat) (h : List (Tok × Span)) (s s' : St), Run src id h s →
    s.lex.lastPos < src.length → next s = .ok () s' → s.lex.lastPos < s'.lex.lastPos

/-- **C13, refuted**: on `-->` the lexer returns CDC tokens forever without consuming anything. -/
theorem next_progress_refuted : ¬ NextAlwaysProgresses := by
  intro hall
  have h0 : newLexer (St.init b!"-->") = .ok ()
      { src := b!"-->", lines := [0], id := 0, lex :=
        { ch := r!"-", pos := 1, lastPos := 0, start := 0, cur := .cdc, str := [], num := [],
          retainWS := false, retainComments := false } } := by decide +kernel
  have := hall _ _ _ _ _ (.start h0) (by decide) (by decide +kernel :
    next { src := b!"-->", lines := [0], id := 0, lex :=
        { ch := r!"-", pos := 1, lastPos := 0, start := 0, cur := .cdc, str := [], num := [],
          retainWS := false, retainComments := false } } = .ok ()
      { src := b!"-->", lines := [0], id := 0, lex :=
        { ch := r!"-", pos := 1, lastPos := 0, start := 0, cur := .cdc, str := [], num := [],
          retainWS := false, retainComments := false } })
  revert this; decide

/-- **C13** (partial): `Next` consumes at least one byte except when it returns CDO, CDC or a number
token with empty text.  Missing: those three cases, in which the claim is false. -/
theorem next_progress_partial {src : Bytes} {id : Nat} {h : List (Tok × Span)} {s s' : St}
    (r : Run src id h s) (hlt : s.lex.lastPos < src.length) (hn : next s = .ok () s') :
    s.lex.lastPos < s'.lex.lastPos ∨ s'.lex.cur = .cdo ∨ s'.lex.cur = .cdc ∨
      (s'.lex.cur = .number ∧ s'.lex.num = []) := by
  have hr := run_inv r
  have t := wp_ok (next_spec hr.inv) hn
  have h1 := t.start
  have h2 := t.tok.start_le
  by_cases he : s'.lex.cur = .eof
  · have := t.tok.eof he
    rw [t.adv.src, hr.srcEq] at this
    left; omega
  by_cases h3 : s'.lex.cur = .cdo
  · simp [h3]
  by_cases h4 : s'.lex.cur = .cdc
  · simp [h4]
  by_cases h5 : s'.lex.cur = .number ∧ s'.lex.num = []
  · exact .inr (.inr (.inr h5))
  · have := t.tok.progress he h3 h4 h5
    left; omega

/-- Is the current token one of those that consume nothing? -/
def Stuck (s : St) : Prop :=
  s.lex.cur = .cdo ∨ s.lex.cur = .cdc ∨ (s.lex.cur = .number ∧ s.lex.num = [])

/-- **C13** (partial, reaching the end): from every state of a run, repeated calls of `Next` reach the
end of the text, an error, or one of the tokens that consume nothing. -/
theorem next_reaches_eof_partial {src : Bytes} {id : Nat} {h : List (Tok × Span)} {s : St}
    (r : Run src id h s) :
    ∃ h' s', Run src id h' s' ∧
      (s'.lex.lastPos = src.length ∨ (∃ e s'', next s' = .err e s'') ∨
        ∃ s'', next s' = .ok () s'' ∧ Stuck s'') := by
  generalize hk : src.length - s.lex.lastPos = k
  induction k using Nat.strongRecOn generalizing h s with
  | ind k ih =>
    have hr := run_inv r
    have hle := hr.inv.le
    rw [hr.srcEq] at hle
    by_cases hend : s.lex.lastPos = src.length
    · exact ⟨h, s, r, .inl hend⟩
    rcases next_safe r with ⟨s', hn⟩ | ⟨e, s', hn, _⟩
    · rcases next_progress_partial r (by omega) hn with hp | hst
      · exact ih (src.length - s'.lex.lastPos) (by omega) (r.next hn) rfl
      · exact ⟨h, s, r, .inr (.inr ⟨s', hn, hst⟩)⟩
    · exact ⟨h, s, r, .inr (.inl ⟨e, s', hn⟩)⟩

/-! ### Concrete cases

A run over a text with CRLF, a lone CR, an invalid byte, a comment and a dimension. -/

/-- The whole run of a lexer without retention, as a list of tokens, with the final line table. -/
def tokens : Nat → St → List (Tok × Bytes × Bytes × Span) × List Nat
  | 0, s => ([], s.lines)
  | n + 1, s =>
    let t := (s.lex.cur, s.lex.num, s.lex.str, (⟨s.lex.start, s.lex.lastPos⟩ : Span))
    if s.lex.cur = .eof then ([t], s.lines)
    else match next s with
      | .ok () s' => let r := tokens n s'; (t :: r.1, r.2)
      | _ => ([t], s.lines)

/-- The tokens of a text. -/
def tokensOf (src : Bytes) : List (Tok × Bytes × Bytes × Span) × List Nat :=
  match newLexer (St.init src) with
  | .ok () s => tokens 100 s
  | _ => ([], [])

example : tokensOf (b!"a\r\n /*x\n*/ 1.5em\n" ++ [13, 255, 10]) =
    ([(.ident, [], b!"a", ⟨0, 1⟩), (.dimension, b!"1.5", b!"em", ⟨11, 16⟩),
      (.ident, b!"1.5", [13, 255], ⟨17, 19⟩), (.eof, b!"1.5", [13, 255], ⟨20, 20⟩)],
     [0, 3, 8, 17, 20]) := by decide +kernel

example : lineStarts (b!"a\r\n /*x\n*/ 1.5em\n" ++ [13, 255, 10]) = [0, 3, 8, 17, 20] := by
  decide +kernel

/-- `n` further calls of `Next`. -/
def iterNext : Nat → St → Option St
  | 0, s => some s
  | n + 1, s => match next s with
    | .ok () s' => iterNext n s'
    | _ => none

theorem Run.iter {src : Bytes} {id : Nat} : ∀ (n : Nat) {h : List (Tok × Span)} {s s' : St},
    Run src id h s → iterNext n s = some s' → ∃ h', Run src id h' s' ∧ h'.length = h.length + n
  | 0, h, s, s', r, e => by cases e; exact ⟨h, r, rfl⟩
  | n + 1, h, s, s', r, e => by
    unfold iterNext at e
    split at e
    · rename_i s1 hn
      obtain ⟨h', r', hl⟩ := Run.iter n (r.next hn) e
      exact ⟨h', r', by rw [hl]; simp; omega⟩
    · cases e

/-- The state after creating a lexer and `n` calls of `Next`. -/
def stateAfter (src : Bytes) (n : Nat) : Option St :=
  match newLexer (St.init src) with
  | .ok () s => iterNext n s
  | _ => none

theorem stateAfter_run {src : Bytes} {n : Nat} {s : St} (h : stateAfter src n = some s) :
    ∃ l, Run src 0 l s ∧ l.length = n + 1 := by
  unfold stateAfter at h
  split at h
  · rename_i s0 h0
    obtain ⟨l, r, e⟩ := Run.iter n (.start h0) h
    exact ⟨l, r, by rw [e]; simp; omega⟩
  · cases h

/-- The hypotheses of the theorems above are met: a run over three lines with a comment, ending at the
end of the text. -/
example : ∃ l s, Run b!"a{\n b:1.5em/* \n */}" 0 l s ∧ s.lex.cur = .eof ∧ l.length = 7 := by
  obtain ⟨s, hs, he⟩ : ∃ s, stateAfter b!"a{\n b:1.5em/* \n */}" 6 = some s ∧ s.lex.cur = .eof := by
    have h : (stateAfter b!"a{\n b:1.5em/* \n */}" 6).map (·.lex.cur) = some .eof := by decide +kernel
    simpa only [Option.map_eq_some_iff] using h
  obtain ⟨l, r, hl⟩ := stateAfter_run hs
  exact ⟨l, s, r, he, hl⟩

/-- ... and a run that has not reached it, on a dimension token. -/
example : ∃ l s, Run b!"a{\n b:1.5em/* \n */}" 0 l s ∧ s.lex.cur = .dimension ∧ l.length = 5 ∧
    s.lex.lastPos < 20 := by
  obtain ⟨s, hs, he⟩ : ∃ s, stateAfter b!"a{\n b:1.5em/* \n */}" 4 = some s ∧
      s.lex.cur = .dimension ∧ s.lex.lastPos < 20 := by
    have h : (stateAfter b!"a{\n b:1.5em/* \n */}" 4).map (fun s => (s.lex.cur, s.lex.lastPos)) =
        some (.dimension, 11) := by decide +kernel
    simp only [Option.map_eq_some_iff, Prod.mk.injEq] at h
    obtain ⟨s, hs, h1, h2⟩ := h
    exact ⟨s, hs, h1, by omega⟩
  obtain ⟨l, r, hl⟩ := stateAfter_run hs
  exact ⟨l, s, r, he.1, hl, he.2⟩

/-- The other tokens that consume nothing really occur: `<!--` and the number token of `.+5`. -/
example : (stateAfter b!"<!--" 3).map (fun s => (s.lex.cur, s.lex.lastPos)) = some (.cdo, 0) := by
  decide +kernel
example : (stateAfter b!".+5" 3).map (fun s => (s.lex.cur, s.lex.num, s.lex.lastPos)) =
    some (.number, [], 0) := by decide +kernel

end Cssc
