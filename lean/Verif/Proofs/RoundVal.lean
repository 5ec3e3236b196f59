import Verif.Proofs.RoundLex

/-!
# Reading values back
-/

namespace Cssc

variable [Spelling]

/-- The kinds of tokens that start a component value. -/
def isValTok : Tok → Bool
  | .dimension | .lbracket | .percentage | .number | .ident | .hash | .string | .url | .functionStart => true
  | _ => false

omit [Spelling] in
theorem Value.Shape.ne_comma {m : VMode} {v : Value} (h : v.Shape m) {sp : Span} : v ≠ .comma sp := by
  intro e; subst e
  generalize hv : Value.comma sp = v at h
  induction h <;> simp_all

theorem func_toks {sp : Span} {name : Bytes} {args : List Value} (hu : isUrlCall name args = false) :
    (Value.func sp name args).toks = .func name :: (argsToks args ++ [.punct 41]) := by
  rw [Value.toks]
  intro isp v h1 h2
  subst h1; subst h2
  simp [isUrlCall] at hu

omit [Spelling] in
theorem math_not_url {name : Bytes} {args : List Value} (h : isMathName name = true) : isUrlCall name args = false := by
  unfold isUrlCall
  split
  · simp [isMathName] at h
  · rfl

/-- The first token of a value. -/
theorem Value.Shape.head {m : VMode} {v : Value} (h : v.Shape m) :
    ∃ t r, v.toks = t :: r ∧ t.isWs = false ∧ (isValTok t.tok = true ∨ (¬ m matches .val) ∧ t.tok = .lparen) := by
  induction h with
  | str => exact ⟨_, _, rfl, rfl, .inl rfl⟩
  | @dim sp num unit =>
    refine ⟨_, _, rfl, ?_, .inl ?_⟩ <;> (split; rfl; split <;> rfl)
  | ident => exact ⟨_, _, rfl, rfl, .inl rfl⟩
  | hex => exact ⟨_, _, rfl, rfl, .inl rfl⟩
  | brackets _ _ => exact ⟨_, _, rfl, rfl, .inl rfl⟩
  | url => exact ⟨_, _, rfl, rfl, .inl rfl⟩
  | func _ hu _ _ => exact ⟨_, _, func_toks hu, rfl, .inl rfl⟩
  | mathFunc hm _ _ => exact ⟨_, _, func_toks (math_not_url hm), rfl, .inl rfl⟩
  | atom _ ih =>
    obtain ⟨t, r, h1, h2, h3⟩ := ih
    exact ⟨t, r, h1, h2, .inl (h3.resolve_right (by simp))⟩
  | paren _ _ => exact ⟨_, _, rfl, rfl, .inr ⟨by simp, rfl⟩⟩
  | prod _ ih =>
    obtain ⟨t, r, h1, h2, h3⟩ := ih
    exact ⟨t, r, h1, h2, h3.imp id fun h => ⟨by simp, h.2⟩⟩
  | @mul sp op l r _ _ _ ih _ =>
    obtain ⟨t, r, h1, h2, h3⟩ := ih
    exact ⟨t, _, by rw [Value.toks, h1]; rfl, h2, h3.imp id fun h => ⟨by simp, h.2⟩⟩
  | sum _ ih =>
    obtain ⟨t, r, h1, h2, h3⟩ := ih
    exact ⟨t, r, h1, h2, h3.imp id fun h => ⟨by simp, h.2⟩⟩
  | @add sp op l r _ _ _ ih _ =>
    obtain ⟨t, r, h1, h2, h3⟩ := ih
    exact ⟨t, _, by rw [Value.toks, h1]; rfl, h2, h3.imp id fun h => ⟨by simp, h.2⟩⟩

theorem Value.Shape.skip {m : VMode} {v : Value} (h : v.Shape m) {b : Bool} {ts : List PTok} :
    skipWs b (v.toks ++ ts) = v.toks ++ ts := by
  obtain ⟨t, r, h1, h2, _⟩ := h.head
  rw [h1, List.cons_append, skipWs_cons h2]

theorem valueAfter_eq {v : Value} (h : v ≠ .nil) {pre : List PTok} : valueAfter pre v = pre ++ v.toks := by
  cases v <;> first | exact absurd rfl h | rfl

theorem valueBefore_eq {v : Value} (h : v ≠ .nil) {post : List PTok} : valueBefore post v = v.toks ++ post := by
  cases v <;> first | exact absurd rfl h | rfl

omit [Spelling] in
theorem bare_eq_nil {v w : Value} (h : v.bare = w.bare) (hw : w ≠ .nil) : v ≠ .nil := by
  intro e; subst e
  cases w <;> simp [Value.bare] at h hw

/-- What follows does not continue a product. -/
def NoMul (ts : List PTok) : Prop := ∀ b ts', ts = .delim b :: ts' → b ≠ 42 ∧ b ≠ 47

/-- What follows does not continue a sum. -/
def NoAdd (ts : List PTok) : Prop := ∀ b ts', ts = .delim b :: ts' → b ≠ 43 ∧ b ≠ 45

/-- Reading back a value. -/
def Reread : VMode → Value → Prop
  | .val, v => ∀ s ts, At false s (v.toks ++ ts) →
      ∃ v' s', Yields parseValue s v' s' ∧ v'.bare = v.bare ∧ At false s' (skipWs false ts)
  | .atom, v => ∀ s ts, At false s (v.toks ++ ts) →
      ∃ v' s', Yields parseMathParen s v' s' ∧ v'.bare = v.bare ∧ At false s' (skipWs false ts)
  | .prod, v => ∀ s ts, At false s (v.toks ++ ts) →
      ∃ v' s', (∀ a s'', Yields (productLoop · v') s' a s'' → Yields parseMathProduct s a s'') ∧ v'.bare = v.bare ∧
        At false s' (skipWs false ts)
  | .sum, v => ∀ s ts, At false s (v.toks ++ ts) → NoMul (skipWs false ts) →
      ∃ v' s', (∀ a s'', Yields (sumLoop · v') s' a s'' → Yields parseMathSum s a s'') ∧ v'.bare = v.bare ∧
        At false s' (skipWs false ts)

omit [Spelling] in
theorem delim_cur {s : St} {ts : List PTok} {ops : List Bytes} (h : At false s ts)
    (hn : ∀ b ts', ts = .delim b :: ts' → ¬ [b] ∈ ops) (hc : s.lex.cur = .delim) : ¬ s.lex.str ∈ ops := by
  cases ts with
  | nil => rw [h.eof] at hc; cases hc
  | cons t ts =>
    have hw := h.wf
    rw [h.cur] at hc
    cases t <;> simp [PTok.tok] at hc
    · simp only [PTok.Wf] at hw
      unfold punctTok at hw hc
      split at hc <;> simp_all
    · rw [h.str rfl]
      exact hn _ _ rfl

omit [Spelling] in
theorem productLoop_end {s : St} {ts : List PTok} (v : Value) (h : At false s ts) (hn : NoMul ts) :
    Yields (productLoop · v) s v s := by
  refine ⟨1, fun n hn' => ?_⟩
  obtain ⟨n, rfl⟩ : ∃ m, n = m + 1 := ⟨n - 1, by omega⟩
  beta_reduce
  rw [productLoop]
  prun []
  rw [if_neg]
  rintro ⟨hc, hs⟩
  refine delim_cur (ops := [b!"*", b!"/"]) h (fun b ts' e => ?_) hc (by simpa using hs)
  have := hn b ts' e
  simp [this]

omit [Spelling] in
theorem sumLoop_end {s : St} {ts : List PTok} (v : Value) (h : At false s ts) (hn : NoAdd ts) :
    Yields (sumLoop · v) s v s := by
  refine ⟨1, fun n hn' => ?_⟩
  obtain ⟨n, rfl⟩ : ∃ m, n = m + 1 := ⟨n - 1, by omega⟩
  beta_reduce
  rw [sumLoop]
  prun []
  rw [if_neg]
  rintro ⟨hc, hs⟩
  refine delim_cur (ops := [b!"+", b!"-"]) h (fun b ts' e => ?_) hc (by simpa using hs)
  have := hn b ts' e
  simp [this]

theorem Reread.prod_done {v : Value} (h : Reread .prod v) {s : St} {ts : List PTok} (a : At false s (v.toks ++ ts))
    (hn : NoMul (skipWs false ts)) :
    ∃ v' s', Yields parseMathProduct s v' s' ∧ v'.bare = v.bare ∧ At false s' (skipWs false ts) := by
  obtain ⟨v', s', h1, h2, h3⟩ := h s ts a
  exact ⟨v', s', h1 _ _ (productLoop_end v' h3 hn), h2, h3⟩

theorem Reread.sum_done {v : Value} (h : Reread .sum v) {s : St} {ts : List PTok} (a : At false s (v.toks ++ ts))
    (hn : NoMul (skipWs false ts)) (hn' : NoAdd (skipWs false ts)) :
    ∃ v' s', Yields parseMathSum s v' s' ∧ v'.bare = v.bare ∧ At false s' (skipWs false ts) := by
  obtain ⟨v', s', h1, h2, h3⟩ := h s ts a hn
  exact ⟨v', s', h1 _ _ (sumLoop_end v' h3 hn'), h2, h3⟩

/-- A value of one token. -/
theorem reread_one {v : Value} {t : PTok} (ht : v.toks = [t])
    (h : ∀ (s s' : St), s.lex.cur = t.tok → (∀ x, t.str = some x → s.lex.str = x) → (∀ x, t.num = some x → s.lex.num = x) →
      next s = .ok () s' → ∃ v', v'.bare = v.bare ∧ ∀ n, parseValue (n + 1) s = .ok v' s') : Reread .val v := by
  intro s ts a
  rw [ht] at a
  obtain ⟨s', e, a'⟩ := a.next
  obtain ⟨v', hb, hr⟩ := h s s' a.cur (fun _ => a.str) (fun _ => a.num) e
  refine ⟨v', s', ⟨1, fun n hn => ?_⟩, hb, a'⟩
  obtain ⟨n, rfl⟩ : ∃ m, n = m + 1 := ⟨n - 1, by omega⟩
  exact hr n

omit [Spelling] in
theorem bareVals_append (a b : List Value) : bareVals (a ++ b) = bareVals a ++ bareVals b := by
  induction a with
  | nil => rfl
  | cons v a ih => simp [bareVals, ih]

theorem brackets_reread {start : Nat} : ∀ (vs : List Value), (∀ v ∈ vs, v.Shape .val) → (∀ v ∈ vs, Reread .val v) →
    ∀ (s : St) (ts : List PTok) (acc : List Value), At false s (skipWs false (spacedToks vs ++ (.punct 93 :: ts))) →
    ∃ e vs' s', Yields (bracketsLoop · start acc) s (.brackets ⟨start, e⟩ (acc ++ vs')) s' ∧ bareVals vs' = bareVals vs ∧
      At false s' (skipWs false ts)
  | [], _, _, s, ts, acc, a => by
    have a : At false s (.punct 93 :: ts) := a
    obtain ⟨s', e, a'⟩ := a.next
    refine ⟨s.lex.lastPos, [], s', ⟨1, fun n hn => ?_⟩, rfl, a'⟩
    obtain ⟨n, rfl⟩ : ∃ m, n = m + 1 := ⟨n - 1, by omega⟩
    have hc : s.lex.cur = .rbracket := a.cur
    beta_reduce
    rw [bracketsLoop]
    prun [hc, e]
    rw [if_pos trivial, List.append_nil]
  | v :: vs, hs, hr, s, ts, acc, a => by
    have hsv := hs v (by simp)
    have e1 : spacedToks (v :: vs) ++ (.punct 93 :: ts) =
        v.toks ++ ((if vs.isEmpty then [] else .space :: spacedToks vs) ++ (.punct 93 :: ts)) := by
      rw [spacedToks, List.append_assoc]
    rw [e1, hsv.skip] at a
    obtain ⟨v', s1, ⟨k1, y1⟩, b1, a1⟩ := hr v (by simp) s _ a
    have e2 : skipWs false ((if vs.isEmpty then [] else .space :: spacedToks vs) ++ (.punct 93 :: ts)) =
        skipWs false (spacedToks vs ++ (.punct 93 :: ts)) := by
      cases vs with
      | nil => rfl
      | cons w vs => rfl
    rw [e2] at a1
    obtain ⟨e, vs', s', ⟨k2, y2⟩, b2, a2⟩ := brackets_reread vs (fun w hw => hs w (by simp [hw])) (fun w hw => hr w (by simp [hw]))
      s1 ts (acc ++ [v']) a1
    refine ⟨e, v' :: vs', s', ⟨k1 + k2 + 1, fun n hn => ?_⟩, by simp [bareVals, b1, b2], a2⟩
    obtain ⟨n, rfl⟩ : ∃ m, n = m + 1 := ⟨n - 1, by omega⟩
    have hc : s.lex.cur ≠ .rbracket := by
      obtain ⟨t, r, h1, _, h3⟩ := hsv.head
      rw [h1] at a
      have hc := a.cur
      rw [hc]
      rcases h3 with h3 | h3
      · intro e; rw [e] at h3; simp [isValTok] at h3
      · exact absurd h3.1 (by simp)
    beta_reduce
    rw [bracketsLoop]
    prun [y1 n (by omega)]
    rw [if_neg hc]
    have hnil : v' ≠ .nil := bare_eq_nil b1 hsv.not_nil
    have h2 := y2 n (by omega)
    rw [List.append_assoc, List.singleton_append] at h2
    cases v' <;> first | exact absurd rfl hnil | exact h2

omit [Spelling] in
theorem argsLoop_val {n : Nat} {sp : Span} {name : Bytes} {args : List Value} {s : St}
    (h : isValTok s.lex.cur = true ∨ s.lex.cur = .lparen) :
    argsLoop (n + 1) sp name args s = (if isMathName name then (do
        let v ← parseMathSum n
        argsLoop n sp name (args ++ [v]))
      else do
        match ← parseValue n with
        | .nil => pure (.func sp name args)
        | v => argsLoop n sp name (args ++ [v]) : P Value) s := by
  rw [argsLoop]
  rw [pbind_apply, getCur_apply, andThen_ok]
  rcases h with h | h
  · cases hc : s.lex.cur <;> rw [hc] at h <;> first | rfl | simp [isValTok] at h
  · rw [h]; rfl

/-- The arguments of a function. -/
theorem args_reread {sp : Span} {name : Bytes} {m : VMode} (hm : m = if isMathName name then .sum else .val) :
    ∀ (vs : List Value), (∀ v ∈ vs, (∀ csp, v ≠ .comma csp) → v.Shape m) →
    (∀ v ∈ vs, (∀ csp, v ≠ .comma csp) → Reread m v) →
    ∀ (s : St) (ts : List PTok) (acc : List Value), At false s (argsToks vs ++ (.punct 41 :: ts)) →
    ∃ e vs' s', Yields (argsLoop · sp name acc) s (.func ⟨sp.start, e⟩ name (acc ++ vs')) s' ∧ bareVals vs' = bareVals vs ∧
      At false s' (skipWs false ts)
  | [], _, _, s, ts, acc, a => by
    have a : At false s (.punct 41 :: ts) := a
    obtain ⟨s', e, a'⟩ := a.next
    refine ⟨s.lex.lastPos, [], s', ⟨1, fun n hn => ?_⟩, rfl, a'⟩
    obtain ⟨n, rfl⟩ : ∃ m, n = m + 1 := ⟨n - 1, by omega⟩
    have hc : s.lex.cur = .rparen := a.cur
    beta_reduce
    rw [argsLoop]
    prun [hc, e]
    rw [List.append_nil]
  | v :: vs, hs, hr, s, ts, acc, a => by
    have e1 : argsToks (v :: vs) ++ (.punct 41 :: ts) = v.toks ++ (argsToks vs ++ (.punct 41 :: ts)) := by
      rw [argsToks, List.append_assoc]
    rw [e1] at a
    -- what follows starts with a comma, a value or `)`
    have hfol : ∃ t r, argsToks vs ++ (.punct 41 :: ts) = t :: r ∧ t.isWs = false ∧ t.tok ≠ .delim := by
      cases vs with
      | nil => exact ⟨_, _, rfl, rfl, by decide⟩
      | cons w vs =>
        by_cases hc : ∃ csp, w = .comma csp
        · obtain ⟨csp, rfl⟩ := hc
          exact ⟨_, _, rfl, rfl, by decide⟩
        · obtain ⟨t, r, h1, h2, h3⟩ := (hs w (by simp) fun csp e => hc ⟨csp, e⟩).head
          refine ⟨t, r ++ (argsToks vs ++ (.punct 41 :: ts)), ?_, h2, ?_⟩
          · rw [argsToks, h1]; simp
          · intro e
            rw [e] at h3
            simp [isValTok] at h3
    obtain ⟨ft, fr, hf1, hf2, hf3⟩ := hfol
    have hsk : skipWs false (argsToks vs ++ (.punct 41 :: ts)) = argsToks vs ++ (.punct 41 :: ts) := by
      rw [hf1, skipWs_cons hf2]
    by_cases hc : ∃ csp, v = .comma csp
    · obtain ⟨csp, rfl⟩ := hc
      have a : At false s (.punct 44 :: (argsToks vs ++ (.punct 41 :: ts))) := a
      obtain ⟨s1, n1, a1⟩ := a.next
      rw [hsk] at a1
      obtain ⟨e, vs', s', ⟨k2, y2⟩, b2, a2⟩ := args_reread hm vs (fun w hw => hs w (by simp [hw]))
        (fun w hw => hr w (by simp [hw])) s1 ts (acc ++ [.comma ⟨s.lex.start, s.lex.lastPos⟩]) a1
      refine ⟨e, .comma ⟨s.lex.start, s.lex.lastPos⟩ :: vs', s', ⟨k2 + 1, fun n hn => ?_⟩, by simp [bareVals, Value.bare, b2], a2⟩
      obtain ⟨n, rfl⟩ : ∃ m, n = m + 1 := ⟨n - 1, by omega⟩
      have hc : s.lex.cur = .comma := a.cur
      beta_reduce
      rw [argsLoop]
      prun [hc, n1]
      have h2 := y2 n (by omega)
      rw [List.append_assoc, List.singleton_append] at h2
      exact h2
    · have hnc : ∀ csp, v ≠ .comma csp := fun csp e => hc ⟨csp, e⟩
      have hsv := hs v (by simp) hnc
      have hrv := hr v (by simp) hnc
      have hcur : isValTok s.lex.cur = true ∨ s.lex.cur = .lparen := by
        obtain ⟨t, r, h1, _, h3⟩ := hsv.head
        rw [h1] at a
        have hc := a.cur
        rw [hc]
        exact h3.imp id (·.2)
      have nomul : NoMul (skipWs false (argsToks vs ++ (.punct 41 :: ts))) := by
        rw [hsk]; intro b ts' e; rw [hf1] at e; cases e; exact absurd rfl hf3
      have noadd : NoAdd (skipWs false (argsToks vs ++ (.punct 41 :: ts))) := by
        rw [hsk]; intro b ts' e; rw [hf1] at e; cases e; exact absurd rfl hf3
      by_cases hmn : isMathName name = true
      · rw [if_pos hmn] at hm
        subst hm
        obtain ⟨v', s1, ⟨k1, y1⟩, b1, a1⟩ := hrv.sum_done a nomul noadd
        rw [hsk] at a1
        obtain ⟨e, vs', s', ⟨k2, y2⟩, b2, a2⟩ := args_reread (by rw [if_pos hmn]) vs (fun w hw => hs w (by simp [hw]))
          (fun w hw => hr w (by simp [hw])) s1 ts (acc ++ [v']) a1
        refine ⟨e, v' :: vs', s', ⟨k1 + k2 + 1, fun n hn => ?_⟩, by simp [bareVals, b1, b2], a2⟩
        obtain ⟨n, rfl⟩ : ∃ m, n = m + 1 := ⟨n - 1, by omega⟩
        beta_reduce
        rw [argsLoop_val hcur, if_pos hmn, pbind_apply, y1 n (by omega), andThen_ok]
        have h2 := y2 n (by omega)
        rw [List.append_assoc, List.singleton_append] at h2
        exact h2
      · rw [if_neg hmn] at hm
        subst hm
        obtain ⟨v', s1, ⟨k1, y1⟩, b1, a1⟩ := hrv s _ a
        rw [hsk] at a1
        obtain ⟨e, vs', s', ⟨k2, y2⟩, b2, a2⟩ := args_reread (by rw [if_neg hmn]) vs (fun w hw => hs w (by simp [hw]))
          (fun w hw => hr w (by simp [hw])) s1 ts (acc ++ [v']) a1
        refine ⟨e, v' :: vs', s', ⟨k1 + k2 + 1, fun n hn => ?_⟩, by simp [bareVals, b1, b2], a2⟩
        obtain ⟨n, rfl⟩ : ∃ m, n = m + 1 := ⟨n - 1, by omega⟩
        beta_reduce
        rw [argsLoop_val hcur, if_neg hmn, pbind_apply, y1 n (by omega), andThen_ok]
        have hnil : v' ≠ .nil := bare_eq_nil b1 hsv.not_nil
        have h2 := y2 n (by omega)
        rw [List.append_assoc, List.singleton_append] at h2
        cases v' <;> first | exact absurd rfl hnil | exact h2

omit [Spelling] in
theorem locate_ok {v : Value} (h : v ≠ .nil) (s : St) : ∃ sp, locate v s = .ok sp s := by
  cases v <;> first | exact absurd rfl h | exact ⟨_, rfl⟩

/-- One turn of the product loop. -/
theorem productLoop_turn {op : Bytes} {l r : Value} {s : St} {ts : List PTok} (hop : op = b!"*" ∨ op = b!"/")
    (hl : l ≠ .nil) (hr : Reread .atom r) (hrs : r.Shape .atom) (a : At false s (op.map .delim ++ (r.toks ++ ts))) :
    ∃ sp r' s', r'.bare = r.bare ∧ At false s' (skipWs false ts) ∧
      ∀ x s'', Yields (productLoop · (.math sp op l r')) s' x s'' → Yields (productLoop · l) s x s'' := by
  have hb : ∃ b, op = [b] := by rcases hop with rfl | rfl <;> exact ⟨_, rfl⟩
  obtain ⟨b, hb⟩ := hb
  have a : At false s (.delim b :: (r.toks ++ ts)) := by rw [hb] at a; exact a
  have hstr : s.lex.str = op := by rw [hb]; exact a.str rfl
  have hcur : s.lex.cur = .delim := a.cur
  obtain ⟨s1, n1, a1⟩ := a.expect (k := .delim) rfl
  rw [hrs.skip] at a1
  obtain ⟨r', s2, ⟨k, y⟩, b2, a2⟩ := hr s1 ts a1
  obtain ⟨lsp, hlsp⟩ := locate_ok hl s2
  obtain ⟨rsp, hrsp⟩ := locate_ok (bare_eq_nil b2 hrs.not_nil) s2
  refine ⟨⟨lsp.start, rsp.stop⟩, r', s2, b2, a2, fun x s'' ⟨k', y'⟩ => ⟨k + k' + 1, fun n hn => ?_⟩⟩
  obtain ⟨n, rfl⟩ : ∃ m, n = m + 1 := ⟨n - 1, by omega⟩
  beta_reduce
  rw [productLoop]
  prun [n1, y n (by omega), hlsp, hrsp]
  rw [hstr, if_pos ⟨hcur, hop⟩]
  exact y' n (by omega)

/-- One turn of the sum loop. -/
theorem sumLoop_turn {op : Bytes} {l r : Value} {s : St} {ts : List PTok} (hop : op = b!"+" ∨ op = b!"-")
    (hl : l ≠ .nil) (hr : Reread .prod r) (hrs : r.Shape .prod) (a : At false s (op.map .delim ++ (r.toks ++ ts)))
    (hn : NoMul (skipWs false ts)) :
    ∃ sp r' s', r'.bare = r.bare ∧ At false s' (skipWs false ts) ∧
      ∀ x s'', Yields (sumLoop · (.math sp op l r')) s' x s'' → Yields (sumLoop · l) s x s'' := by
  have hb : ∃ b, op = [b] := by rcases hop with rfl | rfl <;> exact ⟨_, rfl⟩
  obtain ⟨b, hb⟩ := hb
  have a : At false s (.delim b :: (r.toks ++ ts)) := by rw [hb] at a; exact a
  have hstr : s.lex.str = op := by rw [hb]; exact a.str rfl
  have hcur : s.lex.cur = .delim := a.cur
  obtain ⟨s1, n1, a1⟩ := a.expect (k := .delim) rfl
  rw [hrs.skip] at a1
  obtain ⟨r', s2, ⟨k, y⟩, b2, a2⟩ := hr.prod_done a1 hn
  obtain ⟨lsp, hlsp⟩ := locate_ok hl s2
  obtain ⟨rsp, hrsp⟩ := locate_ok (bare_eq_nil b2 hrs.not_nil) s2
  refine ⟨⟨lsp.start, rsp.stop⟩, r', s2, b2, a2, fun x s'' ⟨k', y'⟩ => ⟨k + k' + 1, fun n hn => ?_⟩⟩
  obtain ⟨n, rfl⟩ : ∃ m, n = m + 1 := ⟨n - 1, by omega⟩
  beta_reduce
  rw [sumLoop]
  prun [n1, y n (by omega), hlsp, hrsp]
  rw [hstr, if_pos ⟨hcur, hop⟩]
  exact y' n (by omega)

theorem Value.Shape.reread {m : VMode} {v : Value} (h : v.Shape m) : Reread m v := by
  induction h with
  | @str sp v =>
    refine reread_one (t := .string (Spelling.mark sp) v) rfl fun s s' hc hs _ e => ⟨.str ⟨s.lex.start, s.lex.lastPos⟩ v, rfl, fun n => ?_⟩
    rw [parseValue]
    prun [hc, PTok.tok, hs _ rfl, e]
  | @dim sp num unit =>
    by_cases h1 : unit = []
    · subst h1
      refine reread_one (t := .number num) rfl fun s s' hc _ hn e => ⟨.dim ⟨s.lex.start, s.lex.lastPos⟩ num [], rfl, fun n => ?_⟩
      rw [parseValue]
      prun [hc, PTok.tok, hn _ rfl, e]
    · by_cases h2 : unit = [37]
      · subst h2
        refine reread_one (t := .percentage num) rfl fun s s' hc _ hn e => ⟨.dim ⟨s.lex.start, s.lex.lastPos⟩ num [37], rfl, fun n => ?_⟩
        rw [parseValue]
        prun [hc, PTok.tok, hn _ rfl, e]
      · refine reread_one (t := .dimension num unit) ?_ fun s s' hc hs hn e =>
          ⟨.dim ⟨s.lex.start, s.lex.lastPos⟩ num unit, rfl, fun n => ?_⟩
        · rw [Value.toks, if_neg h1, if_neg h2]
        rw [parseValue]
        prun [hc, PTok.tok, hn _ rfl, hs _ rfl, e]
  | @ident sp v =>
    refine reread_one (t := .ident v) rfl fun s s' hc hs _ e => ⟨.ident ⟨s.lex.start, s.lex.lastPos⟩ v, rfl, fun n => ?_⟩
    rw [parseValue]
    prun [hc, PTok.tok, hs _ rfl, e]
  | @hex sp v =>
    refine reread_one (t := .hash v) rfl fun s s' hc hs _ e => ⟨.hex ⟨s.lex.start, s.lex.lastPos⟩ v, rfl, fun n => ?_⟩
    rw [parseValue]
    prun [hc, PTok.tok, hs _ rfl, e]
  | @brackets sp vs hvs ih =>
    intro s ts a
    have e1 : (Value.brackets sp vs).toks ++ ts = .punct 91 :: (spacedToks vs ++ (.punct 93 :: ts)) := by
      rw [Value.toks]; simp
    rw [e1] at a
    obtain ⟨s1, n1, a1⟩ := a.next
    obtain ⟨e, vs', s', ⟨k, y⟩, b2, a2⟩ := brackets_reread (start := s.lex.start) vs hvs ih s1 ts [] a1
    refine ⟨.brackets ⟨s.lex.start, e⟩ vs', s', ⟨k + 1, fun n hn => ?_⟩, by simp [Value.bare, b2], a2⟩
    obtain ⟨n, rfl⟩ : ∃ m, n = m + 1 := ⟨n - 1, by omega⟩
    have hc : s.lex.cur = .lbracket := a.cur
    rw [parseValue]
    prun [hc, n1]
    exact y n (by omega)
  | @url sp isp v =>
    refine reread_one (t := .url (Spelling.urlWord sp) v) rfl fun s s' hc hs _ e =>
      ⟨.func ⟨s.lex.start, s.lex.lastPos⟩ b!"url" [.ident ⟨0, 0⟩ v], rfl, fun n => ?_⟩
    rw [parseValue]
    prun [hc, PTok.tok, hs _ rfl, e]
  | @func sp name args hm hu hargs ih =>
    intro s ts a
    have e1 : (Value.func sp name args).toks ++ ts = .func name :: (argsToks args ++ (.punct 41 :: ts)) := by
      rw [func_toks hu]; simp
    rw [e1] at a
    obtain ⟨s1, n1, a1⟩ := a.next
    have hsk : skipWs false (argsToks args ++ (.punct 41 :: ts)) = argsToks args ++ (.punct 41 :: ts) := by
      cases args with
      | nil => rfl
      | cons w vs =>
        by_cases hc : ∃ csp, w = .comma csp
        · obtain ⟨csp, rfl⟩ := hc; rfl
        · rw [argsToks, List.append_assoc, (hargs w (by simp) fun csp e => hc ⟨csp, e⟩).skip]
    rw [hsk] at a1
    obtain ⟨e, vs', s', ⟨k, y⟩, b2, a2⟩ := args_reread (sp := ⟨s.lex.start, s.lex.lastPos⟩) (name := name) (by simp [hm]) args hargs ih s1 ts [] a1
    refine ⟨.func ⟨s.lex.start, e⟩ name vs', s', ⟨k + 1, fun n hn => ?_⟩, by simp [Value.bare, b2], a2⟩
    obtain ⟨n, rfl⟩ : ∃ m, n = m + 1 := ⟨n - 1, by omega⟩
    have hc : s.lex.cur = .functionStart := a.cur
    rw [parseValue]
    prun [hc, n1, a.str rfl]
    exact y n (by omega)
  | @mathFunc sp name args hm hargs ih =>
    intro s ts a
    have e1 : (Value.func sp name args).toks ++ ts = .func name :: (argsToks args ++ (.punct 41 :: ts)) := by
      rw [func_toks (math_not_url hm)]; simp
    rw [e1] at a
    obtain ⟨s1, n1, a1⟩ := a.next
    have hsk : skipWs false (argsToks args ++ (.punct 41 :: ts)) = argsToks args ++ (.punct 41 :: ts) := by
      cases args with
      | nil => rfl
      | cons w vs =>
        by_cases hc : ∃ csp, w = .comma csp
        · obtain ⟨csp, rfl⟩ := hc; rfl
        · rw [argsToks, List.append_assoc, (hargs w (by simp) fun csp e => hc ⟨csp, e⟩).skip]
    rw [hsk] at a1
    obtain ⟨e, vs', s', ⟨k, y⟩, b2, a2⟩ := args_reread (sp := ⟨s.lex.start, s.lex.lastPos⟩) (name := name) (by simp [hm]) args hargs ih s1 ts [] a1
    refine ⟨.func ⟨s.lex.start, e⟩ name vs', s', ⟨k + 1, fun n hn => ?_⟩, by simp [Value.bare, b2], a2⟩
    obtain ⟨n, rfl⟩ : ∃ m, n = m + 1 := ⟨n - 1, by omega⟩
    have hc : s.lex.cur = .functionStart := a.cur
    rw [parseValue]
    prun [hc, n1, a.str rfl]
    exact y n (by omega)
  | @atom v hv ih =>
    intro s ts a
    obtain ⟨v', s', ⟨k, y⟩, b1, a1⟩ := ih s ts a
    refine ⟨v', s', ⟨k + 1, fun n hn => ?_⟩, b1, a1⟩
    obtain ⟨n, rfl⟩ : ∃ m, n = m + 1 := ⟨n - 1, by omega⟩
    have hc : s.lex.cur ≠ .lparen := by
      obtain ⟨t, r, h1, _, h3⟩ := hv.head
      rw [h1] at a
      have hc := a.cur
      rw [hc]
      rcases h3 with h3 | h3
      · intro e; rw [e] at h3; simp [isValTok] at h3
      · exact absurd h3.1 (by simp)
    rw [parseMathParen]
    prun []
    rw [if_pos hc]
    exact y n (by omega)
  | @paren sp v hv ih =>
    intro s ts a
    have e1 : (Value.paren sp v).toks ++ ts = .punct 40 :: (v.toks ++ (.punct 41 :: ts)) := by
      rw [Value.toks]; simp
    rw [e1] at a
    obtain ⟨s1, n1, a1⟩ := a.expect (k := .lparen) rfl
    rw [hv.skip] at a1
    obtain ⟨v', s2, ⟨k, y⟩, b2, a2⟩ := ih.sum_done a1 (fun b ts' e => by cases e) (fun b ts' e => by cases e)
    have a2 : At false s2 (.punct 41 :: ts) := a2
    obtain ⟨s3, n3, a3⟩ := a2.expect (k := .rparen) rfl
    refine ⟨.paren ⟨s.lex.start, s2.lex.lastPos⟩ v', s3, ⟨k + 1, fun n hn => ?_⟩, by simp [Value.bare, b2], a3⟩
    obtain ⟨n, rfl⟩ : ∃ m, n = m + 1 := ⟨n - 1, by omega⟩
    have hc : s.lex.cur = .lparen := a.cur
    rw [parseMathParen]
    prun [n1, y n (by omega), n3]
    rw [if_neg (by simp [hc])]
  | @prod v hv ih =>
    intro s ts a
    obtain ⟨v', s', ⟨k, y⟩, b1, a1⟩ := ih s ts a
    refine ⟨v', s', fun x s'' ⟨k', y'⟩ => ⟨k + k' + 1, fun n hn => ?_⟩, b1, a1⟩
    obtain ⟨n, rfl⟩ : ∃ m, n = m + 1 := ⟨n - 1, by omega⟩
    rw [parseMathProduct]
    prun [y n (by omega)]
    exact y' n (by omega)
  | @mul sp op l r hop hl hr ihl ihr =>
    intro s ts a
    have e1 : (Value.math sp op l r).toks ++ ts = l.toks ++ (op.map .delim ++ (r.toks ++ ts)) := by
      rw [Value.toks]; simp
    rw [e1] at a
    obtain ⟨l', s1, y1, b1, a1⟩ := ihl s _ a
    have hsk : skipWs false (op.map .delim ++ (r.toks ++ ts)) = op.map .delim ++ (r.toks ++ ts) := by
      rcases hop with rfl | rfl <;> rfl
    rw [hsk] at a1
    obtain ⟨msp, r', s2, b2, a2, y2⟩ := productLoop_turn hop (bare_eq_nil b1 hl.not_nil) ihr hr a1
    exact ⟨.math msp op l' r', s2, fun x s'' y => y1 x s'' (y2 x s'' y), by simp [Value.bare, b1, b2], a2⟩
  | @sum v hv ih =>
    intro s ts a hn
    obtain ⟨v', s', ⟨k, y⟩, b1, a1⟩ := ih.prod_done a hn
    refine ⟨v', s', fun x s'' ⟨k', y'⟩ => ⟨k + k' + 1, fun n hn => ?_⟩, b1, a1⟩
    obtain ⟨n, rfl⟩ : ∃ m, n = m + 1 := ⟨n - 1, by omega⟩
    rw [parseMathSum]
    prun [y n (by omega)]
    exact y' n (by omega)
  | @add sp op l r hop hl hr ihl ihr =>
    intro s ts a hn
    have e1 : (Value.math sp op l r).toks ++ ts = l.toks ++ (op.map .delim ++ (r.toks ++ ts)) := by
      rw [Value.toks]; simp
    rw [e1] at a
    have hsk : skipWs false (op.map .delim ++ (r.toks ++ ts)) = op.map .delim ++ (r.toks ++ ts) := by
      rcases hop with rfl | rfl <;> rfl
    obtain ⟨l', s1, y1, b1, a1⟩ := ihl s _ a (by
      rw [hsk]; intro b ts' e
      rcases hop with rfl | rfl <;> cases e <;> decide)
    rw [hsk] at a1
    obtain ⟨msp, r', s2, b2, a2, y2⟩ := sumLoop_turn hop (bare_eq_nil b1 hl.not_nil) ihr hr a1 hn
    exact ⟨.math msp op l' r', s2, fun x s'' y => y1 x s'' (y2 x s'' y), by simp [Value.bare, b1, b2], a2⟩

end Cssc
