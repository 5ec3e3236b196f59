import Verif.Proofs.RoundRule

/-!
# Reading media queries back
-/

namespace Cssc

variable [Spelling]

/-- An identifier as a value. -/
theorem identVal_reread {w : Bytes} {s : St} {ts : List PTok} (a : At false s (.ident w :: ts)) :
    ∃ sp s', Yields parseValue s (.ident sp w) s' ∧ At false s' (skipWs false ts) := by
  obtain ⟨v', s1, y, b1, a1⟩ := (Value.Shape.ident (sp := ⟨0, 0⟩) (v := w)).reread s ts a
  cases v' <;> simp [Value.bare] at b1
  subst b1
  exact ⟨_, s1, y, a1⟩

omit [Spelling] in
theorem opToks_head {op : Bytes} (h : isRangeOp op) : ∃ c r, op = c :: r := by
  rcases h with rfl | rfl | rfl | rfl <;> exact ⟨_, _, rfl⟩

omit [Spelling] in
/-- The operator of a range, before something other than a delimiter. -/
theorem rangeOp_reread {op : Bytes} (h : isRangeOp op) {s : St} {t : PTok} {ts : List PTok} (ht : t.isWs = false)
    (hd : t.tok ≠ .delim) (a : At false s (op.map .delim ++ (t :: ts))) :
    ∃ s', parseMediaRangeOperator s = .ok op s' ∧ At false s' (t :: ts) := by
  have one : ∀ {c : UInt8} {s : St}, At false s (.delim c :: t :: ts) → (c = 60 ∨ c = 62) →
      ∃ s', parseMediaRangeOperator s = .ok [c] s' ∧ At false s' (t :: ts) := by
    intro c s a hc
    obtain ⟨s1, n1, a1⟩ := a.next
    rw [skipWs_cons ht] at a1
    refine ⟨s1, ?_, a1⟩
    have h1 : s1.lex.cur ≠ .delim := by rw [a1.cur]; exact hd
    unfold parseMediaRangeOperator
    prun [a.str rfl, n1]
    rw [if_neg h1]
    rcases hc with rfl | rfl <;> rfl
  have two : ∀ {c : UInt8} {s : St}, At false s (.delim c :: .delim 61 :: t :: ts) → (c = 60 ∨ c = 62) →
      ∃ s', parseMediaRangeOperator s = .ok [c, 61] s' ∧ At false s' (t :: ts) := by
    intro c s a hc
    obtain ⟨s1, n1, a1⟩ := a.next
    rw [skipWs_cons rfl] at a1
    obtain ⟨s2, n2, a2⟩ := a1.next
    rw [skipWs_cons ht] at a2
    refine ⟨s2, ?_, a2⟩
    have h1 : s1.lex.cur = .delim := a1.cur
    unfold parseMediaRangeOperator
    prun [a.str rfl, n1, h1, a1.str rfl, n2]
    rcases hc with rfl | rfl <;> rfl
  rcases h with rfl | rfl | rfl | rfl
  · exact one a (.inl rfl)
  · exact one a (.inr rfl)
  · exact two a (.inl rfl)
  · exact two a (.inr rfl)

omit [Spelling] in
theorem valTok_ne {t : Tok} (h : isValTok t = true) : t ≠ .delim ∧ t ≠ .eof ∧ t ≠ .rparen ∧ t ≠ .lparen := by
  cases t <;> simp [isValTok] at h ⊢

theorem val_tok {v : Value} (h : v.Shape .val) : ∃ t r, v.toks = t :: r ∧ t.isWs = false ∧ isValTok t.tok = true := by
  obtain ⟨t, r, h1, h2, h3⟩ := h.head
  exact ⟨t, r, h1, h2, h3.resolve_right (by simp)⟩

omit [Spelling] in
/-- A value and what it is not. -/
theorem bare_ne_ident {v w : Value} (h : v.bare = w.bare) (hw : ∀ sp x, w ≠ .ident sp x) : ∀ sp x, v ≠ .ident sp x := by
  rintro sp x rfl
  cases w <;> simp [Value.bare] at h
  exact hw _ _ rfl

/-- A feature in parentheses. -/
def FeatureReread (p : MQPart) : Prop := ∀ (s : St) (ts : List PTok), At false s (p.toks ++ ts) →
  ∃ p' s', Yields parseMediaFeature s p' s' ∧ p'.bare = p.bare ∧ At false s' (skipWs false ts)

theorem plain_reread {sp psp : Span} {prop : Bytes} {value : Value} (h : value = .nil ∨ value.Shape .val) :
    FeatureReread (.plain sp psp prop value) := by
  intro s ts a
  rw [MQPart.toks.eq_def] at a
  rcases h with rfl | h
  · have a : At false s (.punct 40 :: .ident prop :: .punct 41 :: ts) := a
    obtain ⟨s1, n1, a1⟩ := a.expect (k := .lparen) rfl
    have a1 : At false s1 (.ident prop :: .punct 41 :: ts) := a1
    obtain ⟨isp, s2, ⟨k, y⟩, a2⟩ := identVal_reread a1
    rw [skipWs_cons rfl] at a2
    obtain ⟨s3, n3, a3⟩ := a2.next
    refine ⟨.plain ⟨s.lex.start, s2.lex.lastPos⟩ isp prop .nil, s3, ⟨k, fun n hn => ?_⟩, rfl, a3⟩
    have hc : s2.lex.cur = .rparen := a2.cur
    unfold parseMediaFeature
    prun [n1, y n hn, hc, n3]
  · simp only [valueAfter_eq h.not_nil] at a
    have a : At false s (.punct 40 :: .ident prop :: .punct 58 :: (value.toks ++ (.punct 41 :: ts))) := by
      simpa using a
    obtain ⟨s1, n1, a1⟩ := a.expect (k := .lparen) rfl
    have a1 : At false s1 (.ident prop :: _) := a1
    obtain ⟨isp, s2, ⟨k, y⟩, a2⟩ := identVal_reread a1
    rw [skipWs_cons rfl] at a2
    obtain ⟨s3, n3, a3⟩ := a2.next
    rw [h.skip] at a3
    obtain ⟨v', s4, ⟨k4, y4⟩, b4, a4⟩ := h.reread s3 _ a3
    rw [skipWs_cons rfl] at a4
    obtain ⟨s5, n5, a5⟩ := a4.expect (k := .rparen) rfl
    refine ⟨.plain ⟨s.lex.start, s4.lex.lastPos⟩ isp prop v', s5, ⟨k + k4, fun n hn => ?_⟩, by simp [MQPart.bare, b4], a5⟩
    have hc : s2.lex.cur = .colon := a2.cur
    unfold parseMediaFeature
    prun [n1, y n (by omega), hc, n3, y4 n (by omega), n5]

/-- A range whose first operand is a value: `(left op name)` or `(left op name op right)`. -/
theorem rangeLeft_reread {sp psp : Span} {prop op : Bytes} {left right : Value} (ho : isRangeOp op) (hl : left.Shape .val)
    (hr : right = .nil ∨ right.Shape .val) : FeatureReread (.range sp psp prop left op right) := by
  intro s ts a
  rw [MQPart.toks.eq_def] at a
  simp only [valueBefore_eq hl.not_nil] at a
  have a : At false s (.punct 40 :: (left.toks ++ (op.map .delim ++ (.ident prop ::
      (valueAfter (op.map .delim) right ++ (.punct 41 :: ts)))))) := by
    simpa using a
  obtain ⟨s1, n1, a1⟩ := a.expect (k := .lparen) rfl
  rw [hl.skip] at a1
  obtain ⟨l', s2, ⟨k2, y2⟩, b2, a2⟩ := hl.reread s1 _ a1
  obtain ⟨c, r, hop⟩ := opToks_head ho
  have hc2 : s2.lex.cur = .delim ∧ At false s2 (op.map .delim ++ (.ident prop ::
      (valueAfter (op.map .delim) right ++ (.punct 41 :: ts)))) := by
    rw [hop, List.map_cons, List.cons_append, skipWs_cons rfl] at a2
    exact ⟨a2.cur, by rw [hop]; exact a2⟩
  obtain ⟨hc2, a2⟩ := hc2
  obtain ⟨s3, e3, a3⟩ := rangeOp_reread ho rfl (by simp [PTok.tok]) a2
  obtain ⟨isp, s4, ⟨k4, y4⟩, a4⟩ := identVal_reread a3
  rcases hr with rfl | hr
  · have a4 : At false s4 (.punct 41 :: ts) := a4
    obtain ⟨s5, n5, a5⟩ := a4.expect (k := .rparen) rfl
    refine ⟨.range ⟨s.lex.start, s4.lex.lastPos⟩ isp prop l' op .nil, s5, ⟨k2 + k4, fun n hn => ?_⟩, by simp [MQPart.bare, b2], a5⟩
    have hc : s4.lex.cur = .rparen := a4.cur
    unfold parseMediaFeature mediaRange
    prun [n1, y2 n (by omega), hc2, e3, y4 n (by omega), hc]
    rw [if_neg (by simp)]
    prun [n5]
  · rw [valueAfter_eq hr.not_nil, List.append_assoc] at a4
    obtain ⟨t, u, ht, hw, hv⟩ := val_tok hr
    have hc4 : s4.lex.cur = .delim ∧ At false s4 (op.map .delim ++ (right.toks ++ (.punct 41 :: ts))) := by
      rw [hop, List.map_cons, List.cons_append, skipWs_cons rfl] at a4
      exact ⟨a4.cur, by rw [hop]; exact a4⟩
    obtain ⟨hc4, a4⟩ := hc4
    have a4' := a4
    rw [ht, List.cons_append] at a4'
    obtain ⟨s5, e5, a5⟩ := rangeOp_reread ho hw (valTok_ne hv).1 a4'
    rw [← List.cons_append, ← ht] at a5
    obtain ⟨r', s6, ⟨k6, y6⟩, b6, a6⟩ := hr.reread s5 _ a5
    rw [skipWs_cons rfl] at a6
    obtain ⟨s7, n7, a7⟩ := a6.expect (k := .rparen) rfl
    refine ⟨.range ⟨s.lex.start, s6.lex.lastPos⟩ isp prop l' op r', s7, ⟨k2 + k4 + k6, fun n hn => ?_⟩,
      by simp [MQPart.bare, b2, b6], a7⟩
    unfold parseMediaFeature mediaRange
    prun [n1, y2 n (by omega), hc2, e3, y4 n (by omega), hc4]
    rw [if_pos trivial]
    prun [e5]
    rw [if_neg (by simp)]
    prun [y6 n (by omega), n7]

/-- `(name op value)`. -/
theorem rangeRight_reread {sp psp : Span} {prop op : Bytes} {right : Value} (ho : isRangeOp op) (hr : right.Shape .val)
    (hi : ∀ sp v, right ≠ .ident sp v) : FeatureReread (.range sp psp prop .nil op right) := by
  intro s ts a
  rw [MQPart.toks.eq_def] at a
  simp only [valueAfter_eq hr.not_nil, valueBefore] at a
  have a : At false s (.punct 40 :: .ident prop :: (op.map .delim ++ (right.toks ++ (.punct 41 :: ts)))) := by
    simpa using a
  obtain ⟨s1, n1, a1⟩ := a.expect (k := .lparen) rfl
  have a1 : At false s1 (.ident prop :: _) := a1
  obtain ⟨isp, s2, ⟨k2, y2⟩, a2⟩ := identVal_reread a1
  obtain ⟨c, r, hop⟩ := opToks_head ho
  obtain ⟨t, u, ht, hw, hv⟩ := val_tok hr
  have hc2 : s2.lex.cur = .delim ∧ At false s2 (op.map .delim ++ (right.toks ++ (.punct 41 :: ts))) := by
    rw [hop, List.map_cons, List.cons_append, skipWs_cons rfl] at a2
    exact ⟨a2.cur, by rw [hop]; exact a2⟩
  obtain ⟨hc2, a2⟩ := hc2
  rw [ht, List.cons_append] at a2
  obtain ⟨s3, e3, a3⟩ := rangeOp_reread ho hw (valTok_ne hv).1 a2
  rw [← List.cons_append, ← ht] at a3
  obtain ⟨r', s4, ⟨k4, y4⟩, b4, a4⟩ := hr.reread s3 _ a3
  rw [skipWs_cons rfl] at a4
  obtain ⟨s5, n5, a5⟩ := a4.expect (k := .rparen) rfl
  refine ⟨.range ⟨s.lex.start, s4.lex.lastPos⟩ isp prop .nil op r', s5, ⟨k2 + k4, fun n hn => ?_⟩, by simp [MQPart.bare, b4], a5⟩
  have hni := bare_ne_ident b4 hi
  unfold parseMediaFeature mediaRange
  prun [n1, y2 n (by omega), hc2, e3, y4 n (by omega)]
  cases r' <;> first | exact absurd rfl (hni _ _) | prun [n5]

/-- One part of a media query. -/
theorem mqPart_reread {p : MQPart} (h : p.Shape) {s : St} {ts : List PTok} (sp : Span) (acc : List MQPart)
    (a : At false s (p.toks ++ ts)) :
    ∃ p' s', p'.bare = p.bare ∧ At false s' (skipWs false ts) ∧
      ∀ x s'', Yields (mqLoop · sp (acc ++ [p'])) s' x s'' → Yields (mqLoop · sp acc) s x s'' := by
  have feature : ∀ (p : MQPart), FeatureReread p → (∃ r, p.toks = .punct 40 :: r) → At false s (p.toks ++ ts) →
      ∃ p' s', p'.bare = p.bare ∧ At false s' (skipWs false ts) ∧
      ∀ x s'', Yields (mqLoop · sp (acc ++ [p'])) s' x s'' → Yields (mqLoop · sp acc) s x s'' := by
    intro p hp ⟨r, hr⟩ a
    obtain ⟨p', s1, ⟨k, y⟩, b1, a1⟩ := hp s ts a
    refine ⟨p', s1, b1, a1, fun x s'' ⟨k2, y2⟩ => ⟨k + k2 + 1, fun n hn => ?_⟩⟩
    obtain ⟨n, rfl⟩ : ∃ m, n = m + 1 := ⟨n - 1, by omega⟩
    have hc : s.lex.cur = .lparen := by rw [hr] at a; exact a.cur
    beta_reduce
    rw [mqLoop]
    prun [hc, y n (by omega)]
    exact y2 n (by omega)
  cases p with
  | ident isp0 v =>
    obtain ⟨isp, s1, ⟨k, y⟩, a1⟩ := identVal_reread (w := v) (ts := ts) a
    refine ⟨.ident isp v, s1, rfl, a1, fun x s'' ⟨k2, y2⟩ => ⟨k + k2 + 1, fun n hn => ?_⟩⟩
    obtain ⟨n, rfl⟩ : ∃ m, n = m + 1 := ⟨n - 1, by omega⟩
    have hc : s.lex.cur = .ident := a.cur
    beta_reduce
    rw [mqLoop]
    prun [hc, y n (by omega)]
    exact y2 n (by omega)
  | plain _ _ prop value => exact feature _ (plain_reread h) ⟨_, by rw [MQPart.toks.eq_def]⟩ a
  | range _ _ prop left op right =>
    obtain ⟨ho, ⟨hl, hr⟩ | ⟨rfl, hr, hi⟩⟩ := h
    · exact feature _ (rangeLeft_reread ho hl hr) ⟨_, by rw [MQPart.toks.eq_def]⟩ a
    · exact feature _ (rangeRight_reread ho hr hi) ⟨_, by rw [MQPart.toks.eq_def]⟩ a
  | inParens => exact absurd h id

/-- The first token of a part. -/
theorem mqPart_head {p : MQPart} (h : p.Shape) : ∃ t r, p.toks = t :: r ∧ t.isWs = false ∧ (t.tok = .ident ∨ t.tok = .lparen) := by
  cases p with
  | ident => exact ⟨_, _, by rw [MQPart.toks.eq_def], rfl, .inl rfl⟩
  | plain => exact ⟨_, _, by rw [MQPart.toks.eq_def], rfl, .inr rfl⟩
  | range => exact ⟨_, _, by rw [MQPart.toks.eq_def], rfl, .inr rfl⟩
  | inParens => exact absurd h id

/-- What ends a media query. -/
def isMqEnd (t : PTok) : Prop := t = .punct 44 ∨ t = .punct 59 ∨ t = .punct 123

omit [Spelling] in
theorem isMqEnd.noWs {t : PTok} (h : isMqEnd t) : t.isWs = false := by
  rcases h with rfl | rfl | rfl <;> rfl

theorem mqParts_reread {t : PTok} {ts : List PTok} (ht : isMqEnd t) (sp : Span) :
    ∀ (ps : List MQPart), (∀ p ∈ ps, p.Shape) → ∀ (s : St) (acc : List MQPart), At false s (mqPartsToks ps ++ (t :: ts)) →
    ∃ ps' s', ps'.map MQPart.bare = ps.map MQPart.bare ∧ At false s' (t :: ts) ∧
      ∀ x s'', Yields (mqLoop · sp (acc ++ ps')) s' x s'' → Yields (mqLoop · sp acc) s x s''
  | [], _, s, acc, a => ⟨[], s, rfl, a, fun x s'' y => by simpa using y⟩
  | p :: ps, hs, s, acc, a => by
    rw [mqPartsToks, List.append_assoc] at a
    obtain ⟨p', s1, b1, a1, y1⟩ := mqPart_reread (hs p (by simp)) sp acc a
    have a1 : At false s1 (mqPartsToks ps ++ (t :: ts)) := by
      cases ps with
      | nil => rw [List.isEmpty_nil, if_pos rfl, List.nil_append, skipWs_cons ht.noWs] at a1; exact a1
      | cons q qs =>
        rw [List.isEmpty_cons, if_neg (by simp), List.cons_append, skipWs_space] at a1
        obtain ⟨t', r, e, hw, _⟩ := mqPart_head (hs q (by simp))
        rw [mqPartsToks, e, List.cons_append, List.cons_append, skipWs_cons hw] at a1
        rw [mqPartsToks, e]
        exact a1
    obtain ⟨ps', s2, b2, a2, y2⟩ := mqParts_reread ht sp ps (fun q hq => hs q (by simp [hq])) s1 (acc ++ [p']) a1
    refine ⟨p' :: ps', s2, by simp [b1, b2], a2, fun x s'' y => y1 x s'' (y2 x s'' ?_)⟩
    rwa [List.append_assoc, List.singleton_append]

omit [Spelling] in
theorem mqEnd_cur {t : PTok} {ts : List PTok} (ht : isMqEnd t) {s : St} (a : At false s (t :: ts)) :
    s.lex.cur = .comma ∨ s.lex.cur = .semicolon ∨ s.lex.cur = .lcurly := by
  rw [a.cur]
  rcases ht with rfl | rfl | rfl
  · exact .inl rfl
  · exact .inr (.inl rfl)
  · exact .inr (.inr rfl)

/-- A media query. -/
theorem mq_reread {q : MQ} (h : q.Shape) {t : PTok} {ts : List PTok} (ht : isMqEnd t) {s : St}
    (a : At false s (mqPartsToks q.parts ++ (t :: ts))) :
    ∃ q' s', Yields parseMediaQuery s (some q') s' ∧ q'.bare = q.bare ∧ At false s' (t :: ts) := by
  obtain ⟨ps', s1, b1, a1, y1⟩ := mqParts_reread ht ⟨s.lex.start, s.lex.lastPos⟩ q.parts h.2 s [] a
  obtain ⟨last, hlast⟩ : ∃ last, ps'.getLast? = some last := by
    cases hl : ps'.getLast? with
    | none =>
      have e := List.getLast?_eq_none_iff.1 hl
      subst e
      exact absurd (List.map_eq_nil_iff.1 b1.symm) h.1
    | some x => exact ⟨x, rfl⟩
  have hend : Yields (mqLoop · ⟨s.lex.start, s.lex.lastPos⟩ ([] ++ ps')) s1 (some ⟨⟨s.lex.start, last.loc.stop⟩, ps'⟩) s1 := by
    refine ⟨1, fun n hn => ?_⟩
    obtain ⟨n, rfl⟩ : ∃ m, n = m + 1 := ⟨n - 1, by omega⟩
    beta_reduce
    rw [mqLoop]
    rcases mqEnd_cur ht a1 with hc | hc | hc <;> (prun [hc]; simp only [List.nil_append, hlast, ppure_apply])
  obtain ⟨k, y⟩ := y1 _ _ hend
  refine ⟨⟨⟨s.lex.start, last.loc.stop⟩, ps'⟩, s1, ⟨k, fun n hn => ?_⟩, by simp [MQ.bare, b1], a1⟩
  unfold parseMediaQuery
  prun []
  exact y n hn

theorem mq_head {q : MQ} (h : q.Shape) : ∃ t r, mqPartsToks q.parts = t :: r ∧ t.isWs = false ∧ (t.tok = .ident ∨ t.tok = .lparen) := by
  obtain ⟨hne, hs⟩ := h
  cases hp : q.parts with
  | nil => exact absurd hp hne
  | cons p ps =>
    obtain ⟨t, r, e, h1, h2⟩ := mqPart_head (hs p (by simp [hp]))
    exact ⟨t, _, by rw [mqPartsToks, e]; rfl, h1, h2⟩

theorem mqs_reread {t : PTok} {ts : List PTok} (ht : t = .punct 59 ∨ t = .punct 123) :
    ∀ (qs : List MQ), qs ≠ [] → (∀ q ∈ qs, q.Shape) → ∀ (s : St) (acc : List MQ), At false s (mqsToks qs ++ (t :: ts)) →
    ∃ qs' s', Yields (mqlLoop · acc) s (acc ++ qs') s' ∧ qs'.map MQ.bare = qs.map MQ.bare ∧ At false s' (t :: ts)
  | [], h, _, _, _, _ => absurd rfl h
  | q :: qs, _, hs, s, acc, a => by
    have hc0 : s.lex.cur ≠ .eof := by
      obtain ⟨t', r, e, _, h⟩ := mq_head (hs q (by simp))
      have a := a
      rw [mqsToks, e] at a
      rw [a.cur]
      rcases h with h | h <;> rw [h] <;> simp
    rw [mqsToks, List.append_assoc] at a
    cases qs with
    | nil =>
      rw [List.isEmpty_nil, if_pos rfl, List.nil_append] at a
      obtain ⟨q', s1, ⟨k, y⟩, b1, a1⟩ := mq_reread (hs q (by simp)) (.inr ht) a
      refine ⟨[q'], s1, ⟨k + 1, fun n hn => ?_⟩, by simp [b1], a1⟩
      obtain ⟨n, rfl⟩ : ∃ m, n = m + 1 := ⟨n - 1, by omega⟩
      have hc : s1.lex.cur ≠ .comma := by rw [a1.cur]; rcases ht with rfl | rfl <;> decide
      beta_reduce
      rw [mqlLoop]
      prun [y n (by omega)]
      rw [if_neg hc0, if_neg hc]
      rfl
    | cons q2 qs =>
      rw [List.isEmpty_cons, if_neg (by simp), List.cons_append] at a
      obtain ⟨q', s1, ⟨k, y⟩, b1, a1⟩ := mq_reread (hs q (by simp)) (.inl rfl) a
      obtain ⟨s2, n2, a2⟩ := a1.next
      have a2 : At false s2 (mqsToks (q2 :: qs) ++ (t :: ts)) := by
        obtain ⟨t', r, e, hw, _⟩ := mq_head (hs q2 (by simp))
        rw [mqsToks, e, List.cons_append, List.cons_append, skipWs_cons hw] at a2
        rw [mqsToks, e]
        exact a2
      obtain ⟨qs', s3, ⟨k3, y3⟩, b3, a3⟩ := mqs_reread ht (q2 :: qs) (by simp) (fun x hx => hs x (by simp [hx])) s2 (acc ++ [q']) a2
      refine ⟨q' :: qs', s3, ⟨k + k3 + 1, fun n hn => ?_⟩, by rw [List.map_cons, List.map_cons, b1, b3], a3⟩
      obtain ⟨n, rfl⟩ : ∃ m, n = m + 1 := ⟨n - 1, by omega⟩
      have hc : s1.lex.cur = .comma := a1.cur
      have h3 := y3 n (by omega)
      rw [List.append_assoc, List.singleton_append] at h3
      beta_reduce
      rw [mqlLoop]
      prun [y n (by omega), n2]
      rw [if_neg hc0, if_pos hc]
      exact h3

/-- A list of media queries. -/
theorem mql_reread {l : MQList} (h : l.Shape) {t : PTok} {ts : List PTok} (ht : t = .punct 59 ∨ t = .punct 123) {s : St}
    (a : At false s (mqsToks l.queries ++ (t :: ts))) :
    ∃ l' s', Yields parseMediaQueryList s (some l') s' ∧ l'.bare = l.bare ∧ At false s' (t :: ts) := by
  obtain ⟨qs', s1, ⟨k, y⟩, b1, a1⟩ := mqs_reread ht l.queries h.1 h.2 s [] a
  rw [List.nil_append] at y
  obtain ⟨last, hlast⟩ : ∃ last, qs'.getLast? = some last := by
    cases hl : qs'.getLast? with
    | none =>
      have e := List.getLast?_eq_none_iff.1 hl
      subst e
      exact absurd (List.map_eq_nil_iff.1 b1.symm) h.1
    | some x => exact ⟨x, rfl⟩
  refine ⟨⟨⟨s.lex.start, last.sp.stop⟩, qs'⟩, s1, ⟨k, fun n hn => ?_⟩, by simp [MQList.bare, b1], a1⟩
  unfold parseMediaQueryList
  prun [y n hn, hlast]

theorem mql_head {l : MQList} (h : l.Shape) : ∃ t r, mqsToks l.queries = t :: r ∧ t.isWs = false := by
  obtain ⟨hne, hs⟩ := h
  cases hp : l.queries with
  | nil => exact absurd hp hne
  | cons q qs =>
    obtain ⟨t, r, e, h1, _⟩ := mq_head (hs q (by simp [hp]))
    exact ⟨t, _, by rw [mqsToks, e]; rfl, h1⟩

omit [Spelling] in
/-- No media queries at all: `@import "x";`. -/
theorem mql_none {s : St} {ts : List PTok} (a : At false s (.punct 59 :: ts)) : Yields parseMediaQueryList s none s := by
  refine ⟨2, fun n hn => ?_⟩
  obtain ⟨n, rfl⟩ : ∃ m, n = m + 2 := ⟨n - 2, by omega⟩
  have hc : s.lex.cur = .semicolon := a.cur
  have h1 : parseMediaQuery (n + 1) s = .ok none s := by
    unfold parseMediaQuery
    prun []
    rw [mqLoop]
    prun [hc]
    rfl
  unfold parseMediaQueryList
  prun []
  rw [mqlLoop]
  prun [hc, h1]
  rfl

end Cssc
