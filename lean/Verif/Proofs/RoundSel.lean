import Verif.Proofs.RoundDecl

/-!
# Reading selectors back
-/

namespace Cssc

variable [Spelling]

omit [Spelling] in
theorem padToks_free (w : Bytes) : ∀ t ∈ padToks w, t.isBound = false := by
  intro t h
  unfold padToks at h
  split at h <;> simp at h
  subst h; rfl

omit [Spelling] in
theorem padToks_cases (w : Bytes) : padToks w = [] ∨ padToks w = [.ws w] := by
  cases w
  · exact .inl rfl
  · exact .inr rfl

omit [Spelling] in
theorem anbToks_free (a op b : Bytes) : ∀ t ∈ anbToks a op b, t.isBound = false := by
  intro t h
  unfold anbToks at h
  dsimp only at h
  repeat' split at h
  all_goals
    simp only [List.mem_cons, List.not_mem_nil, or_false] at h
    first
    | (subst h; rfl)
    | (rcases h with rfl | rfl <;> rfl)

mutual

theorem SelPart.toks_free : ∀ (p : SelPart), ∀ t ∈ p.toks, t.isBound = false
  | .ws _, t, h => by rw [SelPart.toks] at h; simp at h; subst h; rfl
  | .type _ name, t, h => by
    rw [SelPart.toks] at h
    simp only [List.mem_singleton] at h
    subst h
    split <;> rfl
  | .cls _ _, t, h => by rw [SelPart.toks] at h; simp at h; rcases h with rfl | rfl <;> rfl
  | .id _ _, t, h => by rw [SelPart.toks] at h; simp at h; subst h; rfl
  | .comb _ op, t, h => by
    rw [SelPart.toks] at h
    simp only [List.mem_map] at h
    obtain ⟨_, _, rfl⟩ := h
    rfl
  | .pclass _ name args, t, h => by
    rw [SelPart.toks] at h
    rcases List.mem_cons.1 h with rfl | h
    · rfl
    · exact PArgs.toks_free name args t h
  | .pelem _ _ name args, t, h => by
    rw [SelPart.toks] at h
    rcases List.mem_cons.1 h with rfl | h
    · rfl
    · rcases List.mem_cons.1 h with rfl | h
      · rfl
      · exact PArgs.toks_free name args t h
  | .attr _ prop _ value _, t, h => by
    rw [SelPart.toks.eq_def] at h
    dsimp only at h
    rcases List.mem_cons.1 h with rfl | h
    · rfl
    · rcases List.mem_cons.1 h with rfl | h
      · rfl
      · rcases List.mem_append.1 h with h | h
        · exact valueAfter_free (by simp; rfl) value t h
        · simp at h; subst h; rfl

theorem PArgs.toks_free (name : Bytes) : ∀ (a : PArgs), ∀ t ∈ a.toks name, t.isBound = false
  | .nil, t, h => by rw [PArgs.toks] at h; simp at h; subst h; rfl
  | .sels _ l, t, h => by
    rw [PArgs.toks] at h
    rcases List.mem_cons.1 h with rfl | h
    · rfl
    · rcases List.mem_append.1 h with h | h
      · exact selsToks_free l t h
      · simp at h; subst h; rfl
  | .ident _ v, t, h => by rw [PArgs.toks] at h; simp at h; rcases h with rfl | rfl | rfl <;> rfl
  | .anb _ a op b, t, h => by
    rw [PArgs.toks] at h
    rcases List.mem_cons.1 h with rfl | h
    · rfl
    · rcases List.mem_append.1 h with h | h
      · exact anbToks_free a op b t h
      · simp at h; subst h; rfl

theorem Sel.toks_free : ∀ (l : Sel), ∀ t ∈ l.toks, t.isBound = false
  | .mk sp parts, t, h => by
    rw [Sel.toks] at h
    rcases List.mem_append.1 h with h | h
    · exact partsToks_free parts t h
    · exact padToks_free _ t h

theorem partsToks_free : ∀ (ps : List SelPart), ∀ t ∈ partsToks ps, t.isBound = false
  | [], t, h => by rw [partsToks] at h; simp at h
  | p :: ps, t, h => by
    rw [partsToks] at h
    rcases List.mem_append.1 h with h | h
    · split at h
      · simp at h
      · exact p.toks_free t h
    · exact partsToks_free ps t h

theorem selsToks_free : ∀ (l : List Sel), ∀ t ∈ selsToks l, t.isBound = false
  | [], t, h => by rw [selsToks] at h; simp at h
  | x :: xs, t, h => by
    rw [selsToks] at h
    rcases List.mem_append.1 h with h | h
    · exact x.toks_free t h
    · split at h
      · simp at h
      · rcases List.mem_cons.1 h with rfl | h
        · rfl
        · exact selsToks_free xs t h

end

omit [Spelling] in
theorem isNth_iff (name : Bytes) : isNth name = true ↔ isNthName name := by
  simp [isNth, isNthName, or_assoc]

omit [Spelling] in
theorem not_isNth {name : Bytes} (h : ¬ isNthName name) : isNth name = false := by
  rw [← isNth_iff] at h; simpa using h

/-! ### An+B -/

omit [Spelling] in
/-- `n`, `-n`, `an` followed by `+b` or by nothing. -/
theorem anbSecond_plus {start stop : Nat} {a op b b' : Bytes} {s : St} {ts : List PTok}
    (h : At false s (.number (43 :: b') :: ts)) :
    ∃ sp s', anbSecond start (a, op, b, stop) s = .ok (.anb sp a b!"+" b') s' ∧ At false s' (skipWs false ts) := by
  obtain ⟨s1, n1, a1⟩ := h.expect (k := .number) rfl
  have hc : s.lex.cur = .number := h.cur
  refine ⟨⟨start, s.lex.lastPos⟩, s1, ?_, a1⟩
  unfold anbSecond
  prun [hc, h.num rfl, n1]
  rw [if_pos trivial, if_neg (by simp [hasPrefix]), if_pos (by simp [hasPrefix])]
  rfl

omit [Spelling] in
theorem anbSecond_none {start stop : Nat} {a op b : Bytes} {s : St} {ts : List PTok}
    (h : At false s (.punct 41 :: ts)) :
    ∃ sp s', anbSecond start (a, op, b, stop) s = .ok (.anb sp a op b) s' ∧ At false s' (.punct 41 :: ts) := by
  have hc : s.lex.cur = .rparen := h.cur
  refine ⟨⟨start, stop⟩, s, ?_, h⟩
  unfold anbSecond
  prun [hc]
  rw [if_neg (by decide), if_neg (by simp)]

omit [Spelling] in
theorem anb_join {first : P (Bytes × Bytes × Bytes × Nat)} {s s1 : St} {r : Bytes × Bytes × Bytes × Nat}
    (h1 : first s = .ok r s1) {x : PArgs} {s' : St} (h2 : anbSecond s.lex.start r s1 = .ok x s') :
    (do let sp ← tokenSpan; let f ← first; anbSecond sp.start f : P PArgs) s = .ok x s' := by
  prun [h1, h2]

omit [Spelling] in
theorem anbFirst_ident {w : Bytes} {s : St} {ts : List PTok} (h : At false s (.ident w :: ts)) (hw : w = b!"n" ∨ w = b!"-n") :
    ∃ stop s', anbFirst s = .ok (if w = b!"n" then [] else b!"-1", [], [], stop) s' ∧ At false s' (skipWs false ts) := by
  obtain ⟨s1, n1, a1⟩ := h.expect (k := .ident) rfl
  have hc : s.lex.cur = .ident := h.cur
  refine ⟨s.lex.lastPos, s1, ?_, a1⟩
  unfold anbFirst
  prun [hc, h.str rfl, n1]
  rcases hw with rfl | rfl <;> rfl

omit [Spelling] in
theorem anbFirst_dim {a : Bytes} {s : St} {ts : List PTok} (h : At false s (.dimension a b!"n" :: ts)) :
    ∃ stop s', anbFirst s = .ok (a, [], [], stop) s' ∧ At false s' (skipWs false ts) := by
  obtain ⟨s1, n1, a1⟩ := h.next
  have hc : s.lex.cur = .dimension := h.cur
  refine ⟨s.lex.lastPos, s1, ?_, a1⟩
  unfold anbFirst
  prun [hc, h.str rfl, n1, h.num rfl]
  rfl

omit [Spelling] in
theorem anbFirst_minus {a b : Bytes} {s : St} {ts : List PTok} (hb : b ≠ []) (h : At false s (.dimension a (110 :: 45 :: b) :: ts)) :
    ∃ stop s', anbFirst s = .ok (a, b!"-", b, stop) s' ∧ At false s' (skipWs false ts) := by
  obtain ⟨s1, n1, a1⟩ := h.next
  have hc : s.lex.cur = .dimension := h.cur
  refine ⟨s.lex.lastPos, s1, ?_, a1⟩
  unfold anbFirst
  prun [hc, h.str rfl, n1, h.num rfl]
  rw [if_neg (by simp), if_pos (by simp [hasPrefix]), if_pos (by simp [hasPrefix]), if_neg (by simpa using hb)]
  rfl

omit [Spelling] in
theorem anbFirst_num {b : Bytes} {s : St} {ts : List PTok} (h1 : b.head? ≠ some 43) (h2 : b.head? ≠ some 45)
    (h : At false s (.number b :: ts)) :
    ∃ stop s', anbFirst s = .ok (b!"0", [], b, stop) s' ∧ At false s' (skipWs false ts) := by
  obtain ⟨s1, n1, a1⟩ := h.expect (k := .number) rfl
  have hc : s.lex.cur = .number := h.cur
  refine ⟨s.lex.lastPos, s1, ?_, a1⟩
  have p1 : hasPrefix b b!"-" = false := by
    cases b with
    | nil => rfl
    | cons x b => simp [hasPrefix] at h2 ⊢; exact h2
  have p2 : hasPrefix b b!"+" = false := by
    cases b with
    | nil => rfl
    | cons x b => simp [hasPrefix] at h1 ⊢; exact h1
  unfold anbFirst
  prun [hc, n1, h.num rfl, p1, p2]
  simp

omit [Spelling] in
/-- An+B. -/
theorem anb_reread {a op b : Bytes} (h : AnbShape a op b) {s : St} {ts : List PTok}
    (h0 : At false s (anbToks a op b ++ (.punct 41 :: ts))) :
    ∃ sp s', (do let sp ← tokenSpan; let f ← anbFirst; anbSecond sp.start f : P PArgs) s = .ok (.anb sp a op b) s' ∧
      At false s' (.punct 41 :: ts) := by
  cases h with
  | n =>
    obtain ⟨_, s1, e1, a1⟩ := anbFirst_ident (w := b!"n") (ts := .punct 41 :: ts) h0 (.inl rfl)
    obtain ⟨sp, s2, e2, a2⟩ := anbSecond_none a1
    exact ⟨sp, s2, anb_join e1 e2, a2⟩
  | neg =>
    obtain ⟨_, s1, e1, a1⟩ := anbFirst_ident (w := b!"-n") (ts := .punct 41 :: ts) h0 (.inr rfl)
    obtain ⟨sp, s2, e2, a2⟩ := anbSecond_none a1
    exact ⟨sp, s2, anb_join e1 e2, a2⟩
  | nPlus h1 h2 =>
    obtain ⟨_, s1, e1, a1⟩ := anbFirst_ident (w := b!"n") (ts := .number (43 :: b) :: .punct 41 :: ts) h0 (.inl rfl)
    obtain ⟨sp, s2, e2, a2⟩ := anbSecond_plus a1
    exact ⟨sp, s2, anb_join e1 e2, a2⟩
  | negPlus h1 h2 =>
    obtain ⟨_, s1, e1, a1⟩ := anbFirst_ident (w := b!"-n") (ts := .number (43 :: b) :: .punct 41 :: ts) h0 (.inr rfl)
    obtain ⟨sp, s2, e2, a2⟩ := anbSecond_plus a1
    exact ⟨sp, s2, anb_join e1 e2, a2⟩
  | an h1 h2 h3 h4 h5 =>
    have e : anbToks a [] [] = [.dimension a b!"n"] := by simp [anbToks, h1, h2, h4]
    rw [e] at h0
    obtain ⟨_, s1, e1, a1⟩ := anbFirst_dim (ts := .punct 41 :: ts) h0
    obtain ⟨sp, s2, e2, a2⟩ := anbSecond_none a1
    exact ⟨sp, s2, anb_join e1 e2, a2⟩
  | anPlus h1 h2 h3 h4 h5 =>
    have e : anbToks a b!"+" b = [.dimension a b!"n", .number (43 :: b)] := by simp [anbToks, h1, h2, h4]
    rw [e] at h0
    obtain ⟨_, s1, e1, a1⟩ := anbFirst_dim (ts := .number (43 :: b) :: .punct 41 :: ts) h0
    obtain ⟨sp, s2, e2, a2⟩ := anbSecond_plus a1
    exact ⟨sp, s2, anb_join e1 e2, a2⟩
  | anMinus h1 h2 h3 h4 h5 h6 =>
    have e : anbToks a b!"-" b = [.dimension a (110 :: 45 :: b)] := by simp [anbToks, h1, h2, h4]
    rw [e] at h0
    obtain ⟨_, s1, e1, a1⟩ := anbFirst_minus (ts := .punct 41 :: ts) h6 h0
    obtain ⟨sp, s2, e2, a2⟩ := anbSecond_none a1
    exact ⟨sp, s2, anb_join e1 e2, a2⟩
  | b h1 h2 h3 h4 =>
    obtain ⟨_, s1, e1, a1⟩ := anbFirst_num (ts := .punct 41 :: ts) h3 h4 h0
    obtain ⟨sp, s2, e2, a2⟩ := anbSecond_none a1
    exact ⟨sp, s2, anb_join e1 e2, a2⟩

omit [Spelling] in
theorem parseANPlusB_reread {a op b : Bytes} (h : AnbShape a op b) {s : St} {ts : List PTok}
    (h0 : At true s (anbToks a op b ++ (.punct 41 :: ts))) :
    ∃ sp s', parseANPlusB s = .ok (.anb sp a op b) s' ∧ At true s' (.punct 41 :: ts) := by
  obtain ⟨sp, s1, e1, a1⟩ := anb_reread h (h0.retain false)
  refine ⟨sp, _, withRetain_ok e1, ?_⟩
  rw [h0.ws]
  exact a1.retain true fun _ => by rw [← inSelector_append (anbToks_free a op b)]; exact h0.inSel

omit [Spelling] in
/-- The first token of An+B. -/
theorem anbToks_head {a op b : Bytes} (h : AnbShape a op b) :
    ∃ t r, anbToks a op b = t :: r ∧ (t = .ident b!"n" ∨ t = .ident b!"-n" ∨ t.tok = .dimension ∨ t.tok = .number) := by
  cases h with
  | n => exact ⟨_, _, rfl, .inl rfl⟩
  | neg => exact ⟨_, _, rfl, .inr (.inl rfl)⟩
  | nPlus h1 h2 => exact ⟨_, _, rfl, .inl rfl⟩
  | negPlus h1 h2 => exact ⟨_, _, rfl, .inr (.inl rfl)⟩
  | an h1 h2 h3 h4 h5 => exact ⟨.dimension a b!"n", [], by simp [anbToks, h1, h2, h4], .inr (.inr (.inl rfl))⟩
  | anPlus h1 h2 h3 h4 h5 =>
    exact ⟨.dimension a b!"n", [.number (43 :: b)], by simp [anbToks, h1, h2, h4], .inr (.inr (.inl rfl))⟩
  | anMinus h1 h2 h3 h4 h5 h6 =>
    exact ⟨.dimension a (110 :: 45 :: b), [], by simp [anbToks, h1, h2, h4], .inr (.inr (.inl rfl))⟩
  | b h1 h2 h3 h4 => exact ⟨_, _, rfl, .inr (.inr (.inr rfl))⟩

omit [Spelling] in
theorem nthArgs_anb {a op b : Bytes} (h : AnbShape a op b) {s : St} {ts : List PTok}
    (h0 : At true s (anbToks a op b ++ (.punct 41 :: ts))) :
    ∃ sp s', parseNthArgs s = .ok (.anb sp a op b) s' ∧ At true s' (.punct 41 :: ts) := by
  obtain ⟨sp, s1, e1, a1⟩ := parseANPlusB_reread h h0
  refine ⟨sp, s1, ?_, a1⟩
  obtain ⟨t, r, ht, hh⟩ := anbToks_head h
  rw [ht] at h0
  have hc := h0.cur
  unfold parseNthArgs
  rcases hh with rfl | rfl | hh | hh
  · have hc : s.lex.cur = .ident := hc
    prun [hc, h0.str rfl, e1]
    rfl
  · have hc : s.lex.cur = .ident := hc
    prun [hc, h0.str rfl, e1]
    rfl
  · rw [hh] at hc
    prun [hc, e1]
  · rw [hh] at hc
    prun [hc, e1]

omit [Spelling] in
theorem nthArgs_ident {v : Bytes} (hv : v = b!"even" ∨ v = b!"odd") {s : St} {ts : List PTok}
    (h0 : At true s (.ident v :: .punct 41 :: ts)) :
    ∃ sp s', parseNthArgs s = .ok (.ident sp v) s' ∧ At true s' (.punct 41 :: ts) := by
  obtain ⟨s1, n1, a1⟩ := h0.next
  refine ⟨⟨s.lex.start, s.lex.lastPos⟩, s1, ?_, a1⟩
  have hc : s.lex.cur = .ident := h0.cur
  unfold parseNthArgs
  prun [hc, h0.str rfl, n1]
  rcases hv with rfl | rfl <;> rfl

/-! ### Attribute selectors -/

/-- What follows is not white space. -/
def NoWs (ts : List PTok) : Prop := ∀ t r, ts = t :: r → t.isWs = false

omit [Spelling] in
theorem NoWs.skip {b : Bool} {ts : List PTok} (h : NoWs ts) : skipWs b ts = ts := by
  cases ts with
  | nil => cases b <;> rfl
  | cons t r => exact skipWs_cons (h t r rfl)

theorem attr_reread {sp : Span} {prop preOp modifier : Bytes} {value : Value}
    (h : (SelPart.attr sp prop preOp value modifier).Shape) {s : St} {ts : List PTok}
    (h0 : At true s ((SelPart.attr sp prop preOp value modifier).toks ++ ts)) :
    ∃ p s', Yields parseAttributeSelector s p s' ∧ p.bare = (SelPart.attr sp prop preOp value modifier).bare ∧
      At true s' (skipWs false ts) := by
  have hsel : InSelector (skipWs false ts) = true := by
    rw [inSelector_skipWs, ← inSelector_append (SelPart.toks_free _)]; exact h0.inSel
  unfold SelPart.Shape at h
  obtain ⟨rfl, rfl, hv⟩ := h
  unfold SelPart.toks at h0
  have hb := h0.retain false
  have hb : At false { s with lex := { s.lex with retainWS := false } } (.punct 91 :: .ident prop ::
      ((valueAfter [.delim 61] value ++ [.punct 93]) ++ ts)) := hb
  obtain ⟨s1, n1, a1⟩ := hb.next
  have a1 : At false s1 (.ident prop :: _) := a1
  obtain ⟨s2, n2, a2⟩ := a1.expect (k := .ident) rfl
  rcases hv with rfl | hv
  · have a2 : At false s2 (.punct 93 :: ts) := a2
    obtain ⟨s3, n3, a3⟩ := a2.next
    refine ⟨.attr ⟨s.lex.start, s2.lex.lastPos⟩ prop [] .nil [], { s3 with lex := { s3.lex with retainWS := true } },
      ⟨0, fun n _ => ?_⟩, rfl, a3.retain true fun _ => hsel⟩
    have hc : s2.lex.cur = .rbracket := a2.cur
    unfold parseAttributeSelector
    rw [← h0.ws]
    refine withRetain_ok ?_
    prun [n1, n2, a1.str rfl, hc, n3]
    rfl
  · rw [valueAfter_eq hv.not_nil] at a2
    have a2 : At false s2 (.delim 61 :: (value.toks ++ [.punct 93] ++ ts)) := a2
    rw [List.append_assoc] at a2
    obtain ⟨s3, n3, a3⟩ := a2.expect (k := .delim) rfl
    rw [hv.skip] at a3
    obtain ⟨v', s4, ⟨k, y⟩, b4, a4⟩ := hv.reread s3 _ a3
    have a4 : At false s4 (.punct 93 :: ts) := a4
    obtain ⟨s5, n5, a5⟩ := a4.expect (k := .rbracket) rfl
    refine ⟨.attr ⟨s.lex.start, s4.lex.lastPos⟩ prop [] v' [], { s5 with lex := { s5.lex with retainWS := true } },
      ⟨k, fun n hn => ?_⟩, by simp [SelPart.bare, b4], a5.retain true fun _ => hsel⟩
    have hc2 : s2.lex.cur = .delim := a2.cur
    have hc4 : s4.lex.cur = .rbracket := a4.cur
    have hnil : v' ≠ .nil := bare_eq_nil b4 hv.not_nil
    unfold parseAttributeSelector
    rw [← h0.ws]
    refine withRetain_ok ?_
    prun [n1, n2, a1.str rfl, hc2, a2.str rfl]
    rw [if_neg (by decide), if_neg (by decide)]
    prun [n3, y n hn]
    cases v' <;> first | exact absurd rfl hnil | (prun [hc4, n5]; rw [if_neg (by simp)])

/-! ### Selectors -/

omit [Spelling] in
theorem SelPart.bare_isWs {p q : SelPart} (h : p.bare = q.bare) : p.isWs = q.isWs := by
  cases p <;> cases q <;> simp [SelPart.bare, SelPart.isWs] at h ⊢

omit [Spelling] in
theorem bareParts_eq : ∀ {ps qs : List SelPart}, Spacing qs → ps.map SelPart.bare = bareParts qs → bareParts ps = bareParts qs
  | ps, [], _, h => by
    cases ps with
    | nil => rfl
    | cons p ps => simp [bareParts] at h
  | ps, q :: qs, hs, h => by
    rw [bareParts] at h ⊢
    split at h
    · rw [if_pos ‹_›]
      cases ps with
      | nil => rw [bareParts]
      | cons p ps => simp at h
    · rename_i hc
      rw [if_neg hc]
      cases ps with
      | nil => simp at h
      | cons p ps =>
        simp only [List.map_cons, List.cons.injEq] at h
        have ih := bareParts_eq hs.2 h.2
        have hw := SelPart.bare_isWs h.1
        rw [bareParts, if_neg ?_, h.1, ih]
        intro hp
        simp only [Bool.and_eq_true, List.isEmpty_iff] at hp hc
        obtain ⟨rfl, hp⟩ := hp
        rw [hw] at hp
        cases qs with
        | nil => exact hc ⟨rfl, hp⟩
        | cons r rs =>
          have hr := hs.1 (.inl hp) r rfl
          have := h.2
          rw [bareParts, if_neg (by simp [hr])] at this
          simp at this

theorem toks_head {p : SelPart} (hp : p.Shape) : ∃ t r, p.toks = t :: r ∧ t.isWs = p.isWs := by
  cases p with
  | ws => exact ⟨_, _, by rw [SelPart.toks], rfl⟩
  | type _ n => refine ⟨_, _, by rw [SelPart.toks], ?_⟩; split <;> rfl
  | cls => exact ⟨_, _, by rw [SelPart.toks], rfl⟩
  | id => exact ⟨_, _, by rw [SelPart.toks], rfl⟩
  | comb _ op =>
    rw [SelPart.Shape] at hp
    rcases hp with rfl | rfl | rfl | rfl <;> exact ⟨_, _, by rw [SelPart.toks]; rfl, rfl⟩
  | pclass => exact ⟨_, _, by rw [SelPart.toks], rfl⟩
  | pelem => exact ⟨_, _, by rw [SelPart.toks], rfl⟩
  | attr => exact ⟨.punct 91, _, by unfold SelPart.toks; rfl, rfl⟩

omit [Spelling] in
theorem selsShape_mem : ∀ {l : List Sel}, selsShape l → ∀ x ∈ l, x.Shape
  | [], _ => by simp
  | l :: ls, h => by
    rw [selsShape] at h
    intro x hx
    rcases List.mem_cons.1 hx with rfl | hx
    · exact h.1
    · exact selsShape_mem h.2 x hx

/-- What ends a selector. -/
def isSelEnd (t : PTok) : Prop := t = .punct 44 ∨ t = .punct 41 ∨ t = .punct 123

omit [Spelling] in
theorem isSelEnd.noWs {t : PTok} (h : isSelEnd t) {ts : List PTok} : NoWs (t :: ts) := by
  rintro t' r ⟨⟩
  rcases h with rfl | rfl | rfl <;> rfl

/-- The parts after a part that no white space follows. -/
theorem partsToks_noWs {ps : List SelPart} (hs : partsShape ps) (h : ∀ q, ps.head? = some q → q.isWs = false)
    {t : PTok} (ht : isSelEnd t) {ts : List PTok} : NoWs (partsToks ps ++ (t :: ts)) := by
  cases ps with
  | nil => rw [partsToks]; exact ht.noWs
  | cons q qs =>
    have hq := h q rfl
    rw [partsShape] at hs
    obtain ⟨t', r, h1, h2⟩ := toks_head hs.1
    rw [partsToks, if_neg (by simp [hq]), h1]
    rintro t'' r' ⟨⟩
    rw [h2, hq]

/-- What is seen behind a part: white space behind an attribute selector is skipped. -/
def afterPart (p : SelPart) (ts : List PTok) : List PTok := if p.isAttr then skipWs false ts else ts

/-- One part of a selector. -/
def PartReread (p : SelPart) : Prop := ∀ (s : St) (sp : Span) (acc : List SelPart) (ts : List PTok),
  At true s (p.toks ++ ts) →
  ∃ p' s', p'.bare = p.bare ∧ At true s' (afterPart p ts) ∧
    ∀ x s'', Yields (selLoop · sp (acc ++ [p'])) s' x s'' → Yields (selLoop · sp acc) s x s''

/-- A name with its arguments. -/
def ArgsReread (name : Bytes) (a : PArgs) : Prop := ∀ (s : St) (span : Span) (ts : List PTok),
  At true s (a.toks name ++ ts) →
  ∃ isp a' s', Yields (parsePseudoName · span) s (isp, name, a') s' ∧ a'.bare = a.bare ∧ At true s' ts

/-- A selector. -/
def SelReread (l : Sel) : Prop := ∀ (b : Bool) (s : St) (t : PTok) (ts : List PTok), isSelEnd t → InSelector (t :: ts) = true →
  At b s (l.toks ++ (t :: ts)) → ∃ l' s', Yields parseSelector s l' s' ∧ l'.bare = l.bare ∧ At b s' (t :: ts)

/-- The parts of a selector, and white space behind them. -/
def PartsReread (ps : List SelPart) : Prop :=
  ∀ (s : St) (sp : Span) (acc : List SelPart) (w : Bytes) (t : PTok) (ts : List PTok),
  isSelEnd t → Spacing ps → At true s (partsToks ps ++ (padToks w ++ (t :: ts))) →
  ∃ ps' s', (ps'.map SelPart.bare = bareParts ps ∨ ps'.map SelPart.bare = bareParts ps ++ [.ws ⟨0, 0⟩]) ∧ At true s' (t :: ts) ∧
    ∀ x s'', Yields (selLoop · sp (acc ++ ps')) s' x s'' → Yields (selLoop · sp acc) s x s''

/-- What ends a list of selectors. -/
def isSelsEnd (t : PTok) : Prop := t = .punct 41 ∨ t = .punct 123

/-- A list of selectors in the arguments of a pseudo class. -/
def SelsReread (l : List Sel) : Prop := ∀ (s : St) (acc : List Sel) (t : PTok) (ts : List PTok), isSelsEnd t →
  l ≠ [] → At true s (selsToks l ++ (t :: ts)) →
  ∃ l' s', Yields (selListLoop · acc) s (acc ++ l') s' ∧ bareSels l' = bareSels l ∧ At true s' (t :: ts)

omit [Spelling] in
theorem part_simple {p p' : SelPart} {s s' : St} {ts : List PTok} (hb : p'.bare = p.bare) (hp : p.isAttr = false)
    (ha : At true s' ts)
    (sp : Span) (acc : List SelPart) (h : ∀ n, selLoop (n + 1) sp acc s = selLoop n sp (acc ++ [p']) s') :
    ∃ p' s', p'.bare = p.bare ∧ At true s' (afterPart p ts) ∧
    ∀ x s'', Yields (selLoop · sp (acc ++ [p'])) s' x s'' → Yields (selLoop · sp acc) s x s'' := by
  refine ⟨p', s', hb, by rw [afterPart, hp]; exact ha, fun x s'' ⟨k, y⟩ => ⟨k + 1, fun n hn => ?_⟩⟩
  obtain ⟨n, rfl⟩ : ∃ m, n = m + 1 := ⟨n - 1, by omega⟩
  beta_reduce
  rw [h]
  exact y n (by omega)

theorem Sel.Shape.skip {l : Sel} (h : l.Shape) (hn : l.NoLead) {T : List PTok} : skipWs false (l.toks ++ T) = l.toks ++ T := by
  cases l with
  | mk sp parts =>
    rw [Sel.Shape] at h
    obtain ⟨h1, _, p0, hp0, hw⟩ := h
    cases parts with
    | nil => simp at hp0
    | cons p ps =>
      have hp := hn p rfl
      rw [partsShape] at h1
      obtain ⟨t, r, e1, e2⟩ := toks_head h1.1
      rw [Sel.toks, partsToks, if_neg (by simp [hp]), e1]
      exact skipWs_cons (by rw [e2, hp])

/-- The first token of a selector is not the end of the text. -/
theorem Sel.Shape.toks_ne {l : Sel} (h : l.Shape) : ∃ t r, l.toks = t :: r := by
  cases l with
  | mk sp parts =>
    rw [Sel.Shape] at h
    obtain ⟨h1, _, p0, hp0, hw⟩ := h
    cases parts with
    | nil => simp at hp0
    | cons p ps =>
      rw [partsShape] at h1
      obtain ⟨t, r, e1, e2⟩ := toks_head h1.1
      rw [Sel.toks, partsToks]
      split
      · rename_i hc
        simp only [Bool.and_eq_true, List.isEmpty_iff] at hc
        obtain ⟨rfl, hc⟩ := hc
        simp only [List.mem_singleton] at hp0
        subst hp0
        rw [hw] at hc; cases hc
      · rw [e1]; exact ⟨_, _, rfl⟩

theorem sel_ne_eof {b : Bool} {l : Sel} (hs : l.Shape) {s : St} {ts : List PTok} (a : At b s (l.toks ++ ts)) :
    s.lex.cur ≠ .eof := by
  obtain ⟨t', r, e⟩ := hs.toks_ne
  rw [e] at a
  have hc := a.cur
  rw [hc]
  cases hw : t'.isWs with
  | true => cases t' <;> simp [PTok.tok, PTok.isWs] at hw ⊢
  | false =>
    have hw := a.wf hw
    cases t' <;> simp [PTok.tok]
    simp only [PTok.Wf] at hw
    unfold punctTok at hw ⊢
    split <;> simp_all

theorem selList_last {b : Bool} {l : Sel} (hs : l.Shape) (hl : SelReread l) {s : St} (acc : List Sel) {t : PTok} {ts : List PTok}
    (ht : isSelsEnd t) (hi : InSelector (t :: ts) = true) (a : At b s (l.toks ++ (t :: ts))) :
    ∃ l' s', Yields (selListLoop · acc) s (acc ++ l') s' ∧ bareSels l' = bareSels [l] ∧ At b s' (t :: ts) := by
  have hne := sel_ne_eof hs a
  obtain ⟨l', s1, ⟨k, y⟩, b1, a1⟩ := hl b s t ts (ht.elim (fun h => .inr (.inl h)) fun h => .inr (.inr h)) hi a
  refine ⟨[l'], s1, ⟨k + 1, fun n hn => ?_⟩, by simp [bareSels, b1], a1⟩
  obtain ⟨n, rfl⟩ : ∃ m, n = m + 1 := ⟨n - 1, by omega⟩
  have hc : s1.lex.cur ≠ .comma := by
    rw [a1.cur]
    rcases ht with rfl | rfl <;> decide
  beta_reduce
  rw [selListLoop]
  prun [y n (by omega)]
  rw [if_neg hne, if_neg hc]

theorem selList_step {b : Bool} {l : Sel} (hs : l.Shape) (hl : SelReread l) {s : St} (acc : List Sel) {ts : List PTok}
    (hi : InSelector ts = true) (a : At b s (l.toks ++ (.punct 44 :: ts))) :
    ∃ l' s', l'.bare = l.bare ∧ At b s' (skipWs b ts) ∧
      ∀ x s'', Yields (selListLoop · (acc ++ [l'])) s' x s'' → Yields (selListLoop · acc) s x s'' := by
  have hne := sel_ne_eof hs a
  obtain ⟨l', s1, ⟨k, y⟩, b1, a1⟩ := hl b s _ _ (.inl rfl) (by rw [inSelector_cons rfl]; exact hi) a
  obtain ⟨s2, n2, a2⟩ := a1.next
  refine ⟨l', s2, b1, a2, fun x s'' ⟨k3, y3⟩ => ⟨k + k3 + 1, fun n hn => ?_⟩⟩
  obtain ⟨n, rfl⟩ : ∃ m, n = m + 1 := ⟨n - 1, by omega⟩
  have hc : s1.lex.cur = .comma := a1.cur
  beta_reduce
  rw [selListLoop]
  prun [y n (by omega), n2]
  rw [if_neg hne, if_pos hc]
  exact y3 n (by omega)

theorem selsReread_cons {l : Sel} {ls : List Sel} (hs : l.Shape) (hl : SelReread l) (hls : SelsReread ls) :
    SelsReread (l :: ls) := by
  intro s acc t ts ht _ a
  have hi : InSelector (t :: ts) = true := by rw [← inSelector_append (selsToks_free (l :: ls))]; exact a.inSel
  cases ls with
  | nil =>
    rw [selsToks] at a
    simp only [List.isEmpty_nil, if_true, List.append_nil] at a
    exact selList_last hs hl acc ht hi a
  | cons m ms =>
    rw [selsToks] at a
    simp only [List.isEmpty_cons, Bool.false_eq_true, if_false, List.append_assoc, List.cons_append] at a
    obtain ⟨l', s2, b1, a2, y⟩ := selList_step hs hl acc (by rw [inSelector_append (selsToks_free _)]; exact hi) a
    rw [skipWs_true] at a2
    obtain ⟨ls', s3, y3, b3, a3⟩ := hls s2 (acc ++ [l']) t ts ht (by simp) a2
    refine ⟨l' :: ls', s3, ?_, by rw [bareSels, bareSels, b1, b3], a3⟩
    rw [List.append_assoc, List.singleton_append] at y3
    exact y _ _ y3

omit [Spelling] in
/-- White space at the end has no meaning. -/
theorem bareParts_trail {ps : List SelPart} {qs : List SelPart} (h : ps.map SelPart.bare = qs ++ [.ws ⟨0, 0⟩]) : bareParts ps = qs := by
  induction ps generalizing qs with
  | nil => simp at h
  | cons p ps ih =>
    cases qs with
    | nil =>
      simp only [List.map_cons, List.nil_append, List.cons.injEq, List.map_eq_nil_iff] at h
      obtain ⟨hp, rfl⟩ := h
      rw [bareParts, if_pos]
      rw [SelPart.bare_isWs (q := .ws ⟨0, 0⟩) hp]
      rfl
    | cons q qs =>
      simp only [List.map_cons, List.cons_append, List.cons.injEq] at h
      rw [bareParts, if_neg, h.1, ih h.2]
      rintro hc
      simp only [Bool.and_eq_true, List.isEmpty_iff] at hc
      rw [hc.1] at h
      simp at h

theorem selReread_mk {sp : Span} {parts : List SelPart} (hs : (Sel.mk sp parts).Shape) (h : PartsReread parts) :
    SelReread (.mk sp parts) := by
  intro b s t ts ht hi a
  rw [Sel.Shape] at hs
  obtain ⟨h1, h2, p0, hp0, hw⟩ := hs
  have ar := a.retain true fun _ => by rw [inSelector_append (Sel.toks_free _)]; exact hi
  rw [Sel.toks, List.append_assoc] at ar
  obtain ⟨ps', s1, b1, a1, y1⟩ := h _ ⟨s.lex.start, s.lex.lastPos⟩ [] _ t ts ht h2 ar
  have hps : ps' ≠ [] := by
    rintro rfl
    have : ∀ {l : List SelPart}, p0 ∈ l → bareParts l ≠ [] := by
      intro l
      induction l with
      | nil => simp
      | cons q qs ih =>
        intro hm
        rw [bareParts]
        split
        · rename_i hc
          simp only [Bool.and_eq_true, List.isEmpty_iff] at hc
          obtain ⟨rfl, hc⟩ := hc
          simp only [List.mem_singleton] at hm
          subst hm
          rw [hw] at hc; cases hc
        · simp
    rcases b1 with b1 | b1
    · exact this hp0 b1.symm
    · simp at b1
  obtain ⟨last, hlast⟩ : ∃ last, ps'.getLast? = some last := by
    cases hl : ps'.getLast? with
    | none => exact absurd (List.getLast?_eq_none_iff.1 hl) hps
    | some x => exact ⟨x, rfl⟩
  have hend : Yields (selLoop · ⟨s.lex.start, s.lex.lastPos⟩ ([] ++ ps')) s1 (.mk ⟨s.lex.start, last.loc.stop⟩ ps') s1 := by
    refine ⟨1, fun n hn => ?_⟩
    obtain ⟨n, rfl⟩ : ∃ m, n = m + 1 := ⟨n - 1, by omega⟩
    have hc : s1.lex.cur = .comma ∨ s1.lex.cur = .rparen ∨ s1.lex.cur = .lcurly := by
      rw [a1.cur]
      rcases ht with rfl | rfl | rfl
      · exact .inl rfl
      · exact .inr (.inl rfl)
      · exact .inr (.inr rfl)
    beta_reduce
    rw [selLoop]
    rcases hc with hc | hc | hc <;> (prun [hc]; simp only [List.nil_append, hlast, ppure_apply])
  obtain ⟨k, y⟩ := y1 _ _ hend
  refine ⟨.mk ⟨s.lex.start, last.loc.stop⟩ ps', { s1 with lex := { s1.lex with retainWS := b } },
    ⟨k + 1, fun n hn => ?_⟩, ?_, a1.retain b fun _ => hi⟩
  · obtain ⟨n, rfl⟩ : ∃ m, n = m + 1 := ⟨n - 1, by omega⟩
    rw [parseSelector]
    prun []
    rw [withRetain_ok (y n (by omega)), a.ws]
  · rw [Sel.bare, Sel.bare]
    rcases b1 with b1 | b1
    · rw [bareParts_eq h2 b1]
    · rw [bareParts_trail b1]

theorem partsReread_cons {p : SelPart} {ps : List SelPart} (hs : partsShape (p :: ps)) (hp : PartReread p) (hps : PartsReread ps)
    (hnil : PartsReread []) : PartsReread (p :: ps) := by
  intro s sp acc w t ts ht hsp a
  rw [partsShape] at hs
  rw [partsToks] at a
  rw [bareParts]
  split at a
  · rename_i hc
    rw [if_pos hc]
    simp only [Bool.and_eq_true, List.isEmpty_iff] at hc
    obtain ⟨rfl, hc⟩ := hc
    simpa [bareParts] using hnil s sp acc w t ts ht trivial a
  · rename_i hc
    rw [if_neg hc]
    rw [List.append_assoc] at a
    obtain ⟨p', s1, b1, a1, y1⟩ := hp s sp acc _ a
    obtain ⟨w', a1⟩ : ∃ w', At true s1 (partsToks ps ++ (padToks w' ++ (t :: ts))) := by
      unfold afterPart at a1
      split at a1
      · rename_i ha
        cases ps with
        | nil =>
          refine ⟨[], ?_⟩
          rw [partsToks] at a1 ⊢
          have e : skipWs false (t :: ts) = t :: ts := ht.noWs.skip
          rcases padToks_cases w with hw | hw <;> rw [hw] at a1
          · rwa [List.nil_append, List.nil_append, e] at a1
          · have a1 : At true s1 (skipWs false (t :: ts)) := a1
            rwa [e] at a1
        | cons q qs =>
          refine ⟨w, ?_⟩
          have hq : q.isWs = false := hsp.1 (.inr ha) q rfl
          rw [partsShape] at hs
          obtain ⟨t', r, h1, h2⟩ := toks_head hs.2.1
          rw [partsToks, if_neg (by simp [hq]), h1] at a1 ⊢
          rwa [List.cons_append, List.cons_append, skipWs_cons (by rw [h2, hq])] at a1
      · exact ⟨w, a1⟩
    obtain ⟨ps', s2, b2, a2, y2⟩ := hps s1 sp (acc ++ [p']) w' t ts ht hsp.2 a1
    refine ⟨p' :: ps', s2, ?_, a2, fun x s'' y => y1 x s'' (y2 x s'' ?_)⟩
    · rcases b2 with b2 | b2
      · exact .inl (by rw [List.map_cons, b1, b2])
      · exact .inr (by rw [List.map_cons, b1, b2]; rfl)
    · rwa [List.append_assoc, List.singleton_append]

theorem argsReread_sels {name : Bytes} {lsp : Span} {l : List Sel} (hn : ¬ isNthName name) (hne : l ≠ []) (h : SelsReread l) :
    ArgsReread name (.sels lsp l) := by
  intro s span ts a
  rw [PArgs.toks] at a
  simp only [List.cons_append, List.append_assoc, List.nil_append] at a
  obtain ⟨s1, n1, a1⟩ := a.next
  rw [skipWs_true] at a1
  obtain ⟨l', s2, ⟨k, y⟩, b2, a2⟩ := h s1 [] (.punct 41) ts (.inl rfl) hne a1
  obtain ⟨s3, n3, a3⟩ := a2.expect (k := .rparen) rfl
  rw [skipWs_true] at a3
  rw [List.nil_append] at y
  obtain ⟨last, hlast⟩ : ∃ last, l'.getLast? = some last := by
    cases hl : l'.getLast? with
    | none =>
      have e := List.getLast?_eq_none_iff.1 hl
      subst e
      cases l with
      | nil => exact absurd rfl hne
      | cons x xs => simp [bareSels] at b2
    | some x => exact ⟨x, rfl⟩
  refine ⟨⟨span.start, s2.lex.lastPos⟩, .sels ⟨s1.lex.start, last.loc.stop⟩ l', s3, ⟨k + 2, fun n hn' => ?_⟩,
    by rw [PArgs.bare, PArgs.bare, b2], a3⟩
  obtain ⟨n, rfl⟩ : ∃ m, n = m + 2 := ⟨n - 2, by omega⟩
  have hc : s.lex.cur = .functionStart := a.cur
  beta_reduce
  rw [parsePseudoName, parseSelectorList]
  prun [hc, a.str rfl, n1, not_isNth hn]
  rw [if_neg (by simp)]
  prun [y n (by omega), hlast, n3]

theorem argsReread_nil {name : Bytes} : ArgsReread name .nil := by
  intro s span ts a
  rw [PArgs.toks] at a
  obtain ⟨s1, n1, a1⟩ := a.next
  rw [skipWs_true] at a1
  refine ⟨⟨span.start, s.lex.lastPos⟩, .nil, s1, ⟨1, fun n hn => ?_⟩, rfl, a1⟩
  obtain ⟨n, rfl⟩ : ∃ m, n = m + 1 := ⟨n - 1, by omega⟩
  have hc : s.lex.cur = .ident := a.cur
  beta_reduce
  rw [parsePseudoName]
  prun [hc, a.str rfl, n1]

theorem argsReread_nth {name : Bytes} {args : PArgs} {inner : List PTok} (hn : isNthName name)
    (ht : args.toks name = .func name :: (inner ++ [.punct 41]))
    (h : ∀ s ts, At true s (inner ++ (.punct 41 :: ts)) → ∃ a' s', parseNthArgs s = .ok a' s' ∧ a'.bare = args.bare ∧
      At true s' (.punct 41 :: ts)) : ArgsReread name args := by
  intro s span ts a
  rw [ht] at a
  simp only [List.cons_append, List.append_assoc, List.nil_append] at a
  obtain ⟨s1, n1, a1⟩ := a.next
  rw [skipWs_true] at a1
  obtain ⟨a', s2, e2, b2, a2⟩ := h s1 ts a1
  obtain ⟨s3, n3, a3⟩ := a2.expect (k := .rparen) rfl
  rw [skipWs_true] at a3
  refine ⟨⟨span.start, s2.lex.lastPos⟩, a', s3, ⟨1, fun n hn' => ?_⟩, b2, a3⟩
  obtain ⟨n, rfl⟩ : ∃ m, n = m + 1 := ⟨n - 1, by omega⟩
  have hc : s.lex.cur = .functionStart := a.cur
  beta_reduce
  rw [parsePseudoName]
  prun [hc, a.str rfl, n1, (isNth_iff name).2 hn]
  rw [if_pos trivial]
  prun [e2, n3]

theorem partReread_pclass {sp : Span} {name : Bytes} {args : PArgs} (h : ArgsReread name args)
    (hh : ∃ t r, args.toks name = t :: r ∧ t.tok ≠ .colon) : PartReread (.pclass sp name args) := by
  intro s sp' acc ts a
  rw [SelPart.toks] at a
  obtain ⟨s1, n1, a1⟩ := a.next
  rw [skipWs_true] at a1
  have hc1 : s1.lex.cur ≠ .colon := by
    obtain ⟨t, r, e, hne⟩ := hh
    have a1 := a1
    rw [e] at a1
    rw [a1.cur]; exact hne
  obtain ⟨isp, a', s2, ⟨k, y⟩, b2, a2⟩ := h s1 ⟨s.lex.start, s.lex.lastPos⟩ ts a1
  refine ⟨.pclass isp name a', s2, by rw [SelPart.bare, SelPart.bare, b2], a2, fun x s'' ⟨k2, y2⟩ => ⟨k + k2 + 2, fun n hn => ?_⟩⟩
  obtain ⟨n, rfl⟩ : ∃ m, n = m + 2 := ⟨n - 2, by omega⟩
  have hc : s.lex.cur = .colon := a.cur
  beta_reduce
  rw [selLoop]
  prun [hc, n1]
  rw [parsePseudo]
  prun []
  rw [if_neg hc1]
  prun [y n (by omega)]
  exact y2 (n + 1) (by omega)

theorem partReread_pelem {sp isp0 : Span} {name : Bytes} {args : PArgs} (h : ArgsReread name args) :
    PartReread (.pelem sp isp0 name args) := by
  intro s sp' acc ts a
  rw [SelPart.toks] at a
  obtain ⟨s1, n1, a1⟩ := a.next
  rw [skipWs_true] at a1
  obtain ⟨s2, n2, a2⟩ := a1.next
  rw [skipWs_true] at a2
  obtain ⟨isp, a', s3, ⟨k, y⟩, b3, a3⟩ := h s2 ⟨s1.lex.start, s1.lex.lastPos⟩ ts a2
  refine ⟨.pelem ⟨s.lex.start, isp.stop⟩ isp name a', s3, by rw [SelPart.bare, SelPart.bare, b3], a3,
    fun x s'' ⟨k2, y2⟩ => ⟨k + k2 + 2, fun n hn => ?_⟩⟩
  obtain ⟨n, rfl⟩ : ∃ m, n = m + 2 := ⟨n - 2, by omega⟩
  have hc : s.lex.cur = .colon := a.cur
  have hc1 : s1.lex.cur = .colon := a1.cur
  beta_reduce
  rw [selLoop]
  prun [hc, n1]
  rw [parsePseudo]
  prun [hc1]
  rw [if_pos trivial]
  prun [n2, y n (by omega)]
  exact y2 (n + 1) (by omega)

theorem partsReread_nil : PartsReread [] := by
  intro s sp acc w t ts ht _ a
  rw [partsToks, List.nil_append] at a
  rcases padToks_cases w with e | e <;> rw [e] at a
  · exact ⟨[], s, .inl (by rw [bareParts]; rfl), a, fun x s'' y => by simpa using y⟩
  · have a : At true s (.ws w :: t :: ts) := a
    obtain ⟨s1, n1, a1⟩ := a.next
    rw [skipWs_true] at a1
    have hc : s.lex.cur = .whitespace := a.cur
    refine ⟨[.ws ⟨s.lex.start, s.lex.lastPos⟩], s1, .inr (by rw [bareParts]; rfl), a1, fun x s'' ⟨k, y⟩ => ⟨k + 1, fun n hn => ?_⟩⟩
    obtain ⟨n, rfl⟩ : ∃ m, n = m + 1 := ⟨n - 1, by omega⟩
    beta_reduce
    rw [selLoop]
    prun [hc, n1]
    exact y n (by omega)

theorem argsToks_noColon {name : Bytes} {args : PArgs} : ∃ t r, args.toks name = t :: r ∧ t.tok ≠ .colon := by
  cases args <;> exact ⟨_, _, by rw [PArgs.toks], by simp [PTok.tok]⟩

mutual

theorem SelPart.Shape.reread : ∀ {p : SelPart}, p.Shape → PartReread p
  | .ws _, _ => by
    intro s sp acc ts a
    rw [SelPart.toks] at a
    obtain ⟨s1, n1, a1⟩ := a.next
    rw [skipWs_true] at a1
    have hc : s.lex.cur = .whitespace := a.cur
    refine part_simple (p' := .ws ⟨s.lex.start, s.lex.lastPos⟩) rfl rfl a1 sp acc fun n => ?_
    rw [selLoop]
    prun [hc, n1]
  | .type _ name, _ => by
    intro s sp acc ts a
    rw [SelPart.toks] at a
    obtain ⟨s1, n1, a1⟩ := a.next (fun _ h => by split at h <;> cases h)
    rw [skipWs_true] at a1
    refine part_simple (p' := .type ⟨s.lex.start, s.lex.lastPos⟩ name) rfl rfl a1 sp acc fun n => ?_
    rw [selLoop]
    split at a
    · subst_vars
      have hc : s.lex.cur = .delim := a.cur
      prun [hc, n1, a.str rfl]
      rfl
    · have hc : s.lex.cur = .ident := a.cur
      prun [hc, n1, a.str rfl]
  | .cls _ name, _ => by
    intro s sp acc ts a
    rw [SelPart.toks] at a
    obtain ⟨s1, n1, a1⟩ := a.next
    have a1 : At true s1 (.ident name :: ts) := a1
    obtain ⟨s2, n2, a2⟩ := a1.expect (k := .ident) rfl
    rw [skipWs_true] at a2
    have hc : s.lex.cur = .delim := a.cur
    refine part_simple (p' := .cls ⟨s.lex.start, s1.lex.lastPos⟩ name) rfl rfl a2 sp acc fun n => ?_
    rw [selLoop]
    prun [hc, n1, a.str rfl, a1.str rfl, n2]
    rfl
  | .id _ name, _ => by
    intro s sp acc ts a
    rw [SelPart.toks] at a
    obtain ⟨s1, n1, a1⟩ := a.next
    rw [skipWs_true] at a1
    have hc : s.lex.cur = .hash := a.cur
    refine part_simple (p' := .id ⟨s.lex.start, s.lex.lastPos⟩ name) rfl rfl a1 sp acc fun n => ?_
    rw [selLoop]
    prun [hc, n1, a.str rfl]
  | .comb _ op, h => by
    intro s sp acc ts a
    rw [SelPart.toks] at a
    rw [SelPart.Shape] at h
    obtain ⟨c, rfl, hc⟩ : ∃ c, op = [c] ∧ (c = 43 ∨ c = 62 ∨ c = 126 ∨ c = 124) := by
      rcases h with rfl | rfl | rfl | rfl
      · exact ⟨_, rfl, .inl rfl⟩
      · exact ⟨_, rfl, .inr (.inl rfl)⟩
      · exact ⟨_, rfl, .inr (.inr (.inl rfl))⟩
      · exact ⟨_, rfl, .inr (.inr (.inr rfl))⟩
    have a : At true s (.delim c :: ts) := a
    obtain ⟨s1, n1, a1⟩ := a.next
    rw [skipWs_true] at a1
    have hd : s.lex.cur = .delim := a.cur
    refine part_simple (p' := .comb ⟨s.lex.start, s.lex.lastPos⟩ [c]) rfl rfl a1 sp acc fun n => ?_
    rw [selLoop]
    prun [hd, n1, a.str rfl]
    rcases hc with rfl | rfl | rfl | rfl <;> rfl
  | .pclass _ name args, h => by
    rw [SelPart.Shape] at h
    exact partReread_pclass h.reread argsToks_noColon
  | .pelem _ _ name args, h => by
    rw [SelPart.Shape] at h
    exact partReread_pelem h.reread
  | .attr _ prop preOp value modifier, h => by
    intro s sp acc ts a
    obtain ⟨p', s1, ⟨k, y⟩, b1, a1⟩ := attr_reread h a
    refine ⟨p', s1, b1, a1, fun x s'' ⟨k2, y2⟩ => ⟨k + k2 + 1, fun n hn => ?_⟩⟩
    obtain ⟨n, rfl⟩ : ∃ m, n = m + 1 := ⟨n - 1, by omega⟩
    have hc : s.lex.cur = .lbracket := by
      unfold SelPart.toks at a
      exact a.cur
    beta_reduce
    rw [selLoop]
    prun [hc, y n (by omega)]
    exact y2 n (by omega)

theorem PArgs.Shape.reread {name : Bytes} : ∀ {a : PArgs}, a.Shape name → ArgsReread name a
  | .nil, _ => argsReread_nil
  | .sels _ l, h => by
    rw [PArgs.Shape] at h
    exact argsReread_sels h.1 h.2.1 (selsShape_reread h.2.2)
  | .ident _ v, h => by
    rw [PArgs.Shape] at h
    refine argsReread_nth h.1 (inner := [.ident v]) (by rw [PArgs.toks]; rfl) fun s ts a => ?_
    obtain ⟨sp, s', e, a'⟩ := nthArgs_ident h.2 a
    exact ⟨_, s', e, rfl, a'⟩
  | .anb _ a op b, h => by
    rw [PArgs.Shape] at h
    refine argsReread_nth h.1 (inner := anbToks a op b) (by rw [PArgs.toks]) fun s ts a => ?_
    obtain ⟨sp, s', e, a'⟩ := nthArgs_anb h.2 a
    exact ⟨_, s', e, rfl, a'⟩

theorem Sel.Shape.reread : ∀ {l : Sel}, l.Shape → SelReread l
  | .mk _ parts, h => selReread_mk h (partsShape_reread (by rw [Sel.Shape] at h; exact h.1))

theorem partsShape_reread : ∀ {ps : List SelPart}, partsShape ps → PartsReread ps
  | [], _ => partsReread_nil
  | p :: ps, h => partsReread_cons h (SelPart.Shape.reread (by rw [partsShape] at h; exact h.1))
      (partsShape_reread (by rw [partsShape] at h; exact h.2)) partsReread_nil

theorem selsShape_reread : ∀ {l : List Sel}, selsShape l → SelsReread l
  | [], _ => fun _ _ _ _ _ h => absurd rfl h
  | l :: ls, h => selsReread_cons (by rw [selsShape] at h; exact h.1) (Sel.Shape.reread (by rw [selsShape] at h; exact h.1))
      (selsShape_reread (by rw [selsShape] at h; exact h.2))

end

theorem topToks_free : ∀ (l : List Sel), ∀ t ∈ topToks l, t.isBound = false
  | [], t, h => by simp [topToks] at h
  | [x], t, h => by rw [topToks] at h; exact x.toks_free t h
  | x :: y :: ys, t, h => by
    rw [topToks, List.mem_append, List.mem_cons, List.mem_append] at h
    rcases h with h | rfl | h | h
    · exact x.toks_free t h
    · rfl
    · exact padToks_free _ t h
    · exact topToks_free (y :: ys) t h

theorem topToks_skip {l : Sel} {ls : List Sel} (h : l.Shape) (hn : l.NoLead) (T : List PTok) :
    skipWs false (topToks (l :: ls) ++ T) = topToks (l :: ls) ++ T := by
  cases ls with
  | nil => rw [topToks]; exact h.skip hn
  | cons r rs => rw [topToks, List.append_assoc]; exact h.skip hn

/-- The selectors of a rule. -/
theorem topSels_reread {t : PTok} {ts : List PTok} (ht : isSelsEnd t) (hi : InSelector (t :: ts) = true) :
    ∀ (l : List Sel), l ≠ [] → (∀ x ∈ l, x.Shape ∧ x.NoLead) → ∀ (s : St) (acc : List Sel),
    At false s (topToks l ++ (t :: ts)) →
    ∃ l' s', Yields (selListLoop · acc) s (acc ++ l') s' ∧ bareSels l' = bareSels l ∧ At false s' (t :: ts)
  | [], hne, _, _, _, _ => absurd rfl hne
  | [l], _, hs, s, acc, a => by
    rw [topToks] at a
    exact selList_last (hs l (by simp)).1 (hs l (by simp)).1.reread acc ht hi a
  | l :: m :: ms, _, hs, s, acc, a => by
    rw [topToks] at a
    simp only [List.append_assoc, List.cons_append] at a
    obtain ⟨l', s2, b1, a2, y⟩ := selList_step (hs l (by simp)).1 (hs l (by simp)).1.reread acc
      (by rw [inSelector_append (padToks_free _), inSelector_append (topToks_free _)]; exact hi) a
    have hm := hs m (by simp)
    have hsk := topToks_skip (ls := ms) hm.1 hm.2 (t :: ts)
    have a2 : At false s2 (topToks (m :: ms) ++ (t :: ts)) := by
      rcases padToks_cases (Spelling.lead m.loc) with e | e <;> rw [e] at a2
      · rwa [List.nil_append, hsk] at a2
      · have a2 : At false s2 (skipWs false (topToks (m :: ms) ++ (t :: ts))) := a2
        rwa [hsk] at a2
    obtain ⟨ls', s3, y3, b3, a3⟩ := topSels_reread ht hi (m :: ms) (by simp) (fun x hx => hs x (by simp [hx])) s2 (acc ++ [l']) a2
    refine ⟨l' :: ls', s3, ?_, by rw [bareSels, bareSels, b1, b3], a3⟩
    rw [List.append_assoc, List.singleton_append] at y3
    exact y _ _ y3

end Cssc
