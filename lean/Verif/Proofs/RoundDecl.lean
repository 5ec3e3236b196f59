import Verif.Proofs.RoundVal

/-!
# Reading declarations back
-/

namespace Cssc

variable [Spelling]

theorem Value.InDecl.head {v : Value} (h : v.InDecl) : ∃ t r, v.toks = t :: r ∧ t.isWs = false := by
  unfold Value.InDecl at h
  split at h
  · exact ⟨_, _, rfl, rfl⟩
  · obtain ⟨b, rfl, _⟩ := h
    exact ⟨_, _, rfl, rfl⟩
  · obtain ⟨t, r, h1, h2, _⟩ := h.head
    exact ⟨t, r, h1, h2⟩

omit [Spelling] in
theorem Value.InDecl.not_nil {v : Value} (h : v.InDecl) : v ≠ .nil := by
  intro e; subst e
  exact Value.Shape.not_nil (h : Value.Shape .val .nil) rfl

omit [Spelling] in
theorem gapToks_cases (v w : Value) : gapToks v w = [] ∨ gapToks v w = [.space] := by
  unfold gapToks
  split
  · exact .inl rfl
  · exact .inl rfl
  · exact .inr rfl

omit [Spelling] in
theorem propToks_head (prop : Bytes) : ∃ t r, propToks prop = t :: r ∧ t.isWs = false ∧ (t.tok = .ident ∨ t.tok = .delim) := by
  unfold propToks
  split
  · exact ⟨_, _, rfl, rfl, .inr rfl⟩
  · exact ⟨_, _, rfl, rfl, .inl rfl⟩

theorem declToks_skip {vs : List Value} (hs : ∀ v ∈ vs, v.InDecl) (hne : vs ≠ []) {T : List PTok} :
    skipWs false (declToks vs ++ T) = declToks vs ++ T := by
  cases vs with
  | nil => exact absurd rfl hne
  | cons v vs =>
    obtain ⟨t, r, h1, h2⟩ := (hs v (by simp)).head
    cases vs with
    | nil => rw [declToks, h1, List.cons_append, skipWs_cons h2]
    | cons w vs => rw [declToks, h1, List.cons_append, List.cons_append, skipWs_cons h2]

omit [Spelling] in
theorem declLoop_val {n : Nat} {prop : Bytes} {sp : Span} {vals : List Value} {imp : Bool} {s : St}
    (h : isValTok s.lex.cur = true ∨ s.lex.cur = .semicolon ∨ s.lex.cur = .rcurly) :
    declLoop (n + 1) prop sp vals imp s = (do
      match ← parseValue n with
      | .nil =>
        match vals.getLast? with
        | none => errorf "declaration must have a value"
        | some last =>
          let lsp ← locate last
          pure (.decl ⟨sp.start, if sp.stop < lsp.stop then lsp.stop else sp.stop⟩ prop vals imp)
      | v => declLoop n prop sp (vals ++ [v]) imp : P Decl) s := by
  rw [declLoop]
  prun []
  rcases h with h | h | h
  · cases hc : s.lex.cur <;> rw [hc] at h <;> first | rfl | simp [isValTok] at h
  · rw [h]; rfl
  · rw [h]; rfl

/-- One value of a declaration. -/
theorem declVal_reread {v : Value} (hv : v.InDecl) {s : St} {ts : List PTok} {prop : Bytes} {sp : Span} {imp : Bool}
    (acc : List Value) (a : At false s (v.toks ++ ts)) :
    ∃ v' s', v'.bare = v.bare ∧ At false s' (skipWs false ts) ∧
      ∀ x s'', Yields (declLoop · prop sp (acc ++ [v']) imp) s' x s'' → Yields (declLoop · prop sp acc imp) s x s'' := by
  unfold Value.InDecl at hv
  split at hv
  · rename_i csp
    have a : At false s (.punct 44 :: ts) := a
    obtain ⟨s1, n1, a1⟩ := a.next
    refine ⟨.comma ⟨s.lex.start, s.lex.lastPos⟩, s1, rfl, a1, fun x s'' ⟨k, y⟩ => ⟨k + 1, fun n hn => ?_⟩⟩
    obtain ⟨n, rfl⟩ : ∃ m, n = m + 1 := ⟨n - 1, by omega⟩
    have hc : s.lex.cur = .comma := a.cur
    beta_reduce
    rw [declLoop]
    prun [hc, n1]
    exact y n (by omega)
  · rename_i rsp w
    obtain ⟨b, rfl, hb⟩ := hv
    have a : At false s (.delim b :: ts) := a
    obtain ⟨s1, n1, a1⟩ := a.next
    refine ⟨.raw ⟨s.lex.start, s.lex.lastPos⟩ [b], s1, rfl, a1, fun x s'' ⟨k, y⟩ => ⟨k + 1, fun n hn => ?_⟩⟩
    obtain ⟨n, rfl⟩ : ∃ m, n = m + 1 := ⟨n - 1, by omega⟩
    have hc : s.lex.cur = .delim := a.cur
    beta_reduce
    rw [declLoop]
    prun [hc, n1, a.str rfl]
    rw [if_pos (by simpa using hb)]
    exact y n (by omega)
  · obtain ⟨v', s1, ⟨k1, y1⟩, b1, a1⟩ := hv.reread s ts a
    refine ⟨v', s1, b1, a1, fun x s'' ⟨k, y⟩ => ⟨k + k1 + 1, fun n hn => ?_⟩⟩
    obtain ⟨n, rfl⟩ : ∃ m, n = m + 1 := ⟨n - 1, by omega⟩
    have hc : isValTok s.lex.cur = true := by
      obtain ⟨t, r, h1, _, h3⟩ := hv.head
      rw [h1] at a
      have hc := a.cur
      rw [hc]
      rcases h3 with h3 | h3
      · exact h3
      · exact absurd h3.1 (by simp)
    beta_reduce
    rw [declLoop_val (.inl hc)]
    prun [y1 n (by omega)]
    have hnil : v' ≠ .nil := bare_eq_nil b1 hv.not_nil
    have h2 := y n (by omega)
    cases v' <;> first | exact absurd rfl hnil | exact h2

theorem declVals_reread {prop : Bytes} {sp : Span} {imp : Bool} {t0 : PTok} {ts : List PTok} (h0 : t0.isWs = false) :
    ∀ (vs : List Value), (∀ v ∈ vs, v.InDecl) → ∀ (s : St) (acc : List Value), At false s (declToks vs ++ (t0 :: ts)) →
    ∃ vs' s', bareVals vs' = bareVals vs ∧ At false s' (t0 :: ts) ∧
      ∀ x s'', Yields (declLoop · prop sp (acc ++ vs') imp) s' x s'' → Yields (declLoop · prop sp acc imp) s x s''
  | [], _, s, acc, a => ⟨[], s, rfl, a, fun x s'' y => by simpa using y⟩
  | [v], hs, s, acc, a => by
    obtain ⟨v', s1, b1, a1, y1⟩ := declVal_reread (hs v (by simp)) (prop := prop) (sp := sp) (imp := imp) acc a
    rw [skipWs_cons h0] at a1
    exact ⟨[v'], s1, by simp [bareVals, b1], a1, y1⟩
  | v :: w :: vs, hs, s, acc, a => by
    rw [declToks, List.append_assoc] at a
    obtain ⟨v', s1, b1, a1, y1⟩ := declVal_reread (hs v (by simp)) (prop := prop) (sp := sp) (imp := imp) acc a
    have hs' : ∀ x ∈ w :: vs, x.InDecl := fun x hx => hs x (by simp [hx])
    have hsk := declToks_skip hs' (by simp) (T := t0 :: ts)
    have a1 : At false s1 (declToks (w :: vs) ++ (t0 :: ts)) := by
      rw [List.append_assoc] at a1
      rcases gapToks_cases v w with e | e <;> rw [e] at a1
      · rwa [List.nil_append, hsk] at a1
      · rwa [List.cons_append, skipWs_space, List.nil_append, hsk] at a1
    obtain ⟨vs', s2, b2, a2, y2⟩ := declVals_reread h0 (w :: vs) hs' s1 (acc ++ [v']) a1
    refine ⟨v' :: vs', s2, by rw [bareVals, bareVals, b1, b2], a2, fun x s'' y => y1 x s'' (y2 x s'' ?_)⟩
    rwa [List.append_assoc, List.singleton_append]

omit [Spelling] in
theorem parseValue_stop {s : St} (h : s.lex.cur = .semicolon ∨ s.lex.cur = .rcurly) (n : Nat) :
    parseValue (n + 1) s = .ok .nil s := by
  rw [parseValue]
  rcases h with h | h <;> prun [h]

/-- Is this the end of a declaration, `;` or `}`? -/
def isDeclEnd (t : PTok) : Prop := t = .punct 59 ∨ t = .punct 125

omit [Spelling] in
theorem bareVals_getLast {vs ws : List Value} (h : bareVals vs = bareVals ws) (hs : ∀ v ∈ ws, v ≠ .nil) (hne : ws ≠ []) :
    ∃ last, vs.getLast? = some last ∧ last ≠ .nil := by
  induction vs generalizing ws with
  | nil =>
    cases ws with
    | nil => exact absurd rfl hne
    | cons w ws => simp [bareVals] at h
  | cons v vs ih =>
    cases ws with
    | nil => exact absurd rfl hne
    | cons w ws =>
      simp only [bareVals, List.cons.injEq] at h
      cases ws with
      | nil =>
        cases vs with
        | nil => exact ⟨v, rfl, bare_eq_nil h.1 (hs w (by simp))⟩
        | cons v2 vs => simp [bareVals] at h
      | cons w2 ws =>
        obtain ⟨last, h1, h2⟩ := ih h.2 (fun x hx => hs x (by simp [hx])) (by simp)
        exact ⟨last, by rw [List.getLast?_cons, h1]; rfl, h2⟩

omit [Spelling] in
/-- The end of a declaration. -/
theorem declEnd_reread {prop : Bytes} {sp : Span} {imp : Bool} {t0 : PTok} {ts : List PTok} (h0 : isDeclEnd t0)
    {vs ws : List Value} (hb : bareVals vs = bareVals ws) (hs : ∀ v ∈ ws, v.InDecl) (hne : ws ≠ []) {s : St}
    (a : At false s (t0 :: ts)) :
    ∃ dsp, Yields (declLoop · prop sp vs imp) s (.decl dsp prop vs imp) s := by
  obtain ⟨last, h1, h2⟩ := bareVals_getLast hb (fun v hv => (hs v hv).not_nil) hne
  obtain ⟨lsp, h3⟩ := locate_ok h2 s
  refine ⟨⟨sp.start, if sp.stop < lsp.stop then lsp.stop else sp.stop⟩, 2, fun n hn => ?_⟩
  obtain ⟨n, rfl⟩ : ∃ m, n = m + 2 := ⟨n - 2, by omega⟩
  have hc : s.lex.cur = .semicolon ∨ s.lex.cur = .rcurly := by
    rw [a.cur]
    rcases h0 with rfl | rfl
    · exact .inl rfl
    · exact .inr rfl
  beta_reduce
  rw [declLoop_val (.inr hc), pbind_apply, parseValue_stop hc, andThen_ok]
  simp only [h1]
  rw [pbind_apply, h3]; rfl

/-! ### No bounds inside values -/

mutual

theorem Value.toks_free : ∀ (v : Value), ∀ t ∈ v.toks, t.isBound = false
  | .nil, t, h => by rw [Value.toks] at h; simp at h
  | .comma _, t, h => by rw [Value.toks] at h; simp at h; subst h; rfl
  | .dim _ num unit, t, h => by
    rw [Value.toks] at h
    simp only [List.mem_singleton] at h
    subst h
    split
    · rfl
    · split <;> rfl
  | .str _ _, t, h => by rw [Value.toks] at h; simp at h; subst h; rfl
  | .ident _ _, t, h => by rw [Value.toks] at h; simp at h; subst h; rfl
  | .func _ name args, t, h => by
    rw [Value.toks.eq_def] at h
    dsimp only at h
    split at h
    · simp at h; subst h; rfl
    · simp only [List.mem_cons, List.mem_append, List.mem_singleton] at h
      rcases h with rfl | h | rfl | h
      · rfl
      · exact argsToks_free args t h
      · rfl
      · simp at h
  | .brackets _ vs, t, h => by
    rw [Value.toks] at h
    simp only [List.mem_cons, List.mem_append, List.mem_singleton] at h
    rcases h with rfl | h | rfl | h
    · rfl
    · exact spacedToks_free vs t h
    · rfl
    · simp at h
  | .paren _ v, t, h => by
    rw [Value.toks] at h
    simp only [List.mem_cons, List.mem_append, List.mem_singleton] at h
    rcases h with rfl | h | rfl | h
    · rfl
    · exact Value.toks_free v t h
    · rfl
    · simp at h
  | .math _ op l r, t, h => by
    rw [Value.toks] at h
    simp only [List.mem_append, List.mem_map] at h
    rcases h with h | ⟨_, _, rfl⟩ | h
    · exact Value.toks_free l t h
    · rfl
    · exact Value.toks_free r t h
  | .hex _ _, t, h => by rw [Value.toks] at h; simp at h; subst h; rfl
  | .raw _ v, t, h => by
    rw [Value.toks] at h
    simp only [List.mem_map] at h
    obtain ⟨_, _, rfl⟩ := h
    rfl

theorem argsToks_free : ∀ (vs : List Value), ∀ t ∈ argsToks vs, t.isBound = false
  | [], t, h => by rw [argsToks] at h; simp at h
  | v :: vs, t, h => by
    rw [argsToks, List.mem_append] at h
    exact h.elim (Value.toks_free v t) (argsToks_free vs t)

theorem spacedToks_free : ∀ (vs : List Value), ∀ t ∈ spacedToks vs, t.isBound = false
  | [], t, h => by rw [spacedToks] at h; simp at h
  | v :: vs, t, h => by
    rw [spacedToks, List.mem_append] at h
    rcases h with h | h
    · exact Value.toks_free v t h
    · split at h
      · simp at h
      · rcases List.mem_cons.1 h with rfl | h
        · rfl
        · exact spacedToks_free vs t h

end

theorem valueAfter_free {pre : List PTok} (hp : ∀ t ∈ pre, t.isBound = false) (v : Value) : ∀ t ∈ valueAfter pre v, t.isBound = false := by
  intro t h
  unfold valueAfter at h
  split at h
  · simp at h
  · rcases List.mem_append.1 h with h | h
    · exact hp t h
    · exact Value.toks_free _ t h

theorem declToks_free : ∀ (vs : List Value), ∀ t ∈ declToks vs, t.isBound = false
  | [], t, h => by simp [declToks] at h
  | [v], t, h => by rw [declToks] at h; exact v.toks_free t h
  | v :: w :: vs, t, h => by
    rw [declToks, List.mem_append, List.mem_append] at h
    rcases h with h | h | h
    · exact v.toks_free t h
    · rcases gapToks_cases v w with e | e <;> rw [e] at h <;> simp at h
      subst h; rfl
    · exact declToks_free (w :: vs) t h

theorem Decl.toks_free (d : Decl) : ∀ t ∈ d.toks, t.isBound = false := by
  intro t h
  cases d with
  | raw => simp [Decl.toks] at h
  | decl sp prop vals imp =>
    rw [Decl.toks, List.mem_append, List.mem_cons, List.mem_append] at h
    rcases h with h | rfl | h | h
    · unfold propToks at h
      split at h <;> simp at h
      · rcases h with rfl | rfl <;> rfl
      · subst h; rfl
    · rfl
    · exact declToks_free vals t h
    · split at h <;> simp at h
      rcases h with rfl | rfl <;> rfl

omit [Spelling] in
theorem lowerCase_letter : ∀ l ∈ b!"important", ∀ b : UInt8, lowerCase b = l ↔ (b == l || b == l - 32) = true := by
  have h : ∀ l ∈ b!"important", ∀ n : Nat, n < 256 →
      (lowerCase (UInt8.ofNat n) = l ↔ (UInt8.ofNat n == l || UInt8.ofNat n == l - 32) = true) := by decide +kernel
  intro l hl b
  have := h l hl b.toNat b.toNat_lt
  rwa [UInt8.ofNat_toNat] at this

omit [Spelling] in
/-- The word is `important`, in small or capital letters. -/
theorem isImportantString_iff (w : Bytes) : isImportantString w = true ↔ w.map lowerCase = b!"important" := by
  have hl := lowerCase_letter
  unfold isImportantString
  split
  · simp only [List.map_cons, List.map_nil, List.cons.injEq, and_true, Bool.and_eq_true, and_assoc]
    rw [hl _ (by decide), hl _ (by decide), hl _ (by decide), hl _ (by decide), hl _ (by decide), hl _ (by decide),
      hl _ (by decide), hl _ (by decide), hl _ (by decide)]
    rfl
  · rename_i hne
    refine ⟨fun h => by simp at h, fun h => ?_⟩
    exfalso
    have hn : w.length = 9 := by have := congrArg List.length h; simpa using this
    match w, hn with
    | [a1, a2, a3, a4, a5, a6, a7, a8, a9], _ => exact hne _ _ _ _ _ _ _ _ _ rfl

theorem parseDeclaration_reread {d : Decl} (hd : d.Shape) {t0 : PTok} {ts : List PTok} (h0 : isDeclEnd t0) {s : St}
    (a : At false s (d.toks ++ (t0 :: ts))) :
    ∃ d' s', Yields parseDeclaration s d' s' ∧ d'.bare = d.bare ∧ At false s' (t0 :: ts) := by
  have h0w : t0.isWs = false := by rcases h0 with rfl | rfl <;> rfl
  cases d with
  | raw => exact absurd hd id
  | decl dsp prop vals imp =>
    obtain ⟨hne, hvs⟩ := hd
    -- the name
    have name : ∃ (w : Bytes) (s1 : St), At false s1 (.ident w :: .punct 58 ::
          (declToks vals ++ ((if imp then [PTok.delim 33, .ident (Spelling.important dsp)] else []) ++ (t0 :: ts)))) ∧
        ∃ isPrefix : Bool, prop = (if isPrefix then b!"*" ++ w else w) ∧
          decide (s.lex.cur = .delim ∧ s.lex.str = b!"*") = isPrefix ∧
          (whenP (isPrefix = true) next) s = .ok () s1 := by
      rw [Decl.toks] at a
      unfold propToks at a
      split at a
      · rename_i w
        have a : At false s (.delim 42 :: .ident w :: .punct 58 :: (declToks vals ++
          ((if imp then [PTok.delim 33, .ident (Spelling.important dsp)] else []) ++ (t0 :: ts)))) := by
          simpa using a
        obtain ⟨s1, n1, a1⟩ := a.next
        refine ⟨w, s1, by simpa [skipWs] using a1, true, rfl, ?_, n1⟩
        have hc : s.lex.cur = .delim := a.cur
        rw [hc, a.str rfl]; rfl
      · have a : At false s (.ident prop :: .punct 58 :: (declToks vals ++
          ((if imp then [PTok.delim 33, .ident (Spelling.important dsp)] else []) ++ (t0 :: ts)))) := by
          simpa using a
        refine ⟨prop, s, by simpa using a, false, rfl, ?_, rfl⟩
        have hc : s.lex.cur = .ident := a.cur
        rw [hc]; rfl
    obtain ⟨w, s1, a1, isPrefix, hp, hpd, n1⟩ := name
    obtain ⟨s2, n2, a2⟩ := a1.expect (k := .ident) rfl
    have a2 : At false s2 (.punct 58 :: _) := a2
    obtain ⟨s3, n3, a3⟩ := a2.expect (k := .colon) rfl
    rw [declToks_skip hvs hne] at a3
    -- the values and `!important`
    have key : ∃ d' s', Yields (declLoop · prop ⟨s1.lex.start, s1.lex.lastPos⟩ [] false) s3 d' s' ∧
        d'.bare = .decl ⟨0, 0⟩ prop (bareVals vals) imp ∧ At false s' (t0 :: ts) := by
      cases imp with
      | false =>
        obtain ⟨vs', s4, b4, a4, y4⟩ := declVals_reread (prop := prop) (sp := ⟨s1.lex.start, s1.lex.lastPos⟩) (imp := false)
          (t0 := t0) (ts := ts) h0w vals hvs s3 [] a3
        obtain ⟨dsp', y5⟩ := declEnd_reread (prop := prop) (sp := ⟨s1.lex.start, s1.lex.lastPos⟩) (imp := false) h0 b4 hvs hne a4
        exact ⟨_, s4, y4 _ _ y5, by simp [Decl.bare, b4], a4⟩
      | true =>
        obtain ⟨vs', s4, b4, a4, y4⟩ := declVals_reread (prop := prop) (sp := ⟨s1.lex.start, s1.lex.lastPos⟩) (imp := false)
          (t0 := .delim 33) (ts := .ident (Spelling.important dsp) :: t0 :: ts) rfl vals hvs s3 [] a3
        obtain ⟨s5, n5, a5⟩ := a4.next
        have a5 : At false s5 (.ident (Spelling.important dsp) :: t0 :: ts) := a5
        obtain ⟨s6, n6, a6⟩ := a5.next
        rw [skipWs_cons h0w] at a6
        obtain ⟨dsp', ⟨k, y5⟩⟩ := declEnd_reread (prop := prop) (sp := ⟨s1.lex.start, s5.lex.lastPos⟩) (imp := true) h0 b4 hvs hne a6
        refine ⟨.decl dsp' prop vs' true, s6, y4 _ _ ⟨k + 1, fun n hn => ?_⟩, by simp [Decl.bare, b4], a6⟩
        obtain ⟨n, rfl⟩ : ∃ m, n = m + 1 := ⟨n - 1, by omega⟩
        have hc : s4.lex.cur = .delim := a4.cur
        have hs5 : isImportantString s5.lex.str = true := by rw [a5.str rfl]; exact (isImportantString_iff _).mpr (Spelling.important_eq dsp)
        beta_reduce
        rw [declLoop]
        prun [hc, a4.str rfl, n5, n6, hs5]
        rw [if_neg (by decide), if_neg (by decide)]
        exact y5 n (by omega)
    obtain ⟨d', s', ⟨k, y⟩, b', a'⟩ := key
    refine ⟨d', s', ⟨k, fun n hn => ?_⟩, b', a'⟩
    unfold parseDeclaration
    prun [hpd, n1, n2, n3, a1.str rfl]
    have hstr : isPrefix = true → s.lex.str = b!"*" := fun e => by
      rw [e] at hpd
      exact (of_decide_eq_true hpd).2
    have e : (if isPrefix = true then s.lex.str ++ w else w) = prop := by
      rw [hp]
      split
      · rw [hstr ‹_›]
      · rfl
    rw [e]
    exact y n hn

theorem Decl.Shape.skip {d : Decl} (hd : d.Shape) {T : List PTok} : skipWs false (d.toks ++ T) = d.toks ++ T := by
  cases d with
  | raw => exact absurd hd id
  | decl dsp prop vals imp =>
    obtain ⟨t, r, h1, h2, _⟩ := propToks_head prop
    rw [Decl.toks, h1, List.cons_append, List.cons_append, skipWs_cons h2]

theorem Decl.lastToks_cases (d : Decl) : d.lastToks = [] ∨ d.lastToks = [.punct 59] := by
  cases d with
  | raw => exact .inl rfl
  | decl sp _ _ _ =>
    rw [Decl.lastToks]
    split
    · exact .inr rfl
    · exact .inl rfl

/-- The declarations of a block. -/
theorem decls_reread : ∀ (ds : List Decl), (∀ d ∈ ds, d.Shape) → ∀ (s : St) (acc : List Decl) (ts : List PTok),
    At false s (declsToks ds ++ (.punct 125 :: ts)) →
    ∃ ds' s', Yields (declsLoop · acc) s (acc ++ ds') s' ∧ ds'.map Decl.bare = ds.map Decl.bare ∧ At false s' (.punct 125 :: ts)
  | [], _, s, acc, ts, a => by
    have a : At false s (.punct 125 :: ts) := a
    refine ⟨[], s, ⟨1, fun n hn => ?_⟩, rfl, a⟩
    obtain ⟨n, rfl⟩ : ∃ m, n = m + 1 := ⟨n - 1, by omega⟩
    have hc : s.lex.cur = .rcurly := a.cur
    beta_reduce
    rw [declsLoop]
    prun [hc]
    rw [if_pos trivial, List.append_nil]
  | d :: ds, hs, s, acc, ts, a => by
    have hd := hs d (by simp)
    -- the first declaration and what follows it
    obtain ⟨t0, T, h0, e1, hnext⟩ : ∃ t0 T, isDeclEnd t0 ∧
        declsToks (d :: ds) ++ (.punct 125 :: ts) = d.toks ++ (t0 :: T) ∧
        ∀ s1, At false s1 (t0 :: T) → ∃ s2, (whenP (s1.lex.cur = .semicolon) next) s1 = .ok () s2 ∧
          At false s2 (declsToks ds ++ (.punct 125 :: ts)) := by
      cases ds with
      | nil =>
        rcases d.lastToks_cases with el | el
        · refine ⟨.punct 125, ts, .inr rfl, by rw [declsToks, el, List.append_nil], fun s1 a1 => ⟨s1, ?_, a1⟩⟩
          have hc : s1.lex.cur = .rcurly := a1.cur
          rw [hc]; rfl
        · refine ⟨.punct 59, .punct 125 :: ts, .inl rfl, by rw [declsToks, el]; simp, fun s1 a1 => ?_⟩
          obtain ⟨s2, n2, a2⟩ := a1.next
          have hc : s1.lex.cur = .semicolon := a1.cur
          exact ⟨s2, by rw [hc]; exact n2, a2⟩
      | cons e ds =>
        refine ⟨.punct 59, declsToks (e :: ds) ++ (.punct 125 :: ts), .inl rfl, by rw [declsToks]; simp, fun s1 a1 => ?_⟩
        obtain ⟨s2, n2, a2⟩ := a1.next
        have hsk : skipWs false (declsToks (e :: ds) ++ (.punct 125 :: ts)) = declsToks (e :: ds) ++ (.punct 125 :: ts) := by
          cases ds with
          | nil => rw [declsToks, List.append_assoc]; exact (hs e (by simp)).skip
          | cons f ds => rw [declsToks, List.append_assoc]; exact (hs e (by simp)).skip
        rw [hsk] at a2
        have hc : s1.lex.cur = .semicolon := a1.cur
        exact ⟨s2, by rw [hc]; exact n2, a2⟩
    rw [e1] at a
    obtain ⟨d', s1, ⟨k1, y1⟩, b1, a1⟩ := parseDeclaration_reread hd h0 a
    obtain ⟨s2, n2, a2⟩ := hnext s1 a1
    obtain ⟨ds', s3, ⟨k3, y3⟩, b3, a3⟩ := decls_reread ds (fun x hx => hs x (by simp [hx])) s2 (acc ++ [d']) ts a2
    refine ⟨d' :: ds', s3, ⟨k1 + k3 + 1, fun n hn => ?_⟩, by simp [b1, b3], a3⟩
    obtain ⟨n, rfl⟩ : ∃ m, n = m + 1 := ⟨n - 1, by omega⟩
    have hc : s.lex.cur ≠ .rcurly := by
      have : s.lex.cur = .ident ∨ s.lex.cur = .delim := by
        cases d with
        | raw => exact absurd hd id
        | decl dsp prop vals imp =>
          obtain ⟨t, r, h1, _, h2⟩ := propToks_head prop
          rw [Decl.toks, h1] at a
          rw [a.cur]; exact h2
      rcases this with h | h <;> rw [h] <;> decide
    have hp : parseDeclarationOrFallback n s = .ok d' s1 := by
      unfold parseDeclarationOrFallback
      rw [y1 n (by omega)]
    beta_reduce
    rw [declsLoop]
    prun [hp, n2]
    rw [if_neg hc]
    have h3 := y3 n (by omega)
    rw [List.append_assoc, List.singleton_append] at h3
    exact h3

theorem declsToks_skip {ds : List Decl} (hs : ∀ d ∈ ds, d.Shape) {ts : List PTok} :
    skipWs false (declsToks ds ++ (.punct 125 :: ts)) = declsToks ds ++ (.punct 125 :: ts) := by
  cases ds with
  | nil => rfl
  | cons d ds =>
    cases ds with
    | nil => rw [declsToks, List.append_assoc]; exact (hs d (by simp)).skip
    | cons e ds => rw [declsToks, List.append_assoc]; exact (hs d (by simp)).skip

/-- A block. -/
theorem block_reread {b : DeclBlock} (hb : b.Shape) {s : St} {ts : List PTok}
    (a : At false s (.punct 123 :: (declsToks b.decls ++ (.punct 125 :: ts)))) :
    ∃ b' s', Yields parseDeclarationBlock s b' s' ∧ b'.bare = b.bare ∧ At false s' (skipWs false ts) := by
  obtain ⟨s1, n1, a1⟩ := a.next
  rw [declsToks_skip hb] at a1
  obtain ⟨ds', s2, ⟨k, y⟩, b2, a2⟩ := decls_reread b.decls hb s1 [] ts a1
  obtain ⟨s3, n3, a3⟩ := a2.next
  refine ⟨⟨⟨s.lex.start, s2.lex.lastPos⟩, ds'⟩, s3, ⟨k, fun n hn => ?_⟩, by simp [DeclBlock.bare, b2], a3⟩
  have h := y n hn
  rw [List.nil_append] at h
  unfold parseDeclarationBlock
  prun [n1, h, n3]

omit [Spelling] in
/-- What follows the selectors of a rule. -/
theorem inSelector_brace {us ts : List PTok} {t : PTok} (h : ∀ u ∈ us, u.isBound = false) (ht : t.isBound = true)
    (hne : t ≠ .punct 123) : InSelector (.punct 123 :: (us ++ t :: ts)) = true := by
  have e : (us ++ t :: ts).dropWhile (! ·.isBound) = t :: ts := by
    induction us with
    | nil => simp [ht]
    | cons u us ih => simp [h u (by simp), ih fun x hx => h x (by simp [hx])]
  have e1 : ∀ l, List.dropWhile (! PTok.isBound ·) (.punct 123 :: l) = .punct 123 :: l := fun l => by
    rw [List.dropWhile_cons]; rfl
  unfold InSelector
  rw [e1]
  simp only [e, List.head?_cons]
  simp [hne]

theorem inSelector_block (ds : List Decl) (ts : List PTok) :
    InSelector (.punct 123 :: (declsToks ds ++ (.punct 125 :: ts))) = true := by
  match ds with
  | [] => exact inSelector_brace (us := []) (by simp) rfl (by simp)
  | [d] =>
    rw [declsToks, List.append_assoc]
    rcases d.lastToks_cases with e | e <;> rw [e]
    · exact inSelector_brace d.toks_free rfl (by simp)
    · exact inSelector_brace d.toks_free rfl (by simp)
  | d :: e :: ds =>
    rw [declsToks, List.append_assoc]
    exact inSelector_brace d.toks_free rfl (by simp)

end Cssc
