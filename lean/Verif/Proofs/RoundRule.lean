import Verif.Proofs.RoundSel

/-!
# Reading rules back
-/

namespace Cssc

variable [Spelling]

/-- The kinds of tokens that start a selector. -/
def isSelTok : Tok → Bool
  | .ident | .delim | .hash | .colon | .lbracket => true
  | _ => false

theorem part_head {p : SelPart} (hp : p.Shape) (hw : p.isWs = false) :
    ∃ t r, p.toks = t :: r ∧ t.isWs = false ∧ isSelTok t.tok = true := by
  cases p with
  | ws => cases hw
  | type _ n => refine ⟨_, _, by rw [SelPart.toks], ?_, ?_⟩ <;> split <;> rfl
  | cls => exact ⟨_, _, by rw [SelPart.toks], rfl, rfl⟩
  | id => exact ⟨_, _, by rw [SelPart.toks], rfl, rfl⟩
  | comb _ op =>
    rw [SelPart.Shape] at hp
    rcases hp with rfl | rfl | rfl | rfl <;> exact ⟨_, _, by rw [SelPart.toks]; rfl, rfl, rfl⟩
  | pclass => exact ⟨_, _, by rw [SelPart.toks], rfl, rfl⟩
  | pelem => exact ⟨_, _, by rw [SelPart.toks], rfl, rfl⟩
  | attr => exact ⟨.punct 91, _, by unfold SelPart.toks; rfl, rfl, rfl⟩

theorem sels_head {l : List Sel} (hne : l ≠ []) (hs : selsShape l) (hn : ∀ x ∈ l, x.NoLead) :
    ∃ t r, topToks l = t :: r ∧ t.isWs = false ∧ isSelTok t.tok = true := by
  cases l with
  | nil => exact absurd rfl hne
  | cons x xs =>
    cases x with
    | mk sp parts =>
      rw [selsShape, Sel.Shape] at hs
      obtain ⟨⟨h1, _, p0, hp0, hw⟩, _⟩ := hs
      cases parts with
      | nil => simp at hp0
      | cons p ps =>
        have hl : (Sel.mk sp (p :: ps)).NoLead := hn _ (by simp)
        have hp := hl p rfl
        rw [partsShape] at h1
        obtain ⟨t, r, e1, e2, e3⟩ := part_head h1.1 hp
        have e : (Sel.mk sp (p :: ps)).toks = t :: (r ++ partsToks ps ++ padToks (Spelling.trail sp)) := by
          rw [Sel.toks, partsToks, if_neg (by simp [hp]), e1]; simp
        cases xs with
        | nil => rw [topToks, e]; exact ⟨t, _, rfl, e2, e3⟩
        | cons y ys => rw [topToks, e]; exact ⟨t, _, rfl, e2, e3⟩

omit [Spelling] in
theorem ruleLoop_prelude {kf : Bool} {n : Nat} {sp : Span} {pr : Prelude} {s : St}
    (h : isSelTok s.lex.cur = true ∨ s.lex.cur = .percentage) :
    ruleLoop kf (n + 1) sp pr s = (if kf then do
        let p ← parseKeyframeSelectorList n
        ruleLoop kf n sp p
      else do
        let l ← parseSelectorList n
        ruleLoop kf n sp (.sels l) : P QRule) s := by
  rw [ruleLoop, pbind_apply, getCur_apply, andThen_ok]
  rcases h with h | h
  · cases hc : s.lex.cur <;> rw [hc] at h <;> first | rfl | simp [isSelTok] at h
  · rw [h]

/-- The block of a rule. -/
theorem ruleBlock_reread {kf : Bool} {b : DeclBlock} (hb : b.Shape) {sp : Span} {pr : Prelude} {s : St} {ts : List PTok}
    (a : At false s (.punct 123 :: (declsToks b.decls ++ (.punct 125 :: ts)))) :
    ∃ rsp b' s', Yields (ruleLoop kf · sp pr) s ⟨rsp, pr, some b'⟩ s' ∧ b'.bare = b.bare ∧ At false s' (skipWs false ts) := by
  obtain ⟨b', s1, ⟨k, y⟩, b1, a1⟩ := block_reread hb a
  refine ⟨⟨sp.start, b'.sp.stop⟩, b', s1, ⟨k + 1, fun n hn => ?_⟩, b1, a1⟩
  obtain ⟨n, rfl⟩ : ∃ m, n = m + 1 := ⟨n - 1, by omega⟩
  have hc : s.lex.cur = .lcurly := a.cur
  beta_reduce
  rw [ruleLoop]
  prun [hc, y n (by omega)]

theorem parseSelectorList_reread {l : List Sel} (hs : selsShape l) (hne : l ≠ []) (hn : ∀ x ∈ l, x.NoLead) {s : St} {t : PTok}
    {ts : List PTok} (ht : isSelsEnd t) (hi : InSelector (t :: ts) = true) (a : At false s (topToks l ++ (t :: ts))) :
    ∃ l' s', Yields parseSelectorList s l' s' ∧ bareSels l'.sels = bareSels l ∧ At false s' (t :: ts) := by
  obtain ⟨l', s1, ⟨k, y⟩, b1, a1⟩ := topSels_reread ht hi l hne (fun x hx => ⟨selsShape_mem hs x hx, hn x hx⟩) s [] a
  obtain ⟨last, hlast⟩ : ∃ last, l'.getLast? = some last := by
    cases hl : l'.getLast? with
    | none =>
      have e := List.getLast?_eq_none_iff.1 hl
      subst e
      cases l with
      | nil => exact absurd rfl hne
      | cons x xs => simp [bareSels] at b1
    | some x => exact ⟨x, rfl⟩
  refine ⟨⟨⟨s.lex.start, last.loc.stop⟩, l'⟩, s1, ⟨k + 1, fun n hn => ?_⟩, b1, a1⟩
  obtain ⟨n, rfl⟩ : ∃ m, n = m + 1 := ⟨n - 1, by omega⟩
  rw [List.nil_append] at y
  rw [parseSelectorList]
  prun [y n (by omega), hlast]

theorem rule_toks {r : QRule} {b : DeclBlock} (hb : r.block = some b) (ts : List PTok) :
    r.toks ++ ts = r.prelude.toks ++ (.punct 123 :: (declsToks b.decls ++ (.punct 125 :: ts))) := by
  unfold QRule.toks
  rw [hb]; simp

/-- The first token of a rule. -/
theorem QRule.Shape.head {r : QRule} (h : r.Shape) : ∃ t u, r.toks = t :: u ∧ t.isWs = false ∧ isSelTok t.tok = true := by
  obtain ⟨⟨l, hl, hne, hs, hn⟩, b, hb, hbs⟩ := h
  obtain ⟨t, u, e, e2, e3⟩ := sels_head hne hs hn
  exact ⟨t, _, by unfold QRule.toks; rw [hl]; show topToks l.sels ++ _ = _; rw [e]; rfl, e2, e3⟩

/-- A style rule. -/
theorem rule_reread {r : QRule} (h : r.Shape) {s : St} {ts : List PTok} (a : At false s (r.toks ++ ts)) :
    ∃ r' s', Yields (parseQualifiedRule false) s r' s' ∧ r'.bare = r.bare ∧ At false s' (skipWs false ts) := by
  have hcur : isSelTok s.lex.cur = true := by
    obtain ⟨t, u, e, _, e3⟩ := h.head
    have a := a
    rw [e] at a
    rw [a.cur]; exact e3
  obtain ⟨⟨l, hl, hne, hs, hn⟩, b, hb, hbs⟩ := h
  rw [rule_toks hb, hl] at a
  have a : At false s (topToks l.sels ++ (.punct 123 :: (declsToks b.decls ++ (.punct 125 :: ts)))) := a
  obtain ⟨l', s1, ⟨k1, y1⟩, b1, a1⟩ := parseSelectorList_reread hs hne hn (.inr rfl) (inSelector_block b.decls ts) a
  obtain ⟨rsp, b', s2, ⟨k2, y2⟩, b2, a2⟩ := ruleBlock_reread (kf := false) (sp := ⟨s.lex.start, s.lex.lastPos⟩) (pr := .sels l') hbs a1
  refine ⟨⟨rsp, .sels l', some b'⟩, s2, ⟨k1 + k2 + 1, fun n hn => ?_⟩, ?_, a2⟩
  · obtain ⟨n, rfl⟩ : ∃ m, n = m + 1 := ⟨n - 1, by omega⟩
    unfold parseQualifiedRule
    prun []
    rw [ruleLoop_prelude (.inl hcur), if_neg (by simp)]
    prun [y1 n (by omega)]
    exact y2 n (by omega)
  · simp [QRule.bare, hl, hb, Prelude.bare, b1, b2]

/-- The first token of a keyframe rule. -/
theorem QRule.FrameShape.head {r : QRule} (h : r.FrameShape) :
    ∃ t u, r.toks = t :: u ∧ t.isWs = false ∧ (t.tok = .ident ∨ t.tok = .percentage) := by
  obtain ⟨⟨sp, k, hk, hkk⟩, b, hb, hbs⟩ := h
  unfold QRule.toks
  rw [hk]
  cases k with
  | pct _ v => exact ⟨.percentage v, _, rfl, rfl, .inr rfl⟩
  | ident _ v => exact ⟨.ident v, _, rfl, rfl, .inl rfl⟩

omit [Spelling] in
theorem keyframe_reread {k : KSel} (hk : ∀ sp v, k = .ident sp v → v = b!"from" ∨ v = b!"to") {s : St} {ts : List PTok}
    {w : Bytes} (a : At false s (k.toks ++ (padToks w ++ (.punct 123 :: ts)))) :
    ∃ sp k' s', Yields parseKeyframeSelectorList s (.keyframes sp [k']) s' ∧ k'.bare = k.bare ∧ At false s' (.punct 123 :: ts) := by
  have hsk : skipWs false (padToks w ++ (.punct 123 :: ts)) = .punct 123 :: ts := by
    rcases padToks_cases w with e | e <;> rw [e] <;> rfl
  cases k with
  | pct _ v =>
    have a : At false s (.percentage v :: (padToks w ++ (.punct 123 :: ts))) := a
    obtain ⟨s1, n1, a1⟩ := a.next
    rw [hsk] at a1
    refine ⟨⟨s.lex.start, s.lex.lastPos⟩, .pct ⟨s.lex.start, s.lex.lastPos⟩ v, s1, ⟨1, fun n hn => ?_⟩, rfl, a1⟩
    obtain ⟨n, rfl⟩ : ∃ m, n = m + 1 := ⟨n - 1, by omega⟩
    have hc : s.lex.cur = .percentage := a.cur
    have hc1 : s1.lex.cur = .lcurly := a1.cur
    unfold parseKeyframeSelectorList
    rw [ksLoop]
    prun [hc, n1, a.num rfl, hc1]
    rfl
  | ident _ v =>
    have a : At false s (.ident v :: (padToks w ++ (.punct 123 :: ts))) := a
    obtain ⟨s1, n1, a1⟩ := a.next
    rw [hsk] at a1
    refine ⟨⟨s.lex.start, s.lex.lastPos⟩, .ident ⟨s.lex.start, s.lex.lastPos⟩ v, s1, ⟨1, fun n hn => ?_⟩, rfl, a1⟩
    obtain ⟨n, rfl⟩ : ∃ m, n = m + 1 := ⟨n - 1, by omega⟩
    have hc : s.lex.cur = .ident := a.cur
    have hc1 : s1.lex.cur = .lcurly := a1.cur
    have hv := hk _ v rfl
    unfold parseKeyframeSelectorList
    rw [ksLoop]
    prun [hc, n1, a.str rfl, hc1]
    rcases hv with rfl | rfl <;> rfl

/-- A rule of `@keyframes`. -/
theorem frame_reread {r : QRule} (h : r.FrameShape) {s : St} {ts : List PTok} (a : At false s (r.toks ++ ts)) :
    ∃ r' s', Yields (parseQualifiedRule true) s r' s' ∧ r'.bare = r.bare ∧ At false s' (skipWs false ts) := by
  have hcur : isSelTok s.lex.cur = true ∨ s.lex.cur = .percentage := by
    obtain ⟨t, u, e, _, e3⟩ := h.head
    have a := a
    rw [e] at a
    rw [a.cur]
    exact e3.imp (fun e => by rw [e]; rfl) id
  obtain ⟨⟨sp, k, hk, hkk⟩, b, hb, hbs⟩ := h
  rw [rule_toks hb, hk] at a
  have a : At false s (k.toks ++ (padToks (Spelling.trail sp) ++ (.punct 123 :: (declsToks b.decls ++ (.punct 125 :: ts))))) := by
    simpa [Prelude.toks] using a
  obtain ⟨ksp, k', s1, ⟨k1, y1⟩, b1, a1⟩ := keyframe_reread hkk a
  obtain ⟨rsp, b', s2, ⟨k2, y2⟩, b2, a2⟩ := ruleBlock_reread (kf := true) (sp := ⟨s.lex.start, s.lex.lastPos⟩)
    (pr := .keyframes ksp [k']) hbs a1
  refine ⟨⟨rsp, .keyframes ksp [k'], some b'⟩, s2, ⟨k1 + k2 + 1, fun n hn => ?_⟩, ?_, a2⟩
  · obtain ⟨n, rfl⟩ : ∃ m, n = m + 1 := ⟨n - 1, by omega⟩
    unfold parseQualifiedRule
    prun []
    rw [ruleLoop_prelude hcur, if_pos rfl]
    prun [y1 n (by omega)]
    exact y2 n (by omega)
  · simp [QRule.bare, hk, hb, Prelude.bare, b1, b2]

/-- The rules of a block, up to its closing brace. -/
theorem rules_reread {kf : Bool} (P : QRule → Prop)
    (head : ∀ r, P r → ∃ t u, r.toks = t :: u ∧ t.isWs = false ∧ t.tok ≠ .eof ∧ t.tok ≠ .rcurly)
    (read : ∀ r, P r → ∀ (s : St) (ts : List PTok), At false s (r.toks ++ ts) →
      ∃ r' s', Yields (parseQualifiedRule kf) s r' s' ∧ r'.bare = r.bare ∧ At false s' (skipWs false ts)) :
    ∀ (rs : List QRule), (∀ r ∈ rs, P r) → ∀ (s : St) (acc : List QRule) (ts : List PTok),
    At false s (rulesToks rs ++ (.punct 125 :: ts)) →
    ∃ rs' e s', Yields (rulesLoop kf · acc) s (acc ++ rs', e) s' ∧ rs'.map QRule.bare = rs.map QRule.bare ∧
      At false s' (skipWs false ts)
  | [], _, s, acc, ts, a => by
    have a : At false s (.punct 125 :: ts) := a
    obtain ⟨s1, n1, a1⟩ := a.next
    refine ⟨[], s.lex.lastPos, s1, ⟨1, fun n hn => ?_⟩, rfl, a1⟩
    obtain ⟨n, rfl⟩ : ∃ m, n = m + 1 := ⟨n - 1, by omega⟩
    have hc : s.lex.cur = .rcurly := a.cur
    beta_reduce
    rw [rulesLoop]
    prun [hc, n1]
    rw [List.append_nil]
  | r :: rs, hs, s, acc, ts, a => by
    rw [rulesToks, List.append_assoc] at a
    obtain ⟨t, u, e1, _, h1, h2⟩ := head r (hs r (by simp))
    have hc1 : s.lex.cur ≠ .eof ∧ s.lex.cur ≠ .rcurly := by
      have a := a
      rw [e1] at a
      rw [a.cur]; exact ⟨h1, h2⟩
    obtain ⟨r', s1, ⟨k1, y1⟩, b1, a1⟩ := read r (hs r (by simp)) s _ a
    have hsk : skipWs false (rulesToks rs ++ (.punct 125 :: ts)) = rulesToks rs ++ (.punct 125 :: ts) := by
      cases rs with
      | nil => rfl
      | cons r2 rs =>
        obtain ⟨t2, u2, e2, h3, _⟩ := head r2 (hs r2 (by simp))
        rw [rulesToks, e2]
        exact skipWs_cons h3
    rw [hsk] at a1
    obtain ⟨rs', e, s2, ⟨k2, y2⟩, b2, a2⟩ := rules_reread P head read rs (fun x hx => hs x (by simp [hx])) s1 (acc ++ [r']) ts a1
    refine ⟨r' :: rs', e, s2, ⟨k1 + k2 + 1, fun n hn => ?_⟩, by simp [b1, b2], a2⟩
    obtain ⟨n, rfl⟩ : ∃ m, n = m + 1 := ⟨n - 1, by omega⟩
    have h3 := y2 n (by omega)
    rw [List.append_assoc, List.singleton_append] at h3
    beta_reduce
    rw [rulesLoop]
    prun []
    cases hc : s.lex.cur <;> first | exact absurd hc hc1.1 | exact absurd hc hc1.2 |
      (prun [y1 n (by omega)]; exact h3)

end Cssc
