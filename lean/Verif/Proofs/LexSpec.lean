import Verif.Proofs.Cursor

/-!
# Specifications of the lexer's methods

Every method of the lexer, started in a state satisfying the position invariant, only moves the cursor
forward, never runs out of fuel and never slices out of range.
-/

namespace Cssc

set_option linter.unusedSimpArgs false

/-- The position invariant, after the first step over a non-empty text. -/
structure Good (s : St) : Prop where
  inv : Inv s
  pos : s.lex.pos ≠ 0

/-- `s'` is `s` with the cursor moved forward. -/
def Mov (s s' : St) : Prop := ∃ q, Fwd s.src s.lex.lastPos q ∧ s' = s.moveTo q

theorem Mov.refl {s : St} (h : Inv s) : Mov s s :=
  ⟨s.lex.lastPos, Fwd.refl h.le, (moveTo_self h).symm⟩

theorem Mov.trans {s s' s'' : St} (hi : Inv s) (h : Mov s s') (h' : Mov s' s'') : Mov s s'' := by
  obtain ⟨q, hq, rfl⟩ := h
  obtain ⟨r, hr, rfl⟩ := h'
  exact ⟨r, hq.trans hr, moveTo_moveTo hi hq hr⟩

theorem Mov.good {s s' : St} (h : Good s) (m : Mov s s') : Good s' := by
  obtain ⟨q, hq, rfl⟩ := m
  refine ⟨inv_moveTo hq.2.1, ?_⟩
  have := hq.2.2
  have := h.pos
  rw [h.inv.pos] at this
  show (curAt s.src q).2 ≠ 0
  omega

theorem Mov.le {s s' : St} (m : Mov s s') : s.lex.lastPos ≤ s'.lex.lastPos := by
  obtain ⟨q, hq, rfl⟩ := m
  exact hq.1

theorem Mov.src {s s' : St} (m : Mov s s') : s'.src = s.src := by
  obtain ⟨q, hq, rfl⟩ := m; rfl
theorem Mov.start {s s' : St} (m : Mov s s') : s'.lex.start = s.lex.start := by
  obtain ⟨q, hq, rfl⟩ := m; rfl
theorem Mov.str {s s' : St} (m : Mov s s') : s'.lex.str = s.lex.str := by
  obtain ⟨q, hq, rfl⟩ := m; rfl
theorem Mov.num {s s' : St} (m : Mov s s') : s'.lex.num = s.lex.num := by
  obtain ⟨q, hq, rfl⟩ := m; rfl
theorem Mov.cur {s s' : St} (m : Mov s s') : s'.lex.cur = s.lex.cur := by
  obtain ⟨q, hq, rfl⟩ := m; rfl
theorem Mov.retainWS {s s' : St} (m : Mov s s') : s'.lex.retainWS = s.lex.retainWS := by
  obtain ⟨q, hq, rfl⟩ := m; rfl
theorem Mov.retainComments {s s' : St} (m : Mov s s') :
    s'.lex.retainComments = s.lex.retainComments := by
  obtain ⟨q, hq, rfl⟩ := m; rfl

/-- The relation between the states before and after any lexer method: the cursor moves forward, the
text and the settings stay, and the line table grows by the line starts passed over. -/
structure Adv (s s' : St) : Prop where
  src : s'.src = s.src
  id : s'.id = s.id
  retainWS : s'.lex.retainWS = s.lex.retainWS
  retainComments : s'.lex.retainComments = s.lex.retainComments
  inv : Inv s'
  fwd : Fwd s.src s.lex.lastPos s'.lex.lastPos
  lines : s'.lines = s.lines ++ nls s.src s.lex.pos s'.lex.pos

theorem Mov.adv {s s' : St} (m : Mov s s') : Adv s s' := by
  obtain ⟨q, hq, rfl⟩ := m
  exact ⟨rfl, rfl, rfl, rfl, inv_moveTo hq.2.1, hq, rfl⟩

theorem Adv.refl {s : St} (h : Inv s) : Adv s s := (Mov.refl h).adv

theorem Adv.le {s s' : St} (a : Adv s s') : s.lex.lastPos ≤ s'.lex.lastPos := a.fwd.1

theorem Adv.trans {s s' s'' : St} (hi : Inv s) (h : Adv s s') (h' : Adv s' s'') : Adv s s'' where
  src := h'.src.trans h.src
  id := h'.id.trans h.id
  retainWS := h'.retainWS.trans h.retainWS
  retainComments := h'.retainComments.trans h.retainComments
  inv := h'.inv
  fwd := h.fwd.trans (h.src ▸ h'.fwd)
  lines := by
    have f1 := h.fwd.2.2
    have f2 := h'.fwd.2.2
    rw [h.src] at f2
    rw [h'.lines, h.lines, h.src, List.append_assoc, nls_append]
    · rw [hi.pos, h.inv.pos, h.src]; exact f1
    · rw [h.inv.pos, h'.inv.pos, h'.src, h.src]; exact f2

theorem Adv.good {s s' : St} (h : Good s) (m : Adv s s') : Good s' := by
  refine ⟨m.inv, ?_⟩
  have h1 := m.fwd.2.2
  have h2 := h.pos
  rw [h.inv.pos] at h2
  rw [m.inv.pos, m.src]
  omega

/-- The states differ at most in the fields that describe the current token. -/
structure SameCursor (s s' : St) : Prop where
  src : s'.src = s.src
  lines : s'.lines = s.lines
  id : s'.id = s.id
  ch : s'.lex.ch = s.lex.ch
  pos : s'.lex.pos = s.lex.pos
  lastPos : s'.lex.lastPos = s.lex.lastPos
  retainWS : s'.lex.retainWS = s.lex.retainWS
  retainComments : s'.lex.retainComments = s.lex.retainComments

theorem SameCursor.inv {s s' : St} (h : SameCursor s s') (hi : Inv s) : Inv s' :=
  ⟨by rw [h.src, h.lastPos]; exact hi.le, by rw [h.ch, h.src, h.lastPos]; exact hi.ch,
    by rw [h.pos, h.src, h.lastPos]; exact hi.pos⟩

theorem SameCursor.good {s s' : St} (h : SameCursor s s') (hi : Good s) : Good s' :=
  ⟨h.inv hi.inv, by rw [h.pos]; exact hi.pos⟩

theorem SameCursor.adv {s s' : St} (h : SameCursor s s') (hi : Inv s) : Adv s s' where
  src := h.src
  id := h.id
  retainWS := h.retainWS
  retainComments := h.retainComments
  inv := h.inv hi
  fwd := by rw [h.lastPos]; exact Fwd.refl hi.le
  lines := by rw [h.lines, h.pos, nls_self, List.append_nil]

/-- Requirements on the abnormal outcomes of a lexer method: errors carry the span from the token's
start to the cursor; there is no crash and no timeout. -/
def SX (s : St) : Exc where
  err e s' := Adv s s' ∧ s'.lex.start = s.lex.start ∧ e.span = ⟨s'.lex.start, s'.lex.lastPos⟩
  crash _ := False
  timeout := False

/-- The abnormal outcomes of a method started after some other method. -/
theorem SX.lift {s s' : St} (hi : Inv s) (a : Adv s s') (hs : s'.lex.start = s.lex.start)
    {m : P α} {Q : α → St → Prop} (h : wp m Q (SX s') s') : wp m Q (SX s) s' :=
  wp_conseq h (fun _ _ h => h)
    (fun _ _ h => ⟨a.trans hi h.1, h.2.1.trans hs, h.2.2⟩) (fun _ h => h) id

theorem wp_step {s : St} (h : Good s) {Q : Unit → St → Prop} {X : Exc} :
    wp step Q X s = Q () (s.moveTo s.lex.pos) := by
  unfold wp; rw [step_eq h.inv h.pos]

theorem mov_step {s : St} (h : Inv s) : Mov s (s.moveTo s.lex.pos) :=
  ⟨s.lex.pos, by rw [h.pos]; exact Fwd.step h.le, rfl⟩

theorem step_spec {s : St} (h : Good s) {X : Exc} :
    wp step (fun _ s' => Mov s s' ∧ (s.lex.ch ≠ -1 → s.lex.lastPos < s'.lex.lastPos)) X s := by
  rw [wp_step h]
  exact ⟨mov_step h.inv, fun hc => h.inv.lt_of_ne hc⟩

/-- Sequencing of cursor movements. -/
theorem wp_seq_mov {s : St} (hi : Inv s) {m : P α} {f : α → P β} {Q : β → St → Prop}
    {R : α → St → Prop}
    (h : wp m (fun a s' => Mov s s' ∧ R a s') (SX s) s)
    (hf : ∀ a s', Mov s s' → R a s' → wp (f a) Q (SX s') s') : wp (m >>= f) Q (SX s) s := by
  rw [wp_bind]
  refine wp_mono h fun a s' ⟨hm, hr⟩ => ?_
  exact SX.lift hi hm.adv hm.start (hf a s' hm hr)

theorem digit_ne {c : Int} (h : isDigit c = true) : c ≠ -1 := by
  rintro rfl; revert h; decide
theorem hex_ne {c : Int} (h : isHexDigit c = true) : c ≠ -1 := by
  rintro rfl; revert h; decide
theorem ws_ne {c : Int} (h : isWhitespace c = true) : c ≠ -1 := by
  rintro rfl; revert h; decide
theorem name_ne {c : Int} (h : isName c = true) : c ≠ -1 := by
  rintro rfl; revert h; decide
theorem nameStart_ne {c : Int} (h : isNameStart c = true) : c ≠ -1 := by
  rintro rfl; revert h; decide
theorem escape_ne {c d : Int} (h : startsEscape c d = true) : c = r!"\\" := by
  unfold startsEscape at h
  split at h
  · cases h
  · rename_i hc; simpa using hc

theorem digitsLoop_spec : ∀ (n : Nat) (s : St), Good s → s.src.length < n + s.lex.lastPos →
    wp (digitsLoop n) (fun _ s' => Mov s s') (SX s) s
  | 0, s, h, hn => by have := h.inv.le; omega
  | n + 1, s, h, hn => by
    simp only [digitsLoop, wp_bind, wp_getCh]
    refine wp_ite (fun hc => ?_) (fun _ => Mov.refl h.inv)
    refine wp_seq_mov h.inv (step_spec h) fun _ s' hm hr => ?_
    have hlt := hr (digit_ne hc)
    refine wp_mono (digitsLoop_spec n s' (hm.good h) (by rw [hm.src]; omega)) fun _ s'' hm' => ?_
    exact hm.trans h.inv hm'

theorem wsLoop_spec : ∀ (n : Nat) (s : St), Good s → s.src.length < n + s.lex.lastPos →
    wp (wsLoop n) (fun _ s' => Mov s s' ∧
      (isWhitespace s.lex.ch → s.lex.lastPos < s'.lex.lastPos)) (SX s) s
  | 0, s, h, hn => by have := h.inv.le; omega
  | n + 1, s, h, hn => by
    simp only [wsLoop, wp_bind, wp_getCh]
    refine wp_ite (fun hc => ?_) (fun hc => ⟨Mov.refl h.inv, fun h => absurd h hc⟩)
    refine wp_seq_mov h.inv (step_spec h) fun _ s' hm hr => ?_
    have hlt := hr (ws_ne hc)
    refine wp_mono (wsLoop_spec n s' (hm.good h) (by rw [hm.src]; omega)) fun _ s'' hm' => ?_
    exact ⟨hm.trans h.inv hm'.1, fun _ => Nat.lt_of_lt_of_le hlt hm'.1.le⟩

theorem urlWsLoop_spec : ∀ (n : Nat) (s : St), Good s →
    wp (urlWsLoop n) (fun _ s' => Mov s s') (SX s) s
  | 0, s, h => by simp only [urlWsLoop, wp_pure]; exact Mov.refl h.inv
  | n + 1, s, h => by
    simp only [urlWsLoop, wp_bind, wp_getCh]
    refine wp_ite (fun hc => ?_) (fun _ => Mov.refl h.inv)
    refine wp_seq_mov h.inv (step_spec h) fun _ s' hm hr => ?_
    refine wp_mono (urlWsLoop_spec n s' (hm.good h)) fun _ s'' hm' => ?_
    exact hm.trans h.inv hm'

theorem escapedLoop_spec : ∀ (n : Nat) (s : St), Good s →
    wp (escapedLoop n) (fun _ s' => Mov s s') (SX s) s
  | 0, s, h => by simp only [escapedLoop, wp_pure]; exact Mov.refl h.inv
  | n + 1, s, h => by
    simp only [escapedLoop, wp_bind, wp_getCh]
    refine wp_ite (fun hc => ?_) (fun _ => Mov.refl h.inv)
    refine wp_seq_mov h.inv (step_spec h) fun _ s' hm hr => ?_
    have g' := hm.good h
    simp only [wp_bind, wp_getCh]
    refine wp_whenP (fun hc => ?_) (fun hc => ?_)
    · rw [wp_step g']
      have hm1 := mov_step g'.inv
      refine SX.lift g'.inv hm1.adv hm1.start (wp_mono (escapedLoop_spec n _ (hm1.good g')) fun _ s'' hm' => ?_)
      exact hm.trans h.inv (hm1.trans g'.inv hm')
    · refine wp_mono (escapedLoop_spec n s' g') fun _ s'' hm' => ?_
      exact hm.trans h.inv hm'

theorem nextEscaped_spec {s : St} (h : Good s) :
    wp nextEscaped (fun _ s' => Mov s s' ∧ (s.lex.ch ≠ -1 → s.lex.lastPos < s'.lex.lastPos)) (SX s) s := by
  refine wp_seq_mov h.inv (step_spec h) fun _ s' hm hr => ?_
  refine wp_mono (escapedLoop_spec 5 s' (hm.good h)) fun _ s'' hm' => ?_
  exact ⟨hm.trans h.inv hm', fun hc => Nat.lt_of_lt_of_le (hr hc) hm'.le⟩

theorem nameLoop_spec : ∀ (n : Nat) (s : St), Good s → s.src.length < n + s.lex.lastPos →
    wp (nameLoop n) (fun _ s' => Mov s s' ∧
      (isName s.lex.ch ∨ startsEscape s.lex.ch (s.peek 0) → s.lex.lastPos < s'.lex.lastPos)) (SX s) s
  | 0, s, h, hn => by have := h.inv.le; omega
  | n + 1, s, h, hn => by
    simp only [nameLoop, wp_bind, wp_getCh]
    refine wp_ite (fun hc => ?_) (fun hc => ?_)
    · refine wp_seq_mov h.inv (step_spec h) fun _ s' hm hr => ?_
      have hlt := hr (name_ne hc)
      refine wp_mono (nameLoop_spec n s' (hm.good h) (by rw [hm.src]; omega)) fun _ s'' hm' => ?_
      exact ⟨hm.trans h.inv hm'.1, fun _ => Nat.lt_of_lt_of_le hlt hm'.1.le⟩
    · simp only [wp_bind, wp_peek]
      refine wp_ite (fun he => ?_) (fun he => ⟨Mov.refl h.inv, fun ho => absurd ho (by simp_all)⟩)
      refine wp_seq_mov h.inv (nextEscaped_spec h) fun _ s' hm hr => ?_
      have hlt := hr (by rw [escape_ne he]; decide)
      refine wp_mono (nameLoop_spec n s' (hm.good h) (by rw [hm.src]; omega)) fun _ s'' hm' => ?_
      exact ⟨hm.trans h.inv hm'.1, fun _ => Nat.lt_of_lt_of_le hlt hm'.1.le⟩

theorem nextName_spec {s : St} (h : Good s) :
    wp nextName (fun _ s' => Mov s s' ∧
      (isName s.lex.ch ∨ startsEscape s.lex.ch (s.peek 0) → s.lex.lastPos < s'.lex.lastPos)) (SX s) s := by
  simp only [nextName, wp_bind, wp_lexFuel]
  exact nameLoop_spec _ s h (by omega)

theorem wp_seq {s : St} {m : P α} {f : α → P β} {Q : β → St → Prop} {R : α → St → Prop} {X : Exc}
    (h : wp m R X s) (hf : ∀ a s', R a s' → wp (f a) Q X s') : wp (m >>= f) Q X s := by
  rw [wp_bind]
  exact wp_mono h hf

theorem Adv.src_le {s s' : St} (a : Adv s s') : s'.lex.lastPos ≤ s.src.length := a.fwd.2.1

theorem digitsLoop_spec' {n : Nat} {s : St} (h : Good s) (hn : s.src.length < n + s.lex.lastPos) :
    wp (digitsLoop n) (fun _ s' => Mov s s' ∧
      (isDigit s.lex.ch → s.lex.lastPos < s'.lex.lastPos)) (SX s) s := by
  cases n with
  | zero => have := h.inv.le; omega
  | succ n =>
    simp only [digitsLoop, wp_bind, wp_getCh]
    refine wp_ite (fun hc => ?_) (fun hc => ⟨Mov.refl h.inv, fun h => absurd h hc⟩)
    refine wp_seq_mov h.inv (step_spec h) fun _ s' hm hr => ?_
    have hlt := hr (digit_ne hc)
    refine wp_mono (digitsLoop_spec n s' (hm.good h) (by rw [hm.src]; omega)) fun _ s'' hm' => ?_
    exact ⟨hm.trans h.inv hm', fun _ => Nat.lt_of_lt_of_le hlt hm'.le⟩

theorem whenP_mov {c : Prop} [Decidable c] {m : P Unit} {s : St} (h : Good s)
    (hm : c → wp m (fun _ s' => Mov s s' ∧ s.lex.lastPos < s'.lex.lastPos) (SX s) s) :
    wp (whenP c m) (fun _ s' => Mov s s' ∧ ((c ∧ s.lex.lastPos < s'.lex.lastPos) ∨ (¬ c ∧ s' = s)))
      (SX s) s :=
  wp_whenP (fun hc => wp_mono (hm hc) fun _ _ h' => ⟨h'.1, .inl ⟨hc, h'.2⟩⟩)
    (fun hc => ⟨Mov.refl h.inv, .inr ⟨hc, rfl⟩⟩)

theorem step_ne {s : St} (h : Good s) {X : Exc} (hc : s.lex.ch ≠ -1) :
    wp step (fun _ s' => Mov s s' ∧ s.lex.lastPos < s'.lex.lastPos) X s :=
  wp_mono (step_spec h) fun _ _ h' => ⟨h'.1, h'.2 hc⟩

theorem sign_step {s : St} (h : Good s) :
    wp (whenP (s.lex.ch = r!"+" ∨ s.lex.ch = r!"-") step) (fun _ s' => Mov s s' ∧
      (((s.lex.ch = r!"+" ∨ s.lex.ch = r!"-") ∧ s.lex.lastPos < s'.lex.lastPos) ∨
        (¬ (s.lex.ch = r!"+" ∨ s.lex.ch = r!"-") ∧ s' = s))) (SX s) s :=
  whenP_mov h fun hc => step_ne h (by rcases hc with hc | hc <;> rw [hc] <;> decide)

theorem nextNumber_spec {s : St} (h : Good s) :
    wp nextNumber (fun _ s' => Mov s s' ∧
      (startsNumber s.lex.ch (s.peek 0) (s.peek 1) → s.lex.lastPos < s'.lex.lastPos)) (SX s) s := by
  rw [nextNumber]
  wpb
  -- the sign
  refine wp_seq_mov h.inv (sign_step h) ?_
  intro _ s1 m1 r1
  have g1 := m1.good h
  -- digits
  refine wp_seq_mov g1.inv (digitsLoop_spec' g1 (by rw [m1.src]; have := g1.inv.le; omega)) ?_
  intro _ s2 m2 r2
  have g2 := m2.good g1
  have hlen : s2.src.length = s.src.length := by rw [m2.src, m1.src]
  wpb
  -- fraction
  refine wp_seq_mov (R := fun _ s' => _) g2.inv (whenP_mov g2 fun hc => ?_) ?_
  · refine wp_seq_mov g2.inv (step_spec g2) fun _ t hm hr => ?_
    have gt := hm.good g2
    refine wp_seq_mov gt.inv (step_spec gt) fun _ t' hm' _ => ?_
    have gt' := hm'.good gt
    refine wp_mono (digitsLoop_spec _ t' gt' (by rw [hm'.src, hm.src]; have := gt'.inv.le; omega)) ?_
    intro _ t'' hm''
    refine ⟨hm.trans g2.inv (hm'.trans gt.inv hm''), ?_⟩
    have := hr (by rw [hc.1]; decide)
    have := hm'.le
    have := hm''.le
    omega
  intro _ s3 m3 r3
  have g3 := m3.good g2
  wpb
  -- exponent
  refine wp_mono (wp_whenP (Q := fun _ s' => Mov s3 s') (fun hc => ?_) (fun _ => Mov.refl g3.inv)) ?_
  · refine wp_seq_mov g3.inv (step_spec g3) fun _ t hm hr => ?_
    have gt := hm.good g3
    wpb
    refine wp_seq_mov gt.inv (sign_step gt) ?_
    intro _ t1 hm1 _
    have gt1 := hm1.good gt
    refine wp_mono (digitsLoop_spec _ t1 gt1
      (by rw [hm1.src, hm.src, m3.src]; have := gt1.inv.le; omega)) fun _ t2 hm2 => ?_
    exact hm.trans g3.inv (hm1.trans gt.inv hm2)
  intro _ s4 m4
  refine ⟨m1.trans h.inv (m2.trans g1.inv (m3.trans g2.inv m4)), fun hs => ?_⟩
  have l1 := m1.le
  have l2 := m2.le
  have l3 := m3.le
  have l4 := m4.le
  rcases r1 with ⟨_, r1⟩ | ⟨hsign, rfl⟩
  · omega
  by_cases hd : isDigit s1.lex.ch
  · have := r2 hd; omega
  rcases r3 with ⟨_, r3⟩ | ⟨hfrac, rfl⟩
  · omega
  by_cases he : s1.lex.lastPos < s3.lex.lastPos
  · omega
  exfalso
  have hs2 : s3 = s1 := by
    obtain ⟨q, hq, rfl⟩ := m2
    have : q = s1.lex.lastPos := by
      have h1 := hq.1
      have h2 : (s1.moveTo q).lex.lastPos = q := rfl
      omega
    subst this
    exact moveTo_self h.inv
  subst hs2
  unfold startsNumber at hs
  rw [if_neg hsign] at hs
  simp only [Bool.not_eq_true] at hd
  rw [hd] at hs
  split at hs
  · rename_i hh; exact hfrac hh
  · simp at hs

/-! ### Token-level results -/

/-- `b` is a slice of the text between two offsets. -/
def SliceIn (src : Bytes) (a b : Nat) (t : Bytes) : Prop :=
  ∃ i j, a ≤ i ∧ i ≤ j ∧ j ≤ b ∧ t = sub src i j

/-- The tokens with a text that is part of them. -/
def isLit : Tok → Bool
  | .at | .hash | .functionStart | .url | .string => true
  | _ => false

/-- What is known of the current token of a state. -/
structure TokOk (s : St) : Prop where
  start_le : s.lex.start ≤ s.lex.lastPos
  ident : s.lex.cur = .ident → s.lex.str = sub s.src s.lex.start s.lex.lastPos
  delim : s.lex.cur = .delim → s.lex.str = sub s.src s.lex.start s.lex.lastPos
  number : s.lex.cur = .number → s.lex.num = sub s.src s.lex.start s.lex.lastPos
  dimension : s.lex.cur = .dimension →
    s.lex.num ++ s.lex.str = sub s.src s.lex.start s.lex.lastPos
  ws : s.lex.cur = .whitespace → s.lex.retainWS
  comment : s.lex.cur = .comment → s.lex.retainComments
  progress : s.lex.cur ≠ .eof → s.lex.cur ≠ .cdo → s.lex.cur ≠ .cdc →
    ¬ (s.lex.cur = .number ∧ s.lex.num = []) → s.lex.start < s.lex.lastPos
  eof : s.lex.cur = .eof → s.lex.start = s.src.length
  lit : isLit s.lex.cur = true → SliceIn s.src s.lex.start s.lex.lastPos s.lex.str
  pct : s.lex.cur = .percentage → SliceIn s.src s.lex.start s.lex.lastPos s.lex.num

/-- Relation between the states before and after one token: forward movement, a well-described token,
and literals that are slices of the text just passed, or still the old ones. -/
structure Tokd (s s' : St) : Prop where
  adv : Adv s s'
  start : s.lex.lastPos ≤ s'.lex.start
  tok : TokOk s'
  str : s'.lex.str = s.lex.str ∨ SliceIn s.src s.lex.lastPos s'.lex.lastPos s'.lex.str
  num : s'.lex.num = s.lex.num ∨ SliceIn s.src s.lex.lastPos s'.lex.lastPos s'.lex.num

/-- Requirements on the abnormal outcomes of `Next`. -/
def NX (s : St) : Exc where
  err e s' := Adv s s' ∧ s.lex.lastPos ≤ s'.lex.start ∧ s'.lex.start ≤ s'.lex.lastPos ∧
    e.span = ⟨s'.lex.start, s'.lex.lastPos⟩
  crash _ := False
  timeout := False

theorem sub_append (src : Bytes) {a b c : Nat} (h : a ≤ b) (h' : b ≤ c) :
    sub src a b ++ sub src b c = sub src a c := by
  unfold sub
  have e : c - a = (b - a) + (c - b) := by omega
  rw [e, List.take_add, List.drop_drop]
  congr 3
  omega

theorem sub_self (src : Bytes) (a : Nat) : sub src a a = [] := by simp [sub]

theorem startsIdentifier_name {a b c : Int} (h : startsIdentifier a b c = true) :
    isName a = true := by
  unfold startsIdentifier at h
  split at h
  · rename_i ha; subst ha; decide
  · split at h
    · cases h
    · exact h

/-- Consequence of `SX` for a later state. -/
theorem wp_seq_adv {s s1 : St} (hi : Inv s) (a : Adv s s1) (hs : s1.lex.start = s.lex.start)
    {m : P α} {f : α → P β} {Q : β → St → Prop} {R : α → St → Prop}
    (h : wp m R (SX s1) s1) (hf : ∀ a s', R a s' → wp (f a) Q (SX s) s') :
    wp (m >>= f) Q (SX s) s1 :=
  wp_seq (SX.lift hi a hs h) hf

theorem SliceIn.mk {src : Bytes} {a b i j : Nat} (h1 : a ≤ i) (h2 : i ≤ j) (h3 : j ≤ b) :
    SliceIn src a b (sub src i j) := ⟨i, j, h1, h2, h3, rfl⟩

theorem nextDelimToken_spec {s : St} (h : Good s) (hs : s.lex.start = s.lex.lastPos)
    (hc : s.lex.ch ≠ -1) :
    wp nextDelimToken (fun _ s' => Tokd s s' ∧ s'.lex.start = s.lex.start) (SX s) s := by
  rw [nextDelimToken]
  wpb
  refine wp_seq (step_ne h hc) fun _ s1 ⟨m1, lt1⟩ => ?_
  have g1 := m1.good h
  wpb
  rw [wpb_slice (s := { s1 with lex := { s1.lex with cur := .delim } }) m1.le g1.inv.le]
  wpb
  have sc : SameCursor s1 { s1 with lex := { s1.lex with
      cur := .delim, str := sub s1.src s.lex.lastPos s1.lex.lastPos } } := by
    constructor <;> rfl
  refine ⟨⟨m1.adv.trans h.inv (sc.adv g1.inv), ?_, ?_, ?_, ?_⟩, m1.start⟩
  · simp only [m1.start, hs]; omega
  · refine ⟨?_, ?_, ?_, ?_, ?_, ?_, ?_, ?_, ?_, ?_, ?_⟩ <;> simp only [m1.start, hs, reduceCtorEq, false_implies, implies_true, isLit, Bool.false_eq_true]
    · omega
    · omega
  · right
    simp only [m1.src]
    exact .mk (by omega) (by omega) (by omega)
  · left; exact m1.num

theorem nextNumericToken_spec {s : St} (h : Good s) (hs : s.lex.start = s.lex.lastPos) :
    wp nextNumericToken (fun _ s' => Tokd s s' ∧ s'.lex.start = s.lex.start) (SX s) s := by
  rw [nextNumericToken]
  wpb
  refine wp_seq (nextNumber_spec h) fun _ s1 ⟨m1, _⟩ => ?_
  have g1 := m1.good h
  have le1 := m1.le
  wpb
  rw [wpb_slice le1 g1.inv.le, wpb_setNum]
  generalize hs2 : ({ s1 with lex := { s1.lex with num := sub s1.src s.lex.lastPos s1.lex.lastPos } } : St) = s2
  have sc : SameCursor s1 s2 := by subst hs2; constructor <;> rfl
  have st2 : s2.lex.start = s.lex.start := by subst hs2; exact m1.start
  have str2 : s2.lex.str = s.lex.str := by subst hs2; exact m1.str
  have num2 : s2.lex.num = sub s.src s.lex.lastPos s1.lex.lastPos := by subst hs2; rw [← m1.src]
  have g2 := sc.good g1
  have a2 := m1.adv.trans h.inv (sc.adv g1.inv)
  have le2 : s2.lex.lastPos = s1.lex.lastPos := sc.lastPos
  wpb
  refine wp_ite (fun hid => ?_) fun hid => ?_
  · wpb
    refine wp_seq_adv h.inv a2 st2 (nextName_spec g2) fun _ s3 ⟨m3, lt3⟩ => ?_
    have g3 := m3.good g2
    have lt3 := lt3 (.inl (startsIdentifier_name hid))
    wpb
    rw [wpb_slice m3.le g3.inv.le]
    wpb
    generalize hs5 : ({ s3 with lex := { s3.lex with str := sub s3.src s2.lex.lastPos s3.lex.lastPos, cur := .dimension } } : St) = s5
    have sc5 : SameCursor s3 s5 := by subst hs5; constructor <;> rfl
    have st5 : s5.lex.start = s.lex.start := by subst hs5; exact m3.start.trans st2
    have lp5 : s5.lex.lastPos = s3.lex.lastPos := sc5.lastPos
    have src5 : s5.src = s.src := by rw [sc5.src, m3.src, a2.src]
    have str5 : s5.lex.str = sub s.src s2.lex.lastPos s3.lex.lastPos := by
      subst hs5; simp only [m3.src, a2.src]
    have num5 : s5.lex.num = sub s.src s.lex.lastPos s1.lex.lastPos := by
      subst hs5; exact m3.num.trans num2
    have cur5 : s5.lex.cur = .dimension := by subst hs5; rfl
    have a5 := a2.trans h.inv (m3.adv.trans g2.inv (sc5.adv g3.inv))
    refine ⟨⟨a5, by rw [st5, hs], ?_, ?_, ?_⟩, m3.start.trans st2⟩
    · refine ⟨?_, ?_, ?_, ?_, ?_, ?_, ?_, ?_, ?_, ?_, ?_⟩ <;>
        simp only [cur5, st5, hs, lp5, src5, reduceCtorEq, false_implies, implies_true, isLit, Bool.false_eq_true]
      · omega
      · intro _
        rw [num5, str5, le2, sub_append _ le1 (by omega)]
      · intros; omega
    · right; rw [str5]; exact .mk (by omega) (by omega) (by omega)
    · right; rw [num5]; exact .mk (by omega) (by omega) (by omega)
  · refine wp_ite (fun hpc => ?_) fun hpc => ?_
    · wpb
      generalize hs3 : ({ s2 with lex := { s2.lex with cur := .percentage } } : St) = s3
      have sc3 : SameCursor s2 s3 := by subst hs3; constructor <;> rfl
      have g3 := sc3.good g2
      have st3 : s3.lex.start = s.lex.start := by subst hs3; exact st2
      have hc3 : s3.lex.ch ≠ -1 := by rw [sc3.ch, hpc]; decide
      have str3 : s3.lex.str = s.lex.str := by subst hs3; exact str2
      have num3 : s3.lex.num = sub s.src s.lex.lastPos s1.lex.lastPos := by subst hs3; exact num2
      have cur3 : s3.lex.cur = .percentage := by subst hs3; rfl
      have a3 := a2.trans h.inv (sc3.adv g2.inv)
      refine wp_mono (SX.lift h.inv a3 st3 (step_ne g3 hc3)) fun _ s4 ⟨m4, lt4⟩ => ?_
      have lp3 := sc3.lastPos
      refine ⟨⟨a3.trans h.inv m4.adv, by rw [m4.start, st3, hs], ?_, ?_, ?_⟩, m4.start.trans st3⟩
      · refine ⟨?_, ?_, ?_, ?_, ?_, ?_, ?_, ?_, ?_, ?_, ?_⟩ <;>
          simp only [m4.cur, cur3, m4.start, st3, hs, reduceCtorEq, false_implies, implies_true, isLit, Bool.false_eq_true]
        · omega
        · intros; omega
        · intro _
          rw [m4.num, num3, m4.src, a3.src]
          exact .mk (Nat.le_refl _) le1 (by omega)
      · left; exact m4.str.trans str3
      · right; rw [m4.num, num3]; exact .mk (by omega) (by omega) (by omega)
    · wpb
      generalize hs3 : ({ s2 with lex := { s2.lex with cur := .number } } : St) = s3
      have sc3 : SameCursor s2 s3 := by subst hs3; constructor <;> rfl
      have st3 : s3.lex.start = s.lex.start := by subst hs3; exact st2
      have str3 : s3.lex.str = s.lex.str := by subst hs3; exact str2
      have num3 : s3.lex.num = sub s.src s.lex.lastPos s1.lex.lastPos := by subst hs3; exact num2
      have cur3 : s3.lex.cur = .number := by subst hs3; rfl
      have a3 := a2.trans h.inv (sc3.adv g2.inv)
      have lp3 := sc3.lastPos
      refine ⟨⟨a3, by rw [st3, hs], ?_, ?_, ?_⟩, st2⟩
      · refine ⟨?_, ?_, ?_, ?_, ?_, ?_, ?_, ?_, ?_, ?_, ?_⟩ <;>
          simp only [cur3, num3, st3, hs, lp3, le2, a3.src, reduceCtorEq, false_implies, implies_true, isLit, Bool.false_eq_true, true_and]
        · omega
        · intro _ _ _ hne
          rcases Nat.lt_or_eq_of_le le1 with hlt | heq
          · exact hlt
          · rw [← heq, sub_self] at hne; exact absurd rfl hne
      · left; exact str3
      · right; rw [num3]; exact .mk (by omega) (by omega) (by omega)

theorem urlLoop_spec (u : Nat) : ∀ (n : Nat) (s : St), Good s → u ≤ s.lex.lastPos →
    s.src.length < n + s.lex.lastPos →
    wp (urlLoop u n) (fun _ s' => Adv s s' ∧ s'.lex.start = s.lex.start ∧ s'.lex.cur = s.lex.cur ∧
      s'.lex.num = s.lex.num ∧ s.lex.lastPos < s'.lex.lastPos ∧
      SliceIn s.src u s'.lex.lastPos s'.lex.str) (SX s) s
  | 0, s, h, _, hn => by have := h.inv.le; omega
  | n + 1, s, h, hu, hn => by
    have again : ∀ s', Mov s s' → s.lex.lastPos < s'.lex.lastPos →
        wp (urlLoop u n) (fun _ s' => Adv s s' ∧ s'.lex.start = s.lex.start ∧ s'.lex.cur = s.lex.cur ∧
          s'.lex.num = s.lex.num ∧ s.lex.lastPos < s'.lex.lastPos ∧
          SliceIn s.src u s'.lex.lastPos s'.lex.str) (SX s) s' := by
      intro s' m hlt
      refine SX.lift h.inv m.adv m.start (wp_mono
        (urlLoop_spec u n s' (m.good h) (by omega) (by rw [m.src]; omega)) fun _ s'' hh => ?_)
      obtain ⟨h1, h2, h3, h4, h5, h6⟩ := hh
      refine ⟨m.adv.trans h.inv h1, h2.trans m.start, h3.trans m.cur, h4.trans m.num, by omega, ?_⟩
      rw [m.src] at h6; exact h6
    have serr : (SX s).err ⟨"unexpected EOF", ⟨s.lex.start, s.lex.lastPos⟩⟩ s ∧
        (SX s).err ⟨"unexpected token: %c", ⟨s.lex.start, s.lex.lastPos⟩⟩ s :=
      ⟨⟨Adv.refl h.inv, rfl, rfl⟩, ⟨Adv.refl h.inv, rfl, rfl⟩⟩
    simp only [urlLoop]
    wpb
    refine wp_ite (fun hc => ?_) fun _ => wp_ite (fun _ => serr.1) fun hne => wp_ite (fun _ => serr.2) fun _ =>
      wp_ite (fun hc => ?_) fun _ => wp_ite (fun hc => ?_) fun _ => wp_ite (fun _ => serr.2) fun _ => ?_
    · wpb
      rw [wpb_slice hu h.inv.le]
      wpb
      generalize hs2 : ({ s with lex := { s.lex with str := sub s.src u s.lex.lastPos } } : St) = s2
      have sc : SameCursor s s2 := by subst hs2; constructor <;> rfl
      have g2 := sc.good h
      have hc2 : s2.lex.ch ≠ -1 := by rw [sc.ch, hc]; decide
      have lp := sc.lastPos
      refine wp_mono (step_ne g2 hc2) fun _ s3 ⟨m3, lt3⟩ => ?_
      refine ⟨(sc.adv h.inv).trans h.inv m3.adv, ?_, ?_, ?_, by omega, ?_⟩
      · rw [m3.start]; subst hs2; rfl
      · rw [m3.cur]; subst hs2; rfl
      · rw [m3.num]; subst hs2; rfl
      · rw [m3.str]; subst hs2; exact .mk (by omega) hu (by simp only at lt3; omega)
    · wpb
      refine wp_ite (fun he => ?_) fun _ => serr.2
      refine wp_seq (nextEscaped_spec h) fun _ s' ⟨m, hr⟩ => again s' m (hr hne)
    · exact wp_seq (step_ne h hne) fun _ s' ⟨m, hr⟩ => again s' m hr
    · exact wp_seq (step_ne h hne) fun _ s' ⟨m, hr⟩ => again s' m hr

theorem commentLoop_spec : ∀ (n : Nat) (s : St), Good s → s.src.length < n + s.lex.lastPos →
    wp (commentLoop n) (fun e s' => Mov s s' ∧ s.lex.lastPos ≤ e ∧ e < s'.lex.lastPos) (SX s) s
  | 0, s, h, hn => by have := h.inv.le; omega
  | n + 1, s, h, hn => by
    have again : ∀ s', Mov s s' → s.lex.lastPos < s'.lex.lastPos →
        wp (commentLoop n) (fun e s' => Mov s s' ∧ s.lex.lastPos ≤ e ∧ e < s'.lex.lastPos) (SX s) s' := by
      intro s' m hlt
      refine SX.lift h.inv m.adv m.start (wp_mono
        (commentLoop_spec n s' (m.good h) (by rw [m.src]; omega)) fun e s'' hh => ?_)
      exact ⟨m.trans h.inv hh.1, by omega, hh.2.2⟩
    simp only [commentLoop]
    wpb
    refine wp_ite (fun hc => ?_) fun _ => wp_ite (fun _ => ⟨Adv.refl h.inv, rfl, rfl⟩) fun hne => ?_
    · wpb
      refine wp_seq (step_ne h (by rw [hc]; decide)) fun _ s1 ⟨m1, lt1⟩ => ?_
      wpb
      refine wp_ite (fun hc1 => ?_) fun _ => again s1 m1 lt1
      have g1 := m1.good h
      refine wp_seq (step_ne g1 (by rw [hc1]; decide)) fun _ s2 ⟨m2, lt2⟩ => ?_
      exact ⟨m1.trans h.inv m2, by omega, by omega⟩
    · exact wp_seq (step_ne h hne) fun _ s1 ⟨m1, lt1⟩ => again s1 m1 lt1

theorem stringLoop_spec (mark : Int) (hmark : mark ≠ -1) : ∀ (n : Nat) (s : St), Good s →
    s.src.length < n + s.lex.lastPos →
    wp (stringLoop mark n) (fun e s' => Mov s s' ∧ s.lex.lastPos ≤ e ∧ e < s'.lex.lastPos) (SX s) s
  | 0, s, h, hn => by have := h.inv.le; omega
  | n + 1, s, h, hn => by
    have again : ∀ s', Mov s s' → s.lex.lastPos < s'.lex.lastPos →
        wp (stringLoop mark n) (fun e s' => Mov s s' ∧ s.lex.lastPos ≤ e ∧ e < s'.lex.lastPos)
          (SX s) s' := by
      intro s' m hlt
      refine SX.lift h.inv m.adv m.start (wp_mono
        (stringLoop_spec mark hmark n s' (m.good h) (by rw [m.src]; omega)) fun e s'' hh => ?_)
      exact ⟨m.trans h.inv hh.1, by omega, hh.2.2⟩
    have herr : ∀ (msg : String) s', Mov s s' → (SX s).err ⟨msg, ⟨s'.lex.start, s'.lex.lastPos⟩⟩ s' :=
      fun msg s' m => ⟨m.adv, m.start, rfl⟩
    simp only [stringLoop]
    wpb
    refine wp_ite (fun hc => ?_) fun _ => wp_ite (fun _ => herr _ _ (Mov.refl h.inv)) fun _ =>
      wp_ite (fun hc => ?_) fun _ => wp_ite (fun _ => herr _ _ (Mov.refl h.inv)) fun hne => ?_
    · wpb
      refine wp_seq (step_ne h (by rw [hc]; exact hmark)) fun _ s1 ⟨m1, lt1⟩ => ?_
      exact ⟨m1, by omega, by omega⟩
    · refine wp_seq (step_ne h (by rw [hc]; decide)) fun _ s1 ⟨m1, lt1⟩ => ?_
      have g1 := m1.good h
      wpb
      refine wp_ite (fun hc1 => ?_) fun _ => wp_ite (fun _ => herr _ _ m1) fun hne1 =>
        wp_ite (fun _ => ?_) fun _ => again s1 m1 lt1
      · refine wp_seq (step_ne g1 (by rw [hc1]; decide)) fun _ s2 ⟨m2, lt2⟩ => ?_
        exact again s2 (m1.trans h.inv m2) (by omega)
      · refine wp_seq_adv h.inv m1.adv m1.start (nextEscaped_spec g1) fun _ s2 ⟨m2, lt2⟩ => ?_
        have := lt2 hne1
        exact again s2 (m1.trans h.inv m2) (by omega)
    · exact wp_seq (step_ne h hne) fun _ s1 ⟨m1, lt1⟩ => again s1 m1 lt1


/-- Build the token facts of a state whose token is neither a number nor the end. -/
theorem Tokd.of {s s' : St} (a : Adv s s') (hs : s'.lex.start = s.lex.lastPos)
    (hlt : s.lex.lastPos < s'.lex.lastPos)
    (hstr : (s'.lex.str = s.lex.str ∧ isLit s'.lex.cur = false) ∨
      SliceIn s.src s.lex.lastPos s'.lex.lastPos s'.lex.str)
    (hnum : s'.lex.num = s.lex.num)
    (ident : s'.lex.cur = .ident → s'.lex.str = sub s.src s.lex.lastPos s'.lex.lastPos)
    (delim : s'.lex.cur = .delim → s'.lex.str = sub s.src s.lex.lastPos s'.lex.lastPos)
    (number : s'.lex.cur ≠ .number ∧ s'.lex.cur ≠ .percentage) (dim : s'.lex.cur ≠ .dimension) (eof : s'.lex.cur ≠ .eof)
    (ws : s'.lex.cur = .whitespace → s.lex.retainWS)
    (comment : s'.lex.cur = .comment → s.lex.retainComments) : Tokd s s' where
  adv := a
  start := by omega
  str := hstr.imp And.left id
  num := .inl hnum
  tok :=
    { start_le := by omega
      ident := fun h => by rw [ident h, hs, a.src]
      delim := fun h => by rw [delim h, hs, a.src]
      number := fun h => absurd h number.1
      dimension := fun h => absurd h dim
      ws := fun h => by rw [a.retainWS]; exact ws h
      comment := fun h => by rw [a.retainComments]; exact comment h
      progress := fun _ _ _ _ => by omega
      eof := fun h => absurd h eof
      lit := fun h => by
        rcases hstr with ⟨_, h'⟩ | h'
        · rw [h] at h'; cases h'
        · rw [hs, a.src]; exact h'
      pct := fun h => absurd h number.2 }

theorem nextIdentLikeToken_spec {s : St} (h : Good s) (hs : s.lex.start = s.lex.lastPos)
    (hn : isName s.lex.ch ∨ startsEscape s.lex.ch (s.peek 0)) :
    wp nextIdentLikeToken (fun _ s' => Tokd s s' ∧ s'.lex.start = s.lex.start) (SX s) s := by
  rw [nextIdentLikeToken]
  wpb
  refine wp_seq (nextName_spec h) fun _ s1 ⟨m1, lt1⟩ => ?_
  have g1 := m1.good h
  have lt1 := lt1 hn
  wpb
  rw [wpb_slice m1.le g1.inv.le, wpb_setStr]
  generalize hs2 : ({ s1 with lex := { s1.lex with str := sub s1.src s.lex.lastPos s1.lex.lastPos } } : St) = s2
  have sc : SameCursor s1 s2 := by subst hs2; constructor <;> rfl
  have st2 : s2.lex.start = s.lex.start := by subst hs2; exact m1.start
  have num2 : s2.lex.num = s.lex.num := by subst hs2; exact m1.num
  have str2 : s2.lex.str = sub s.src s.lex.lastPos s1.lex.lastPos := by subst hs2; rw [← m1.src]
  have g2 := sc.good g1
  have a2 := m1.adv.trans h.inv (sc.adv g1.inv)
  have le2 : s2.lex.lastPos = s1.lex.lastPos := sc.lastPos
  wpb
  refine wp_ite (fun hu => ?_) fun _ => wp_ite (fun hc => ?_) fun _ => ?_
  · refine wp_seq_adv h.inv a2 st2 (step_ne g2 (by rw [hu.2]; decide)) fun _ s3 ⟨m3, lt3⟩ => ?_
    have g3 := m3.good g2
    have a3 := a2.trans h.inv m3.adv
    have st3 := m3.start.trans st2
    wpb
    refine wp_seq_adv h.inv a3 st3 (urlWsLoop_spec _ s3 g3) fun _ s4 m4 => ?_
    have g4 := m4.good g3
    have a4 := a3.trans h.inv m4.adv
    have st4 := m4.start.trans st3
    have le4 := m4.le
    have str4 : s4.lex.str = sub s.src s.lex.lastPos s1.lex.lastPos := by rw [m4.str, m3.str, str2]
    have num4 : s4.lex.num = s.lex.num := by rw [m4.num, m3.num, num2]
    wpb
    refine wp_ite (fun hq => ?_) fun _ => ?_
    · have sc5 : SameCursor s4 { s4 with lex := { s4.lex with cur := .functionStart } } := by
        constructor <;> rfl
      refine ⟨Tokd.of (a4.trans h.inv (sc5.adv g4.inv)) (st4.trans hs) ?_ ?_ num4 ?_ ?_ ?_ ?_ ?_ ?_ ?_, st4⟩
      · simp only; omega
      · right; simp only [str4]; exact .mk (by omega) (by omega) (by omega)
      all_goals simp only [reduceCtorEq, false_implies, ne_eq, not_false_eq_true, and_self]
    · wpb
      generalize hs5 : ({ s4 with lex := { s4.lex with cur := .url } } : St) = s5
      have sc5 : SameCursor s4 s5 := by subst hs5; constructor <;> rfl
      have g5 := sc5.good g4
      have a5 := a4.trans h.inv (sc5.adv g4.inv)
      have st5 : s5.lex.start = s.lex.start := by subst hs5; exact st4
      have cur5 : s5.lex.cur = .url := by subst hs5; rfl
      have num5 : s5.lex.num = s.lex.num := by subst hs5; exact num4
      have le5 := sc5.lastPos
      refine wp_mono (SX.lift h.inv a5 st5 (urlLoop_spec _ _ s5 g5 (by omega) (by rw [sc5.src]; omega))) ?_
      intro _ s6 ⟨h1, h2, h3, h4, h5, h6⟩
      have hcur6 := h3.trans cur5
      refine ⟨Tokd.of (a5.trans h.inv h1) (h2.trans (st5.trans hs)) (by omega) ?_ (h4.trans num5)
        ?_ ?_ ?_ ?_ ?_ ?_ ?_, h2.trans st5⟩
      · right
        obtain ⟨i, j, hi, hij, hj, e⟩ := h6
        exact ⟨i, j, by omega, hij, hj, by rw [e, a5.src]⟩
      all_goals simp only [hcur6, reduceCtorEq, false_implies, ne_eq, not_false_eq_true, and_self]
  · refine wp_seq_adv h.inv a2 st2 (step_ne g2 (by rw [hc]; decide)) fun _ s3 ⟨m3, lt3⟩ => ?_
    have g3 := m3.good g2
    have a3 := a2.trans h.inv m3.adv
    have st3 := m3.start.trans st2
    wpb
    have sc5 : SameCursor s3 { s3 with lex := { s3.lex with cur := .functionStart } } := by
      constructor <;> rfl
    refine ⟨Tokd.of (a3.trans h.inv (sc5.adv g3.inv)) (st3.trans hs) ?_ ?_ (m3.num.trans num2)
      ?_ ?_ ?_ ?_ ?_ ?_ ?_, st3⟩
    · simp only; omega
    · right; simp only [m3.str, str2]; exact .mk (by omega) (by omega) (by omega)
    all_goals simp only [reduceCtorEq, false_implies, ne_eq, not_false_eq_true, and_self]
  · wpb
    have sc5 : SameCursor s2 { s2 with lex := { s2.lex with cur := .ident } } := by
      constructor <;> rfl
    refine ⟨Tokd.of (a2.trans h.inv (sc5.adv g2.inv)) (st2.trans hs) ?_ ?_ num2
      ?_ ?_ ?_ ?_ ?_ ?_ ?_, st2⟩
    · simp only; omega
    · right; simp only [str2]; exact .mk (by omega) (by omega) (by omega)
    · intro _; simp only [str2, le2]
    all_goals simp only [reduceCtorEq, false_implies, ne_eq, not_false_eq_true, and_self]

/-- A token of one rune. -/
theorem single_spec {s : St} (h : Good s) (hs : s.lex.start = s.lex.lastPos) (hc : s.lex.ch ≠ -1)
    (t : Tok) (ht : t = .semicolon ∨ t = .colon ∨ t = .comma ∨ t = .lparen ∨ t = .rparen ∨
      t = .lbracket ∨ t = .rbracket ∨ t = .lcurly ∨ t = .rcurly) :
    wp (do setCur t; step) (fun _ s' => Tokd s s' ∧ s'.lex.start = s.lex.start) (SX s) s := by
  wpb
  have sc : SameCursor s { s with lex := { s.lex with cur := t } } := by constructor <;> rfl
  refine wp_mono (SX.lift h.inv (sc.adv h.inv) rfl (step_ne (sc.good h) hc)) fun _ s1 ⟨m1, lt1⟩ => ?_
  simp only at lt1
  have hcur : s1.lex.cur = t := m1.cur
  have hlit : isLit s1.lex.cur = false := by
    rw [hcur]; rcases ht with rfl | rfl | rfl | rfl | rfl | rfl | rfl | rfl | rfl <;> rfl
  refine ⟨Tokd.of ((sc.adv h.inv).trans h.inv m1.adv) (m1.start.trans hs) lt1 (.inl ⟨m1.str, hlit⟩) m1.num
    ?_ ?_ ?_ ?_ ?_ ?_ ?_, m1.start⟩
  all_goals rcases ht with rfl | rfl | rfl | rfl | rfl | rfl | rfl | rfl | rfl <;>
    simp only [hcur, reduceCtorEq, false_implies, ne_eq, not_false_eq_true, and_self]

/-- `@name` and `#name`. -/
theorem sigil_spec {s : St} (h : Good s) (hs : s.lex.start = s.lex.lastPos)
    (t : Tok) (ht : t = .at ∨ t = .hash) {Q : Unit → St → Prop}
    (hQ : ∀ s', Tokd s s' → s'.lex.start = s.lex.start → Q () s') :
    ∀ s1, Adv s s1 → s1.lex.start = s.lex.start → s1.lex.cur = t → s1.lex.num = s.lex.num →
      s.lex.lastPos < s1.lex.lastPos →
      wp (do
        let start ← getLastPos
        nextName
        let e ← getLastPos
        setStr (← slice start e)) Q (SX s) s1 := by
  intro s1 a1 st1 cur1 num1 lt1
  have g1 := a1.good h
  wpb
  refine wp_seq_adv h.inv a1 st1 (nextName_spec g1) fun _ s2 ⟨m2, _⟩ => ?_
  have g2 := m2.good g1
  have le2 := m2.le
  wpb
  rw [wpb_slice m2.le g2.inv.le]
  wpb
  have sc : SameCursor s2 { s2 with lex := { s2.lex with str := sub s2.src s1.lex.lastPos s2.lex.lastPos } } := by
    constructor <;> rfl
  have hcur : s2.lex.cur = t := m2.cur.trans cur1
  have a2 := a1.trans h.inv m2.adv
  refine hQ _ (Tokd.of (a2.trans h.inv (sc.adv g2.inv)) ((m2.start.trans st1).trans hs) ?_ ?_
    (m2.num.trans num1) ?_ ?_ ?_ ?_ ?_ ?_ ?_) (m2.start.trans st1)
  · simp only; omega
  · right; simp only [a2.src]; exact .mk (by omega) (by omega) (by omega)
  all_goals rcases ht with rfl | rfl <;>
    simp only [hcur, reduceCtorEq, false_implies, ne_eq, not_false_eq_true, and_self]


/-- Tokens seen from a state that differs only in the current token. -/
theorem Tokd.of_same {s s0 s' : St} (h : Inv s) (sc : SameCursor s s0) (hstr : s0.lex.str = s.lex.str)
    (hnum : s0.lex.num = s.lex.num) (t : Tokd s0 s') : Tokd s s' where
  adv := (sc.adv h).trans h t.adv
  start := by have := t.start; rw [sc.lastPos] at this; exact this
  tok := t.tok
  str := by have := t.str; rwa [hstr, sc.src, sc.lastPos] at this
  num := by have := t.num; rwa [hnum, sc.src, sc.lastPos] at this

/-- Tokens after skipping something. -/
theorem Tokd.of_mov {s s0 s' : St} (h : Inv s) (a : Adv s s0)
    (hstr : s0.lex.str = s.lex.str ∨ SliceIn s.src s.lex.lastPos s0.lex.lastPos s0.lex.str)
    (hnum : s0.lex.num = s.lex.num) (t : Tokd s0 s') : Tokd s s' where
  adv := a.trans h t.adv
  start := Nat.le_trans a.le t.start
  tok := t.tok
  str := by
    have h1 := a.le
    have h2 := t.adv.le
    rcases t.str with e | ⟨i, j, hi, hij, hj, e⟩
    · rw [e]
      rcases hstr with e' | ⟨i, j, hi, hij, hj, e'⟩
      · exact .inl e'
      · exact .inr ⟨i, j, hi, hij, by omega, e'⟩
    · exact .inr ⟨i, j, by omega, hij, hj, by rw [e, a.src]⟩
  num := by
    have h1 := a.le
    rcases t.num with e | ⟨i, j, hi, hij, hj, e⟩
    · exact .inl (e.trans hnum)
    · exact .inr ⟨i, j, by omega, hij, hj, by rw [e, a.src]⟩

theorem nextLoop_spec : ∀ (n : Nat) (s : St), Inv s → s.src.length < n + s.lex.lastPos →
    wp (nextLoop n) (fun _ s' => Tokd s s') (NX s) s
  | 0, s, h, hn => by have := h.le; omega
  | n + 1, s, h, hn => by
    rw [nextLoop, wpb_modLex]
    generalize hs0 : ({ s with lex := { s.lex with start := s.lex.lastPos } } : St) = s0
    have sc : SameCursor s s0 := by subst hs0; constructor <;> rfl
    have st0 : s0.lex.start = s0.lex.lastPos := by subst hs0; rfl
    have str0 : s0.lex.str = s.lex.str := by subst hs0; rfl
    have num0 : s0.lex.num = s.lex.num := by subst hs0; rfl
    have i0 := sc.inv h
    have lp0 := sc.lastPos
    clear hs0
    -- reduce to s0
    have fin : ∀ (m : P Unit), wp m (fun _ s' => Tokd s0 s' ∧ s'.lex.start = s0.lex.start) (SX s0) s0 →
        wp m (fun _ s' => Tokd s s') (NX s) s0 := by
      intro m hm
      refine wp_conseq hm (fun _ s' hh => Tokd.of_same h sc str0 num0 hh.1)
        (fun e s' hh => ?_) (fun _ hh => hh) id
      refine ⟨(sc.adv h).trans h hh.1, ?_, ?_, hh.2.2⟩
      · rw [hh.2.1, st0, lp0]
      · have := hh.1.le
        rw [hh.2.1, st0]; exact this
    have toNX : ∀ {α : Type} {m : P α} {s1 : St} {Q : α → St → Prop}, wp m Q (SX s0) s1 → wp m Q (NX s) s1 := by
      intro α m s1 Q hm
      refine wp_conseq hm (fun _ _ hh => hh) (fun e s' hh => ?_) (fun _ hh => hh) id
      refine ⟨(sc.adv h).trans h hh.1, ?_, ?_, hh.2.2⟩
      · rw [hh.2.1, st0, lp0]
      · have := hh.1.le
        rw [hh.2.1, st0]; exact this
    have seqN : ∀ {α : Type} {m : P α} {f : α → P Unit} {R : α → St → Prop} {Q : Unit → St → Prop},
        wp m R (SX s0) s0 → (∀ a s', R a s' → wp (f a) Q (NX s) s') → wp (m >>= f) Q (NX s) s0 :=
      fun hm hf => wp_seq (toNX hm) hf
    have seqN' : ∀ {α : Type} {m : P α} {f : α → P Unit} {R : α → St → Prop} {Q : Unit → St → Prop} {s1 : St},
        Adv s0 s1 → s1.lex.start = s0.lex.start → wp m R (SX s1) s1 →
        (∀ a s', R a s' → wp (f a) Q (NX s) s') → wp (m >>= f) Q (NX s) s1 :=
      fun a1 st1 hm hf => wp_seq (toNX (SX.lift i0 a1 st1 hm)) hf
    wpb
    refine wp_ite (fun hc => ?_) fun hne => ?_
    · -- end of input
      wpb
      have sc1 : SameCursor s0 { s0 with lex := { s0.lex with cur := .eof } } := by constructor <;> rfl
      have hend := i0.eof_iff.1 hc
      refine Tokd.of_same h sc str0 num0 ⟨sc1.adv i0, ?_, ?_, .inl rfl, .inl rfl⟩
      · simp only; omega
      · refine ⟨?_, ?_, ?_, ?_, ?_, ?_, ?_, ?_, ?_, ?_, ?_⟩ <;>
          simp only [st0, reduceCtorEq, false_implies, ne_eq, not_true_eq_false, implies_true, isLit, Bool.false_eq_true, Nat.le_refl]
        exact fun _ => hend
    have g0 : Good s0 := ⟨i0, fun hp => hne (i0.pos_zero hp)⟩
    have numeric := fin _ (nextNumericToken_spec g0 st0)
    have dlm := fin _ (nextDelimToken_spec g0 st0 hne)
    have ident := fun hh => fin _ (nextIdentLikeToken_spec g0 st0 hh)
    have single := fun t ht => fin _ (single_spec g0 st0 hne t ht)
    refine wp_ite (fun _ => single _ (by simp)) fun _ => ?_
    refine wp_ite (fun _ => single _ (by simp)) fun _ => ?_
    refine wp_ite (fun _ => wp_ite (fun _ => numeric) fun _ => dlm) fun _ => ?_
    refine wp_ite (fun hc => wp_ite (fun _ => numeric) fun _ => ?_) fun _ => ?_
    · refine wp_ite (fun _ => ?_) fun _ => wp_ite (fun _ => ident (.inl (by rw [hc]; decide))) fun _ => dlm
      wpb
      have sc1 : SameCursor s0 { s0 with lex := { s0.lex with cur := .cdc } } := by constructor <;> rfl
      refine Tokd.of_same h sc str0 num0 ⟨sc1.adv i0, ?_, ?_, .inl rfl, .inl rfl⟩
      · simp only; omega
      · refine ⟨?_, ?_, ?_, ?_, ?_, ?_, ?_, ?_, ?_, ?_, ?_⟩ <;>
          simp only [st0, reduceCtorEq, false_implies, ne_eq, not_true_eq_false, implies_true, isLit, Bool.false_eq_true, Nat.le_refl]
    refine wp_ite (fun _ => wp_ite (fun _ => ?_) fun _ => dlm) fun _ => ?_
    · wpb
      have sc1 : SameCursor s0 { s0 with lex := { s0.lex with cur := .cdo } } := by constructor <;> rfl
      refine Tokd.of_same h sc str0 num0 ⟨sc1.adv i0, ?_, ?_, .inl rfl, .inl rfl⟩
      · simp only; omega
      · refine ⟨?_, ?_, ?_, ?_, ?_, ?_, ?_, ?_, ?_, ?_, ?_⟩ <;>
          simp only [st0, reduceCtorEq, false_implies, ne_eq, not_true_eq_false, implies_true, isLit, Bool.false_eq_true, Nat.le_refl]
    refine wp_ite (fun _ => wp_ite (fun _ => ?_) fun _ => dlm) fun _ => ?_
    · -- @name
      refine fin _ ?_
      refine wp_seq (step_ne g0 hne) fun _ s1 ⟨m1, lt1⟩ => ?_
      rw [wpb_setCur]
      have sc1 : SameCursor s1 { s1 with lex := { s1.lex with cur := .at } } := by constructor <;> rfl
      refine sigil_spec g0 st0 .at (.inl rfl) (fun s' hh hs' => ⟨hh, hs'⟩) _
        (m1.adv.trans i0 (sc1.adv (m1.good g0).inv)) m1.start rfl m1.num lt1
    refine wp_ite (fun _ => wp_ite (fun _ => ?_) fun _ => dlm) fun _ => ?_
    · -- #name
      refine fin _ ?_
      rw [wpb_setCur]
      have sc1 : SameCursor s0 { s0 with lex := { s0.lex with cur := .hash } } := by constructor <;> rfl
      refine wp_seq_adv i0 (sc1.adv i0) rfl (step_ne (sc1.good g0) hne) fun _ s1 ⟨m1, lt1⟩ => ?_
      exact sigil_spec g0 st0 .hash (.inr rfl) (fun s' hh hs' => ⟨hh, hs'⟩) _
        ((sc1.adv i0).trans i0 m1.adv) m1.start m1.cur m1.num lt1
    iterate 7 refine wp_ite (fun _ => single _ (by simp)) fun _ => ?_
    refine wp_ite (fun _ => wp_ite (fun _ => numeric) fun _ => dlm) fun _ => ?_
    refine wp_ite (fun _ => wp_ite (fun he => ident (.inr he)) fun _ => ?_) fun _ => ?_
    · refine ⟨sc.adv h, ?_, ?_, rfl⟩
      · omega
      · omega
    refine wp_ite (fun _ => wp_ite (fun _ => dlm) fun _ => ?_) fun _ => ?_
    · -- comment
      refine seqN (step_ne g0 hne) fun _ s1 ⟨m1, lt1⟩ => ?_
      have g1 := m1.good g0
      refine seqN' m1.adv m1.start (step_spec g1) fun _ s2 ⟨m12, _⟩ => ?_
      have m2 := m1.trans i0 m12
      have le2 := m12.le
      have g2 := m2.good g0
      have lt2 : s0.lex.lastPos < s2.lex.lastPos := by omega
      wpb
      refine seqN' m2.adv m2.start (commentLoop_spec _ s2 g2 (by omega)) fun e s3 ⟨m3, le3, lt3⟩ => ?_
      have g3 := m3.good g2
      rw [wpb_setCur, wpb_slice (s := { s3 with lex := { s3.lex with cur := .comment } }) le3
        (by have := g3.inv.le; simp only; omega), wpb_setStr]
      generalize hs4 : ({ s3 with lex := { s3.lex with cur := .comment, str := sub s3.src s2.lex.lastPos e } } : St) = s4
      have sc4 : SameCursor s3 s4 := by subst hs4; constructor <;> rfl
      have a4 := (m2.adv.trans i0 m3.adv).trans i0 (sc4.adv g3.inv)
      have cur4 : s4.lex.cur = .comment := by subst hs4; rfl
      have num4 : s4.lex.num = s0.lex.num := by subst hs4; rw [← m2.num, ← m3.num]
      have st4 : s4.lex.start = s0.lex.start := by subst hs4; rw [← m2.start, ← m3.start]
      have lp4 := sc4.lastPos
      have str4 : SliceIn s0.src s0.lex.lastPos s4.lex.lastPos s4.lex.str := by
        subst hs4; simp only [m3.src, m2.src]; exact .mk (by omega) le3 (by omega)
      clear hs4
      wpb
      refine wp_ite (fun hr => ?_) fun _ => ?_
      · wpb
        refine Tokd.of_same h sc str0 num0 (Tokd.of a4 (st4.trans st0) (by omega) (.inr str4) num4
          ?_ ?_ ?_ ?_ ?_ ?_ ?_)
        all_goals simp only [cur4, reduceCtorEq, false_implies, ne_eq, not_false_eq_true, and_self]
        intro _; rw [← a4.retainComments]; exact hr
      · have a4' := (sc.adv h).trans h a4
        refine wp_conseq (nextLoop_spec n s4 a4.inv (by rw [a4'.src]; omega)) (fun _ s' t => ?_)
          (fun e' s' hh => ?_) (fun _ hh => hh) id
        · refine Tokd.of_mov h a4' (.inr ?_) (num4.trans num0) t
          rw [sc.src, lp0] at str4; exact str4
        · exact ⟨a4'.trans h hh.1, by have := hh.2.1; omega, hh.2.2⟩
    refine wp_ite (fun hq => ?_) fun _ => ?_
    · -- string
      refine fin _ ?_
      refine wp_seq (step_ne g0 hne) fun _ s1 ⟨m1, lt1⟩ => ?_
      have g1 := m1.good g0
      wpb
      refine wp_seq_adv i0 m1.adv m1.start (stringLoop_spec _ hne _ s1 g1 (by omega)) fun e s3 ⟨m3, le3, lt3⟩ => ?_
      have g3 := m3.good g1
      rw [wpb_setCur, wpb_slice (s := { s3 with lex := { s3.lex with cur := .string } }) le3
        (by have := g3.inv.le; simp only; omega), wp_setStr]
      generalize hs4 : ({ s3 with lex := { s3.lex with cur := .string, str := sub s3.src s1.lex.lastPos e } } : St) = s4
      have sc4 : SameCursor s3 s4 := by subst hs4; constructor <;> rfl
      have a4 := (m1.adv.trans i0 m3.adv).trans i0 (sc4.adv g3.inv)
      have cur4 : s4.lex.cur = .string := by subst hs4; rfl
      have num4 : s4.lex.num = s0.lex.num := by subst hs4; rw [← m1.num, ← m3.num]
      have st4 : s4.lex.start = s0.lex.start := by subst hs4; rw [← m1.start, ← m3.start]
      have lp4 := sc4.lastPos
      have str4 : SliceIn s0.src s0.lex.lastPos s4.lex.lastPos s4.lex.str := by
        subst hs4; simp only [m3.src, m1.src]; exact .mk (by omega) le3 (by omega)
      clear hs4
      refine ⟨Tokd.of a4 (st4.trans st0) (by omega) (.inr str4) num4 ?_ ?_ ?_ ?_ ?_ ?_ ?_, st4⟩
      all_goals simp only [cur4, reduceCtorEq, false_implies, ne_eq, not_false_eq_true, and_self]
    refine wp_ite (fun hw => ?_) fun _ => ?_
    · wpb
      refine wp_ite (fun hr => ?_) fun _ => ?_
      · refine fin _ ?_
        wpb
        refine wp_seq (wsLoop_spec _ s0 g0 (by omega)) fun _ s1 ⟨m1, lt1⟩ => ?_
        have lt1 := lt1 hw
        have g1 := m1.good g0
        wpb
        have sc4 : SameCursor s1 { s1 with lex := { s1.lex with cur := .whitespace } } := by
          constructor <;> rfl
        refine ⟨Tokd.of (m1.adv.trans i0 (sc4.adv g1.inv)) (m1.start.trans st0) lt1 (.inl ⟨m1.str, rfl⟩) m1.num
          ?_ ?_ ?_ ?_ ?_ ?_ ?_, m1.start⟩
        all_goals simp only [reduceCtorEq, false_implies, ne_eq, not_false_eq_true, and_self]
        intro _; exact hr
      · refine seqN (step_ne g0 hne) fun _ s1 ⟨m1, lt1⟩ => ?_
        have a1 := (sc.adv h).trans h m1.adv
        refine wp_conseq (nextLoop_spec n s1 a1.inv (by rw [a1.src]; omega)) (fun _ s' t => ?_)
          (fun e' s' hh => ?_) (fun _ hh => hh) id
        · exact Tokd.of_mov h a1 (.inl (m1.str.trans str0)) (m1.num.trans num0) t
        · exact ⟨a1.trans h hh.1, by have := hh.2.1; omega, hh.2.2⟩
    refine wp_ite (fun _ => numeric) fun _ => wp_ite (fun hns => ident (.inl ?_)) fun _ => dlm
    simp only [isName, hns, Bool.true_or]

theorem next_spec {s : St} (h : Inv s) : wp next (fun _ s' => Tokd s s') (NX s) s := by
  rw [next, wpb_lexFuel]
  exact nextLoop_spec _ s h (by omega)

end Cssc
