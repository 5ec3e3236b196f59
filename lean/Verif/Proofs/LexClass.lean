import Verif.Proofs.LexBytes
import Verif.Proofs.LexFwd

/-!
# The class of every token's text

Literals without escapes and carriage returns (and, for numbers, without non-ASCII characters) have the syntax that CSS
gives them: names are names, numbers are numbers, strings hold no newline.
-/

namespace Cssc

/-- Bytes with a meaning of their own inside tokens: non-ASCII, carriage return, backslash. -/
def OddByte (b : UInt8) : Prop := 0x80 ≤ b.toNat ∨ b = 13 ∨ b = 92

/-- Bytes with a meaning of their own inside names: carriage return, backslash. -/
def HardByte (b : UInt8) : Prop := b = 13 ∨ b = 92

/-- A byte of a kind between two offsets. -/
def OddIn (O : UInt8 → Prop) (src : Bytes) (a b : Nat) : Prop := ∃ i c, a ≤ i ∧ i < b ∧ src[i]? = some c ∧ O c

theorem OddIn.mono {O : UInt8 → Prop} {src : Bytes} {a b a' b' : Nat} (h : OddIn O src a b) (h1 : a' ≤ a) (h2 : b ≤ b') : OddIn O src a' b' := by
  obtain ⟨i, c, x, y, z⟩ := h
  exact ⟨i, c, by omega, by omega, z⟩

theorem OddIn.not_plain {src : Bytes} {a b : Nat} (h : OddIn HardByte src a b) (hc : NoEsc (sub src a b)) : False := by
  obtain ⟨i, c, x, y, z, o⟩ := h
  obtain ⟨h2, h3⟩ := hc c (sub_mem x y z)
  rcases o with o | o
  · exact h2 o
  · exact h3 o

theorem OddIn.not_clean {src : Bytes} {a b : Nat} (h : OddIn OddByte src a b) (hc : Clean (sub src a b)) : False := by
  obtain ⟨i, c, x, y, z, o⟩ := h
  obtain ⟨h1, h2, h3⟩ := hc c (sub_mem x y z)
  rcases o with o | o | o
  · omega
  · exact h2 o
  · exact h3 o

theorem sub_cons {src : Bytes} {a c : Nat} {b : UInt8} (h : src[a]? = some b) (hlt : a < c) : sub src a c = b :: sub src (a + 1) c := by
  rw [← sub_append src (a := a) (b := a + 1) (c := c) (by omega) (by omega), byte_sub h]
  rfl

section
variable {src : Bytes}

/-- The current rune: part of odd bytes, or one plain byte. -/
theorem plain_cur {s : St} (h : Inv s) (hc : s.lex.ch ≠ -1) :
    OddIn OddByte s.src s.lex.lastPos s.lex.pos ∨ ∃ b : UInt8, b.toNat < 0x80 ∧ b ≠ 13 ∧ b ≠ 92 ∧ s.src[s.lex.lastPos]? = some b ∧
      s.lex.ch = (b.toNat : Int) ∧ s.lex.pos = s.lex.lastPos + 1 := by
  have hlt := h.lt_of_ne hc
  rw [h.ch] at hc
  have hl := curAt_ne hc
  have hb : s.src[s.lex.lastPos]? = some s.src[s.lex.lastPos] := List.getElem?_eq_getElem hl
  generalize s.src[s.lex.lastPos] = b at hb
  by_cases ho : OddByte b
  · exact .inl ⟨_, b, Nat.le_refl _, hlt, hb, ho⟩
  · right
    unfold OddByte at ho
    have h1 : b.toNat < 0x80 := by
      refine Classical.byContradiction fun hx => ho (.inl (by omega))
    have h2 : b ≠ 13 := fun e => ho (.inr (.inl e))
    have h3 : b ≠ 92 := fun e => ho (.inr (.inr e))
    have e : s.src.drop s.lex.lastPos = b :: s.src.drop (s.lex.lastPos + 1) := by
      obtain ⟨hx, hy⟩ := List.getElem?_eq_some_iff.1 hb
      rw [List.drop_eq_getElem_cons hx, hy]
    have d : decodeRune (s.src.drop s.lex.lastPos) = ((b.toNat : Int), 1) := by rw [e, decodeRune_ascii _ h1]
    have hcr : ((b.toNat : Int)) ≠ r!"\r" := by
      intro hx
      exact h2 (UInt8.toNat_inj.1 (by show b.toNat = 13; omega))
    have hcur : curAt s.src s.lex.lastPos = ((b.toNat : Int), s.lex.lastPos + 1) := by
      unfold curAt
      dsimp only
      rw [d, if_neg (by simp), if_neg hcr]
    refine ⟨b, h1, h2, h3, hb, ?_, ?_⟩
    · rw [h.ch, hcur]
    · rw [h.pos, hcur]

/-- A movement over a text of a class, or over odd bytes. -/
def SegO (O : UInt8 → Prop) (P : Bytes → Prop) (s s' : St) : Prop :=
  Mov s s' ∧ (OddIn O s.src s.lex.lastPos s'.lex.lastPos ∨ P (sub s.src s.lex.lastPos s'.lex.lastPos))

/-- Numbers. -/
abbrev Seg := SegO OddByte

/-- Names. -/
abbrev SegN := SegO HardByte

theorem SegO.nil {O : UInt8 → Prop} {P : Bytes → Prop} {s : St} (h : Inv s) (hp : P []) : SegO O P s s := ⟨.refl h, .inr (by rw [sub_self]; exact hp)⟩

theorem SegO.append {O : UInt8 → Prop} {P Q R : Bytes → Prop} {s s1 s2 : St} (hi : Inv s) (h : SegO O P s s1) (h' : SegO O Q s1 s2)
    (hr : ∀ u v, P u → Q v → R (u ++ v)) : SegO O R s s2 := by
  have l1 := h.1.le
  have l2 := h'.1.le
  refine ⟨h.1.trans hi h'.1, ?_⟩
  rcases h.2 with o | p
  · exact .inl (o.mono (Nat.le_refl _) l2)
  · have q := h'.2
    rw [h.1.src] at q
    rcases q with o | q
    · exact .inl (o.mono l1 (Nat.le_refl _))
    · right
      rw [← sub_append s.src l1 l2]
      exact hr _ _ p q

theorem seg_step {P : Bytes → Prop} {s : St} (h : Good s) (hc : s.lex.ch ≠ -1)
    (hp : ∀ b : UInt8, b.toNat < 0x80 → b ≠ 13 → b ≠ 92 → s.lex.ch = (b.toNat : Int) → P [b]) : Seg P s (s.moveTo s.lex.pos) := by
  refine ⟨mov_step h.inv, ?_⟩
  show OddIn OddByte s.src s.lex.lastPos s.lex.pos ∨ P (sub s.src s.lex.lastPos s.lex.pos)
  rcases plain_cur h.inv hc with o | ⟨b, h1, h2, h3, h4, h5, h6⟩
  · exact .inl o
  · right
    rw [h6, byte_sub h4]
    exact hp b h1 h2 h3 h5

/-- The current rune: part of hard bytes, or one plain byte, or bytes from 0x80. -/
theorem plain_curN {s : St} (h : Inv s) (hc : s.lex.ch ≠ -1) :
    OddIn HardByte s.src s.lex.lastPos s.lex.pos ∨ (∃ b : UInt8, b.toNat < 0x80 ∧ b ≠ 13 ∧ b ≠ 92 ∧ s.src[s.lex.lastPos]? = some b ∧
      s.lex.ch = (b.toNat : Int) ∧ s.lex.pos = s.lex.lastPos + 1) ∨
    (0x80 ≤ s.lex.ch ∧ ∀ b ∈ sub s.src s.lex.lastPos s.lex.pos, 0x80 ≤ b.toNat) := by
  rcases plain_cur h hc with ⟨i, c, x, y, z, o⟩ | o
  · rcases o with o | o | o
    · -- the rune is not ASCII, or a carriage return and something else
      have hl := curAt_ne (by rw [← h.ch]; exact hc)
      have hb : s.src[s.lex.lastPos]? = some s.src[s.lex.lastPos] := List.getElem?_eq_getElem hl
      generalize s.src[s.lex.lastPos] = b at hb
      have e : s.src.drop s.lex.lastPos = b :: s.src.drop (s.lex.lastPos + 1) := by
        obtain ⟨hx, hy⟩ := List.getElem?_eq_some_iff.1 hb
        rw [List.drop_eq_getElem_cons hx, hy]
      have hlt := h.lt_of_ne hc
      by_cases h13 : b = 13
      · exact .inl ⟨_, b, Nat.le_refl _, hlt, hb, .inl h13⟩
      have d := decodeRune_cons b (s.src.drop (s.lex.lastPos + 1))
      have hcr : (decodeRune (b :: s.src.drop (s.lex.lastPos + 1))).1 ≠ r!"\r" := by
        rcases d with ⟨_, d⟩ | ⟨_, d, _⟩
        · rw [d]
          intro hx
          exact h13 (UInt8.toNat_inj.1 (by show b.toNat = 13; dsimp only at hx; omega))
        · intro hx; rw [hx] at d; revert d; decide
      have hz := decodeRune_size_pos (s := b :: s.src.drop (s.lex.lastPos + 1)) (by simp)
      have hcur : curAt s.src s.lex.lastPos = ((decodeRune (b :: s.src.drop (s.lex.lastPos + 1))).1,
          s.lex.lastPos + (decodeRune (b :: s.src.drop (s.lex.lastPos + 1))).2) := by
        unfold curAt
        dsimp only
        rw [e, if_neg (by omega), if_neg hcr]
      have hch : s.lex.ch = (decodeRune (b :: s.src.drop (s.lex.lastPos + 1))).1 := by rw [h.ch, hcur]
      have hpos : s.lex.pos = s.lex.lastPos + (decodeRune (b :: s.src.drop (s.lex.lastPos + 1))).2 := by rw [h.pos, hcur]
      rcases d with ⟨d0, d⟩ | ⟨d0, d1, d2, d3, d4⟩
      · -- one ASCII byte
        rw [d] at hpos
        dsimp only at hpos
        have : i = s.lex.lastPos := by omega
        subst this
        rw [hb] at z
        cases z
        omega
      · right; right
        refine ⟨by omega, fun x hx => ?_⟩
        unfold sub at hx
        rw [hpos, Nat.add_sub_cancel_left, e] at hx
        obtain ⟨m, hm⟩ : ∃ m, (decodeRune (b :: s.src.drop (s.lex.lastPos + 1))).2 = m + 1 := ⟨_, (Nat.sub_add_cancel d2).symm⟩
        rw [hm, List.take_succ_cons, List.mem_cons] at hx
        rcases hx with rfl | hx
        · exact d0
        · exact d4 x (by rw [hm]; exact hx)
    · exact .inl ⟨i, c, x, y, z, .inl o⟩
    · exact .inl ⟨i, c, x, y, z, .inr o⟩
  · exact .inr (.inl o)

theorem segN_step {P : Bytes → Prop} {s : St} (h : Good s) (hc : s.lex.ch ≠ -1)
    (hp : ∀ b : UInt8, b.toNat < 0x80 → b ≠ 13 → b ≠ 92 → s.lex.ch = (b.toNat : Int) → P [b])
    (hw : ∀ w : Bytes, (∀ b ∈ w, 0x80 ≤ b.toNat) → P w) : SegN P s (s.moveTo s.lex.pos) := by
  refine ⟨mov_step h.inv, ?_⟩
  show OddIn HardByte s.src s.lex.lastPos s.lex.pos ∨ P (sub s.src s.lex.lastPos s.lex.pos)
  rcases plain_curN h.inv hc with o | ⟨b, h1, h2, h3, h4, h5, h6⟩ | ⟨_, h2⟩
  · exact .inl o
  · right
    rw [h6, byte_sub h4]
    exact hp b h1 h2 h3 h5
  · exact .inr (hw _ h2)

/-! ### Numbers -/

theorem isAD_of {b : UInt8} (hb : b.toNat < 0x80) (h : isDigit (b.toNat : Int) = true) : isAD b = true := by
  rw [isDigit_byte hb] at h
  exact h

def AllAD (w : Bytes) : Prop := ∀ b ∈ w, isAD b = true

theorem AllAD.append {u v : Bytes} (h : AllAD u) (h' : AllAD v) : AllAD (u ++ v) := by
  intro b hb
  rw [List.mem_append] at hb
  exact hb.elim (h b) (h' b)

theorem seg_digit {s : St} (h : Good s) (hd : isDigit s.lex.ch = true) : Seg (fun w => AllAD w ∧ w ≠ []) s (s.moveTo s.lex.pos) :=
  seg_step h (digit_ne hd) fun b h1 _ _ e => ⟨by
    intro x hx
    rw [List.mem_singleton] at hx
    subst hx
    exact isAD_of h1 (by rw [← e]; exact hd), by simp⟩

theorem seg_digits : ∀ (n : Nat) (s : St), Good s →
    wp (digitsLoop n) (fun _ s' => Seg AllAD s s' ∧ (isDigit s.lex.ch = true → Seg (fun w => AllAD w ∧ w ≠ []) s s') ∧
      (isDigit s.lex.ch = false → s' = s) ∧ isDigit s'.lex.ch = false) XT s
  | 0, _, _ => trivial
  | n + 1, s, h => by
    simp only [digitsLoop, wp_bind, wp_getCh]
    refine wp_ite (fun hc => ?_) (fun hc => ?_)
    · have p1 := seg_digit h hc
      rw [wp_bind, wp_step h]
      refine wp_mono (seg_digits n _ (p1.1.good h)) fun _ s' ⟨p2, _, _, e⟩ => ?_
      have := p1.append (R := fun w => AllAD w ∧ w ≠ []) h.inv p2 fun u v hu hv => ⟨hu.1.append hv, by simp [hu.2]⟩
      exact ⟨⟨this.1, this.2.imp_right And.left⟩, fun _ => this, fun hf => by simp [hf] at hc, e⟩
    · have hf : isDigit s.lex.ch = false := by simpa using hc
      exact ⟨SegO.nil h.inv (by intro b hb; cases hb), fun ht => by simp [ht] at hc, fun _ => rfl, hf⟩

theorem seg_sign {s : St} (h : Good s) :
    wp (whenP (s.lex.ch = r!"+" ∨ s.lex.ch = r!"-") step)
      (fun _ s' => Seg IsSign s s' ∧ ((s.lex.ch = r!"+" ∨ s.lex.ch = r!"-") → s' = s.moveTo s.lex.pos) ∧
        (¬ (s.lex.ch = r!"+" ∨ s.lex.ch = r!"-") → s' = s)) XT s := by
  refine wp_whenP (fun hc => ?_) fun hc => ⟨.nil h.inv (.inl rfl), fun hx => absurd hx hc, fun _ => rfl⟩
  rw [wp_step h]
  refine ⟨seg_step h (by rcases hc with e | e <;> rw [e] <;> decide) fun b h1 _ _ e => ?_, fun _ => rfl, fun hx => absurd hc hx⟩
  rcases hc with hc | hc
  · right; left
    rw [hc] at e
    rw [UInt8.toNat_inj.1 (show b.toNat = (43 : UInt8).toNat by show b.toNat = 43; omega)]
  · right; right
    rw [hc] at e
    rw [UInt8.toNat_inj.1 (show b.toNat = (45 : UInt8).toNat by show b.toNat = 45; omega)]

/-- A fraction with its point. -/
def IsFrac (fr : Bytes) : Prop := ∃ f, fr = 46 :: f ∧ f ≠ [] ∧ AllAD f

/-- An exponent. -/
def IsExp (ex : Bytes) : Prop := ∃ e sg f, ex = e :: (sg ++ f) ∧ (e = 101 ∨ e = 69) ∧ IsSign sg ∧ f ≠ [] ∧ AllAD f

/-- The rune peeked behind an ASCII rune. -/
theorem peek_step' {s : St} {c : UInt8} (hb : c.toNat < 0x80) (hcr : c ≠ 13) (h : s.peek 0 = (c.toNat : Int)) (i : Nat) :
    (s.moveTo s.lex.pos).peek i = s.peek (i + 1) := by
  have hb0 := peek_byte hb h
  rw [Nat.add_zero] at hb0
  have hp : (s.moveTo s.lex.pos).lex.pos = s.lex.pos + 1 := by
    show (curAt s.src s.lex.pos).2 = _
    have e : s.src.drop s.lex.pos = c :: s.src.drop (s.lex.pos + 1) := by
      obtain ⟨hx, hy⟩ := List.getElem?_eq_some_iff.1 hb0
      rw [List.drop_eq_getElem_cons hx, hy]
    unfold curAt
    dsimp only
    rw [e, decodeRune_ascii _ hb, if_neg (by simp), if_neg]
    intro hx
    exact hcr (UInt8.toNat_inj.1 (by show c.toNat = 13; dsimp only at hx; omega))
  unfold St.peek
  rw [hp, show s.lex.pos + 1 + i = s.lex.pos + (i + 1) by omega]
  rfl

theorem ch_digit {s : St} (h : isDigit (s.peek 0) = true) : isDigit (s.moveTo s.lex.pos).lex.ch = true := by
  rw [ch_step (s := s) rfl (digit_ne h) (by rintro e; rw [e] at h; revert h; decide)]
  exact h

/-- A number, given how it starts. -/
theorem seg_number {s : St} (h : Good s) (hs : startsNumber s.lex.ch (s.peek 0) (s.peek 1) = true) :
    wp nextNumber (fun _ s' => Seg IsNum s s' ∧ isDigit s'.lex.ch = false) XT s := by
  rw [nextNumber]
  wpb
  refine wp_seq (seg_sign h) fun _ s1 ⟨p1, e1, e1'⟩ => ?_
  have g1 := p1.1.good h
  -- behind the sign there is a digit, or a point and a digit
  have hs1 : isDigit s1.lex.ch = true ∨ s1.lex.ch = r!"." ∧ isDigit (s1.peek 0) = true := by
    unfold startsNumber at hs
    by_cases hc : s.lex.ch = r!"+" ∨ s.lex.ch = r!"-"
    · rw [e1 hc]
      rw [if_pos hc] at hs
      split at hs
      · rename_i hd
        exact .inl (ch_digit hd)
      · split at hs
        · rename_i hd
          right
          exact ⟨ch_step hd.1 (by decide) (by decide), by
            rw [peek_step' (c := 46) (by decide) (by decide) hd.1]; exact hd.2⟩
        · cases hs
    · rw [e1' hc]
      rw [if_neg hc] at hs
      split at hs
      · rename_i hd; exact .inr hd
      · exact .inl hs
  refine wp_seq (seg_digits _ _ g1) fun _ s2 ⟨p2, p2', p2'', d2⟩ => ?_
  have g2 := p2.1.good g1
  wpb
  refine wp_seq (R := fun _ s' => Seg (fun w => w = [] ∨ IsFrac w) s2 s' ∧
    (s2.lex.ch = r!"." → isDigit (s2.peek 0) = true → Seg IsFrac s2 s') ∧ isDigit s'.lex.ch = false) (wp_whenP (fun hc => ?_) fun hc => ?_) fun _ s3 ⟨p3, p3', d3⟩ => ?_
  · have q1 := seg_step (P := fun w => w = [46]) g2 (by rw [hc.1]; decide) fun b _ _ _ e => by
      rw [hc.1] at e
      rw [UInt8.toNat_inj.1 (show b.toNat = (46 : UInt8).toNat by show b.toNat = 46; omega)]
    rw [wp_bind, wp_step g2]
    have gt := q1.1.good g2
    have q2 := seg_digit gt (ch_digit hc.2)
    rw [wp_bind, wp_step gt]
    have gt' := q2.1.good gt
    refine wp_mono (seg_digits _ _ gt') fun _ _ ⟨q3, _, _, d⟩ => ?_
    have := q1.append (R := IsFrac) g2.inv (q2.append (R := fun w => AllAD w ∧ w ≠ []) gt.inv q3 fun u v hu hv =>
      ⟨hu.1.append hv, by simp [hu.2]⟩) fun u v hu hv => ⟨v, by rw [hu]; rfl, hv.2, hv.1⟩
    exact ⟨⟨this.1, this.2.imp_right .inr⟩, fun _ _ => this, d⟩
  · exact ⟨.nil g2.inv (.inl rfl), fun h1 h2 => absurd ⟨h1, h2⟩ hc, d2⟩
  have g3 := p3.1.good g2
  wpb
  have nonempty : Seg (fun w => ∃ sgn ds fr, w = sgn ++ (ds ++ fr) ∧ IsSign sgn ∧ AllAD ds ∧ (fr = [] ∨ IsFrac fr) ∧ (ds ≠ [] ∨ fr ≠ [])) s s3 := by
    refine p1.append (Q := fun w => ∃ ds fr, w = ds ++ fr ∧ AllAD ds ∧ (fr = [] ∨ IsFrac fr) ∧ (ds ≠ [] ∨ fr ≠ [])) h.inv ?_
      fun u v hu ⟨ds, fr, e, x⟩ => ⟨u, ds, fr, by rw [e], hu, x⟩
    rcases hs1 with hd | ⟨hd1, hd2⟩
    · exact (p2' hd).append g1.inv p3 fun u v hu hv => ⟨u, v, rfl, hu.1, hv, .inl hu.2⟩
    · have hnd : isDigit s1.lex.ch = false := by rw [hd1]; decide
      have := p2'' hnd
      subst this
      refine p2.append g1.inv (p3' hd1 hd2) fun u v hu hv => ⟨u, v, rfl, hu, .inr hv, .inr ?_⟩
      obtain ⟨f, e, _⟩ := hv
      rw [e]; simp
  have fin : ∀ s', Seg (fun w => w = [] ∨ IsExp w) s3 s' → Seg IsNum s s' := fun s' p4 =>
    nonempty.append h.inv p4 fun u v ⟨sgn, ds, fr, e, h1, h2, h3, h4⟩ hv =>
      ⟨sgn, ds, fr, v, ⟨h1, h2, h3, hv.imp_right fun ⟨e, sg, f, x⟩ => ⟨e, sg, f, x⟩, h4⟩, by rw [e]; simp [List.append_assoc]⟩
  refine wp_whenP (fun hc => ?_) fun _ => ⟨fin _ (.nil g3.inv (.inl rfl)), d3⟩
  have q1 := seg_step (P := fun w => w = [101] ∨ w = [69]) g3 (by rcases hc.1 with e | e <;> rw [e] <;> decide) fun b _ _ _ e => by
      rcases hc.1 with e' | e'
      · left
        rw [e'] at e
        rw [UInt8.toNat_inj.1 (show b.toNat = (101 : UInt8).toNat by show b.toNat = 101; omega)]
      · right
        rw [e'] at e
        rw [UInt8.toNat_inj.1 (show b.toNat = (69 : UInt8).toNat by show b.toNat = 69; omega)]
  rw [wp_bind, wp_step g3]
  have gt := q1.1.good g3
  wpb
  refine wp_seq (seg_sign gt) fun _ t1 ⟨q2, e2, e2'⟩ => ?_
  have gt' := q2.1.good gt
  have hdig : isDigit t1.lex.ch = true := by
    rcases hc.2 with hd | ⟨hsg, hd⟩
    · have := ch_digit hd
      have hns : ¬ ((s3.moveTo s3.lex.pos).lex.ch = r!"+" ∨ (s3.moveTo s3.lex.pos).lex.ch = r!"-") := by
        rintro (e | e) <;> rw [e] at this <;> revert this <;> decide
      rw [e2' hns]
      exact this
    · have hch : (s3.moveTo s3.lex.pos).lex.ch = r!"+" ∨ (s3.moveTo s3.lex.pos).lex.ch = r!"-" :=
        hsg.imp (fun e => ch_step e (by decide) (by decide)) fun e => ch_step e (by decide) (by decide)
      rw [e2 hch]
      apply ch_digit
      rcases hsg with e | e
      · rw [peek_step' (c := 43) (by decide) (by decide) e]; exact hd
      · rw [peek_step' (c := 45) (by decide) (by decide) e]; exact hd
  refine wp_mono (seg_digits _ _ gt') fun _ s' ⟨_, q3, _, d⟩ => ⟨fin _ ?_, d⟩
  refine q1.append g3.inv (q2.append (R := fun w => ∃ sg f, w = sg ++ f ∧ IsSign sg ∧ f ≠ [] ∧ AllAD f) gt.inv (q3 hdig)
    fun u v hu hv => ⟨u, v, rfl, hu, hv.2, hv.1⟩) fun u v hu ⟨sg, f, e, x⟩ => .inr ?_
  rcases hu with rfl | rfl
  · exact ⟨101, sg, f, by rw [e]; rfl, .inl rfl, x⟩
  · exact ⟨69, sg, f, by rw [e]; rfl, .inr rfl, x⟩

/-- At a point without a digit no number is read. -/
theorem no_number {s : St} (h : Good s) (hc : s.lex.ch = r!".") (hd : isDigit (s.peek 0) = false) :
    wp nextNumber (fun _ s' => s' = s) XT s := by
  rw [nextNumber]
  wpb
  refine wp_seq (seg_sign h) fun _ s1 ⟨_, _, e1⟩ => ?_
  have := e1 (by rw [hc]; decide)
  subst this
  refine wp_seq (seg_digits _ _ h) fun _ s2 ⟨_, _, e2, _⟩ => ?_
  have := e2 (by rw [hc]; decide)
  subst this
  wpb
  rw [whenP, if_neg (by rw [hd]; simp)]
  wpb
  rw [whenP, if_neg (by rw [hc]; simp)]
  rfl

/-! ### Names -/

def AllName (w : Bytes) : Prop := ∀ b ∈ w, isNameByte b = true

theorem AllName.append {u v : Bytes} (h : AllName u) (h' : AllName v) : AllName (u ++ v) := by
  intro b hb
  rw [List.mem_append] at hb
  exact hb.elim (h b) (h' b)

/-- A rune that does not continue a name. -/
def NameEnd (s : St) : Prop := isName s.lex.ch = false ∧ startsEscape s.lex.ch (s.peek 0) = false

theorem isNameByte_high {b : UInt8} (h : 0x80 ≤ b.toNat) : isNameByte b = true := by
  simp [isNameByte, h]

/-- The name loop: name bytes, up to a rune that does not continue a name. -/
theorem seg_nameLoop : ∀ (n : Nat) (s : St), Good s → s.src.length < n + s.lex.lastPos →
    wp (nameLoop n) (fun _ s' => SegN AllName s s' ∧ NameEnd s') XT s
  | 0, s, _, _ => trivial
  | n + 1, s, h, hn => by
    simp only [nameLoop, wp_bind, wp_getCh]
    refine wp_ite (fun hc => ?_) fun hc => ?_
    · have p1 := segN_step (P := AllName) h (name_ne hc) (fun b h1 _ _ e => by
        intro x hx
        rw [List.mem_singleton] at hx
        subst hx
        rw [e, isName_byte h1] at hc
        exact hc) fun w hw b hb => isNameByte_high (hw b hb)
      have hlt := h.inv.lt_of_ne (name_ne hc)
      rw [wp_bind, wp_step h]
      refine wp_mono (seg_nameLoop n _ (p1.1.good h) (by
        show s.src.length < n + s.lex.pos; omega)) fun _ s2 ⟨p2, e⟩ => ?_
      exact ⟨p1.append h.inv p2 fun _ _ => AllName.append, e⟩
    · simp only [wp_bind, wp_peek]
      refine wp_ite (fun he => ?_) fun he => ⟨.nil h.inv (by intro b hb; cases hb), by simpa using hc, by simpa using he⟩
      have hch : s.lex.ch = r!"\\" := escape_ne he
      have hlt := h.inv.lt_of_ne (by rw [hch]; decide)
      obtain ⟨q, e1, e2⟩ := ch_byte h.inv (b := 92) (by decide) hch
      rw [nextEscaped]
      rw [wp_bind, wp_bind, wp_step h]
      have m1 := mov_step h.inv
      have g1 := m1.good h
      refine wp_mono (wp_top (escapedLoop_spec _ _ g1)) fun _ s2 m2 => ?_
      have g2 := m2.good g1
      have l2 := m2.le
      have hp : (s.moveTo s.lex.pos).lex.lastPos = s.lex.pos := rfl
      have hsrc : s2.src = s.src := m2.src.trans m1.src
      refine wp_mono (seg_nameLoop n s2 g2 (by rw [hsrc]; omega)) fun _ s3 ⟨p3, e⟩ => ?_
      have l3 := p3.1.le
      have hq : s.lex.lastPos ≤ q := by
        rcases ch_bytes h.inv (b := 92) (by decide) hch with ⟨_, h2⟩ | ⟨_, _, h2⟩ <;> omega
      exact ⟨⟨m1.trans h.inv (m2.trans g1.inv p3.1), .inl ⟨q, 92, hq, by omega, e2, .inr rfl⟩⟩, e⟩

theorem seg_name {s : St} (h : Good s) : wp nextName (fun _ s' => SegN AllName s s' ∧ NameEnd s') XT s := by
  rw [nextName, wpb_lexFuel]
  exact seg_nameLoop _ s h (by have := h.inv.le; omega)

/-- A name starts here. -/
def Continues (s : St) : Prop := isName s.lex.ch = true ∨ startsEscape s.lex.ch (s.peek 0) = true

theorem Mov.eq_of {s s' : St} (m : Mov s s') : s' = s.moveTo s'.lex.lastPos := by
  obtain ⟨q, _, e⟩ := m
  rw [e]
  rfl

/-- A name is not empty. -/
theorem name_some {s s' : St} (h : Good s) (p : SegN AllName s s') (e : NameEnd s') (hc : Continues s) : s.lex.lastPos < s'.lex.lastPos := by
  rcases Nat.lt_or_ge s.lex.lastPos s'.lex.lastPos with hlt | hge
  · exact hlt
  · exfalso
    have := p.1.le
    have heq : s'.lex.lastPos = s.lex.lastPos := by omega
    have h1 := p.1.eq_of
    rw [heq] at h1
    have hch : s'.lex.ch = s.lex.ch := by rw [h1, h.inv.ch]; rfl
    have hpk : s'.peek 0 = s.peek 0 := by
      have hp : s'.lex.pos = s.lex.pos := by rw [h1, h.inv.pos]; rfl
      unfold St.peek
      rw [hp, p.1.src]
    unfold NameEnd at e
    unfold Continues at hc
    rw [hch, hpk] at e
    rcases hc with hc | hc
    · rw [hc] at e; cases e.1
    · rw [hc] at e; cases e.2

/-- A name does not end where it could go on. -/
theorem name_ne_at {s s' : St} (p : SegN AllName s s') (e : NameEnd s') {q : Nat} (hc : Continues (s.moveTo q)) :
    s'.lex.lastPos ≠ q := by
  intro heq
  have h1 := p.1.eq_of
  rw [heq] at h1
  unfold NameEnd at e
  unfold Continues at hc
  rw [h1] at e
  rcases hc with hc | hc
  · rw [hc] at e; cases e.1
  · rw [hc] at e; cases e.2

theorem cur_plain {b : UInt8} {q : Nat} (hb : b.toNat < 0x80) (hcr : b ≠ 13) (h : src[q]? = some b) :
    curAt src q = ((b.toNat : Int), q + 1) := by
  have e : src.drop q = b :: src.drop (q + 1) := by
    obtain ⟨hx, hy⟩ := List.getElem?_eq_some_iff.1 h
    rw [List.drop_eq_getElem_cons hx, hy]
  unfold curAt
  dsimp only
  rw [e, decodeRune_ascii _ hb, if_neg (by simp), if_neg]
  intro hx
  exact hcr (UInt8.toNat_inj.1 (by show b.toNat = 13; dsimp only at hx; omega))

/-- The first byte of a clean slice is the current rune. -/
theorem clean_head {s : St} (h : Inv s) {b : Nat} (hlt : s.lex.lastPos < b) (hl : b ≤ s.src.length) (hc : Clean (sub s.src s.lex.lastPos b)) :
    ∃ c : UInt8, c.toNat < 0x80 ∧ c ≠ 13 ∧ c ≠ 92 ∧ s.lex.ch = (c.toNat : Int) ∧ s.lex.pos = s.lex.lastPos + 1 ∧
      s.src[s.lex.lastPos]? = some c ∧ sub s.src s.lex.lastPos b = c :: sub s.src s.lex.pos b := by
  have hb : s.src[s.lex.lastPos]? = some s.src[s.lex.lastPos] := List.getElem?_eq_getElem (by omega)
  generalize s.src[s.lex.lastPos] = c at hb
  have e := sub_cons hb hlt
  obtain ⟨h1, h2, h3⟩ := hc c (by rw [e]; simp)
  have hcur := cur_plain h1 h2 hb
  have hp : s.lex.pos = s.lex.lastPos + 1 := by rw [h.pos, hcur]
  exact ⟨c, h1, h2, h3, by rw [h.ch, hcur], hp, hb, by rw [hp]; exact e⟩

theorem Clean.tail {c : UInt8} {w : Bytes} (h : Clean (c :: w)) : Clean w := fun b hb => h b (List.mem_cons_of_mem _ hb)

/-- The first byte of a plain slice. -/
theorem plain_head {s : St} (h : Inv s) {b : Nat} (hlt : s.lex.lastPos < b) (hl : b ≤ s.src.length) (hc : NoEsc (sub s.src s.lex.lastPos b)) :
    ∃ c : UInt8, c ≠ 13 ∧ c ≠ 92 ∧ s.src[s.lex.lastPos]? = some c ∧ sub s.src s.lex.lastPos b = c :: sub s.src (s.lex.lastPos + 1) b ∧
      (c.toNat < 0x80 ∧ s.lex.ch = (c.toNat : Int) ∧ s.lex.pos = s.lex.lastPos + 1 ∨ 0x80 ≤ c.toNat ∧ 0x80 ≤ s.lex.ch ∧
        s.lex.ch = (decodeRune (s.src.drop s.lex.lastPos)).1) := by
  have hb : s.src[s.lex.lastPos]? = some s.src[s.lex.lastPos] := List.getElem?_eq_getElem (by omega)
  generalize s.src[s.lex.lastPos] = c at hb
  have e := sub_cons hb hlt
  obtain ⟨h2, h3⟩ := hc c (by rw [e]; simp)
  refine ⟨c, h2, h3, hb, e, ?_⟩
  by_cases h1 : c.toNat < 0x80
  · have hcur := cur_plain h1 h2 hb
    exact .inl ⟨h1, by rw [h.ch, hcur], by rw [h.pos, hcur]⟩
  · right
    have e : s.src.drop s.lex.lastPos = c :: s.src.drop (s.lex.lastPos + 1) := by
      obtain ⟨hx, hy⟩ := List.getElem?_eq_some_iff.1 hb
      rw [List.drop_eq_getElem_cons hx, hy]
    have d := decodeRune_cons c (s.src.drop (s.lex.lastPos + 1))
    rcases d with d | ⟨d0, d1, d2, _⟩
    · exact absurd d.1 h1
    have hch : s.lex.ch = (decodeRune (s.src.drop s.lex.lastPos)).1 := by
      rw [h.ch]
      unfold curAt
      dsimp only
      rw [e, if_neg (by omega), if_neg (by intro hx; rw [hx] at d1; revert d1; decide)]
    exact ⟨d0, by rw [hch, e]; exact d1, hch⟩

theorem NoEsc.tail {c : UInt8} {w : Bytes} (h : NoEsc (c :: w)) : NoEsc w := fun b hb => h b (List.mem_cons_of_mem _ hb)

/-- Behind a name there is no byte from 0x80. -/
theorem NameEnd.ascii {s : St} (h : Inv s) (e : NameEnd s) :
    s.src.drop s.lex.lastPos = [] ∨ ∃ b t, s.src.drop s.lex.lastPos = b :: t ∧ b.toNat < 0x80 := by
  cases hd : s.src.drop s.lex.lastPos with
  | nil => exact .inl rfl
  | cons b t =>
    right
    refine ⟨b, t, rfl, ?_⟩
    refine Classical.byContradiction fun hb => ?_
    have d := decodeRune_cons b t
    rcases d with d | ⟨d0, d1, d2, _⟩
    · exact hb d.1
    have hch : s.lex.ch = (decodeRune (b :: t)).1 := by
      rw [h.ch]
      unfold curAt
      dsimp only
      rw [hd, if_neg (by omega), if_neg (by intro hx; rw [hx] at d1; revert d1; decide)]
    have := isName_high (c := s.lex.ch) (by omega)
    rw [e.1] at this
    cases this

/-- The first rune of a name is decoded from the name alone. -/
theorem name_decode {s s' : St} (p : SegN AllName s s') (e : NameEnd s') (hi : Inv s') {a : Nat} (hlt : a < s'.lex.lastPos)
    (hl : s'.lex.lastPos ≤ s.src.length) : decodeRune (s.src.drop a) = decodeRune (sub s.src a s'.lex.lastPos) := by
  have ha := e.ascii hi
  rw [p.1.src] at ha
  have e1 : s.src.drop a = sub s.src a s'.lex.lastPos ++ s.src.drop s'.lex.lastPos := by
    unfold sub
    rw [show s'.lex.lastPos = a + (s'.lex.lastPos - a) by omega, Nat.add_sub_cancel_left, ← List.drop_drop, List.take_append_drop]
  rw [e1]
  refine decodeRune_append ?_ ha
  intro hx
  have := congrArg List.length hx
  simp only [sub, List.length_take, List.length_drop, List.length_nil] at this
  omega

/-- A name that starts as a word is a word. -/
theorem word_of {s s' : St} (h : Good s) (p : SegN AllName s s') (e : NameEnd s') (hc : Continues s)
    (hc' : s.lex.ch = r!"-" → Continues (s.moveTo s.lex.pos)) (hcl : NoEsc (sub s.src s.lex.lastPos s'.lex.lastPos)) :
    IsWord (sub s.src s.lex.lastPos s'.lex.lastPos) := by
  have hlt := name_some h p e hc
  have g' := p.1.good h
  have hl := g'.inv.le
  rw [p.1.src] at hl
  obtain ⟨c, h2, h3, h6, h7, h8⟩ := plain_head h.inv hlt hl hcl
  refine ⟨by rw [h7]; simp, fun hw => ?_, p.2.elim (fun o => (o.not_plain hcl).elim) fun q => q⟩
  rw [h7] at hw
  obtain ⟨hc45, hnil⟩ := List.cons.inj hw
  subst hc45
  obtain ⟨_, h4, h5⟩ : _ ∧ s.lex.ch = ((45 : UInt8).toNat : Int) ∧ s.lex.pos = s.lex.lastPos + 1 := h8.resolve_right (by simp)
  refine name_ne_at p e (hc' h4) ?_
  have := congrArg List.length hnil
  simp only [sub, List.length_take, List.length_drop, List.length_nil] at this
  omega

theorem name_letter {b : UInt8} (hb : b.toNat < 0x80) (h : isNameStart (b.toNat : Int) = true) : isLetter b = true := by
  unfold isNameStart at h
  unfold isLetter
  simp only [Bool.or_eq_true, Bool.and_eq_true, decide_eq_true_eq, beq_iff_eq] at h ⊢
  omega

/-- What an identifier starts with, as the lexer decides it. -/
def IdentStart (s : St) : Prop :=
  (isNameStart s.lex.ch = true ∧ isDigit s.lex.ch = false) ∨ s.lex.ch = r!"\\" ∨ (s.lex.ch = r!"-" ∧ isDigit (s.peek 0) = false ∧
    startsIdentifier (s.peek 0) (s.peek 1) (s.peek 2) = true)

theorem isName_ne_cr {c : Int} (h : isName c = true) : c ≠ -1 ∧ c ≠ r!"\r" := by
  refine ⟨name_ne h, ?_⟩
  rintro rfl
  revert h
  decide

/-- The rune after the current one continues a word. -/
theorem starts_next {s : St} (h : startsIdentifier (s.peek 0) (s.peek 1) (s.peek 2) = true) :
    Continues (s.moveTo s.lex.pos) ∧
    (s.peek 0 = r!"-" → Continues ((s.moveTo s.lex.pos).moveTo (s.moveTo s.lex.pos).lex.pos)) ∧
    (s.moveTo s.lex.pos).lex.ch = s.peek 0 := by
  unfold startsIdentifier at h
  split at h
  · rename_i hm
    have hch := ch_step hm (by decide) (by decide)
    have hpk := peek_step' (s := s) (c := 45) (by decide) (by decide) hm
    refine ⟨.inl (by rw [hch]; decide), fun _ => ?_, hch.trans hm.symm⟩
    simp only [Bool.or_eq_true, beq_iff_eq] at h
    have name : ∀ {c : Int}, s.peek 1 = c → isName c = true →
        Continues ((s.moveTo s.lex.pos).moveTo (s.moveTo s.lex.pos).lex.pos) := fun {c} e hn => by
      left
      rw [ch_step (s := s.moveTo s.lex.pos) (c := c) (by rw [hpk]; exact e) (isName_ne_cr hn).1 (isName_ne_cr hn).2]
      exact hn
    rcases h with (h | h) | h
    · exact name h (by decide)
    · exact name rfl h
    · right
      have hb := escape_ne h
      have hpk1 : (s.moveTo s.lex.pos).peek 0 = r!"\\" := by rw [hpk]; exact hb
      rw [ch_step hpk1 (by decide) (by decide), peek_step' (c := 92) (by decide) (by decide) hpk1, hpk, ← hb]
      exact h
  · rename_i hm
    split at h
    · cases h
    · have hch := ch_step (s := s) rfl (isName_ne_cr h).1 (isName_ne_cr h).2
      exact ⟨.inl (by rw [hch]; exact h), fun hx => absurd hx hm, hch⟩

theorem ident_of {s s' : St} (h : Good s) (p : SegN AllName s s') (e : NameEnd s') (hs : IdentStart s)
    (hesc : s.lex.ch = r!"\\" → s.lex.lastPos < s'.lex.lastPos) (hcl : NoEsc (sub s.src s.lex.lastPos s'.lex.lastPos)) :
    IsIdent (sub s.src s.lex.lastPos s'.lex.lastPos) := by
  have g' := p.1.good h
  have hl := g'.inv.le
  rw [p.1.src] at hl
  have hlt : s.lex.lastPos < s'.lex.lastPos := by
    rcases hs with ⟨hs, _⟩ | hs | ⟨hs, _⟩
    · exact name_some h p e (.inl (by unfold isName; rw [hs]; rfl))
    · exact hesc hs
    · exact name_some h p e (.inl (by rw [hs]; decide))
  obtain ⟨c, h2, h3, h6, h7, h8⟩ := plain_head h.inv hlt hl hcl
  have all : AllName (sub s.src s.lex.lastPos s'.lex.lastPos) := p.2.elim (fun o => (o.not_plain hcl).elim) fun q => q
  refine ⟨all, ?_⟩
  rcases hs with ⟨hs, hd⟩ | hs | ⟨hs, hd, hid⟩
  · rcases h8 with ⟨h1, h4, _⟩ | ⟨h1, _, h4⟩
    · left
      exact ⟨c, _, h7, name_letter h1 (by rw [← h4]; exact hs)⟩
    · right; left
      refine ⟨c, _, h7, h1, ?_⟩
      rw [← name_decode p e g'.inv hlt hl, ← h4]
      exact hd
  · exfalso
    rcases h8 with ⟨h1, h4, _⟩ | ⟨h1, h4, _⟩
    · rw [h4] at hs
      exact h3 (UInt8.toNat_inj.1 (by show c.toNat = 92; omega))
    · rw [hs] at h4; revert h4; decide
  · obtain ⟨h1, h4, h5⟩ : c.toNat < 0x80 ∧ s.lex.ch = (c.toNat : Int) ∧ s.lex.pos = s.lex.lastPos + 1 :=
      h8.resolve_right (by rw [hs]; rintro ⟨_, h4, _⟩; revert h4; decide)
    have hc45 : c = 45 := by
      rw [h4] at hs
      exact UInt8.toNat_inj.1 (by show c.toNat = 45; omega)
    subst hc45
    obtain ⟨k1, k2, k3⟩ := starts_next hid
    have hne := name_ne_at p e k1
    have m1 := mov_step h.inv
    have g1 := m1.good h
    have hlt1 : s.lex.pos < s'.lex.lastPos := by omega
    rw [h7, ← h5] at hcl
    obtain ⟨d, d2, d3, d6, d7, d8⟩ := plain_head (s := s.moveTo s.lex.pos) g1.inv hlt1 hl hcl.tail
    have d7' : sub s.src s.lex.pos s'.lex.lastPos = d :: sub s.src (s.lex.pos + 1) s'.lex.lastPos := d7
    have e2 : sub s.src s.lex.lastPos s'.lex.lastPos = 45 :: d :: sub s.src (s.lex.pos + 1) s'.lex.lastPos := by
      rw [h7, ← h5, d7']
    have hdn : isNameByte d = true := all d (by rw [e2]; simp)
    rcases d8 with ⟨d1, d4, d5⟩ | ⟨d1, _, d4⟩
    · by_cases hd45 : d = 45
      · subst hd45
        right; right; right; right
        have hne2 := name_ne_at (q := (s.moveTo s.lex.pos).lex.pos) p e (k2 (by rw [← k3]; exact d4))
        have d5' : (s.moveTo s.lex.pos).lex.pos = s.lex.pos + 1 := d5
        rw [d5'] at hne2
        have hlt2 : s.lex.pos + 1 < s'.lex.lastPos := by omega
        have hx : s.src[s.lex.pos + 1]? = some s.src[s.lex.pos + 1] :=
          List.getElem?_eq_getElem (by omega)
        generalize s.src[s.lex.pos + 1] = x at hx
        have e3 := sub_cons hx hlt2
        exact ⟨x, _, by rw [e2, e3]⟩
      · right; right; left
        refine ⟨d, _, e2, ?_⟩
        have hnd : isAD d = false := by
          have : isDigit (d.toNat : Int) = false := by rw [← d4, k3]; exact hd
          rwa [isDigit_byte d1] at this
        unfold isNameByte at hdn
        unfold isLetter
        have hd45' : d.toNat ≠ 45 := fun hx => hd45 (UInt8.toNat_inj.1 hx)
        simp only [Bool.or_eq_true, Bool.and_eq_true, decide_eq_true_eq, beq_iff_eq, hnd] at hdn ⊢
        have hh : ¬ 128 ≤ d.toNat := by omega
        rcases hdn with ((((hdn | hdn) | hdn) | hdn) | hdn) | hdn
        · exact .inl (.inl hdn)
        · exact .inl (.inr hdn)
        · exact absurd hdn hh
        · exact .inr hdn
        · cases hdn
        · exact absurd hdn hd45'
    · right; right; right; left
      refine ⟨d, _, e2, d1, ?_⟩
      have d4' : (s.moveTo s.lex.pos).lex.ch = (decodeRune (s.src.drop s.lex.pos)).1 := d4
      rw [← d7', ← name_decode p e g'.inv hlt1 hl, ← d4', k3]
      exact hd

/-! ### Urls and strings -/

theorem url_byte {b : UInt8} (hb : b.toNat < 0x80) (h13 : b ≠ 13) (h92 : b ≠ 92) {c : Int} (e : c = (b.toNat : Int))
    (h1 : c ≠ r!")") (h2 : ¬ (c = r!"\"" ∨ c = r!"'" ∨ c = r!"(")) (h : isWhitespace c = true ∨ isNonPrintable c = false) :
    (isUrlByte b || isWsByte b || b == 12) = true := by
  subst e
  set_option synthInstance.maxSize 1000 in
  set_option synthInstance.maxHeartbeats 200000 in
  have aux : ∀ n : Nat, n < 128 → n ≠ 13 → n ≠ 92 → ((n : Int) ≠ r!")") → ¬ ((n : Int) = r!"\"" ∨ (n : Int) = r!"'" ∨ (n : Int) = r!"(") →
      (isWhitespace (n : Int) = true ∨ isNonPrintable (n : Int) = false) →
      (isUrlByte (UInt8.ofNat n) || isWsByte (UInt8.ofNat n) || UInt8.ofNat n == 12) = true := by decide +kernel
  have := aux b.toNat (by omega) (fun hx => h13 (UInt8.toNat_inj.1 hx)) (fun hx => h92 (UInt8.toNat_inj.1 hx)) h1 h2 h
  rwa [UInt8.ofNat_toNat] at this

theorem ws_byte_class {b : UInt8} (hb : b.toNat < 0x80) : isWhitespace (b.toNat : Int) = isWsByte b := by
  have aux : ∀ n : Nat, n < 128 → isWhitespace (n : Int) = isWsByte (UInt8.ofNat n) := by decide +kernel
  have := aux b.toNat (by omega)
  rwa [UInt8.ofNat_toNat] at this

theorem isUrlByte_high {b : UInt8} (h : 0x80 ≤ b.toNat) : isUrlByte b = true := by
  have aux : ∀ n : Nat, n < 256 → 128 ≤ n → isUrlByte (UInt8.ofNat n) = true := by decide +kernel
  have := aux b.toNat b.toNat_lt h
  rwa [UInt8.ofNat_toNat] at this

theorem isWsByte_high {b : UInt8} (h : 0x80 ≤ b.toNat) : isWsByte b = false := by
  have aux : ∀ n : Nat, n < 256 → 128 ≤ n → isWsByte (UInt8.ofNat n) = false := by decide +kernel
  have := aux b.toNat b.toNat_lt h
  rwa [UInt8.ofNat_toNat] at this

theorem odd_escape {s s' : St} (h : Good s) (hc : s.lex.ch = r!"\\") (hl : s.lex.pos ≤ s'.lex.lastPos) :
    ∃ i, s.lex.lastPos ≤ i ∧ i < s'.lex.lastPos ∧ s.src[i]? = some 92 := by
  rcases ch_bytes h.inv (b := 92) (by decide) hc with ⟨h1, h2⟩ | ⟨_, h1, h2⟩
  · exact ⟨_, Nat.le_refl _, by omega, h1⟩
  · exact ⟨_, Nat.le_succ _, by omega, h1⟩

theorem escaped_pos {s : St} (h : Good s) : wp nextEscaped (fun _ s' => Mov s s' ∧ s.lex.pos ≤ s'.lex.lastPos) XT s := by
  rw [nextEscaped, wp_bind, wp_step h]
  have m1 := mov_step h.inv
  have g1 := m1.good h
  refine wp_mono (wp_top (escapedLoop_spec _ _ g1)) fun _ s2 m2 => ⟨m1.trans h.inv m2, m2.le⟩

/-- White space in front of an unquoted url is skipped. -/
theorem urlWs_stop : ∀ (n : Nat) (s : St), Good s → s.src.length ≤ n + s.lex.lastPos →
    wp (urlWsLoop n) (fun _ s' => Mov s s' ∧ isWhitespace s'.lex.ch = false) XT s
  | 0, s, h, hn => by
    rw [urlWsLoop]
    refine ⟨.refl h.inv, ?_⟩
    rw [h.inv.ch, curAt_eof (by omega)]
    rfl
  | n + 1, s, h, hn => by
    simp only [urlWsLoop, wp_bind, wp_getCh]
    refine wp_ite (fun hc => ?_) (fun hc => ⟨.refl h.inv, by simpa using hc⟩)
    rw [wp_bind, wp_step h]
    have m1 := mov_step h.inv
    have hlt := h.inv.lt_of_ne (ws_ne hc)
    exact wp_mono (urlWs_stop n _ (m1.good h) (by show s.src.length ≤ n + s.lex.pos; omega)) fun _ s' ⟨m, e⟩ => ⟨m1.trans h.inv m, e⟩

/-- The bytes from `a` to `b` include a carriage return, or can stand in an unquoted url. -/
def UrlRun (src : Bytes) (a b : Nat) : Prop :=
  OddIn (· = 13) src a b ∨ ∀ i c, a ≤ i → i < b → src[i]? = some c → isUrlBodyByte c = true ∧ (c = 92 → src[i + 1]? ≠ some 10)

theorem UrlRun.nil {src : Bytes} {a b : Nat} (h : b ≤ a) : UrlRun src a b := .inr fun i c h1 h2 => by omega

theorem UrlRun.append {src : Bytes} {a b c : Nat} (h : UrlRun src a b) (h' : UrlRun src b c) (h1 : a ≤ b) (h2 : b ≤ c) :
    UrlRun src a c := by
  rcases h with h | h
  · exact .inl (h.mono (Nat.le_refl _) h2)
  · rcases h' with h' | h'
    · exact .inl (h'.mono h1 (Nat.le_refl _))
    · refine .inr fun i x l1 l2 hx => ?_
      by_cases hi : i < b
      · exact h i x l1 hi hx
      · exact h' i x (by omega) l2 hx

/-- The current rune: with a carriage return, or one ASCII byte, or bytes from 0x80. -/
theorem plain_curC {s : St} (h : Inv s) (hc : s.lex.ch ≠ -1) :
    OddIn (· = 13) s.src s.lex.lastPos s.lex.pos ∨ (∃ b : UInt8, b.toNat < 0x80 ∧ b ≠ 13 ∧ s.src[s.lex.lastPos]? = some b ∧
      s.lex.ch = (b.toNat : Int) ∧ s.lex.pos = s.lex.lastPos + 1) ∨
    (0x80 ≤ s.lex.ch ∧ ∀ b ∈ sub s.src s.lex.lastPos s.lex.pos, 0x80 ≤ b.toNat) := by
  have hl := curAt_ne (by rw [← h.ch]; exact hc)
  have hlt := h.lt_of_ne hc
  have hb : s.src[s.lex.lastPos]? = some s.src[s.lex.lastPos] := List.getElem?_eq_getElem hl
  generalize s.src[s.lex.lastPos] = b at hb
  by_cases h13 : b = 13
  · exact .inl ⟨_, b, Nat.le_refl _, hlt, hb, h13⟩
  by_cases h1 : b.toNat < 0x80
  · have hcur := cur_plain h1 h13 hb
    exact .inr (.inl ⟨b, h1, h13, hb, by rw [h.ch, hcur], by rw [h.pos, hcur]⟩)
  · rcases plain_curN h hc with ⟨i, c, x, y, z, o | o⟩ | ⟨c, c1, _, _, c4, _⟩ | o
    · exact .inl ⟨i, c, x, y, z, o⟩
    · -- a backslash inside a rune that begins with a byte from 0x80
      exfalso
      have e : s.src.drop s.lex.lastPos = b :: s.src.drop (s.lex.lastPos + 1) := by
        obtain ⟨hx, hy⟩ := List.getElem?_eq_some_iff.1 hb
        rw [List.drop_eq_getElem_cons hx, hy]
      rcases decodeRune_cons b (s.src.drop (s.lex.lastPos + 1)) with d | ⟨d0, d1, d2, d3, d4⟩
      · exact h1 d.1
      have hcr : (decodeRune (b :: s.src.drop (s.lex.lastPos + 1))).1 ≠ r!"\r" := by
        intro hx; rw [hx] at d1; revert d1; decide
      have hpos : s.lex.pos = s.lex.lastPos + (decodeRune (b :: s.src.drop (s.lex.lastPos + 1))).2 := by
        rw [h.pos]
        unfold curAt
        dsimp only
        rw [e, if_neg (by omega), if_neg hcr]
      subst o
      have hi : i ≠ s.lex.lastPos := by
        rintro rfl
        rw [hb] at z
        cases z
        exact h1 (by decide)
      have := d4 92 (List.mem_iff_getElem?.2 ⟨i - s.lex.lastPos - 1, by
        rw [List.getElem?_take, if_pos (by omega), List.getElem?_drop,
          show s.lex.lastPos + 1 + (i - s.lex.lastPos - 1) = i by omega, z]⟩)
      revert this; decide
    · rw [hb] at c4
      cases c4
      exact absurd c1 h1
    · exact .inr (.inr o)

theorem urlRun_step {s : St} (h : Good s) (hc : s.lex.ch ≠ -1)
    (hp : ∀ b : UInt8, b.toNat < 0x80 → b ≠ 13 → s.lex.ch = (b.toNat : Int) → isUrlBodyByte b = true ∧
      (b = 92 → s.src[s.lex.lastPos + 1]? ≠ some 10 ∨ s.src[s.lex.pos]? ≠ some 10)) :
    UrlRun s.src s.lex.lastPos s.lex.pos := by
  rcases plain_curC h.inv hc with o | ⟨b, h1, h2, h4, h5, h6⟩ | ⟨_, h2⟩
  · exact .inl o
  · refine .inr fun i c l1 l2 hi => ?_
    have : i = s.lex.lastPos := by omega
    subst this
    rw [h4] at hi
    cases hi
    have := hp b h1 h2 h5
    refine ⟨this.1, fun e => ?_⟩
    rcases this.2 e with h | h
    · exact h
    · rwa [h6] at h
  · refine .inr fun i c l1 l2 hi => ?_
    have hm := h2 c (sub_mem l1 l2 hi)
    refine ⟨by simp [isUrlBodyByte, isUrlByte_high hm], ?_⟩
    rintro rfl
    exact absurd hm (by decide)

theorem urlBody_hex {b : UInt8} (hb : b.toNat < 0x80) (h : isHexDigit (b.toNat : Int) = true ∨ isWhitespace (b.toNat : Int) = true) :
    isUrlBodyByte b = true ∧ b ≠ 92 := by
  have aux : ∀ n : Nat, n < 128 → isHexDigit (n : Int) = true ∨ isWhitespace (n : Int) = true →
      isUrlBodyByte (UInt8.ofNat n) = true ∧ UInt8.ofNat n ≠ 92 := by decide +kernel
  have := aux b.toNat hb h
  rwa [UInt8.ofNat_toNat] at this

theorem urlRun_plain {s : St} (h : Good s) (hx : isHexDigit s.lex.ch = true ∨ isWhitespace s.lex.ch = true) :
    UrlRun s.src s.lex.lastPos s.lex.pos := by
  refine urlRun_step h (fun e => ?_) fun b h1 h2 e => ?_
  · rw [e] at hx; revert hx; decide
  · rw [e] at hx
    have := urlBody_hex h1 hx
    exact ⟨this.1, fun e => absurd e this.2⟩

theorem urlRun_escape : ∀ (i : Nat) (s : St), Good s →
    wp (escapedLoop i) (fun _ s' => Mov s s' ∧ UrlRun s.src s.lex.lastPos s'.lex.lastPos) XT s
  | 0, s, h => ⟨.refl h.inv, .nil (Nat.le_refl _)⟩
  | i + 1, s, h => by
    simp only [escapedLoop]
    wpb
    refine wp_ite (fun hc => ?_) fun _ => ⟨.refl h.inv, .nil (Nat.le_refl _)⟩
    rw [wp_bind, wp_step h]
    have m1 := mov_step h.inv
    have g1 := m1.good h
    have r1 : UrlRun s.src s.lex.lastPos s.lex.pos := urlRun_plain h (.inl hc)
    generalize hs1 : s.moveTo s.lex.pos = s1 at m1 g1
    have l1 : s1.lex.lastPos = s.lex.pos := by rw [← hs1]; rfl
    rw [← l1] at r1
    wpb
    have hw : wp (whenP (isWhitespace s1.lex.ch = true) step) (fun _ s' => Mov s1 s' ∧ UrlRun s1.src s1.lex.lastPos s'.lex.lastPos) XT s1 := by
      refine wp_whenP (fun hw => ?_) fun _ => ⟨.refl g1.inv, .nil (Nat.le_refl _)⟩
      rw [wp_step g1]
      exact ⟨mov_step g1.inv, urlRun_plain g1 (.inr hw)⟩
    refine wp_seq hw fun _ s2 ⟨m2, r2⟩ => ?_
    refine wp_mono (urlRun_escape i s2 (m2.good g1)) fun _ s3 ⟨m3, r3⟩ => ?_
    have m12 := m1.trans h.inv m2
    refine ⟨m12.trans h.inv m3, ?_⟩
    rw [m1.src] at r2
    rw [m12.src] at r3
    exact (r1.append r2 m1.le m2.le).append r3 m12.le m3.le

/-- The body of an unquoted url. -/
theorem seg_url (u : Nat) : ∀ (n : Nat) (s : St), Good s → u ≤ s.lex.lastPos →
    wp (urlLoop u n) (fun _ s' => s'.lex.cur = s.lex.cur ∧ ∃ e, s.lex.lastPos ≤ e ∧ e ≤ s.src.length ∧
      UrlRun s.src s.lex.lastPos e ∧ s'.lex.str = sub s.src u e) XT s
  | 0, s, _, _ => trivial
  | n + 1, s, h, hu => by
    have again : ∀ s', Mov s s' → UrlRun s.src s.lex.lastPos s'.lex.lastPos →
        wp (urlLoop u n) (fun _ s' => s'.lex.cur = s.lex.cur ∧ ∃ e, s.lex.lastPos ≤ e ∧ e ≤ s.src.length ∧
          UrlRun s.src s.lex.lastPos e ∧ s'.lex.str = sub s.src u e) XT s' := by
      intro s' m r
      have hle := m.le
      refine wp_mono (seg_url u n s' (m.good h) (by omega)) fun _ s'' ⟨c, e, l1, l2, q, hs⟩ => ⟨c.trans m.cur, e, by omega, ?_, ?_, ?_⟩
      · rw [← m.src]; exact l2
      · rw [m.src] at q
        exact r.append q hle l1
      · rw [hs, m.src]
    simp only [urlLoop]
    wpb
    refine wp_ite (fun hc => ?_) fun h1 => wp_ite (fun _ => trivial) fun hne => wp_ite (fun _ => trivial) fun h2 =>
      wp_ite (fun hc => ?_) fun h92 => ?_
    · wpb
      rw [wpb_slice hu h.inv.le]
      wpb
      have sc := sc_str s (sub s.src u s.lex.lastPos)
      exact wp_mono (wp_top (X := XT) (step_spec (sc.good h))) fun _ s3 ⟨m3, _⟩ =>
        ⟨m3.cur, s.lex.lastPos, Nat.le_refl _, h.inv.le, .nil (Nat.le_refl _), m3.str⟩
    · wpb
      refine wp_ite (fun he => ?_) fun _ => trivial
      rw [nextEscaped, wpb_assoc, wp_bind, wp_step h]
      have m1 := mov_step h.inv
      have r1 : UrlRun s.src s.lex.lastPos s.lex.pos := by
        refine urlRun_step h hne fun b b1 b2 e => ⟨?_, fun _ => .inr fun hx => ?_⟩
        · rw [hc] at e
          rw [UInt8.eq_of_toNat (b := b) (n := 92) (by omega)]
          decide
        · rw [peek_eq, Nat.add_zero] at he
          obtain ⟨hlt, hg⟩ := List.getElem?_eq_some_iff.1 hx
          rw [List.drop_eq_getElem_cons hlt, hg, headRune_cons (by decide)] at he
          simp [startsEscape] at he
      refine wp_seq (urlRun_escape 5 _ (m1.good h)) fun _ s2 ⟨m2, r2⟩ => ?_
      exact again s2 (m1.trans h.inv m2) (r1.append r2 m1.le m2.le)
    · have key : (isWhitespace s.lex.ch = true ∨ isNonPrintable s.lex.ch = false) → UrlRun s.src s.lex.lastPos s.lex.pos := fun hw =>
        urlRun_step h hne fun b b1 b2 e => by
          have h92' : b ≠ 92 := by
            rintro rfl
            exact h92 e
          have := url_byte b1 b2 h92' e h1 h2 hw
          exact ⟨by simp only [isUrlBodyByte, this, Bool.true_or], fun e => absurd e h92'⟩
      refine wp_ite (fun hw => ?_) fun _ => wp_ite (fun _ => trivial) fun hp => ?_
      · rw [wp_bind, wp_step h]
        exact again _ (mov_step h.inv) (key (.inl hw))
      · rw [wp_bind, wp_step h]
        exact again _ (mov_step h.inv) (key (.inr (by simpa using hp)))

theorem noEscLf_of : ∀ {w : Bytes}, (∀ i : Nat, w[i]? = some 92 → w[i + 1]? ≠ some 10) → noEscLf w = true
  | [], _ => rfl
  | b :: w, h => by
    simp only [noEscLf, Bool.and_eq_true]
    refine ⟨?_, noEscLf_of fun i hi => ?_⟩
    · rw [Bool.not_eq_true', Bool.and_eq_false_iff]
      by_cases hb : b = 92
      · subst hb
        right
        have := h 0 rfl
        rw [beq_eq_false_iff_ne, List.head?_eq_getElem?]
        exact this
      · exact .inl (by simp [hb])
    · exact h (i + 1) hi

/-- A run without carriage returns is the text of a url, but for white space in front. -/
theorem UrlRun.body {src : Bytes} {a e : Nat} (h : UrlRun src a e) (h13 : 13 ∉ sub src a e) :
    (sub src a e).all isUrlBodyByte = true ∧ noEscLf (sub src a e) = true := by
  rcases h with ⟨i, c, x, y, z, rfl⟩ | h
  · exact absurd (sub_mem x y z) h13
  · refine ⟨?_, noEscLf_of fun i hi hj => ?_⟩
    · rw [List.all_eq_true]
      intro c hc
      obtain ⟨i, h1, h2, h3⟩ := mem_sub hc
      exact (h i c h1 h2 h3).1
    · have ix : ∀ {i : Nat} {c : UInt8}, (sub src a e)[i]? = some c → a + i < e ∧ src[a + i]? = some c := by
        intro i c hi
        unfold sub at hi
        rw [List.getElem?_take] at hi
        split at hi
        · rw [List.getElem?_drop] at hi
          exact ⟨by omega, hi⟩
        · cases hi
      obtain ⟨l1, e1⟩ := ix hi
      obtain ⟨_, e2⟩ := ix hj
      exact (h _ _ (by omega) l1 e1).2 rfl e2

theorem string_byte {m b : UInt8} {c : Int} (hm : (m.toNat : Int) ≠ c) (h10 : c ≠ r!"\n") (h92 : c ≠ r!"\\") (hma : m = 34 ∨ m = 39)
    (h : 0x80 ≤ b.toNat ∨ b = 13 ∨ c = (b.toNat : Int)) : b = 13 ∨ isStringByte m b = true := by
  by_cases h13 : b = 13
  · exact .inl h13
  · right
    unfold isStringByte
    have n1 : b ≠ m := by
      rintro rfl
      rcases h with h | h | h
      · rcases hma with rfl | rfl <;> revert h <;> decide
      · exact h13 h
      · exact hm h.symm
    have n2 : b ≠ 92 := by
      rintro rfl
      rcases h with h | h | h
      · revert h; decide
      · exact h13 h
      · exact h92 h
    have n3 : b ≠ 10 := by
      rintro rfl
      rcases h with h | h | h
      · revert h; decide
      · exact h13 h
      · exact h10 h
    simp [n1, n2, n3, h13]

/-- The body of a string: bytes of strings, or an escape. -/
theorem pass_string {m : UInt8} (hma : m = 34 ∨ m = 39) : ∀ (n : Nat) (s : St), Good s →
    wp (stringLoop (m.toNat : Int) n) (fun e s' => Mov s s' ∧ s.lex.lastPos ≤ e ∧ e ≤ s'.lex.lastPos ∧
      (Over (fun b => b = 13 ∨ isStringByte m b = true) s.src s.lex.lastPos e ∨
        ∃ i, s.lex.lastPos ≤ i ∧ i < e ∧ s.src[i]? = some 92)) XT s
  | 0, s, _ => trivial
  | n + 1, s, h => by
    have again : ∀ s', Mov s s' → (Over (fun b => b = 13 ∨ isStringByte m b = true) s.src s.lex.lastPos s'.lex.lastPos ∨
        ∃ i, s.lex.lastPos ≤ i ∧ i < s'.lex.lastPos ∧ s.src[i]? = some 92) →
        wp (stringLoop (m.toNat : Int) n) (fun e s' => Mov s s' ∧ s.lex.lastPos ≤ e ∧ e ≤ s'.lex.lastPos ∧
      (Over (fun b => b = 13 ∨ isStringByte m b = true) s.src s.lex.lastPos e ∨
        ∃ i, s.lex.lastPos ≤ i ∧ i < e ∧ s.src[i]? = some 92)) XT s' := by
      intro s' mv hh
      refine wp_mono (pass_string hma n s' (mv.good h)) fun e s'' ⟨m', h1, h2, h3⟩ => ?_
      have hle := mv.le
      refine ⟨mv.trans h.inv m', by omega, h2, ?_⟩
      rw [mv.src] at h3
      rcases hh with o | ⟨i, i1, i2, i3⟩
      · rcases h3 with o' | ⟨i, i1, i2, i3⟩
        · exact .inl (o.append o')
        · exact .inr ⟨i, by omega, i2, i3⟩
      · exact .inr ⟨i, i1, by omega, i3⟩
    simp only [stringLoop]
    wpb
    refine wp_ite (fun hc => ?_) fun hm => wp_ite (fun _ => trivial) fun h10 => wp_ite (fun hc => ?_) fun h92 =>
      wp_ite (fun _ => trivial) fun hne => ?_
    · wpb
      rw [wp_bind, wp_step h]
      have m1 := mov_step h.inv
      exact ⟨m1, Nat.le_refl _, m1.le, .inl .nil⟩
    · rw [wp_bind, wp_step h]
      have m1 := mov_step h.inv
      have g1 := m1.good h
      have o1 := fun (s' : St) (hl : s.lex.pos ≤ s'.lex.lastPos) => odd_escape (s' := s') h hc hl
      wpb
      refine wp_ite (fun hc1 => ?_) fun _ => wp_ite (fun _ => trivial) fun hne1 =>
        wp_ite (fun _ => ?_) fun _ => again _ m1 (.inr (o1 _ (Nat.le_refl _)))
      · rw [wp_bind, wp_step g1]
        have m2 := mov_step g1.inv
        exact again _ (m1.trans h.inv m2) (.inr (o1 _ m2.le))
      · refine wp_seq (escaped_pos g1) fun _ s2 ⟨m2, _⟩ => ?_
        exact again s2 (m1.trans h.inv m2) (.inr (o1 _ m2.le))
    · rw [wp_bind, wp_step h]
      have p := pass_step (Q := fun b => b = 13 ∨ isStringByte m b = true) h fun b hb =>
        string_byte (fun e => hm e.symm) h10 h92 hma hb
      exact again _ p.1 (.inl p.2)

/-! ### Delimiters -/

theorem class_delim {s : St} (h : Good s) (hne : s.lex.ch ≠ -1)
    (hw : ∀ b : UInt8, b.toNat < 0x80 → b ≠ 13 → b ≠ 92 → s.lex.ch = (b.toNat : Int) → (PTok.delim b).Wf) :
    wp nextDelimToken (fun _ s' => TokClass s'.lex.cur s'.lex.str s'.lex.num) XT s := by
  rw [nextDelimToken]
  wpb
  rw [wp_bind, wp_step h]
  have p := seg_step (P := fun w => ∃ b, w = [b] ∧ (PTok.delim b).Wf) h hne fun b b1 b2 b3 e => ⟨b, rfl, hw b b1 b2 b3 e⟩
  have g := p.1.good h
  wpb
  have g' := (sc_cur (s.moveTo s.lex.pos) .delim).good g
  rw [wpb_slice (s := { s.moveTo s.lex.pos with lex := { (s.moveTo s.lex.pos).lex with cur := .delim } }) p.1.le g'.inv.le, wp_setStr]
  intro hc
  have hc : Clean (sub s.src s.lex.lastPos (s.moveTo s.lex.pos).lex.lastPos) := hc
  exact p.2.elim (fun o => (o.not_clean hc).elim) fun q => q

theorem class_lone {b : UInt8} (hb : b.toNat < 0x80) (h13 : b ≠ 13) (h92 : b ≠ 92) {c : Int} (e : c = (b.toNat : Int))
    (h : ¬ (c = r!";" ∨ c = r!":" ∨ c = r!"+" ∨ c = r!"-" ∨ c = r!"<" ∨ c = r!"@" ∨ c = r!"#" ∨ c = r!"," ∨ c = r!"(" ∨ c = r!")" ∨
      c = r!"[" ∨ c = r!"]" ∨ c = r!"{" ∨ c = r!"}" ∨ c = r!"." ∨ c = r!"/" ∨ c = r!"\"" ∨ c = r!"'" ∨ isWhitespace c = true ∨
      isAD b = true ∨ isNameStart c = true)) : isLoneDelim b = true := by
  subst e
  set_option synthInstance.maxSize 1000 in
  set_option synthInstance.maxHeartbeats 200000 in
  have aux : ∀ n : Nat, n < 128 → n ≠ 13 → n ≠ 92 →
      ¬ ((n : Int) = r!";" ∨ (n : Int) = r!":" ∨ (n : Int) = r!"+" ∨ (n : Int) = r!"-" ∨ (n : Int) = r!"<" ∨ (n : Int) = r!"@" ∨
      (n : Int) = r!"#" ∨ (n : Int) = r!"," ∨ (n : Int) = r!"(" ∨ (n : Int) = r!")" ∨
      (n : Int) = r!"[" ∨ (n : Int) = r!"]" ∨ (n : Int) = r!"{" ∨ (n : Int) = r!"}" ∨ (n : Int) = r!"." ∨ (n : Int) = r!"/" ∨
      (n : Int) = r!"\"" ∨ (n : Int) = r!"'" ∨ isWhitespace (n : Int) = true ∨
      isAD (UInt8.ofNat n) = true ∨ isNameStart (n : Int) = true) → isLoneDelim (UInt8.ofNat n) = true := by decide +kernel
  have := aux b.toNat (by omega) (fun hx => h13 (UInt8.toNat_inj.1 hx)) (fun hx => h92 (UInt8.toNat_inj.1 hx)) (by
    rw [UInt8.ofNat_toNat]; exact h)
  rwa [UInt8.ofNat_toNat] at this

/-! ### Tokens -/

/-- The class of the current token. -/
def Classy (s : St) : Prop := TokClass s.lex.cur s.lex.str s.lex.num

theorem class_numeric {s : St} (h : Good s) (hn : startsNumber s.lex.ch (s.peek 0) (s.peek 1) = true ∨
    s.lex.ch = r!"." ∧ isDigit (s.peek 0) = false) : wp nextNumericToken (fun _ s' => Classy s') XT s := by
  rw [nextNumericToken]
  wpb
  have hnum : wp nextNumber (fun _ s' => Mov s s' ∧ isDigit s'.lex.ch = false ∧
      (Seg IsNum s s' ∨ s' = s ∧ s.lex.ch = r!".")) XT s := by
    rcases hn with hn | ⟨h1, h2⟩
    · exact wp_mono (seg_number h hn) fun _ s' ⟨p, d⟩ => ⟨p.1, d, .inl p⟩
    · exact wp_mono (no_number h h1 h2) fun _ s' e => by
        subst e
        exact ⟨.refl h.inv, by rw [h1]; decide, .inr ⟨rfl, h1⟩⟩
  refine wp_seq hnum fun _ s1 ⟨m1, hd1, hh⟩ => ?_
  have g1 := m1.good h
  wpb
  rw [wpb_slice m1.le g1.inv.le]
  wpb
  have isnum : s1.lex.ch ≠ r!"." → Clean (sub s1.src s.lex.lastPos s1.lex.lastPos) → IsNum (sub s1.src s.lex.lastPos s1.lex.lastPos) := by
    intro hdot hc
    rw [m1.src] at hc ⊢
    rcases hh with p | ⟨rfl, e⟩
    · exact p.2.elim (fun o => (o.not_clean hc).elim) fun q => q
    · exact absurd e hdot
  have isnum' : Clean (sub s1.src s.lex.lastPos s1.lex.lastPos) →
      sub s1.src s.lex.lastPos s1.lex.lastPos = [] ∨ IsNum (sub s1.src s.lex.lastPos s1.lex.lastPos) := by
    intro hc
    rcases hh with p | ⟨rfl, e⟩
    · rw [m1.src] at hc ⊢
      exact p.2.elim (fun o => (o.not_clean hc).elim) .inr
    · left; rw [sub_self]
  refine wp_ite (fun hid => ?_) fun _ => wp_ite (fun hpc => ?_) fun _ => ?_
  · wpb
    have sc := sc_num s1 (sub s1.src s.lex.lastPos s1.lex.lastPos)
    generalize hs2 : ({ s1 with lex := { s1.lex with num := sub s1.src s.lex.lastPos s1.lex.lastPos } } : St) = s2 at sc ⊢
    have hn2 : s2.lex.num = sub s1.src s.lex.lastPos s1.lex.lastPos := by subst hs2; rfl
    have hpk : ∀ i, s2.peek i = s1.peek i := by subst hs2; exact fun _ => rfl
    have g2 := sc.good g1
    refine wp_seq (seg_name g2) fun _ s3 ⟨p3, e3⟩ => ?_
    have g3 := p3.1.good g2
    wpb
    rw [show s1.lex.lastPos = s2.lex.lastPos from sc.lastPos.symm]
    rw [wpb_slice p3.1.le g3.inv.le]
    wpb
    have hsrc := p3.1.src
    refine ⟨fun hc => ?_, fun hc => ?_⟩
    · have : s3.lex.num = s2.lex.num := p3.1.num
      show IsNum s3.lex.num
      have hc : Clean s3.lex.num := hc
      rw [this, hn2] at hc ⊢
      refine isnum ?_ hc
      intro hdot
      rw [hdot] at hid
      unfold startsIdentifier at hid
      rw [if_neg (by decide), if_neg (by decide)] at hid
      revert hid
      decide
    · show IsWord (sub s3.src s2.lex.lastPos s3.lex.lastPos) ∧ ∀ b t, sub s3.src s2.lex.lastPos s3.lex.lastPos = b :: t → _
      have hc : Clean (sub s3.src s2.lex.lastPos s3.lex.lastPos) := hc
      rw [hsrc] at hc ⊢
      have cont : Continues s2 ∧ (s2.lex.ch = r!"-" → Continues (s2.moveTo s2.lex.pos)) := by
        have hid : startsIdentifier s1.lex.ch (s1.peek 0) (s1.peek 1) = true := hid
        rw [← sc.ch, ← hpk, ← hpk] at hid
        unfold startsIdentifier at hid
        split at hid
        · rename_i hm
          refine ⟨.inl (by rw [hm]; decide), fun _ => ?_⟩
          simp only [Bool.or_eq_true, beq_iff_eq] at hid
          rcases hid with (hx | hx) | hx
          · left; rw [ch_step hx (by decide) (by decide)]; decide
          · left; rw [ch_step (s := s2) rfl (isName_ne_cr hx).1 (isName_ne_cr hx).2]; exact hx
          · right
            have hb := escape_ne hx
            rw [ch_step hb (by decide) (by decide), peek_step' (c := 92) (by decide) (by decide) hb, ← hb]
            exact hx
        · rename_i hm
          split at hid
          · cases hid
          · exact ⟨.inl hid, fun hx => absurd hx hm⟩
      refine ⟨word_of g2 p3 e3 cont.1 cont.2 (fun b hb => (hc b hb).2), ?_⟩
      intro b t e
      have hlt := name_some g2 p3 e3 cont.1
      have hl := g3.inv.le
      rw [hsrc] at hl
      obtain ⟨c, h1, _, _, h4, _, _, h7⟩ := clean_head g2.inv hlt hl hc
      rw [h7] at e
      obtain ⟨rfl, _⟩ := List.cons.inj e
      rw [← sc.ch, h4, isDigit_byte h1] at hd1
      exact hd1
  · wpb
    have sc : SameCursor s1 { s1 with lex := { s1.lex with
        num := sub s1.src s.lex.lastPos s1.lex.lastPos, cur := .percentage } } := by constructor <;> rfl
    refine wp_mono (wp_top (X := XT) (step_spec (sc.good g1))) fun _ s3 ⟨m3, _⟩ => ?_
    unfold Classy
    rw [m3.cur, m3.num]
    exact isnum (by rw [hpc]; decide)
  · rw [wp_setCur]
    exact isnum'

theorem class_ident {s : St} (h : Good s) (hs : IdentStart s) (hesc : s.lex.ch = r!"\\" → startsEscape s.lex.ch (s.peek 0) = true) :
    wp nextIdentLikeToken (fun _ s' => Classy s') XT s := by
  rw [nextIdentLikeToken]
  wpb
  refine wp_seq (seg_name h) fun _ s1 ⟨p1, e1⟩ => ?_
  have m1 := p1.1
  have g1 := m1.good h
  wpb
  rw [wpb_slice m1.le g1.inv.le, wpb_setStr]
  have hid : NoEsc (sub s1.src s.lex.lastPos s1.lex.lastPos) → IsIdent (sub s1.src s.lex.lastPos s1.lex.lastPos) := by
    rw [m1.src]
    exact ident_of h p1 e1 hs fun hb => name_some h p1 e1 (.inr (hesc hb))
  generalize hs2 : ({ s1 with lex := { s1.lex with str := sub s1.src s.lex.lastPos s1.lex.lastPos } } : St) = s2
  have sc : SameCursor s1 s2 := by subst hs2; constructor <;> rfl
  have str2 : s2.lex.str = sub s1.src s.lex.lastPos s1.lex.lastPos := by subst hs2; rfl
  rw [← str2] at hid
  have g2 := sc.good g1
  wpb
  refine wp_ite (fun hu => ?_) fun _ => wp_ite (fun hc => ?_) fun _ => ?_
  · rw [wp_bind, wp_step g2]
    have m3 := mov_step g2.inv
    have g3 := m3.good g2
    wpb
    refine wp_seq (urlWs_stop _ _ g3 (by omega)) fun _ s4 ⟨m4, hw⟩ => ?_
    wpb
    refine wp_ite (fun _ => ?_) fun _ => ?_
    · rw [wp_setCur]
      show NoEsc s4.lex.str → IsIdent s4.lex.str
      rw [m4.str]
      exact hid
    · wpb
      have g4 := m4.good g3
      have g5 := (sc_cur s4 .url).good g4
      refine wp_mono (seg_url _ _ _ g5 (Nat.le_refl _)) fun _ s6 ⟨hcur, e, hle, hl, p, hstr⟩ => ?_
      unfold Classy
      rw [hcur]
      show 13 ∉ s6.lex.str → isUrlBody s6.lex.str = true
      rw [hstr]
      intro hc
      have hc : 13 ∉ sub s4.src s4.lex.lastPos e := hc
      have hle : s4.lex.lastPos ≤ e := hle
      have hl : e ≤ s4.src.length := hl
      have p : UrlRun s4.src s4.lex.lastPos e := p
      show isUrlBody (sub s4.src s4.lex.lastPos e) = true
      rw [isUrlBody, (p.body hc).1, (p.body hc).2]
      show (!(sub s4.src s4.lex.lastPos e).head?.any isWsByte) = true
      by_cases hlt : s4.lex.lastPos < e
      · have hb : s4.src[s4.lex.lastPos]? = some s4.src[s4.lex.lastPos] := List.getElem?_eq_getElem (by omega)
        generalize s4.src[s4.lex.lastPos] = b at hb
        have eb := sub_cons hb hlt
        have h13 : b ≠ 13 := by
          rintro rfl
          exact hc (by rw [eb]; simp)
        rw [eb]
        show (!isWsByte b) = true
        by_cases h1 : b.toNat < 0x80
        · have hcur := cur_plain h1 h13 hb
          rw [g4.inv.ch, hcur, ws_byte_class h1] at hw
          rw [hw]; rfl
        · rw [isWsByte_high (by omega)]; rfl
      · have : e = s4.lex.lastPos := by omega
        rw [this, sub_self]; rfl
  · rw [wp_bind, wp_step g2, wp_setCur]
    exact hid
  · rw [wp_setCur]
    exact hid

theorem nextLoop_class : ∀ (n : Nat) (s : St), Inv s → wp (nextLoop n) (fun _ s' => Classy s') XT s
  | 0, _, _ => trivial
  | n + 1, s, h => by
    rw [nextLoop, wpb_modLex]
    generalize hs0 : ({ s with lex := { s.lex with start := s.lex.lastPos } } : St) = s0
    have sc : SameCursor s s0 := by subst hs0; constructor <;> rfl
    have i0 := sc.inv h
    clear hs0
    wpb
    refine wp_ite (fun hc => ?_) fun hne => ?_
    · rw [wp_setCur]
      trivial
    have g0 : Good s0 := ⟨i0, fun hp => hne (i0.pos_zero hp)⟩
    have single : ∀ t, (∀ str num, TokClass t str num) → wp (do setCur t; step) (fun _ s' => Classy s') XT s0 := fun t ht => by
      rw [wpb_setCur, wp_step ((sc_cur s0 t).good g0)]
      exact ht _ _
    have dlm : ∀ x : UInt8, (x = 43 ∨ x = 45 ∨ x = 46 ∨ x = 47 ∨ x = 60 ∨ x = 35 ∨ x = 64) → s0.lex.ch = (x.toNat : Int) →
        wp nextDelimToken (fun _ s' => Classy s') XT s0 := fun x hx hch =>
      class_delim g0 hne fun b _ _ _ e => by
        rw [hch] at e
        have : b = x := UInt8.toNat_inj.1 (by omega)
        subst this
        exact .inr hx
    refine wp_ite (fun _ => single _ fun _ _ => trivial) fun n1 => ?_
    refine wp_ite (fun _ => single _ fun _ _ => trivial) fun n2 => ?_
    refine wp_ite (fun hc => wp_ite (fun hs => class_numeric g0 (.inl hs)) fun _ => dlm 43 (by simp) hc) fun n3 => ?_
    refine wp_ite (fun hc => wp_ite (fun hs => class_numeric g0 (.inl hs)) fun hns => wp_ite (fun hs => ?_) fun _ =>
      wp_ite (fun hid => ?_) fun _ => dlm 45 (by simp) hc) fun n4 => ?_
    · rw [wp_setCur]
      trivial
    · refine class_ident g0 (.inr (.inr ⟨hc, ?_, hid⟩)) fun hb => ?_
      · unfold startsNumber at hns
        rw [if_pos (.inr hc)] at hns
        by_contra hd
        rw [if_pos (by simpa using hd)] at hns
        exact hns rfl
      · rw [hc] at hb; exact absurd hb (by decide)
    refine wp_ite (fun hc => wp_ite (fun hs => ?_) fun _ => dlm 60 (by simp) hc) fun n5 => ?_
    · rw [wp_setCur]
      trivial
    refine wp_ite (fun hc => wp_ite (fun hid => ?_) fun _ => dlm 64 (by simp) hc) fun n6 => ?_
    · rw [wp_bind, wp_step g0]
      have m1 := mov_step g0.inv
      have g1 := m1.good g0
      wpb
      obtain ⟨k1, k2, k3⟩ := starts_next hid
      generalize hs1 : s0.moveTo s0.lex.pos = s1 at *
      have sc1 := sc_cur s1 .at
      have c1 : Continues ({ s1 with lex := { s1.lex with cur := .at } } : St) := k1
      have c2 : ({ s1 with lex := { s1.lex with cur := .at } } : St).lex.ch = r!"-" →
          Continues (({ s1 with lex := { s1.lex with cur := .at } } : St).moveTo ({ s1 with lex := { s1.lex with cur := .at } } : St).lex.pos) :=
        fun hx => k2 (by rw [← k3]; exact hx)
      refine wp_seq (seg_name (sc1.good g1)) fun _ s2 ⟨p2, e2⟩ => ?_
      have g2 := p2.1.good (sc1.good g1)
      wpb
      have hle : s1.lex.lastPos ≤ s2.lex.lastPos := p2.1.le
      rw [wpb_slice hle g2.inv.le, wp_setStr]
      unfold Classy
      simp only
      rw [p2.1.cur, p2.1.src]
      exact word_of (sc1.good g1) p2 e2 c1 c2
    refine wp_ite (fun hc => wp_ite (fun hid => ?_) fun _ => dlm 35 (by simp) hc) fun n7 => ?_
    · wpb
      have sc1 := sc_cur s0 .hash
      have g0' := sc1.good g0
      rw [wp_bind, wp_step g0']
      have m1 := mov_step g0'.inv
      have g1 := m1.good g0'
      have cont : Continues (s0.moveTo s0.lex.pos) := by
        simp only [Bool.or_eq_true] at hid
        rcases hid with hx | hx
        · left; rw [ch_step (s := s0) rfl (isName_ne_cr hx).1 (isName_ne_cr hx).2]; exact hx
        · right
          have hb := escape_ne hx
          rw [ch_step hb (by decide) (by decide), peek_step' (c := 92) (by decide) (by decide) hb, ← hb]
          exact hx
      wpb
      refine wp_seq (seg_name g1) fun _ s2 ⟨p2, e2⟩ => ?_
      have g2 := p2.1.good g1
      wpb
      rw [wpb_slice p2.1.le g2.inv.le, wp_setStr]
      unfold Classy
      simp only
      rw [p2.1.cur, p2.1.src]
      intro hcl
      have hlt := name_some g1 p2 e2 cont
      have hl := g2.inv.le
      rw [p2.1.src] at hl
      obtain ⟨c, _, _, _, h7, _⟩ := plain_head g1.inv hlt hl hcl
      exact ⟨by rw [h7]; simp, p2.2.elim (fun o => (o.not_plain hcl).elim) fun q => q⟩
    refine wp_ite (fun _ => single _ fun _ _ => trivial) fun n8 => ?_
    refine wp_ite (fun _ => single _ fun _ _ => trivial) fun n9 => ?_
    refine wp_ite (fun _ => single _ fun _ _ => trivial) fun n10 => ?_
    refine wp_ite (fun _ => single _ fun _ _ => trivial) fun n11 => ?_
    refine wp_ite (fun _ => single _ fun _ _ => trivial) fun n12 => ?_
    refine wp_ite (fun _ => single _ fun _ _ => trivial) fun n13 => ?_
    refine wp_ite (fun _ => single _ fun _ _ => trivial) fun n14 => ?_
    refine wp_ite (fun hc => wp_ite (fun hs => ?_) fun _ => dlm 46 (by simp) hc) fun n15 => ?_
    · -- a full stop
      by_cases hd : isDigit (s0.peek 0) = true
      · refine class_numeric g0 (.inl ?_)
        unfold startsNumber
        rw [hc, if_neg (by decide), if_pos ⟨rfl, hd⟩]
      · exact class_numeric g0 (.inr ⟨hc, by simpa using hd⟩)
    refine wp_ite (fun hc => wp_ite (fun he => ?_) fun _ => trivial) fun n16 => ?_
    · exact class_ident g0 (.inr (.inl hc)) fun _ => he
    refine wp_ite (fun hc => wp_ite (fun _ => dlm 47 (by simp) hc) fun _ => ?_) fun n17 => ?_
    · -- comment
      refine wp_seq (wp_top (X := XT) (step_spec g0)) fun _ s1 ⟨m1, _⟩ => ?_
      have g1 := m1.good g0
      refine wp_seq (wp_top (X := XT) (step_spec g1)) fun _ s2 ⟨m2, _⟩ => ?_
      have g2 := m2.good g1
      wpb
      refine wp_seq (wp_top (commentLoop_spec _ s2 g2 (by omega))) fun e s3 ⟨m3, _⟩ => ?_
      have g3 := m3.good g2
      wpb
      refine wp_seq (R := fun _ s' => Good s' ∧ s'.lex.cur = .comment)
        (slice_top fun _ => ⟨(sc_cur s3 .comment).good g3, rfl⟩) fun t s5 ⟨g5, c5⟩ => ?_
      wpb
      refine wp_ite (fun _ => ?_) fun _ => ?_
      · show TokClass s5.lex.cur _ _
        rw [c5]
        trivial
      · exact nextLoop_class n _ ((sc_str s5 t).good g5).inv
    refine wp_ite (fun hq => ?_) fun n18 => ?_
    · -- string
      obtain ⟨m, hm, hch⟩ : ∃ m : UInt8, (m = 34 ∨ m = 39) ∧ s0.lex.ch = (m.toNat : Int) := by
        rcases hq with e | e
        · exact ⟨34, .inl rfl, e⟩
        · exact ⟨39, .inr rfl, e⟩
      rw [hch, wp_bind, wp_step g0]
      have m1 := mov_step g0.inv
      have g1 := m1.good g0
      wpb
      refine wp_seq (pass_string hm _ _ g1) fun e s3 ⟨m3, h1, h2, h3⟩ => ?_
      have g3 := m3.good g1
      wpb
      have hl := ((sc_cur s3 .string).good g3).inv.le
      rw [wpb_slice (s := { s3 with lex := { s3.lex with cur := .string } }) h1 (Nat.le_trans h2 hl), wp_setStr]
      show 13 ∉ sub s3.src _ e → 92 ∉ sub s3.src _ e → IsStringText (sub s3.src _ e)
      rw [m3.src]
      intro h13 h92
      rcases h3 with o | ⟨i, i1, i2, i3⟩
      · have key : ∀ b ∈ sub (s0.moveTo s0.lex.pos).src (s0.moveTo s0.lex.pos).lex.lastPos e, isStringByte m b = true := fun b hb =>
          (o.mem b hb).elim (fun hx => by subst hx; exact absurd hb h13) fun hx => hx
        rcases hm with rfl | rfl
        · exact .inl key
        · exact .inr key
      · exact absurd (sub_mem i1 i2 i3) h92
    refine wp_ite (fun hw => ?_) fun n19 => ?_
    · wpb
      refine wp_ite (fun hr => ?_) fun _ => ?_
      · wpb
        refine wp_seq (R := fun _ _ => True) wp_trivial fun _ s1 _ => ?_
        rw [wp_setCur]
        trivial
      · refine wp_seq (wp_top (X := XT) (step_spec g0)) fun _ s1 ⟨m1, _⟩ => ?_
        exact nextLoop_class n s1 (m1.good g0).inv
    refine wp_ite (fun hd => class_numeric g0 (.inl ?_)) fun n20 => wp_ite (fun hns => class_ident g0 (.inl ⟨hns, by simpa using n20⟩) fun hb => absurd hb n16) fun n21 => ?_
    · unfold startsNumber
      have h1 : ¬ (s0.lex.ch = r!"+" ∨ s0.lex.ch = r!"-") := by
        rintro (e | e) <;> rw [e] at hd <;> revert hd <;> decide
      have h2 : ¬ (s0.lex.ch = r!"." ∧ isDigit (s0.peek 0) = true) := by
        rintro ⟨e, _⟩; rw [e] at hd; revert hd; decide
      rw [if_neg h1, if_neg h2]
      exact hd
    · refine class_delim g0 hne fun b b1 b2 b3 e => .inl (class_lone b1 b2 b3 e ?_)
      rintro (x | x | x | x | x | x | x | x | x | x | x | x | x | x | x | x | x | x | x | x | x)
      · exact n1 x
      · exact n2 x
      · exact n3 x
      · exact n4 x
      · exact n5 x
      · exact n6 x
      · exact n7 x
      · exact n8 x
      · exact n9 x
      · exact n10 x
      · exact n11 x
      · exact n12 x
      · exact n13 x
      · exact n14 x
      · exact n15 x
      · exact n17 x
      · exact n18 (.inl x)
      · exact n18 (.inr x)
      · exact n19 x
      · refine n20 ?_
        rw [e, isDigit_byte b1]
        exact x
      · exact n21 x

/-- The literals of the next token have their syntax. -/
theorem next_class {s : St} (h : Inv s) : wp next (fun _ s' => Classy s') XT s := by
  rw [next, wpb_lexFuel]
  exact nextLoop_class _ s h

/-- What is known of the current token besides the texts it carries. -/
structure TokMore (src : Bytes) (cur : Tok) (start lastPos : Nat) (str num : Bytes) : Prop where
  eof : cur = .eof → start = src.length
  prog : cur ≠ .eof → start < lastPos ∨ StuckIn src
  func : cur = .functionStart → CallIn src str
  atRule : cur = .at → SliceOf src (b!"@" ++ str)
  bracket : cur = .lbracket → SliceOf src b!"["
  call : cur = .functionStart → isURLString str = false → CallAt src str lastPos
  numBytes : cur = .number ∨ cur = .dimension → ∀ b ∈ num, NumByte b
  signNum : cur = .dimension → num ≠ b!"+" ∧ num ≠ b!"-"
  strBytes : cur = .dimension → (∀ b ∈ str, ¬ SpaceByte b) ∨ 92 ∈ str
  cls : TokClass cur str num

theorem TokMore.of {s : St} (t : TokOk s) (d : Told src s) (y : Bytely s) (c : Classy s) (hs : s.src = src) :
    TokMore src s.lex.cur s.lex.start s.lex.lastPos s.lex.str s.lex.num where
  eof h := by rw [← hs]; exact t.eof h
  prog h := by
    by_cases hst : Stalls s
    · exact .inr (d.stalls hst)
    · unfold Stalls at hst
      exact .inl (t.progress h (fun e => hst (.inl e)) (fun e => hst (.inr (.inl e))) fun e => hst (.inr (.inr e)))
  func := d.func
  atRule := d.atRule
  bracket := d.bracket
  call := d.call
  numBytes := y.num
  signNum := y.sign
  strBytes := y.str
  cls := c

/-- One token: how it was read and what the text contains because of it. -/
theorem next_full {s : St} (h : Inv s) (hsrc : s.src = src) :
    wp next (fun _ s' => Tokd s s' ∧ TokMore src s'.lex.cur s'.lex.start s'.lex.lastPos s'.lex.str s'.lex.num) (NX s) s :=
  wp_mono (wp_and (next_spec h) (wp_and (next_told h hsrc) (wp_and (next_tkn h hsrc) (next_class h)))) fun _ _ ⟨t, d, ⟨y, _⟩, c⟩ =>
    ⟨t, .of t.tok d y c (t.adv.src.trans hsrc)⟩

end

end Cssc
