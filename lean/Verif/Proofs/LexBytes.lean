import Verif.Proofs.LexMore

/-!
# The bytes of tokens and of the gaps between them
-/

namespace Cssc

/-- The bytes of the text between two offsets. -/
def Over (Q : UInt8 → Prop) (src : Bytes) (a b : Nat) : Prop := ∀ i c, a ≤ i → i < b → src[i]? = some c → Q c

theorem Over.nil {Q : UInt8 → Prop} {src : Bytes} {a : Nat} : Over Q src a a := fun _ _ h1 h2 => by omega

theorem Over.append {Q : UInt8 → Prop} {src : Bytes} {a b c : Nat} (h : Over Q src a b) (h' : Over Q src b c) : Over Q src a c :=
  fun i x h1 h2 e => by
    by_cases hi : i < b
    · exact h i x h1 hi e
    · exact h' i x (by omega) h2 e

theorem mem_sub {src : Bytes} {a b : Nat} {c : UInt8} (h : c ∈ sub src a b) : ∃ i, a ≤ i ∧ i < b ∧ src[i]? = some c := by
  unfold sub at h
  obtain ⟨j, hj⟩ := List.mem_iff_getElem?.1 h
  rw [List.getElem?_take] at hj
  split at hj
  · rename_i hlt
    rw [List.getElem?_drop] at hj
    exact ⟨a + j, by omega, by omega, hj⟩
  · cases hj

theorem sub_mem {src : Bytes} {a b i : Nat} {c : UInt8} (h1 : a ≤ i) (h2 : i < b) (h : src[i]? = some c) : c ∈ sub src a b := by
  unfold sub
  refine List.mem_iff_getElem?.2 ⟨i - a, ?_⟩
  rw [List.getElem?_take, if_pos (by omega), List.getElem?_drop, show a + (i - a) = i by omega, h]

theorem Over.mem {Q : UInt8 → Prop} {src : Bytes} {a b : Nat} (h : Over Q src a b) : ∀ c ∈ sub src a b, Q c := fun c hc => by
  obtain ⟨i, h1, h2, h3⟩ := mem_sub hc
  exact h i c h1 h2 h3

/-- The ASCII bytes of a rune. -/
theorem decode_byte {src : Bytes} {q i : Nat} {b : UInt8} (hb : b.toNat < 0x80) (h : src[i]? = some b) (h1 : q ≤ i)
    (h2 : i < q + (decodeRune (src.drop q)).2) : (decodeRune (src.drop q)).1 = (b.toNat : Int) := by
  rcases Nat.eq_or_lt_of_le h1 with rfl | hlt
  · rw [decode_at hb h]
  · have := decode_size hb h hlt
    omega

/-- The ASCII bytes the cursor passes: carriage returns and the current rune. -/
theorem rune_byte {src : Bytes} {p i : Nat} {b : UInt8} (hb : b.toNat < 0x80) (h : src[i]? = some b) (h1 : p ≤ i)
    (h2 : i < (curAt src p).2) : b = 13 ∨ (curAt src p).1 = (b.toNat : Int) := by
  unfold curAt at h2 ⊢
  dsimp only at h2 ⊢
  split at h2
  · simp only at h2; omega
  · rename_i hs
    rw [if_neg hs]
    split at h2
    · rename_i hcr
      rw [if_pos hcr]
      obtain ⟨e1, e2⟩ := decode_cr hcr
      rw [e2] at h2 ⊢
      rcases Nat.eq_or_lt_of_le h1 with rfl | hlt
      · rw [e1] at h; cases h; exact .inl rfl
      · exact .inr (decode_byte hb h hlt h2)
    · rename_i hcr
      rw [if_neg hcr]
      exact .inr (decode_byte hb h h1 h2)

/-- White space. -/
def SpaceByte (b : UInt8) : Prop := b = 32 ∨ b = 10 ∨ b = 9

instance (b : UInt8) : Decidable (SpaceByte b) := by unfold SpaceByte; infer_instance

section
variable {src : Bytes}

/-- Movement over bytes of one kind. -/
def Pass (Q : UInt8 → Prop) (s s' : St) : Prop := Mov s s' ∧ Over Q s.src s.lex.lastPos s'.lex.lastPos

theorem Pass.trans {Q : UInt8 → Prop} {s s1 s2 : St} (hi : Inv s) (h : Pass Q s s1) (h' : Pass Q s1 s2) : Pass Q s s2 :=
  ⟨h.1.trans hi h'.1, h.2.append (by have := h'.2; rwa [h.1.src] at this)⟩

theorem Pass.refl {Q : UInt8 → Prop} {s : St} (h : Inv s) : Pass Q s s := ⟨.refl h, .nil⟩

theorem pass_step {Q : UInt8 → Prop} {s : St} (h : Good s) (hq : ∀ b : UInt8, (0x80 ≤ b.toNat ∨ b = 13 ∨ s.lex.ch = (b.toNat : Int)) → Q b) :
    Pass Q s (s.moveTo s.lex.pos) := by
  refine ⟨mov_step h.inv, fun i b h1 h2 e => hq b ?_⟩
  by_cases hb : b.toNat < 0x80
  · right
    rw [h.inv.ch]
    refine rune_byte hb e h1 ?_
    have h2 : i < s.lex.pos := h2
    rwa [h.inv.pos] at h2
  · left; omega

/-- The bytes of numbers: neither white space nor the letter of An+B. -/
def NumByte (b : UInt8) : Prop := ¬ SpaceByte b ∧ b ≠ 110

theorem numByte {b : UInt8} {c : Int} (hc : isDigit c = true ∨ c = r!"+" ∨ c = r!"-" ∨ c = r!"." ∨ c = r!"e" ∨ c = r!"E")
    (h : 0x80 ≤ b.toNat ∨ b = 13 ∨ c = (b.toNat : Int)) : NumByte b := by
  unfold NumByte SpaceByte
  refine ⟨?_, ?_⟩
  · rintro (rfl | rfl | rfl) <;> rcases h with h | h | rfl <;> first | (revert h; decide) | (revert hc; decide)
  · rintro rfl
    rcases h with h | h | rfl <;> first | (revert h; decide) | (revert hc; decide)

theorem pass_digits : ∀ (n : Nat) (s : St), Good s →
    wp (digitsLoop n) (fun _ s' => Pass NumByte s s') XT s
  | 0, s, _ => trivial
  | n + 1, s, h => by
    simp only [digitsLoop, wp_bind, wp_getCh]
    refine wp_ite (fun hc => ?_) (fun _ => Pass.refl h.inv)
    have p1 := pass_step (Q := NumByte) h fun b hb => numByte (.inl hc) hb
    rw [wp_bind, wp_step h]
    exact wp_mono (pass_digits n _ (p1.1.good h)) fun _ _ p2 => p1.trans h.inv p2

theorem pass_sign {s : St} (h : Good s) :
    wp (whenP (s.lex.ch = r!"+" ∨ s.lex.ch = r!"-") step) (fun _ s' => Pass NumByte s s') XT s :=
  wp_whenP (fun hc => by
    rw [wp_step h]
    exact pass_step h fun b hb => numByte (hc.elim (fun h => .inr (.inl h)) fun h => .inr (.inr (.inl h))) hb)
    fun _ => Pass.refl h.inv

/-- The rune after the current one, if it is not a carriage return. -/
theorem ch_step {s : St} {c : Int} (h : s.peek 0 = c) (h1 : c ≠ -1) (h2 : c ≠ r!"\r") :
    (s.moveTo s.lex.pos).lex.ch = c := by
  unfold St.peek at h
  split at h
  · exact absurd h.symm h1
  · simp only [Nat.add_zero] at h
    split at h
    · exact absurd h.symm h1
    · rename_i hs
      show (curAt s.src s.lex.pos).1 = c
      unfold curAt
      dsimp only
      rw [if_neg hs, if_neg (by rw [h]; exact h2)]
      exact h

theorem peek_step {s : St} (h : s.peek 0 = r!".") : (s.moveTo s.lex.pos).peek 0 = s.peek 1 := by
  unfold St.peek at h
  split at h
  · exact absurd h (by decide)
  · simp only [Nat.add_zero] at h
    split at h
    · exact absurd h (by decide)
    · obtain ⟨b, t, e, e1, e2⟩ := decodeRune_of_lt (s := s.src.drop s.lex.pos) (by rw [h]; decide)
      have hp : (s.moveTo s.lex.pos).lex.pos = s.lex.pos + 1 := by
        show (curAt s.src s.lex.pos).2 = _
        unfold curAt
        dsimp only
        rw [e2, if_neg (by decide), h, if_neg (by decide)]
      unfold St.peek
      rw [hp]
      rfl

theorem sign_digits {s : St} (h : Good s) (hs : s.lex.ch = r!"+" ∨ s.lex.ch = r!"-")
    (hn : startsNumber s.lex.ch (s.peek 0) (s.peek 1) = true) :
    wp nextNumber (fun _ s' => s.lex.pos < s'.lex.lastPos) XT s := by
  have m1 := mov_step h.inv
  have g1 := m1.good h
  have hn1 : ¬ ((s.moveTo s.lex.pos).lex.ch = r!"+" ∨ (s.moveTo s.lex.pos).lex.ch = r!"-") ∧
      startsNumber (s.moveTo s.lex.pos).lex.ch ((s.moveTo s.lex.pos).peek 0) ((s.moveTo s.lex.pos).peek 1) = true := by
    unfold startsNumber at hn
    rw [if_pos hs] at hn
    split at hn
    · rename_i hd
      have hc := ch_step (s := s) rfl (digit_ne hd) (by rintro e; rw [e] at hd; revert hd; decide)
      have h1 : ¬ ((s.moveTo s.lex.pos).lex.ch = r!"+" ∨ (s.moveTo s.lex.pos).lex.ch = r!"-") := by
        rw [hc]; rintro (e | e) <;> rw [e] at hd <;> revert hd <;> decide
      refine ⟨h1, ?_⟩
      unfold startsNumber
      rw [if_neg h1]
      split
      · rfl
      · rw [hc]; exact hd
    · split at hn
      · rename_i hd
        have hc := ch_step hd.1 (by decide) (by decide)
        have h1 : ¬ ((s.moveTo s.lex.pos).lex.ch = r!"+" ∨ (s.moveTo s.lex.pos).lex.ch = r!"-") := by
          rw [hc]; decide
        refine ⟨h1, ?_⟩
        unfold startsNumber
        rw [if_neg h1, if_pos ⟨hc, by rw [peek_step hd.1]; exact hd.2⟩]
      · cases hn
  have key := wp_top (nextNumber_spec g1)
  rw [nextNumber, wpb_lexFuel, wpb_getCh] at key ⊢
  rw [wp_bind, whenP, if_neg hn1.1, wp_pure] at key
  rw [wp_bind, whenP, if_pos hs, wp_step h]
  exact wp_mono key fun _ s' ⟨_, lt⟩ => lt hn1.2

theorem pass_number {s : St} (h : Good s) : wp nextNumber (fun _ s' => Pass NumByte s s') XT s := by
  rw [nextNumber]
  wpb
  refine wp_seq (pass_sign h) fun _ s1 p1 => ?_
  have g1 := p1.1.good h
  refine wp_seq (pass_digits _ _ g1) fun _ s2 p2 => ?_
  have g2 := p2.1.good g1
  wpb
  refine wp_seq (R := fun _ s' => Pass NumByte s2 s') (wp_whenP (fun hc => ?_) fun _ => Pass.refl g2.inv) fun _ s3 p3 => ?_
  · have q1 := pass_step (Q := NumByte) g2 fun b hb => numByte (.inr (.inr (.inr (.inl hc.1)))) hb
    rw [wp_bind, wp_step g2]
    have gt := q1.1.good g2
    have hd : isDigit (s2.moveTo s2.lex.pos).lex.ch = true := by
      rw [ch_step (s := s2) rfl (digit_ne hc.2) (by rintro e; have := hc.2; rw [e] at this; revert this; decide)]
      exact hc.2
    have q2 := pass_step (Q := NumByte) gt fun b hb => numByte (.inl hd) hb
    rw [wp_bind, wp_step gt]
    have gt' := q2.1.good gt
    exact wp_mono (pass_digits _ _ gt') fun _ _ q3 => q1.trans g2.inv (q2.trans gt.inv q3)
  · have g3 := p3.1.good g2
    wpb
    have all := fun (s' : St) (p4 : Pass NumByte s3 s') => p1.trans h.inv (p2.trans g1.inv (p3.trans g2.inv p4))
    refine wp_whenP (fun hc => ?_) fun _ => all _ (Pass.refl g3.inv)
    have q1 := pass_step (Q := NumByte) g3 fun b hb => numByte (.inr (.inr (.inr (.inr hc.1)))) hb
    rw [wp_bind, wp_step g3]
    have gt := q1.1.good g3
    wpb
    refine wp_seq (pass_sign gt) fun _ t1 q2 => ?_
    have gt' := q2.1.good gt
    exact wp_mono (pass_digits _ _ gt') fun _ _ q3 => all _ (q1.trans g3.inv (q2.trans gt.inv q3))

/-! ### Names -/

/-- A run of name characters without an escape holds no white space. -/
theorem nameByte {b : UInt8} {c : Int} (hc : isName c = true) (h : 0x80 ≤ b.toNat ∨ b = 13 ∨ c = (b.toNat : Int)) :
    ¬ SpaceByte b := by
  unfold SpaceByte
  rintro (rfl | rfl | rfl) <;> rcases h with h | h | rfl <;> first | (revert h; decide) | (revert hc; decide)

theorem pass_name : ∀ (n : Nat) (s : St), Good s → s.src.length < n + s.lex.lastPos →
    wp (nameLoop n) (fun _ s' => Pass (fun b => ¬ SpaceByte b) s s' ∨
      ∃ i, s.lex.lastPos ≤ i ∧ i < s'.lex.lastPos ∧ s.src[i]? = some 92) XT s
  | 0, s, _, _ => trivial
  | n + 1, s, h, hn => by
    simp only [nameLoop, wp_bind, wp_getCh]
    refine wp_ite (fun hc => ?_) fun _ => ?_
    · have p1 := pass_step (Q := fun b => ¬ SpaceByte b) h fun b hb => nameByte hc hb
      have hlt := h.inv.lt_of_ne (name_ne hc)
      rw [wp_bind, wp_step h]
      refine wp_mono (pass_name n _ (p1.1.good h) (by
        show s.src.length < n + s.lex.pos; omega)) fun _ s2 hh => ?_
      rcases hh with p2 | ⟨i, h1, h2, h3⟩
      · exact .inl (p1.trans h.inv p2)
      · exact .inr ⟨i, Nat.le_trans p1.1.le h1, h2, h3⟩
    · simp only [wp_bind, wp_peek]
      refine wp_ite (fun he => ?_) fun _ => .inl (Pass.refl h.inv)
      have hch : s.lex.ch = r!"\\" := escape_ne he
      have hlt := h.inv.lt_of_ne (by rw [hch]; decide)
      obtain ⟨q, e1, e2⟩ := ch_byte h.inv (b := 92) (by decide) hch
      rw [nextEscaped]
      rw [wp_bind, wp_bind, wp_step h]
      have m1 := mov_step h.inv
      have g1 := m1.good h
      refine wp_mono (wp_top (escapedLoop_spec _ _ g1)) fun _ s2 m2 => ?_
      have g2 := m2.good g1
      have l2 := m2.le
      have hp : (s.moveTo s.lex.pos).lex.lastPos = s.lex.pos := rfl
      have hsrc : s2.src = s.src := m2.src.trans m1.src
      refine wp_mono (wp_top (nameLoop_spec n s2 g2 (by rw [hsrc]; omega))) fun _ s3 ⟨m3, _⟩ => ?_
      have l3 := m3.le
      exact .inr ⟨q, by omega, by omega, e2⟩

/-! ### Tokens -/

/-- What the bytes of a number or a dimension are. -/
structure Bytely (s : St) : Prop where
  num : s.lex.cur = .number ∨ s.lex.cur = .dimension → ∀ b ∈ s.lex.num, NumByte b
  sign : s.lex.cur = .dimension → s.lex.num ≠ b!"+" ∧ s.lex.num ≠ b!"-"
  str : s.lex.cur = .dimension → (∀ b ∈ s.lex.str, ¬ SpaceByte b) ∨ 92 ∈ s.lex.str

theorem Bytely.cur {s : St} {t : Tok} (h : s.lex.cur = t) (h1 : t ≠ .number ∧ t ≠ .dimension) : Bytely s :=
  ⟨by rintro (e | e); exacts [absurd (h.symm.trans e) h1.1, absurd (h.symm.trans e) h1.2],
    fun e => absurd (h.symm.trans e) h1.2, fun e => absurd (h.symm.trans e) h1.2⟩

theorem not_sign {s s1 : St} (h : Good s) (m : Mov s s1) {b : UInt8} (hb : b = 43 ∨ b = 45)
    (hs : (s.lex.ch = r!"+" ∨ s.lex.ch = r!"-") → s.lex.pos < s1.lex.lastPos) :
    sub s1.src s.lex.lastPos s1.lex.lastPos ≠ [b] := by
  intro e
  have g1 := m.good h
  have hl := congrArg List.length e
  have hle := g1.inv.le
  have hm := m.le
  simp only [sub, List.length_take, List.length_drop, List.length_cons, List.length_nil] at hl
  have hne : s.lex.ch ≠ -1 := by
    intro hc
    rw [h.inv.ch] at hc
    have := curAt_lt (src := s.src) (p := s.lex.lastPos) (by rw [m.src] at hle; omega)
    omega
  have hlt := h.inv.lt_of_ne hne
  have hb' : s.src[s.lex.lastPos]? = some b := by
    have : b ∈ sub s1.src s.lex.lastPos s1.lex.lastPos := by rw [e]; simp
    obtain ⟨i, h1, h2, h3⟩ := mem_sub this
    rw [m.src] at h3
    have : i = s.lex.lastPos := by omega
    rwa [this] at h3
  have := rune_byte (p := s.lex.lastPos) (by rcases hb with rfl | rfl <;> decide) hb' (Nat.le_refl _)
    (by rw [← h.inv.pos]; exact hlt)
  rw [← h.inv.ch] at this
  rcases this with h1 | h1
  · rcases hb with rfl | rfl <;> cases h1
  · have := hs (by rcases hb with rfl | rfl; exacts [.inl h1, .inr h1])
    omega

theorem bytely_numeric {s : St} (h : Good s)
    (hs : (s.lex.ch = r!"+" ∨ s.lex.ch = r!"-") → startsNumber s.lex.ch (s.peek 0) (s.peek 1) = true) :
    wp nextNumericToken (fun _ s' => Bytely s') XT s := by
  rw [nextNumericToken]
  wpb
  have hsg : wp nextNumber (fun _ s' => (s.lex.ch = r!"+" ∨ s.lex.ch = r!"-") → s.lex.pos < s'.lex.lastPos) XT s := by
    by_cases hc : s.lex.ch = r!"+" ∨ s.lex.ch = r!"-"
    · exact wp_mono (sign_digits h hc (hs hc)) fun _ _ h _ => h
    · exact wp_mono wp_trivial fun _ _ _ hc' => absurd hc' hc
  refine wp_seq (wp_and (pass_number h) hsg) fun _ s1 ⟨p1, sg⟩ => ?_
  have m1 := p1.1
  have g1 := m1.good h
  wpb
  rw [wpb_slice m1.le g1.inv.le]
  wpb
  have hnum : ∀ b ∈ sub s1.src s.lex.lastPos s1.lex.lastPos, NumByte b := by
    rw [m1.src]; exact p1.2.mem
  refine wp_ite (fun hid => ?_) fun _ => wp_ite (fun hpc => ?_) fun _ => ?_
  · wpb
    rw [nextName, wpb_assoc, wpb_lexFuel]
    have sc : SameCursor s1 { s1 with lex := { s1.lex with num := sub s1.src s.lex.lastPos s1.lex.lastPos } } := by
      constructor <;> rfl
    generalize hs2 : ({ s1 with lex := { s1.lex with num := sub s1.src s.lex.lastPos s1.lex.lastPos } } : St) = s2 at sc ⊢
    have hn2 : s2.lex.num = sub s1.src s.lex.lastPos s1.lex.lastPos := by subst hs2; rfl
    have g2 := sc.good g1
    refine wp_seq (wp_and (pass_name _ s2 g2 (by have := g2.inv.le; omega))
      (wp_top (nameLoop_spec _ s2 g2 (by have := g2.inv.le; omega)))) fun _ s3 ⟨hh, m3, _⟩ => ?_
    have g3 := m3.good g2
    wpb
    rw [show s1.lex.lastPos = s2.lex.lastPos from sc.lastPos.symm]
    rw [wpb_slice m3.le g3.inv.le]
    wpb
    refine ⟨fun _ b hb => hnum b ?_, fun _ => ?_, fun _ => ?_⟩
    · have : s3.lex.num = s2.lex.num := m3.num
      rw [← hn2, ← this]; exact hb
    · show s3.lex.num ≠ _ ∧ s3.lex.num ≠ _
      rw [m3.num, hn2]
      exact ⟨not_sign h m1 (.inl rfl) sg, not_sign h m1 (.inr rfl) sg⟩
    · show (∀ b ∈ sub s3.src s2.lex.lastPos s3.lex.lastPos, _) ∨ _ ∈ sub s3.src s2.lex.lastPos s3.lex.lastPos
      rw [m3.src]
      rcases hh with p3 | ⟨i, h1, h2, h3⟩
      · exact .inl p3.2.mem
      · exact .inr (sub_mem h1 h2 h3)
  · wpb
    have sc : SameCursor s1 { s1 with lex := { s1.lex with
        num := sub s1.src s.lex.lastPos s1.lex.lastPos, cur := .percentage } } := by constructor <;> rfl
    refine wp_mono (wp_top (X := XT) (step_spec (sc.good g1))) fun _ s3 ⟨m3, _⟩ => ?_
    exact .cur (t := .percentage) m3.cur (by decide)
  · rw [wp_setCur]
    exact ⟨fun _ => hnum, (fun e => by cases e), (fun e => by cases e)⟩

/-! ### The start of the token -/

/-- A method that leaves the start of the token. -/
def Keep (m : P α) : Prop := ∀ s, wp m (fun _ s' => s'.lex.start = s.lex.start) XT s

theorem Keep.pure {a : α} : Keep (pure a : P α) := fun _ => rfl
theorem Keep.timeout : Keep (P.timeout : P α) := fun _ => trivial
theorem Keep.errorf {msg : String} : Keep (errorf msg : P α) := fun _ => trivial
theorem Keep.getCh : Keep getCh := fun _ => rfl
theorem Keep.getLastPos : Keep getLastPos := fun _ => rfl
theorem Keep.getStr : Keep getStr := fun _ => rfl
theorem Keep.setCur {t} : Keep (setCur t) := fun _ => rfl
theorem Keep.setStr {t} : Keep (setStr t) := fun _ => rfl
theorem Keep.setNum {t} : Keep (setNum t) := fun _ => rfl
theorem Keep.lexFuel : Keep lexFuel := fun _ => rfl
theorem Keep.get : Keep P.get := fun _ => rfl
theorem Keep.peek {n} : Keep (peek n) := fun _ => rfl
theorem Keep.bind {m : P α} {f : α → P β} (h : Keep m) (hf : ∀ a, Keep (f a)) : Keep (m >>= f) := by
  intro s
  rw [wp_bind]
  exact wp_mono (h s) fun a s1 h1 => wp_mono (hf a s1) fun _ _ h2 => h2.trans h1
theorem Keep.ite {c : Prop} [Decidable c] {m n : P α} (h : Keep m) (h' : Keep n) : Keep (if c then m else n) := by
  split <;> assumption
theorem Keep.whenP {c : Prop} [Decidable c] {m : P Unit} (h : Keep m) : Keep (whenP c m) := Keep.ite h Keep.pure
theorem Keep.slice {a b : Nat} : Keep (slice a b) := by
  intro s
  unfold wp Cssc.slice
  by_cases hc : a ≤ b ∧ b ≤ s.src.length
  · rw [if_pos hc]
  · rw [if_neg hc]; trivial
theorem Keep.step : Keep step := by
  intro s
  unfold wp Cssc.step
  dsimp only
  by_cases h1 : s.src.length < s.lex.pos
  · rw [if_pos h1]; trivial
  rw [if_neg h1]
  by_cases h2 : (decodeRune (s.src.drop s.lex.pos)).2 = 0
  · rw [if_pos h2]
  rw [if_neg h2]
  by_cases h3 : (decodeRune (s.src.drop s.lex.pos)).1 = r!"\r"
  · rw [if_pos h3]
  · rw [if_neg h3]

macro "kp" : tactic => `(tactic| repeat' (first
  | with_reducible intro _
  | with_reducible exact Keep.pure
  | with_reducible exact Keep.timeout
  | with_reducible exact Keep.errorf
  | with_reducible exact Keep.getCh
  | with_reducible exact Keep.getLastPos
  | with_reducible exact Keep.getStr
  | with_reducible exact Keep.setCur
  | with_reducible exact Keep.setStr
  | with_reducible exact Keep.setNum
  | with_reducible exact Keep.lexFuel
  | with_reducible exact Keep.get
  | with_reducible exact Keep.peek
  | with_reducible exact Keep.slice
  | with_reducible exact Keep.step
  | with_reducible refine Keep.bind ?_ ?_
  | with_reducible refine Keep.ite ?_ ?_
  | with_reducible refine Keep.whenP ?_
  | with_reducible apply_assumption))

theorem kp_digits : ∀ n, Keep (digitsLoop n)
  | 0 => .timeout
  | n + 1 => by have h := kp_digits n; rw [digitsLoop]; kp
theorem kp_nextNumber : Keep nextNumber := by have := kp_digits; unfold nextNumber; kp
theorem kp_nextDelim : Keep nextDelimToken := by unfold nextDelimToken; kp
theorem kp_escaped : ∀ n, Keep (escapedLoop n)
  | 0 => .pure
  | n + 1 => by have h := kp_escaped n; rw [escapedLoop]; kp
theorem kp_nextEscaped : Keep nextEscaped := by have := kp_escaped; unfold nextEscaped; kp
theorem kp_name : ∀ n, Keep (nameLoop n)
  | 0 => .timeout
  | n + 1 => by have h := kp_name n; have := kp_nextEscaped; rw [nameLoop]; kp
theorem kp_nextName : Keep nextName := by have := kp_name; unfold nextName; kp
theorem kp_nextNumeric : Keep nextNumericToken := by
  have := kp_nextName; have := kp_nextNumber; unfold nextNumericToken; kp
theorem kp_urlWs : ∀ n, Keep (urlWsLoop n)
  | 0 => .pure
  | n + 1 => by have h := kp_urlWs n; rw [urlWsLoop]; kp
theorem kp_url : ∀ a n, Keep (urlLoop a n)
  | _, 0 => .timeout
  | a, n + 1 => by
    have h := kp_url a n; have := kp_nextEscaped; have := kp_urlWs; rw [urlLoop]; kp
theorem kp_identLike : Keep nextIdentLikeToken := by
  have := kp_nextName; have := kp_url; have := kp_urlWs; unfold nextIdentLikeToken; kp
theorem kp_string : ∀ a n, Keep (stringLoop a n)
  | _, 0 => .timeout
  | a, n + 1 => by have h := kp_string a n; have := kp_nextEscaped; rw [stringLoop]; kp
theorem kp_ws : ∀ n, Keep (wsLoop n)
  | 0 => .timeout
  | n + 1 => by have h := kp_ws n; rw [wsLoop]; kp

/-! ### The gap before a token -/

/-- Between two tokens there is only white space, unless there is a carriage return or a comment. -/
def Between (src : Bytes) (a b : Nat) : Prop :=
  (∀ c ∈ sub src a b, SpaceByte c) ∨ 13 ∈ sub src a b ∨ 47 ∈ sub src a b

theorem Between.nil {a : Nat} : Between src a a := by left; rw [sub_self]; simp

theorem Between.append {a b c : Nat} (h : Between src a b) (h' : Between src b c) (h1 : a ≤ b) (h2 : b ≤ c) : Between src a c := by
  unfold Between at *
  rw [← sub_append src h1 h2]
  simp only [List.mem_append]
  rcases h with h | h | h
  · rcases h' with h' | h' | h'
    · exact .inl fun c hc => hc.elim (h c) (h' c)
    · exact .inr (.inl (.inr h'))
    · exact .inr (.inr (.inr h'))
  · exact .inr (.inl (.inl h))
  · exact .inr (.inr (.inl h))

theorem gap_ws {s : St} (h : Good s) (hw : isWhitespace s.lex.ch = true) : Between s.src s.lex.lastPos s.lex.pos := by
  by_cases hcr : 13 ∈ sub s.src s.lex.lastPos s.lex.pos
  · exact .inr (.inl hcr)
  · left
    intro c hc
    obtain ⟨i, h1, h2, h3⟩ := mem_sub hc
    have hch := hw
    simp only [isWhitespace, Bool.or_eq_true, beq_iff_eq] at hch
    obtain ⟨b, hb, hbc⟩ : ∃ b : UInt8, SpaceByte b ∧ s.lex.ch = (b.toNat : Int) := by
      rcases hch with (e | e) | e
      · exact ⟨10, by decide, e⟩
      · exact ⟨9, by decide, e⟩
      · exact ⟨32, by decide, e⟩
    have hlt : b.toNat < 0x80 := by rcases hb with rfl | rfl | rfl <;> decide
    rcases ch_bytes h.inv hlt hbc with ⟨e1, e2⟩ | ⟨e1, e2, e3⟩
    · have : i = s.lex.lastPos := by omega
      rw [this, e1] at h3; cases h3; exact hb
    · exact absurd (sub_mem (Nat.le_refl _) (by omega) e1) hcr

/-- What is known after reading one token. -/
def Tkn (src : Bytes) (s s' : St) : Prop := Bytely s' ∧ Between src s.lex.lastPos s'.lex.start ∧ s.lex.lastPos ≤ s'.lex.start

theorem nextLoop_tkn : ∀ (n : Nat) (s : St), Inv s → s.src = src →
    wp (nextLoop n) (fun _ s' => Tkn src s s') XT s
  | 0, _, _, _ => trivial
  | n + 1, s, h, hsrc => by
    rw [nextLoop, wpb_modLex]
    generalize hs0 : ({ s with lex := { s.lex with start := s.lex.lastPos } } : St) = s0
    have sc : SameCursor s s0 := by subst hs0; constructor <;> rfl
    have st0 : s0.lex.start = s.lex.lastPos := by subst hs0; rfl
    have i0 := sc.inv h
    have src0 := sc.src.trans hsrc
    have lp := sc.lastPos
    clear hs0
    have fin : ∀ {m : P Unit}, Keep m → wp m (fun _ s' => Bytely s') XT s0 → wp m (fun _ s' => Tkn src s s') XT s0 :=
      fun k b => wp_mono (wp_and b (k s0)) fun _ s' ⟨h1, h2⟩ => ⟨h1, by rw [h2, st0]; exact .nil, by rw [h2, st0]⟩
    wpb
    refine wp_ite (fun hc => fin .setCur ?_) fun hne => ?_
    · rw [wp_setCur]
      exact .cur (t := .eof) rfl (by decide)
    have g0 : G src s0 := ⟨⟨i0, fun hp => hne (i0.pos_zero hp)⟩, src0⟩
    have single : ∀ t, (t ≠ .number ∧ t ≠ .dimension) →
        wp (do setCur t; step) (fun _ s' => Tkn src s s') XT s0 := fun t ht => fin (by kp) (by
      rw [wpb_setCur, wp_step (g0.same (sc_cur s0 t)).good]
      exact .cur (t := t) rfl ht)
    have numeric : ((s0.lex.ch = r!"+" ∨ s0.lex.ch = r!"-") → startsNumber s0.lex.ch (s0.peek 0) (s0.peek 1) = true) →
        wp nextNumericToken (fun _ s' => Tkn src s s') XT s0 := fun hs =>
      fin kp_nextNumeric (bytely_numeric g0.good hs)
    have dlm : wp nextDelimToken (fun _ s' => Tkn src s s') XT s0 := fin kp_nextDelim <| by
      rw [nextDelimToken]
      wpb
      refine wp_seq (g_step g0) fun _ s1 _ => ?_
      wpb
      refine wp_seq (R := fun _ s' => s'.lex.cur = .delim) (slice_top fun _ => rfl) fun t s2 h2 => ?_
      rw [wp_setStr]
      exact .cur h2 (by decide)
    have ident : wp nextIdentLikeToken (fun _ s' => Tkn src s s') XT s0 := fin kp_identLike <| by
      rw [nextIdentLikeToken]
      wpb
      refine wp_seq (wp_top (nextName_spec g0.good)) fun _ s1 ⟨m1, _⟩ => ?_
      have g1 := m1.good g0.good
      wpb
      rw [wpb_slice m1.le g1.inv.le, wpb_setStr]
      have g2 := (sc_str s1 (sub s1.src s0.lex.lastPos s1.lex.lastPos)).good g1
      generalize { s1 with lex := { s1.lex with str := sub s1.src s0.lex.lastPos s1.lex.lastPos } } = s2 at g2 ⊢
      wpb
      refine wp_ite (fun hu => ?_) fun _ => wp_ite (fun hc => ?_) fun _ => ?_
      · refine wp_seq (wp_top (X := XT) (step_spec g2)) fun _ s3 ⟨m3, _⟩ => ?_
        have g3 := m3.good g2
        wpb
        refine wp_seq (wp_top (urlWsLoop_spec _ s3 g3)) fun _ s4 m4 => ?_
        wpb
        refine wp_ite (fun _ => ?_) fun _ => ?_
        · rw [wp_setCur]
          exact .cur (t := .functionStart) rfl (by decide)
        · wpb
          have g4 := m4.good g3
          have g5 := (sc_cur s4 .url).good g4
          refine wp_mono (wp_top (urlLoop_spec _ _ _ g5 (Nat.le_refl _) (by simp only; omega))) fun _ s6 hh => ?_
          exact .cur (t := .url) hh.2.2.1 (by decide)
      · refine wp_seq (wp_top (X := XT) (step_spec g2)) fun _ s3 ⟨m3, _⟩ => ?_
        rw [wp_setCur]
        exact .cur (t := .functionStart) rfl (by decide)
      · rw [wp_setCur]
        exact .cur (t := .ident) rfl (by decide)
    refine wp_ite (fun _ => single _ (by decide)) fun _ => ?_
    refine wp_ite (fun _ => single _ (by decide)) fun _ => ?_
    refine wp_ite (fun _ => wp_ite (fun hs => numeric fun _ => hs) fun _ => dlm) fun hp => ?_
    refine wp_ite (fun hc => wp_ite (fun hs => numeric fun _ => hs) fun _ => wp_ite (fun hs => fin .setCur ?_) fun _ =>
      wp_ite (fun _ => ident) fun _ => dlm) fun hm => ?_
    · rw [wp_setCur]
      exact .cur (t := .cdc) rfl (by decide)
    refine wp_ite (fun hc => wp_ite (fun hs => fin .setCur ?_) fun _ => dlm) fun _ => ?_
    · rw [wp_setCur]
      exact .cur (t := .cdo) rfl (by decide)
    have kname := kp_nextName
    refine wp_ite (fun hc => wp_ite (fun _ => fin (by kp) ?_) fun _ => dlm) fun _ => ?_
    · refine wp_seq (g_step g0) fun _ s1 ⟨g1, e1⟩ => ?_
      wpb
      have g1' := g1.same (sc_cur s1 .at)
      refine wp_seq (wp_top (nextName_spec g1'.good)) fun _ s2 ⟨m2, _⟩ => ?_
      wpb
      have g2 := m2.good g1'.good
      have hle : s1.lex.lastPos ≤ s2.lex.lastPos := m2.le
      rw [wpb_slice hle g2.inv.le, wp_setStr]
      exact .cur (t := .at) m2.cur (by decide)
    refine wp_ite (fun _ => wp_ite (fun _ => fin (by kp) ?_) fun _ => dlm) fun _ => ?_
    · wpb
      refine wp_seq (wp_top (X := XT) (step_spec (g0.same (sc_cur s0 .hash)).good)) fun _ s1 ⟨m1, _⟩ => ?_
      wpb
      refine wp_seq (wp_top (nextName_spec (m1.good (g0.same (sc_cur s0 .hash)).good))) fun _ s2 ⟨m2, _⟩ => ?_
      wpb
      refine wp_seq (R := fun _ s' => s'.lex.cur = .hash) (slice_top fun _ => m2.cur.trans m1.cur) fun t s3 h3 => ?_
      rw [wp_setStr]
      exact .cur h3 (by decide)
    iterate 7 refine wp_ite (fun _ => single _ (by decide)) fun _ => ?_
    have hns : (s0.lex.ch = r!"+" ∨ s0.lex.ch = r!"-") → startsNumber s0.lex.ch (s0.peek 0) (s0.peek 1) = true :=
      fun hc => hc.elim (fun e => absurd e hp) fun e => absurd e hm
    refine wp_ite (fun hc => wp_ite (fun hs => numeric hns) fun _ => dlm) fun _ => ?_
    refine wp_ite (fun _ => wp_ite (fun he => ident) fun _ => trivial) fun _ => ?_
    refine wp_ite (fun hsl => wp_ite (fun _ => dlm) fun _ => ?_) fun _ => ?_
    · -- comment
      obtain ⟨q, eq, bq⟩ := ch_byte i0 (b := 47) (by decide) hsl
      have hlt0 := i0.lt_of_ne hne
      refine wp_seq (wp_and (g_step g0) (Keep.step s0)) fun _ s1 ⟨⟨g1, e1⟩, k1⟩ => ?_
      refine wp_seq (wp_and (wp_top (X := XT) (step_spec g1.good)) (Keep.step s1)) fun _ s2 ⟨⟨m2, _⟩, k2⟩ => ?_
      have g2 : G src s2 := ⟨m2.good g1.good, m2.src.trans g1.srcEq⟩
      wpb
      refine wp_seq (wp_top (commentLoop_spec _ s2 g2.good (by omega))) fun e s3 ⟨m3, _⟩ => ?_
      have g3 : G src s3 := ⟨m3.good g2.good, m3.src.trans g2.srcEq⟩
      have hst3 : s3.lex.start = s.lex.lastPos := by rw [m3.start, k2, k1, st0]
      have l2 := m2.le
      have l3 := m3.le
      have hgap : Between src s.lex.lastPos s3.lex.lastPos :=
        .inr (.inr (sub_mem (i := q) (by omega) (by omega) (by rw [← src0]; exact bq)))
      wpb
      refine wp_seq (R := fun _ s' => G src s' ∧ s'.lex.cur = .comment ∧ s'.lex.start = s.lex.lastPos ∧
          s'.lex.lastPos = s3.lex.lastPos)
        (slice_top fun _ => ⟨g3.same (sc_cur s3 .comment), rfl, hst3, rfl⟩) fun t s5 ⟨g5, c5, a5, b5⟩ => ?_
      wpb
      refine wp_ite (fun _ => ?_) fun _ => ?_
      · exact ⟨.cur (t := .comment) c5 (by decide), by
          show Between src _ s5.lex.start
          rw [a5]; exact .nil, by show _ ≤ s5.lex.start; omega⟩
      · have g6 := g5.same (sc_str s5 t)
        refine wp_mono (nextLoop_tkn n _ g6.good.inv g6.srcEq) fun _ s7 ⟨h1, h2, h3⟩ => ?_
        have h2 : Between src s5.lex.lastPos s7.lex.start := h2
        have h3 : s5.lex.lastPos ≤ s7.lex.start := h3
        rw [b5] at h2 h3
        exact ⟨h1, hgap.append h2 (by omega) h3, by omega⟩
    have kstr := kp_string
    have kws := kp_ws
    refine wp_ite (fun hq => fin (by kp) ?_) fun _ => ?_
    · -- string
      refine wp_seq (R := fun _ _ => True) wp_trivial fun _ s1 _ => ?_
      wpb
      refine wp_seq (R := fun _ _ => True) wp_trivial fun _ s3 _ => ?_
      wpb
      refine wp_seq (R := fun _ s' => s'.lex.cur = .string) (slice_top fun _ => rfl) fun t s5 h5 => ?_
      rw [wp_setStr]
      exact .cur h5 (by decide)
    refine wp_ite (fun hw => ?_) fun _ => ?_
    · wpb
      refine wp_ite (fun hr => fin (by kp) ?_) fun _ => ?_
      · wpb
        refine wp_seq (R := fun _ _ => True) wp_trivial fun _ s1 _ => ?_
        rw [wp_setCur]
        exact .cur (t := .whitespace) rfl (by decide)
      · have hlt0 := i0.lt_of_ne hne
        have hg := gap_ws g0.good hw
        rw [src0, lp] at hg
        refine wp_seq (g_step g0) fun _ s1 ⟨g1, e1⟩ => ?_
        refine wp_mono (nextLoop_tkn n s1 g1.good.inv g1.srcEq) fun _ s7 ⟨h1, h2, h3⟩ => ?_
        rw [e1] at h2 h3
        exact ⟨h1, hg.append h2 (by omega) h3, by omega⟩
    exact wp_ite (fun hd => numeric hns) fun _ => wp_ite (fun _ => ident) fun _ => dlm

theorem next_tkn {s : St} (h : Inv s) (hsrc : s.src = src) : wp next (fun _ s' => Tkn src s s') XT s := by
  rw [next, wpb_lexFuel]
  exact nextLoop_tkn _ s h hsrc

end
end Cssc
