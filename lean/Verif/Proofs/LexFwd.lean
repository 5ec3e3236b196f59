import Verif.Proofs.LexSpec
import Verif.Spec.Tok

/-!
# Lexing forward

What the lexer's methods do when the text at the cursor is known.
-/

namespace Cssc

/-- The cursor of `s` is in front of the text `rest`. -/
structure On (s : St) (rest : Bytes) : Prop where
  inv : Inv s
  rest : s.src.drop s.lex.lastPos = rest

/-- The text does not start with a continuation of a class of bytes that includes all of 0x80..0xFF:
it is empty or starts with an ASCII byte other than CR that is not in the class. -/
def Stop (p : UInt8 → Bool) (rest : Bytes) : Prop :=
  rest = [] ∨ ∃ b t, rest = b :: t ∧ b.toNat < 0x80 ∧ b ≠ 13 ∧ p b = false

/-- A rune's bytes do not reach beyond a text that ends before an ASCII byte. -/
theorem decodeRune_within {w rest : Bytes} (hw : w ≠ [])
    (hr : rest = [] ∨ ∃ b t, rest = b :: t ∧ b.toNat < 0x80) :
    (decodeRune (w ++ rest)).2 ≤ w.length := by
  cases w with
  | nil => exact absurd rfl hw
  | cons b w' =>
    rw [List.cons_append]
    rcases decodeRune_cons b (w' ++ rest) with ⟨_, h⟩ | ⟨_, _, h1, h2, h3⟩
    · rw [h]; simp
    · by_contra hlt
      simp only [List.length_cons, List.length_append] at hlt h2
      rcases hr with rfl | ⟨c, t, rfl, hc⟩
      · simp only [List.length_nil] at h2; omega
      · have hmem : c ∈ (w' ++ c :: t).take ((decodeRune (b :: (w' ++ c :: t))).2 - 1) := by
          rw [List.mem_iff_getElem?]
          refine ⟨w'.length, ?_⟩
          rw [List.getElem?_take_of_lt (by omega)]
          simp
        have := h3 c hmem
        omega

/-- Text after an ASCII byte does not influence the decoding of what precedes it. -/
theorem decodeRune_append {w rest : Bytes} (hw : w ≠ [])
    (hr : rest = [] ∨ ∃ b t, rest = b :: t ∧ b.toNat < 0x80) :
    decodeRune (w ++ rest) = decodeRune w := by
  rcases hr with rfl | ⟨b, t, rfl, hb⟩
  · rw [List.append_nil]
  have hb' : isCont b.toNat = false := by simp [isCont]; omega
  have h1 : ∀ x : Nat, ¬ (if x = 0xE0 then 0xA0 else 0x80) ≤ b.toNat := by intro x; split <;> omega
  have h2 : ∀ x : Nat, ¬ (if x = 0xF0 then 0x90 else 0x80) ≤ b.toNat := by intro x; split <;> omega
  rcases w with _ | ⟨a, _ | ⟨c, _ | ⟨d, _ | ⟨e, w⟩⟩⟩⟩
  · exact absurd rfl hw
  · rcases t with _ | ⟨c, _ | ⟨d, t⟩⟩ <;> simp [decodeRune, hb', h1, h2]
  · rcases t with _ | ⟨d, t⟩ <;> simp [decodeRune, hb']
  · simp [decodeRune, hb']
  · simp [decodeRune]

theorem On.len {s : St} {rest : Bytes} (h : On s rest) :
    s.src.length = s.lex.lastPos + rest.length := by
  have h1 := congrArg List.length h.rest
  have h2 := h.inv.le
  rw [List.length_drop] at h1
  omega

theorem On.sub {s : St} {w rest : Bytes} (h : On s (w ++ rest)) :
    sub s.src s.lex.lastPos (s.lex.lastPos + w.length) = w := by
  unfold Cssc.sub
  rw [h.rest, Nat.add_sub_cancel_left, List.take_left']
  rfl

theorem On.ch_nil {s : St} (h : On s []) : s.lex.ch = -1 := by
  have := h.len
  exact h.inv.eof_iff.2 (by simpa using this.symm)

/-- The rune under the cursor, when it is not a carriage return. -/
theorem On.ch {s : St} {rest : Bytes} (h : On s rest) (hr : rest ≠ []) (hcr : (decodeRune rest).1 ≠ 13) :
    s.lex.ch = (decodeRune rest).1 ∧ s.lex.pos = s.lex.lastPos + (decodeRune rest).2 := by
  have h1 := h.inv.ch
  have h2 := h.inv.pos
  have hz := decodeRune_size_pos hr
  simp only [curAt, h.rest] at h1 h2
  rw [if_neg (by omega), if_neg hcr] at h1 h2
  exact ⟨h1, h2⟩

theorem On.good {s : St} {rest : Bytes} (h : On s rest) (hr : rest ≠ []) : Good s := by
  refine ⟨h.inv, fun h0 => ?_⟩
  have h1 := h.inv.eof_iff.1 (h.inv.pos_zero h0)
  have h2 := h.len
  have : 0 < rest.length := List.length_pos_iff.2 hr
  omega

theorem On.move {s : St} {w rest : Bytes} (h : On s (w ++ rest)) :
    On (s.moveTo (s.lex.lastPos + w.length)) rest := by
  have := h.len
  rw [List.length_append] at this
  refine ⟨inv_moveTo (by omega), ?_⟩
  show s.src.drop (s.lex.lastPos + w.length) = rest
  rw [← List.drop_drop, h.rest, List.drop_left']
  rfl

/-- Stepping over the first rune. -/
theorem On.stepEq {s : St} {rest : Bytes} (h : On s rest) (hr : rest ≠ []) (hcr : (decodeRune rest).1 ≠ 13) :
    step s = .ok () (s.moveTo (s.lex.lastPos + (decodeRune rest).2)) ∧
    On (s.moveTo (s.lex.lastPos + (decodeRune rest).2)) (rest.drop (decodeRune rest).2) := by
  have hg := h.good hr
  have hc := h.ch hr hcr
  rw [step_eq hg.inv hg.pos, hc.2]
  refine ⟨rfl, ?_⟩
  have hsz := decodeRune_size_le rest
  have e : rest = rest.take (decodeRune rest).2 ++ rest.drop (decodeRune rest).2 :=
    (List.take_append_drop _ _).symm
  have h' : On s (rest.take (decodeRune rest).2 ++ rest.drop (decodeRune rest).2) := by
    rw [← e]; exact h
  have := h'.move
  rwa [List.length_take_of_le hsz] at this

/-- Reading one ASCII byte. -/
theorem On.byte {s : St} {b : UInt8} {t : Bytes} (h : On s (b :: t)) (hb : b.toNat < 0x80) (hcr : b ≠ 13) :
    s.lex.ch = (b.toNat : Int) ∧ s.lex.pos = s.lex.lastPos + 1 ∧
    step s = .ok () (s.moveTo (s.lex.lastPos + 1)) ∧ On (s.moveTo (s.lex.lastPos + 1)) t := by
  have hd := decodeRune_ascii t hb
  have hcr' : (decodeRune (b :: t)).1 ≠ 13 := by
    rw [hd]
    intro e
    apply hcr
    have : b.toNat = 13 := by simp only at e; omega
    exact UInt8.eq_of_toNat this
  have h1 := h.ch (by simp) hcr'
  have h2 := h.stepEq (by simp) hcr'
  rw [hd] at h1 h2
  exact ⟨h1.1, h1.2, h2.1, h2.2⟩

theorem headRune_cons {b : UInt8} {t : Bytes} (h : b.toNat < 0x80) : headRune (b :: t) = b.toNat := by
  simp only [headRune, reduceCtorEq, if_false, decodeRune_ascii t h]

theorem peek_eq (s : St) (i : Nat) : s.peek i = headRune (s.src.drop (s.lex.pos + i)) := by
  unfold St.peek headRune
  split
  · rw [if_pos (List.drop_eq_nil_of_le (by omega))]
  · simp only [decodeRune_size_zero]

theorem On.peekEq {s : St} {b : UInt8} {t : Bytes} (h : On s (b :: t)) (hb : b.toNat < 0x80) (hcr : b ≠ 13)
    (i : Nat) : s.peek i = headRune (t.drop i) := by
  rw [peek_eq, (h.byte hb hcr).2.1]
  congr 1
  rw [Nat.add_assoc, ← List.drop_drop, h.rest, Nat.add_comm 1 i, List.drop_succ_cons]

/-- Reading one rune of a run of bytes of a class. -/
theorem On.rune {s : St} {p : UInt8 → Bool} {w rest : Bytes} (h : On s (w ++ rest)) (hw : w ≠ [])
    (hp : ∀ b ∈ w, p b = true) (hcr : p 13 = false)
    (hr : rest = [] ∨ ∃ b t, rest = b :: t ∧ b.toNat < 0x80) :
    ∃ k, 1 ≤ k ∧ k ≤ w.length ∧ step s = .ok () (s.moveTo (s.lex.lastPos + k)) ∧
      On (s.moveTo (s.lex.lastPos + k)) (w.drop k ++ rest) ∧ s.lex.pos = s.lex.lastPos + k ∧
      ((∃ b w', w = b :: w' ∧ b.toNat < 0x80 ∧ p b = true ∧ s.lex.ch = b.toNat ∧ k = 1) ∨
        0x80 ≤ s.lex.ch) := by
  obtain ⟨b, w', rfl⟩ := List.exists_cons_of_ne_nil hw
  have hb := hp b (by simp)
  have hne : (b :: w') ++ rest ≠ [] := by simp
  have hwi := decodeRune_within hw hr
  have h13 : (decodeRune ((b :: w') ++ rest)).1 ≠ 13 := by
    rcases decodeRune_cons b (w' ++ rest) with ⟨_, h1⟩ | ⟨_, h1, _⟩
    · rw [List.cons_append, h1]
      intro e
      have : b.toNat = 13 := by simp only at e; omega
      rw [UInt8.eq_of_toNat this] at hb
      exact absurd hb (by simpa using hcr)
    · rw [List.cons_append]; omega
  have hs := h.stepEq hne h13
  have hc := h.ch hne h13
  refine ⟨_, decodeRune_size_pos hne, hwi, hs.1, ?_, hc.2, ?_⟩
  · rw [← List.drop_append_of_le_length hwi]; exact hs.2
  · rcases decodeRune_cons b (w' ++ rest) with ⟨hlt, h1⟩ | ⟨_, h1, _⟩
    · left
      refine ⟨b, w', rfl, hlt, hb, ?_, ?_⟩
      · rw [hc.1, List.cons_append, h1]
      · rw [List.cons_append, h1]
    · right; rw [hc.1, List.cons_append]; exact h1

theorem bind_ok {m : P α} {f : α → P β} {s s' : St} {a : α} (h : m s = .ok a s') :
    (m >>= f) s = f a s' := by
  show P.bind m f s = _
  unfold P.bind
  rw [h]

theorem getCh_bind {f : Int → P β} {s : St} : (getCh >>= f) s = f s.lex.ch s := rfl
theorem peek_bind {i : Nat} {f : Int → P β} {s : St} : (peek i >>= f) s = f (s.peek i) s := rfl
theorem lexFuel_bind {f : Nat → P β} {s : St} : (lexFuel >>= f) s = f (s.src.length + 2) s := rfl
theorem getLastPos_bind {f : Nat → P β} {s : St} : (getLastPos >>= f) s = f s.lex.lastPos s := rfl

/-- No abnormal outcome at all. -/
def XF : Exc := ⟨fun _ _ => False, fun _ => False, False⟩

theorem wp_XF {m : P α} {Q : α → St → Prop} {s : St} (h : wp m Q XF s) :
    ∃ a s', m s = .ok a s' ∧ Q a s' := by
  unfold wp at h
  cases hm : m s with
  | ok a s' => rw [hm] at h; exact ⟨a, s', rfl, h⟩
  | err e s' => rw [hm] at h; exact absurd h id
  | crash s' => rw [hm] at h; exact absurd h id
  | timeout => rw [hm] at h; exact absurd h id

theorem wp_of_eq {m : P α} {Q : α → St → Prop} {X : Exc} {s s' : St} {a : α} (h : m s = .ok a s')
    (hq : Q a s') : wp m Q X s := by
  unfold wp; rw [h]; exact hq

/-- The `ch` field of a lexer whose cursor is in front of `rest`. -/
def chOf (rest : Bytes) : Int := (curAt rest 0).1

theorem On.chEq {s : St} {rest : Bytes} (h : On s rest) : s.lex.ch = chOf rest := by
  rw [h.inv.ch, chOf]
  simp only [curAt, List.drop_zero, Nat.zero_add]
  rw [← List.drop_drop, h.rest]
  split
  · rfl
  · split <;> rfl

theorem chOf_nil : chOf [] = -1 := rfl

theorem chOf_cons {b : UInt8} {t : Bytes} (hb : b.toNat < 0x80) (hcr : b ≠ 13) :
    chOf (b :: t) = b.toNat := by
  simp only [chOf, curAt, List.drop_zero, decodeRune_ascii t hb]
  rw [if_neg (by omega), if_neg]
  intro e
  have : b.toNat = 13 := by omega
  exact hcr (UInt8.eq_of_toNat this)

theorem chOf_high {b : UInt8} {t : Bytes} (hb : 0x80 ≤ b.toNat) : 0x80 ≤ chOf (b :: t) := by
  simp only [chOf, curAt, List.drop_zero]
  rcases decodeRune_cons b t with ⟨h, _⟩ | ⟨_, h1, h2, _⟩
  · omega
  · rw [if_neg (by omega), if_neg (by omega)]; exact h1

/-- A text whose first rune is not a name code point starts with an ASCII byte. -/
theorem ascii_of_chOf {rest : Bytes} (h : chOf rest < 0x80) :
    rest = [] ∨ ∃ b t, rest = b :: t ∧ b.toNat < 0x80 := by
  cases rest with
  | nil => exact .inl rfl
  | cons b t =>
    right
    refine ⟨b, t, rfl, ?_⟩
    by_contra hb
    have := chOf_high (t := t) (b := b) (by omega)
    omega

theorem not_name_lt {c : Int} (h : isName c = false) : c < 0x80 := by
  by_contra hc
  have : isNameStart c = true := by
    simp only [isNameStart, Bool.or_eq_true, decide_eq_true_eq]
    exact .inl (.inr (by omega))
  simp [isName, this] at h

/-- Step over an ASCII byte. -/
theorem fwd_byte {s : St} {b : UInt8} {t : Bytes} {X : Exc} (h : On s (b :: t)) (hb : b.toNat < 0x80)
    (hcr : b ≠ 13) : wp step (fun _ s' => Mov s s' ∧ On s' t) X s := by
  have hh := h.byte hb hcr
  refine wp_of_eq hh.2.2.1 ⟨?_, hh.2.2.2⟩
  rw [← hh.2.1]
  exact mov_step h.inv

/-! ### Byte classes -/

theorem isDigit_byte {b : UInt8} (hb : b.toNat < 0x80) : isDigit (b.toNat : Int) = isAD b := by
  unfold isDigit isAD
  rw [if_pos (by omega)]
  rw [Bool.eq_iff_iff]
  simp only [Bool.and_eq_true, decide_eq_true_eq]
  omega

theorem isName_byte {b : UInt8} (hb : b.toNat < 0x80) : isName (b.toNat : Int) = isNameByte b := by
  unfold isName isNameStart isNameByte isAD
  rw [Bool.eq_iff_iff]
  simp only [Bool.and_eq_true, decide_eq_true_eq, Bool.or_eq_true, beq_iff_eq]
  omega

theorem isName_high {c : Int} (h : 0x80 ≤ c) : isName c = true := by
  simp only [isName, isNameStart, Bool.or_eq_true, decide_eq_true_eq]
  exact .inl (.inl (.inl (.inr h)))

theorem isAD_lt {b : UInt8} (h : isAD b = true) : b.toNat < 0x80 ∧ b ≠ 13 := by
  simp only [isAD, Bool.and_eq_true, decide_eq_true_eq] at h
  refine ⟨by omega, ?_⟩
  rintro rfl
  simp at h

/-! ### Loops -/

theorem fwd_digits {X : Exc} : ∀ (ds : Bytes) (n : Nat) (s : St) (rest : Bytes), On s (ds ++ rest) →
    (∀ b ∈ ds, isAD b = true) → isDigit (chOf rest) = false → ds.length < n →
    wp (digitsLoop n) (fun _ s' => Mov s s' ∧ On s' rest) X s
  | ds, 0, _, _, _, _, _, hn => by omega
  | [], n + 1, s, rest, h, _, hr, _ => by
    simp only [digitsLoop]
    wpb
    rw [List.nil_append] at h
    rw [h.chEq, hr]
    exact ⟨Mov.refl h.inv, h⟩
  | b :: ds, n + 1, s, rest, h, hd, hr, hn => by
    simp only [digitsLoop]
    wpb
    have hb := hd b (by simp)
    have hl := isAD_lt hb
    rw [List.cons_append] at h
    rw [h.chEq, chOf_cons hl.1 hl.2, isDigit_byte hl.1, hb, if_pos rfl]
    refine wp_seq (fwd_byte h hl.1 hl.2) fun _ s1 ⟨m1, o1⟩ => ?_
    refine wp_mono (fwd_digits ds n s1 rest o1 (fun c hc => hd c (by simp [hc])) hr
      (by simp only [List.length_cons] at hn; omega)) fun _ s2 ⟨m2, o2⟩ => ?_
    exact ⟨m1.trans h.inv m2, o2⟩

theorem fwd_name {X : Exc} : ∀ (k : Nat) (w : Bytes) (n : Nat) (s : St) (rest : Bytes), w.length ≤ k →
    On s (w ++ rest) → (∀ b ∈ w, isNameByte b = true) → isName (chOf rest) = false →
    chOf rest ≠ r!"\\" → w.length < n →
    wp (nameLoop n) (fun _ s' => Mov s s' ∧ On s' rest) X s
  | _, _, 0, _, _, _, _, _, _, _, hn => by omega
  | k, [], n + 1, s, rest, _, h, _, hr, he, _ => by
    simp only [nameLoop]
    wpb
    rw [List.nil_append] at h
    rw [h.chEq, hr]
    refine wp_ite (fun hc => by simp at hc) fun _ => ?_
    wpb
    refine wp_ite (fun hc => absurd (escape_ne hc) he) fun _ => ?_
    exact ⟨Mov.refl h.inv, h⟩
  | 0, b :: w, n + 1, s, rest, hk, h, hd, hr, he, hn => by simp at hk
  | k + 1, b :: w, n + 1, s, rest, hk, h, hd, hr, he, hn => by
    simp only [nameLoop]
    wpb
    obtain ⟨j, hj1, hj2, hstep, hon, hpos, hcase⟩ := h.rune (p := isNameByte) (by simp) hd (by decide)
      (ascii_of_chOf (not_name_lt hr))
    have hname : isName s.lex.ch = true := by
      rcases hcase with ⟨c, w', he, hlt, hp, hch, _⟩ | hge
      · rw [hch, isName_byte hlt, hp]
      · exact isName_high hge
    rw [if_pos hname]
    have hm : Mov s (s.moveTo (s.lex.lastPos + j)) := by rw [← hpos]; exact mov_step h.inv
    refine wp_seq (wp_of_eq (Q := fun _ s' => Mov s s' ∧ On s' ((b :: w).drop j ++ rest)) hstep ⟨hm, hon⟩)
      fun _ s1 ⟨m1, o1⟩ => ?_
    have hlen : ((b :: w).drop j).length = w.length + 1 - j := by simp
    simp only [List.length_cons] at hk hn hj2
    refine wp_mono (fwd_name k ((b :: w).drop j) n s1 rest (by omega) o1
      (fun c hc => hd c (List.mem_of_mem_drop hc)) hr he (by omega)) fun _ s2 ⟨m2, o2⟩ => ?_
    exact ⟨m1.trans h.inv m2, o2⟩

theorem fwd_nextName {s : St} {w rest : Bytes} {X : Exc} (h : On s (w ++ rest))
    (hw : ∀ b ∈ w, isNameByte b = true) (hr : isName (chOf rest) = false) (he : chOf rest ≠ r!"\\") :
    wp nextName (fun _ s' => Mov s s' ∧ On s' rest) X s := by
  rw [nextName]
  wpb
  have := h.len
  simp only [List.length_append] at this
  exact fwd_name w.length w _ s rest (Nat.le_refl _) h hw hr he (by omega)

/-- Reading the first rune of a text that ends before an ASCII byte. -/
theorem On.one {s : St} {b : UInt8} {w rest : Bytes} (h : On s ((b :: w) ++ rest)) (hb : b ≠ 13)
    (hr : rest = [] ∨ ∃ b t, rest = b :: t ∧ b.toNat < 0x80) {X : Exc} :
    ∃ k, k ≤ w.length ∧ (∀ c ∈ w.take k, 0x80 ≤ c.toNat) ∧
      wp step (fun _ s' => Mov s s' ∧ On s' (w.drop k ++ rest) ∧ s'.lex.lastPos = s.lex.lastPos + (k + 1)) X s ∧
      (b.toNat < 0x80 ∧ s.lex.ch = b.toNat ∧ k = 0 ∨ 0x80 ≤ b.toNat ∧ 0x80 ≤ s.lex.ch) := by
  have hne : (b :: w) ++ rest ≠ [] := by simp
  have hwi := decodeRune_within (w := b :: w) (by simp) hr
  have hd := decodeRune_cons b (w ++ rest)
  have h13 : (decodeRune ((b :: w) ++ rest)).1 ≠ 13 := by
    rcases hd with ⟨_, h1⟩ | ⟨_, h1, _⟩
    · rw [List.cons_append, h1]
      intro e
      exact hb (UInt8.eq_of_toNat (n := 13) (by simp only at e; omega))
    · rw [List.cons_append]; omega
  have hs := h.stepEq hne h13
  have hc := h.ch hne h13
  have hp := decodeRune_size_pos hne
  rw [List.cons_append] at hs hc hp hwi
  obtain ⟨m, hm⟩ : ∃ m, (decodeRune (b :: (w ++ rest))).2 = m + 1 := ⟨_, (Nat.sub_add_cancel hp).symm⟩
  rw [hm] at hs hc hwi
  simp only [List.length_cons] at hwi
  refine ⟨m, by omega, ?_, ?_, ?_⟩
  · intro c hcm
    rcases hd with ⟨_, h1⟩ | ⟨_, _, _, _, h3⟩
    · rw [h1] at hm
      have : m = 0 := by simp only at hm; omega
      subst this
      simp at hcm
    · refine h3 c ?_
      rw [hm, Nat.add_sub_cancel, List.take_append_of_le_length (by omega)]
      exact hcm
  · refine wp_of_eq hs.1 ⟨?_, ?_, rfl⟩
    · rw [← hc.2]; exact mov_step h.inv
    · have := hs.2
      rwa [List.drop_succ_cons, List.drop_append_of_le_length (by omega)] at this
  · rcases hd with ⟨h0, h1⟩ | ⟨h0, h1, _⟩
    · left
      rw [h1] at hm hc
      refine ⟨h0, hc.1, by simp only at hm; omega⟩
    · exact .inr ⟨h0, by omega⟩

/-! ### Bodies of strings -/

theorem isStringBody_eq (m b : UInt8) (w : Bytes) : isStringBody m (b :: w) =
    if b = 92 then (match w with
      | c :: u => c != m && c != 13 && isStringBody m u
      | [] => false)
    else isStringByte m b && isStringBody m w := by
  rw [isStringBody.eq_def]
  rfl

theorem isStringBody_tail {m b : UInt8} {w : Bytes} (h : isStringBody m (b :: w) = true) (hb : b ≠ 92) :
    isStringByte m b = true ∧ isStringBody m w = true := by
  rw [isStringBody_eq, if_neg hb, Bool.and_eq_true] at h
  exact h

theorem isStringBody_cons {m b : UInt8} {w : Bytes} (hb : isStringByte m b = true) (h : isStringBody m w = true) :
    isStringBody m (b :: w) = true := by
  have : b ≠ 92 := by rintro rfl; simp [isStringByte] at hb
  rw [isStringBody_eq, if_neg this, hb, h]; rfl

theorem isStringBody_of_bytes {m : UInt8} : ∀ {w : Bytes}, (∀ b ∈ w, isStringByte m b = true) → isStringBody m w = true
  | [], _ => rfl
  | b :: w, h => isStringBody_cons (h b (by simp)) (isStringBody_of_bytes fun c hc => h c (by simp [hc]))

theorem isStringBody_drop {m : UInt8} : ∀ (k : Nat) {w : Bytes}, isStringBody m w = true → (∀ c ∈ w.take k, 0x80 ≤ c.toNat) →
    isStringBody m (w.drop k) = true
  | 0, w, h, _ => h
  | k + 1, [], h, _ => by simpa using h
  | k + 1, b :: w, h, hb => by
    have h80 := hb b (by simp)
    rw [List.drop_succ_cons]
    exact isStringBody_drop k (isStringBody_tail h (by rintro rfl; simp at h80)).2 fun c hc => hb c (by simp [hc])

theorem isStringBody_head {m b : UInt8} {w : Bytes} (h : isStringBody m (b :: w) = true) (hm : m = 34 ∨ m = 39) :
    b ≠ m ∧ b ≠ 10 ∧ b ≠ 13 := by
  by_cases hb : b = 92
  · subst hb
    refine ⟨?_, by decide, by decide⟩
    rcases hm with rfl | rfl <;> decide
  · have := (isStringBody_tail h hb).1
    simp only [isStringByte, Bool.and_eq_true, bne_iff_ne] at this
    exact ⟨this.1.1.1, this.1.2, this.2⟩

/-- Hexadecimal digits and white space behind a backslash, in a string. -/
theorem fwd_body_escaped {X : Exc} (mark : UInt8) (hmark : mark = 34 ∨ mark = 39) : ∀ (i : Nat) (w : Bytes) (s : St) (rest : Bytes),
    On s (w ++ mark :: rest) → isStringBody mark w = true →
    wp (escapedLoop i) (fun _ s' => Mov s s' ∧ ∃ j, j ≤ w.length ∧ On s' (w.drop j ++ mark :: rest) ∧
      s'.lex.lastPos = s.lex.lastPos + j ∧ isStringBody mark (w.drop j) = true) X s
  | 0, w, s, rest, h, hw => ⟨Mov.refl h.inv, 0, by omega, h, rfl, hw⟩
  | i + 1, w, s, rest, h, hw => by
    have hmlt : mark.toNat < 0x80 := by rcases hmark with rfl | rfl <;> decide
    have hm13 : mark ≠ 13 := by rcases hmark with rfl | rfl <;> decide
    simp only [escapedLoop]
    wpb
    refine wp_ite (fun hc => ?_) fun _ => ⟨Mov.refl h.inv, 0, by omega, h, rfl, hw⟩
    cases w with
    | nil =>
      rw [List.nil_append] at h
      rw [(h.byte hmlt hm13).1] at hc
      rcases hmark with rfl | rfl <;> exact absurd hc (by decide)
    | cons b w =>
      have hb := isStringBody_head hw hmark
      have hb92 : b ≠ 92 := by
        rintro rfl
        rw [List.cons_append] at h
        rw [(h.byte (by decide) (by decide)).1] at hc
        exact absurd hc (by decide)
      have hw' := (isStringBody_tail hw hb92).2
      obtain ⟨k, hk, hhigh, hst, -⟩ := h.one (X := X) hb.2.2 (.inr ⟨_, _, rfl, hmlt⟩)
      refine wp_seq hst fun _ s1 ⟨m1, o1, l1⟩ => ?_
      wpb
      have w1 := isStringBody_drop k hw' hhigh
      have hlen : (w.drop k).length = w.length - k := by simp
      have heq : ∀ j, (b :: w).drop (k + 1 + j) = (w.drop k).drop j := fun j => by
        rw [show k + 1 + j = (k + j) + 1 by omega, List.drop_succ_cons, List.drop_drop]
      have hfin : ∀ (s2 : St) (j : Nat), Mov s s2 → j ≤ w.length - k → On s2 ((w.drop k).drop j ++ mark :: rest) →
          s2.lex.lastPos = s.lex.lastPos + (k + 1 + j) → isStringBody mark ((w.drop k).drop j) = true →
          wp (escapedLoop i) (fun _ s' => Mov s s' ∧ ∃ j, j ≤ (b :: w).length ∧ On s' ((b :: w).drop j ++ mark :: rest) ∧
            s'.lex.lastPos = s.lex.lastPos + j ∧ isStringBody mark ((b :: w).drop j) = true) X s2 := by
        intro s2 j m2 hj o2 l2 w2
        refine wp_mono (fwd_body_escaped mark hmark i _ s2 rest o2 w2) fun _ s3 ⟨m3, j3, hj3, o3, l3, w3⟩ => ?_
        rw [List.drop_drop] at o3 w3
        simp only [List.length_drop] at hj3
        refine ⟨m2.trans h.inv m3, k + 1 + (j + j3), by simp only [List.length_cons]; omega, ?_, by omega, ?_⟩
        · rw [heq]; exact o3
        · rw [heq]; exact w3
      by_cases hws : isWhitespace s1.lex.ch = true
      · rw [show whenP (isWhitespace s1.lex.ch = true) step = step by rw [whenP, if_pos hws]]
        cases hv : w.drop k with
        | nil =>
          rw [hv, List.nil_append] at o1
          rw [(o1.byte hmlt hm13).1] at hws
          rcases hmark with rfl | rfl <;> exact absurd hws (by decide)
        | cons c v =>
          have w1' := w1
          have o1' := o1
          rw [hv] at w1' o1'
          have hc92 : c ≠ 92 := by
            rintro rfl
            rw [List.cons_append] at o1'
            rw [(o1'.byte (by decide) (by decide)).1] at hws
            exact absurd hws (by decide)
          obtain ⟨k2, hk2, hhigh2, hst2, -⟩ := o1'.one (X := X) (isStringBody_head w1' hmark).2.2 (.inr ⟨_, _, rfl, hmlt⟩)
          refine wp_seq hst2 fun _ s2 ⟨m2, o2, l2⟩ => ?_
          have hvl : v.length + 1 = w.length - k := by rw [← hlen, hv]; rfl
          refine hfin s2 (k2 + 1) (m1.trans h.inv m2) (by omega) ?_ (by omega) ?_
          · rw [hv, List.drop_succ_cons]; exact o2
          · rw [hv, List.drop_succ_cons]
            exact isStringBody_drop k2 (isStringBody_tail w1' hc92).2 hhigh2
      · rw [show whenP (isWhitespace s1.lex.ch = true) step = pure () by rw [whenP, if_neg hws]]
        wpb
        exact hfin s1 0 m1 (by omega) (by rwa [List.drop_zero]) (by omega) (by rwa [List.drop_zero])

theorem fwd_string {X : Exc} (mark : UInt8) (hmark : mark = 34 ∨ mark = 39) :
    ∀ (n : Nat) (w : Bytes) (s : St) (rest : Bytes),
    On s (w ++ mark :: rest) → isStringBody mark w = true → w.length < n →
    wp (stringLoop mark.toNat n) (fun e s' => Mov s s' ∧ On s' rest ∧ e = s.lex.lastPos + w.length) X s
  | 0, _, _, _, _, _, hn => by omega
  | n + 1, [], s, rest, h, _, _ => by
    simp only [stringLoop]
    wpb
    rw [List.nil_append] at h
    have hlt : mark.toNat < 0x80 ∧ mark ≠ 13 := by rcases hmark with rfl | rfl <;> decide
    rw [h.chEq, chOf_cons hlt.1 hlt.2, if_pos rfl]
    wpb
    refine wp_seq (fwd_byte h hlt.1 hlt.2) fun _ s1 ⟨m1, o1⟩ => ?_
    exact ⟨m1, o1, rfl⟩
  | n + 1, b :: w, s, rest, h, hd, hn => by
    simp only [stringLoop]
    wpb
    have hmlt : mark.toNat < 0x80 := by rcases hmark with rfl | rfl <;> decide
    have hm13 : mark ≠ 13 := by rcases hmark with rfl | rfl <;> decide
    have hm10 : mark ≠ 10 := by rcases hmark with rfl | rfl <;> decide
    have hb := isStringBody_head hd hmark
    simp only [List.length_cons] at hn
    obtain ⟨k, hk, hhigh, hst, hcase⟩ := h.one (X := X) hb.2.2 (.inr ⟨_, _, rfl, hmlt⟩)
    have hne : s.lex.ch ≠ mark.toNat ∧ s.lex.ch ≠ 10 ∧ s.lex.ch ≠ -1 ∧ (s.lex.ch = 92 → b = 92) := by
      rcases hcase with ⟨_, hch, _⟩ | ⟨_, hge⟩
      · rw [hch]
        refine ⟨?_, ?_, by omega, ?_⟩
        · intro e; exact hb.1 (UInt8.toNat_inj.1 (by omega))
        · intro e; exact hb.2.1 (UInt8.eq_of_toNat (n := 10) (by omega))
        · intro e; exact UInt8.eq_of_toNat (n := 92) (by omega)
      · refine ⟨?_, ?_, ?_, ?_⟩ <;> omega
    rw [if_neg hne.1, if_neg hne.2.1]
    -- the loop goes on behind a part of the body
    have hfin : ∀ (s1 : St) (j : Nat) (v : Bytes), Mov s s1 → (b :: w).drop j = v → 1 ≤ j → j ≤ w.length + 1 →
        On s1 (v ++ mark :: rest) → s1.lex.lastPos = s.lex.lastPos + j → isStringBody mark v = true →
        wp (stringLoop mark.toNat n) (fun e s' => Mov s s' ∧ On s' rest ∧ e = s.lex.lastPos + (b :: w).length) X s1 := by
      intro s1 j v m1 hv hj1 hj2 o1 l1 w1
      have hvl : v.length = w.length + 1 - j := by rw [← hv]; simp
      refine wp_mono (fwd_string mark hmark n v s1 rest o1 w1 (by omega)) fun e s2 ⟨m2, o2, e2⟩ => ?_
      exact ⟨m1.trans h.inv m2, o2, by rw [e2, l1, hvl, List.length_cons]; omega⟩
    by_cases hbs : s.lex.ch = 92
    · rw [if_pos hbs]
      have hb92 := hne.2.2.2 hbs
      subst hb92
      refine wp_seq (fwd_byte (t := w ++ mark :: rest) h (by decide) (by decide)) fun _ s1 ⟨m1, o1⟩ => ?_
      have l0 := h.len
      have l1 := o1.len
      rw [m1.src] at l1
      simp only [List.cons_append, List.length_cons, List.length_append] at l0 l1
      rw [isStringBody_eq, if_pos rfl] at hd
      cases w with
      | nil => cases hd
      | cons c u =>
        simp only [Bool.and_eq_true, bne_iff_ne] at hd
        obtain ⟨⟨hcm, hc13⟩, hu⟩ := hd
        simp only [List.length_cons] at hn hk
        obtain ⟨k1, hk1, hhigh1, hst1, hcase1⟩ := o1.one (X := X) hc13 (.inr ⟨_, _, rfl, hmlt⟩)
        wpb
        by_cases hc10 : c = 10
        · subst hc10
          have hch1 : s1.lex.ch = 10 := (o1.byte (by decide) (by decide)).1
          rw [if_pos hch1]
          refine wp_seq (fwd_byte (t := u ++ mark :: rest) o1 (by decide) (by decide)) fun _ s2 ⟨m2, o2⟩ => ?_
          have l2 := o2.len
          rw [m2.src, m1.src] at l2
          simp only [List.length_cons, List.length_append] at l0 l1 l2
          exact hfin s2 2 u (m1.trans h.inv m2) rfl (by omega) (by simp) o2 (by omega) hu
        have hch1 : s1.lex.ch ≠ 10 ∧ s1.lex.ch ≠ -1 ∧ (s1.lex.ch = 92 → c = 92) := by
          rcases hcase1 with ⟨_, hch, _⟩ | ⟨_, hge⟩
          · rw [hch]
            refine ⟨?_, by omega, ?_⟩
            · intro e; exact hc10 (UInt8.eq_of_toNat (n := 10) (by omega))
            · intro e; exact UInt8.eq_of_toNat (n := 92) (by omega)
          · refine ⟨?_, ?_, ?_⟩ <;> omega
        rw [if_neg hch1.1, if_neg hch1.2.1]
        wpb
        by_cases hc92 : c = 92
        · subst hc92
          have hch92 : s1.lex.ch = 92 := (o1.byte (by decide) (by decide)).1
          have hse : startsEscape s1.lex.ch (s1.peek 0) = true := by
            have hpk : s1.peek 0 ≠ 10 := by
              rw [List.cons_append] at o1
              rw [o1.peekEq (by decide) (by decide), List.drop_zero]
              cases u with
              | nil =>
                rw [List.nil_append, headRune_cons hmlt]
                intro e; exact hm10 (UInt8.eq_of_toNat (n := 10) (by omega))
              | cons d u =>
                have hd := (isStringBody_head hu hmark).2.1
                rw [List.cons_append]
                by_cases hlt : d.toNat < 0x80
                · rw [headRune_cons hlt]
                  intro e; exact hd (UInt8.eq_of_toNat (n := 10) (by omega))
                · have := decodeRune_cons d (u ++ mark :: rest)
                  simp only [headRune, reduceCtorEq, if_false]
                  omega
            rw [hch92]
            simp [startsEscape, hpk]
          rw [if_pos hse, nextEscaped]
          rw [wpb_assoc]
          refine wp_seq (fwd_byte (t := u ++ mark :: rest) o1 (by decide) (by decide)) fun _ s2 ⟨m2, o2⟩ => ?_
          have l2 := o2.len
          rw [m2.src, m1.src] at l2
          simp only [List.length_cons, List.length_append] at l0 l1 l2
          refine wp_seq (fwd_body_escaped mark hmark 5 u s2 rest o2 hu) fun _ s3 ⟨m3, j, hj, o3, l3, w3⟩ => ?_
          exact hfin s3 (2 + j) (u.drop j) (m1.trans h.inv (m2.trans o1.inv m3))
            (by rw [show 2 + j = (j + 1) + 1 by omega]; rfl) (by omega) (by simp only [List.length_cons]; omega) o3 (by omega) w3
        · rw [if_neg (fun he => hc92 (hch1.2.2 (escape_ne he)))]
          refine hfin s1 1 (c :: u) m1 rfl (by omega) (by omega) o1 (by simp only [List.length_cons] at l0 l1; omega) ?_
          exact isStringBody_cons (by simp [isStringByte, hcm, hc92, hc10, hc13]) hu
    · have hb92 : b ≠ 92 := by
        rintro rfl
        rw [(On.byte (t := w ++ mark :: rest) h (by decide) (by decide)).1] at hbs
        exact hbs rfl
      rw [if_neg hbs, if_neg hne.2.2.1]
      refine wp_seq hst fun _ s1 ⟨m1, o1, l1⟩ => ?_
      exact hfin s1 (k + 1) (w.drop k) m1 rfl (by omega) (by omega) o1 l1
        (isStringBody_drop k (isStringBody_tail hd hb92).2 hhigh)

/-! ### Numbers -/

theorem digits_cons {f : Bytes} (h : f ≠ []) (hd : ∀ b ∈ f, isAD b = true) :
    ∃ b t, f = b :: t ∧ isAD b = true ∧ ∀ b ∈ t, isAD b = true := by
  obtain ⟨b, t, rfl⟩ := List.exists_cons_of_ne_nil h
  exact ⟨b, t, rfl, hd b (by simp), fun c hc => hd c (by simp [hc])⟩

theorem NumStop.digit {rest : Bytes} (h : NumStop rest) : isDigit (chOf rest) = false := by
  rcases h with rfl | ⟨b, t, rfl, h1, h2, h3, _⟩
  · decide
  · rw [chOf_cons h1 h2, isDigit_byte h1, h3]

theorem On.congr {s : St} {a b : Bytes} (h : On s a) (e : a = b) : On s b := e ▸ h

theorem byte_eq {b : UInt8} {n : Nat} (hn : n < 256) (h : (b.toNat : Int) = n) : b = UInt8.ofNat n :=
  UInt8.eq_of_toNat (by omega)

theorem fwd_sign {s : St} {sg rest : Bytes} {X : Exc} (h : On s (sg ++ rest)) (hs : IsSign sg)
    (hr : chOf rest ≠ r!"+" ∧ chOf rest ≠ r!"-") :
    wp (whenP (s.lex.ch = r!"+" ∨ s.lex.ch = r!"-") step) (fun _ s' => Mov s s' ∧ On s' rest) X s := by
  rcases hs with rfl | rfl | rfl
  · refine wp_whenP (fun hc => ?_) (fun _ => ⟨Mov.refl h.inv, h⟩)
    have hch := h.chEq
    rw [List.nil_append] at hch
    rw [hch] at hc
    exact absurd hc (by simp [hr])
  · refine wp_whenP (fun _ => fwd_byte h (by decide) (by decide)) (fun hc => ?_)
    exact absurd (.inl (by rw [h.chEq]; exact chOf_cons (by decide) (by decide))) hc
  · refine wp_whenP (fun _ => fwd_byte h (by decide) (by decide)) (fun hc => ?_)
    exact absurd (.inr (by rw [h.chEq]; exact chOf_cons (by decide) (by decide))) hc

theorem chOf_digit {b : UInt8} {t : Bytes} (h : isAD b = true) : 48 ≤ chOf (b :: t) ∧ chOf (b :: t) ≤ 57 := by
  have hl := isAD_lt h
  rw [chOf_cons hl.1 hl.2]
  simp only [isAD, Bool.and_eq_true, decide_eq_true_eq] at h
  omega

/-- The runes that may follow the sign of a number. -/
theorem numeral_not_sign {ds fr ex rest : Bytes} (hd : ∀ b ∈ ds, isAD b = true)
    (hf : fr = [] ∨ ∃ f, fr = 46 :: f ∧ f ≠ [] ∧ ∀ b ∈ f, isAD b = true) (hne : ds ≠ [] ∨ fr ≠ []) :
    chOf (ds ++ (fr ++ (ex ++ rest))) ≠ r!"+" ∧ chOf (ds ++ (fr ++ (ex ++ rest))) ≠ r!"-" := by
  cases ds with
  | nil =>
    rcases hf with rfl | ⟨f, rfl, _⟩
    · simp at hne
    · rw [List.nil_append, List.cons_append, chOf_cons (by decide) (by decide)]; decide
  | cons b ds =>
    have := chOf_digit (t := ds ++ (fr ++ (ex ++ rest))) (hd b (by simp))
    rw [List.cons_append]
    omega

theorem fwd_number {s : St} {sgn ds fr ex rest : Bytes} {X : Exc} (hn : IsNumeral sgn ds fr ex)
    (h : On s (sgn ++ (ds ++ (fr ++ (ex ++ rest))))) (hr : NumStop rest) :
    wp nextNumber (fun _ s' => Mov s s' ∧ On s' rest) X s := by
  rw [nextNumber]
  wpb
  have hlen := h.len
  simp only [List.length_append] at hlen
  have hns := numeral_not_sign (ex := ex) (rest := rest) hn.dsOk hn.frOk hn.nonempty
  refine wp_seq (fwd_sign h hn.sgnOk hns) fun _ s1 ⟨m1, o1⟩ => ?_
  have hd1 : isDigit (chOf (fr ++ (ex ++ rest))) = false := by
    rcases hn.frOk with rfl | ⟨f, rfl, _⟩
    · rcases hn.exOk with rfl | ⟨e, sg, f, rfl, he, _⟩
      · exact hr.digit
      · rcases he with rfl | rfl <;> rw [List.nil_append, List.cons_append, chOf_cons (by decide) (by decide)] <;>
          decide
    · rw [List.cons_append, chOf_cons (by decide) (by decide)]; decide
  refine wp_seq (fwd_digits ds _ s1 _ o1 hn.dsOk hd1 (by omega)) fun _ s2 ⟨m2, o2⟩ => ?_
  have m2 := m1.trans h.inv m2
  clear m1 o1 hd1 hns
  wpb
  have hd2 : isDigit (chOf (ex ++ rest)) = false := by
    rcases hn.exOk with rfl | ⟨e, sg, f, rfl, he, _⟩
    · exact hr.digit
    · rcases he with rfl | rfl <;> rw [List.cons_append, chOf_cons (by decide) (by decide)] <;> decide
  refine wp_seq (R := fun _ s' => Mov s s' ∧ On s' (ex ++ rest)) ?_ ?_
  · rcases hn.frOk with rfl | ⟨f, rfl, hf, hfd⟩
    · -- no fraction
      refine wp_whenP (fun hc => ?_) fun _ => ⟨m2, o2⟩
      exfalso
      rw [List.nil_append] at o2
      rcases hn.exOk with rfl | ⟨e, sg, f, rfl, he, _⟩
      · rw [List.nil_append] at o2
        rcases hr with rfl | ⟨b, t, rfl, hb1, hb2, hb3, hb4, hb5⟩
        · rw [o2.chEq] at hc; simp [chOf_nil] at hc
        · rw [o2.chEq, chOf_cons hb1 hb2, o2.peekEq hb1 hb2] at hc
          have := hb4 (byte_eq (n := 46) (by omega) hc.1)
          rw [List.drop_zero, this] at hc
          simp at hc
      · rw [List.cons_append] at o2
        rw [o2.chEq] at hc
        rcases he with rfl | rfl <;> rw [chOf_cons (by decide) (by decide)] at hc <;> simp at hc
    · obtain ⟨d, f', rfl, hdd, hfd'⟩ := digits_cons hf hfd
      have hdl := isAD_lt hdd
      simp only [List.cons_append] at o2
      refine wp_whenP (fun _ => ?_) fun hc => ?_
      · refine wp_seq (fwd_byte o2 (by decide) (by decide)) fun _ s3 ⟨m3, o3⟩ => ?_
        refine wp_seq (fwd_byte o3 hdl.1 hdl.2) fun _ s4 ⟨m4, o4⟩ => ?_
        refine wp_mono (fwd_digits f' _ s4 _ o4 hfd' hd2 (by simp only [List.length_cons] at hlen; omega)) ?_
        intro _ s5 ⟨m5, o5⟩
        exact ⟨m2.trans h.inv (m3.trans o2.inv (m4.trans o3.inv m5)), o5⟩
      · exfalso; apply hc
        rw [o2.chEq, chOf_cons (by decide) (by decide), o2.peekEq (by decide) (by decide), List.drop_zero,
          headRune_cons hdl.1, isDigit_byte hdl.1, hdd]
        decide
  intro _ s3 ⟨m3, o3⟩
  wpb
  rcases hn.exOk with rfl | ⟨e, sg, f, rfl, he, hsg, hf, hfd⟩
  · refine wp_whenP (fun hc => ?_) fun _ => ⟨m3, o3⟩
    exfalso
    rw [List.nil_append] at o3
    rcases hr with rfl | ⟨b, t, rfl, hb1, hb2, hb3, hb4, hb5⟩
    · rw [o3.chEq] at hc; simp [chOf_nil] at hc
    · rw [o3.chEq, chOf_cons hb1 hb2, o3.peekEq hb1 hb2, o3.peekEq hb1 hb2, List.drop_zero] at hc
      refine hb5 ?_ hc.2
      rcases hc.1 with hc | hc
      · exact .inl (byte_eq (n := 101) (by omega) hc)
      · exact .inr (byte_eq (n := 69) (by omega) hc)
  · have hel : e.toNat < 0x80 ∧ e ≠ 13 := by rcases he with rfl | rfl <;> decide
    simp only [List.cons_append, List.append_assoc] at o3
    obtain ⟨d, f', rfl, hdd, hfd'⟩ := digits_cons hf hfd
    have hdl := isAD_lt hdd
    refine wp_whenP (fun _ => ?_) fun hc => ?_
    · refine wp_seq (fwd_byte o3 hel.1 hel.2) fun _ s4 ⟨m4, o4⟩ => ?_
      wpb
      have hns : chOf (d :: f' ++ rest) ≠ r!"+" ∧ chOf (d :: f' ++ rest) ≠ r!"-" := by
        have := chOf_digit (t := f' ++ rest) hdd
        rw [List.cons_append]; omega
      refine wp_seq (fwd_sign o4 hsg hns) fun _ s5 ⟨m5, o5⟩ => ?_
      refine wp_mono (fwd_digits (d :: f') _ s5 _ o5 hfd hr.digit
        (by simp only [List.length_cons, List.length_append] at hlen ⊢; omega)) ?_
      intro _ s6 ⟨m6, o6⟩
      exact ⟨m3.trans h.inv (m4.trans o3.inv (m5.trans o4.inv m6)), o6⟩
    · exfalso; apply hc
      rw [o3.chEq, chOf_cons hel.1 hel.2, o3.peekEq hel.1 hel.2, o3.peekEq hel.1 hel.2, List.drop_zero]
      refine ⟨by rcases he with rfl | rfl <;> decide, ?_⟩
      rcases hsg with rfl | rfl | rfl
      · left
        rw [List.nil_append, List.cons_append, headRune_cons hdl.1, isDigit_byte hdl.1, hdd]
      · right
        simp only [List.cons_append, List.nil_append, List.drop_succ_cons, List.drop_zero]
        rw [headRune_cons (by decide), headRune_cons hdl.1, isDigit_byte hdl.1, hdd]
        decide
      · right
        simp only [List.cons_append, List.nil_append, List.drop_succ_cons, List.drop_zero]
        rw [headRune_cons (by decide), headRune_cons hdl.1, isDigit_byte hdl.1, hdd]
        decide

end Cssc
