import Verif.Proofs.Skip

/-!
# Escapes: what the lexer does with the escapes it handles
-/

namespace Cssc

/-! ### Names with hexadecimal escapes -/

/-- ASCII hexadecimal digits. -/
def isHexByte (b : UInt8) : Bool :=
  isAD b || (65 ≤ b.toNat && b.toNat ≤ 70) || (97 ≤ b.toNat && b.toNat ≤ 102)

theorem hexDigit_byte {b : UInt8} (hb : b.toNat < 0x80) : isHexDigit (b.toNat : Int) = isHexByte b := by
  simp only [isHexDigit, isDigit_byte hb, isHexByte, isAD]
  rw [Bool.eq_iff_iff]
  simp only [Bool.or_eq_true, Bool.and_eq_true, decide_eq_true_eq]
  omega

theorem hexDigit_high {c : Int} (h : isHexDigit c = true) (h1 : 0x80 ≤ c) : isDigit c = true := by
  simp only [isHexDigit, Bool.or_eq_true, Bool.and_eq_true, decide_eq_true_eq] at h
  rcases h with (h | h) | h
  · exact h
  · omega
  · omega

/-- Name bytes and backslashes, each backslash directly followed by a hexadecimal digit. -/
inductive IsEscName : Bytes → Prop where
  | nil : IsEscName []
  | byte {b : UInt8} {w : Bytes} : isNameByte b = true → IsEscName w → IsEscName (b :: w)
  | esc {b : UInt8} {w : Bytes} : isHexByte b = true → IsEscName (b :: w) → IsEscName (92 :: b :: w)

theorem hex_name {b : UInt8} (h : isHexByte b = true) : isNameByte b = true ∧ b.toNat < 0x80 ∧ b ≠ 13 ∧ b ≠ 92 ∧
    isHexDigit (b.toNat : Int) = true := by
  have hlt : b.toNat < 0x80 := by
    simp only [isHexByte, isAD, Bool.or_eq_true, Bool.and_eq_true, decide_eq_true_eq] at h; omega
  refine ⟨?_, hlt, ?_, ?_, ?_⟩
  · simp only [isHexByte, isNameByte, isAD, Bool.or_eq_true, Bool.and_eq_true, decide_eq_true_eq, beq_iff_eq] at h ⊢
    omega
  · rintro rfl; simp [isHexByte, isAD] at h
  · rintro rfl; simp [isHexByte, isAD] at h
  · simp only [isHexDigit, isDigit_byte hlt]
    simp only [isHexByte, isAD, Bool.or_eq_true, Bool.and_eq_true, decide_eq_true_eq] at h ⊢
    omega

theorem IsEscName.tail {b : UInt8} {w : Bytes} (h : IsEscName (b :: w)) : b = 92 ∨ IsEscName w := by
  cases h with
  | byte _ h => exact .inr h
  | esc _ _ => exact .inl rfl

theorem escName_head {b : UInt8} {w : Bytes} (h : IsEscName (b :: w)) :
    (isNameByte b = true ∧ IsEscName w) ∨ (b = 92 ∧ ∃ c w', w = c :: w' ∧ isHexByte c = true ∧ IsEscName w) := by
  cases h with
  | byte hb h => exact .inl ⟨hb, h⟩
  | esc hb h => exact .inr ⟨rfl, _, _, rfl, hb, h⟩

/-- Dropping a run of bytes without backslashes. -/
theorem escName_drop : ∀ (k : Nat) {w : Bytes}, IsEscName w → (∀ b ∈ w.take k, b ≠ 92) → IsEscName (w.drop k)
  | 0, w, h, _ => h
  | k + 1, [], h, _ => by simpa using h
  | k + 1, b :: w, h, hb => by
    rw [List.drop_succ_cons]
    rcases h.tail with rfl | h'
    · exact absurd rfl (hb 92 (by simp))
    · exact escName_drop k h' fun c hc => hb c (by simp [hc])

/-- A rune read inside such a name. -/
theorem On.escRune {s : St} {b : UInt8} {w rest : Bytes} (h : On s ((b :: w) ++ rest)) (hw : IsEscName (b :: w))
    (hb : b ≠ 92) (hr : rest = [] ∨ ∃ c t, rest = c :: t ∧ c.toNat < 0x80) {X : Exc} :
    isName s.lex.ch = true ∧
    wp step (fun _ s' => Mov s s' ∧ ∃ j, 1 ≤ j ∧ j ≤ w.length + 1 ∧ On s' ((b :: w).drop j ++ rest) ∧
      IsEscName ((b :: w).drop j)) X s := by
  rcases escName_head hw with ⟨hnb, hw'⟩ | ⟨rfl, _⟩
  · by_cases hlt : b.toNat < 0x80
    · have hcr : b ≠ 13 := by rintro rfl; simp [isNameByte, isAD] at hnb
      refine ⟨by rw [h.chEq, List.cons_append, chOf_cons hlt hcr, isName_byte hlt, hnb], ?_⟩
      refine wp_mono (fwd_byte h hlt hcr) fun _ s1 ⟨m1, o1⟩ => ⟨m1, 1, by omega, by omega, o1, hw'⟩
    · have hne : (b :: w) ++ rest ≠ [] := by simp
      have hcurat : curAt ((b :: w) ++ rest) 0 = decodeRune ((b :: w) ++ rest) := curAt_high (by omega)
      have hwi := decodeRune_within (w := b :: w) (by simp) hr
      refine ⟨?_, ?_⟩
      · rw [h.chEq]
        exact isName_high (chOf_high (by omega))
      · refine wp_mono (h.stepAny hne) fun _ s1 ⟨m1, o1, l1⟩ => ?_
        rw [hcurat, List.drop_append_of_le_length hwi] at o1
        refine ⟨m1, _, decodeRune_size_pos hne, by simpa using hwi, o1, ?_⟩
        refine escName_drop _ hw fun c hc => ?_
        rintro rfl
        rcases decodeRune_cons b (w ++ rest) with ⟨h', _⟩ | ⟨_, _, h1, h2, h3⟩
        · omega
        · have hmem : (92 : UInt8) ∈ (w ++ rest).take ((decodeRune (b :: (w ++ rest))).2 - 1) := by
            rw [List.cons_append] at hc hwi
            obtain ⟨m, hm⟩ : ∃ m, (decodeRune (b :: (w ++ rest))).2 = m + 1 := ⟨_, (Nat.sub_add_cancel h1).symm⟩
            rw [hm, List.take_succ_cons, List.mem_cons] at hc
            rw [hm]
            simp only [List.length_cons] at hwi
            rw [Nat.add_sub_cancel, List.take_append_of_le_length (by omega)]
            rcases hc with hc | hc
            · exact absurd hc.symm hb
            · exact hc
          have := h3 92 hmem
          simp at this
  · exact absurd rfl hb

theorem fwd_escapedLoop {X : Exc} : ∀ (i : Nat) (w : Bytes) (s : St) (rest : Bytes), On s (w ++ rest) →
    IsEscName w → WordStop rest → isWhitespace (chOf rest) = false →
    wp (escapedLoop i) (fun _ s' => Mov s s' ∧ ∃ j, j ≤ w.length ∧ On s' (w.drop j ++ rest) ∧ IsEscName (w.drop j)) X s
  | 0, w, s, rest, h, hw, _, _ => ⟨Mov.refl h.inv, 0, by omega, h, hw⟩
  | i + 1, w, s, rest, h, hw, hr, hws => by
    simp only [escapedLoop]
    wpb
    refine wp_ite (fun hc => ?_) fun _ => ⟨Mov.refl h.inv, 0, by omega, h, hw⟩
    cases w with
    | nil =>
      exfalso
      rw [List.nil_append] at h
      rw [h.chEq] at hc
      have hs := hr.stop.1
      have hlt := not_name_lt hs
      simp only [isHexDigit, isDigit, Bool.or_eq_true, Bool.and_eq_true, decide_eq_true_eq] at hc
      simp only [isName, isNameStart, Bool.or_eq_false_iff, Bool.and_eq_false_iff, decide_eq_false_iff_not] at hs
      split at hc
      · simp only [Bool.and_eq_true, decide_eq_true_eq] at hc; omega
      · omega
    | cons b w =>
      have hb : b ≠ 92 := by
        rintro rfl
        rw [h.chEq, List.cons_append, chOf_cons (by decide) (by decide)] at hc
        exact absurd hc (by decide)
      have hrune := h.escRune (X := X) hw hb hr.ascii
      refine wp_seq hrune.2 fun _ s1 ⟨m1, j, hj1, hj2, o1, w1⟩ => ?_
      wpb
      have hnws : isWhitespace s1.lex.ch = false := by
        generalize (b :: w).drop j = v at o1 w1
        cases v with
        | nil => rw [o1.chEq, List.nil_append]; exact hws
        | cons c v =>
          by_cases hc92 : c = 92
          · subst hc92
            rw [o1.chEq, List.cons_append, chOf_cons (by decide) (by decide)]; decide
          · have hn := (o1.escRune (X := X) w1 hc92 hr.ascii).1
            generalize s1.lex.ch = x at hn
            simp only [isName, isNameStart, isWhitespace, Bool.or_eq_true, Bool.and_eq_true, decide_eq_true_eq,
              beq_iff_eq, Bool.or_eq_false_iff, beq_eq_false_iff_ne] at hn ⊢
            omega
      rw [show whenP (isWhitespace s1.lex.ch = true) step = pure () by rw [whenP, hnws]; rfl]
      wpb
      refine wp_mono (fwd_escapedLoop i _ s1 rest o1 w1 hr hws) fun _ s2 ⟨m2, k, hk, o2, w2⟩ => ?_
      rw [List.length_drop, List.length_cons] at hk
      refine ⟨m1.trans h.inv m2, j + k, by simp only [List.length_cons]; omega, ?_, ?_⟩
      · rw [← List.drop_drop]; exact o2
      · rw [← List.drop_drop]; exact w2

theorem fwd_esc_name {X : Exc} : ∀ (k : Nat) (w : Bytes) (n : Nat) (s : St) (rest : Bytes), w.length ≤ k →
    On s (w ++ rest) → IsEscName w → WordStop rest → isWhitespace (chOf rest) = false → w.length < n →
    wp (nameLoop n) (fun _ s' => Mov s s' ∧ On s' rest) X s
  | _, _, 0, _, _, _, _, _, _, _, hn => by omega
  | k, [], n + 1, s, rest, _, h, _, hr, _, _ => by
    exact fwd_name 0 [] (n + 1) s rest (by simp) h (by simp) hr.stop.1 hr.stop.2 (by simp)
  | 0, b :: w, n + 1, s, rest, hk, h, hd, hr, he, hn => by simp at hk
  | k + 1, b :: w, n + 1, s, rest, hk, h, hw, hr, hws, hn => by
    simp only [nameLoop]
    wpb
    simp only [List.length_cons] at hk hn
    by_cases hb : b = 92
    · subst hb
      have hch : s.lex.ch = 92 := by
        rw [h.chEq, List.cons_append, chOf_cons (by decide) (by decide)]; decide
      rw [hch, if_neg (by decide)]
      wpb
      rcases escName_head hw with ⟨hnb, _⟩ | ⟨_, c, w', rfl, hc, hw'⟩
      · simp [isNameByte, isAD] at hnb
      have hh := hex_name hc
      have hpk : s.peek 0 = (c.toNat : Int) := by
        rw [List.cons_append] at h
        rw [h.peekEq (by decide) (by decide), List.drop_zero, List.cons_append, headRune_cons hh.2.1]
      have hse : startsEscape 92 (s.peek 0) = true := by
        rw [hpk]
        have : (c.toNat : Int) ≠ 10 := by
          intro e
          rw [UInt8.eq_of_toNat (b := c) (n := 10) (by omega)] at hc
          simp [isHexByte, isAD] at hc
        simp [startsEscape, this]
      rw [if_pos hse, nextEscaped]
      rw [wpb_assoc]
      refine wp_seq (fwd_byte h (by decide) (by decide)) fun _ s1 ⟨m1, o1⟩ => ?_
      refine wp_seq (fwd_escapedLoop 5 _ s1 rest o1 hw' hr hws) fun _ s2 ⟨m2, j, hj, o2, w2⟩ => ?_
      refine wp_mono (fwd_esc_name k _ n s2 rest (by rw [List.length_drop]; omega) o2 w2 hr hws
        (by rw [List.length_drop]; omega)) fun _ s3 ⟨m3, o3⟩ => ?_
      exact ⟨m1.trans h.inv (m2.trans o1.inv m3), o3⟩
    · have hrune := h.escRune (X := X) hw hb hr.ascii
      rw [if_pos hrune.1]
      refine wp_seq hrune.2 fun _ s1 ⟨m1, j, hj1, hj2, o1, w1⟩ => ?_
      refine wp_mono (fwd_esc_name k _ n s1 rest (by rw [List.length_drop, List.length_cons]; omega) o1 w1 hr hws
        (by rw [List.length_drop, List.length_cons]; omega)) fun _ s3 ⟨m3, o3⟩ => ?_
      exact ⟨m1.trans h.inv m3, o3⟩

theorem fwd_tok_esc_ident {s : St} {b : UInt8} {w rest : Bytes} {X : Exc} {n : Nat}
    (h : On s ((b :: w) ++ rest)) (hb : isLetter b = true) (hw : IsEscName (b :: w))
    (hr : WordStop rest) (hws : isWhitespace (chOf rest) = false) (hp : ∀ t, rest ≠ 40 :: t) :
    wp (nextLoop (n + 1)) (fun _ s' => Reads s s' (.ident (b :: w)) rest) X s := by
  rw [nextLoop_wp]
  have hbl : b.toNat < 0x80 ∧ b ≠ 13 ∧ isNameStart (b.toNat : Int) = true ∧ isDigit (b.toNat : Int) = false := by
    have hlt : b.toNat < 0x80 := by
      simp only [isLetter, Bool.or_eq_true, Bool.and_eq_true, decide_eq_true_eq, beq_iff_eq] at hb
      omega
    refine ⟨hlt, ?_, ?_, ?_⟩
    · rintro rfl; simp [isLetter] at hb
    · simp only [isLetter, isNameStart, Bool.or_eq_true, Bool.and_eq_true, decide_eq_true_eq, beq_iff_eq] at hb ⊢
      omega
    · rw [isDigit_byte hlt]
      simp only [isLetter, Bool.or_eq_true, Bool.and_eq_true, decide_eq_true_eq, beq_iff_eq] at hb
      simp only [isAD, Bool.and_eq_false_iff, decide_eq_false_iff_not]
      omega
  have hch := h.chEq
  rw [List.cons_append, chOf_cons hbl.1 hbl.2.1] at hch
  rw [hch, tokBody_nameStart hbl.2.2.1 hbl.2.2.2]
  have sc : SameCursor s { s with lex := { s.lex with start := s.lex.lastPos } } :=
    ⟨rfl, rfl, rfl, rfl, rfl, rfl, rfl, rfl⟩
  generalize hs0 : ({ s with lex := { s.lex with start := s.lex.lastPos } } : St) = s0 at sc
  have hst : s0.lex.start = s.lex.lastPos := by rw [← hs0]
  have o0 := sc.on h
  rw [nextIdentLikeToken]
  wpb
  have hlen := o0.len
  rw [List.length_append] at hlen
  rw [nextName, wpb_assoc]
  wpb
  refine wp_seq (fwd_esc_name (b :: w).length _ _ s0 rest (Nat.le_refl _) o0 hw hr hws (by omega))
    fun _ s1 ⟨m1, o1⟩ => ?_
  wpb
  rw [wpb_slice m1.le o1.inv.le]
  have hsub : sub s1.src s0.lex.lastPos s1.lex.lastPos = b :: w := by
    have h2 := o1.len
    rw [m1.src] at *
    have : s1.lex.lastPos = s0.lex.lastPos + (b :: w).length := by omega
    rw [this]; exact o0.sub
  rw [hsub, wpb_setStr]
  have sc2 : SameCursor s1 { s1 with lex := { s1.lex with str := b :: w } } :=
    ⟨rfl, rfl, rfl, rfl, rfl, rfl, rfl, rfl⟩
  generalize hs2 : ({ s1 with lex := { s1.lex with str := b :: w } } : St) = s2 at sc2
  have hst2 : s2.lex.start = s1.lex.start := by rw [← hs2]
  have hstr : s2.lex.str = b :: w := by rw [← hs2]
  have o2 := sc2.on o1
  wpb
  have hc : s2.lex.ch ≠ 40 := by
    rw [o2.chEq]
    rcases hr with rfl | ⟨c, t, rfl, h1, h2, h3, h4⟩
    · decide
    · rw [chOf_cons h1 h2]
      intro e
      exact hp t (by rw [UInt8.eq_of_toNat (b := c) (n := 40) (by omega)]; rfl)
  rw [if_neg (by simp [hc]), if_neg hc]
  wpb
  have sc3 : SameCursor s2 { s2 with lex := { s2.lex with cur := .ident } } :=
    ⟨rfl, rfl, rfl, rfl, rfl, rfl, rfl, rfl⟩
  refine ⟨sc3.on o2, (sc.adv h.inv).trans h.inv ((m1.adv.trans o0.inv (sc2.adv o1.inv)).trans o0.inv (sc3.adv o2.inv)),
    rfl, ?_, ?_, by simp [PTok.num]⟩
  · exact hst2.trans (m1.start.trans hst)
  · intro c hc
    simp only [PTok.str, Option.some.injEq] at hc
    subst hc; exact hstr

end Cssc
