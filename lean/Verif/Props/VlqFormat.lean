import Verif.Props.Vlq
import Verif.Spec.Mappings

/-!
# VLQDecode and the source map format (C71)
-/

namespace Cssc

/-- The table of `VLQDecode`, byte for byte: the value of a digit; zero for every other byte below 127; nothing (an
index out of range) from 127 on. -/
theorem base64Reverse_exact (b : UInt8) : base64Reverse[b.toNat]? =
    if b.toNat < 127 then some (UInt8.ofNat ((digitValue b).getD 0)) else none := by
  have aux : ∀ n : Nat, n < 256 → base64Reverse[n]? =
      if n < 127 then some (UInt8.ofNat ((digitValue (UInt8.ofNat n)).getD 0)) else none := by decide +kernel
  have := aux b.toNat b.toNat_lt
  rwa [UInt8.ofNat_toNat] at this

theorem digitValue_lt {b : UInt8} {d : Nat} (h : digitValue b = some d) : d < 64 ∧ b.toNat < 127 := by
  unfold digitValue at h
  split at h
  · cases h; omega
  split at h
  · cases h; omega
  split at h
  · cases h; omega
  split at h
  · rename_i hb; cases h; subst hb; decide
  split at h
  · rename_i hb; cases h; subst hb; decide
  · cases h

theorem vlqNat_length {bs rest : Bytes} {v : Nat} (h : vlqNat bs = some (v, rest)) : rest.length < bs.length := by
  induction bs generalizing v with
  | nil => cases h
  | cons b bs ih =>
    rw [vlqNat] at h
    split at h
    · cases h
    split at h
    · cases h; simp
    · split at h
      · cases h
      · rename_i v' rest' hv
        cases h
        have := ih hv
        simp only [List.length_cons]; omega

theorem decodeLoop_digit {b : UInt8} {d : Nat} (h : digitValue b = some d) (bs : Bytes) {rv shift read : Int} (hs : 0 ≤ shift) :
    vlqDecodeLoop (b :: bs) rv shift read =
      if d < 32 then
        some (wrap32 (rv + wrap32 ((d : Int) % 32 * 2 ^ shift.toNat)), wrap32 (read + 1))
      else vlqDecodeLoop bs (wrap32 (rv + wrap32 ((d : Int) % 32 * 2 ^ shift.toNat)))
        (wrap32 (shift + 5)) (wrap32 (read + 1)) := by
  obtain ⟨hd, hb⟩ := digitValue_lt h
  rw [vlqDecodeLoop]
  simp only [base64Reverse_exact, if_pos hb, h, Option.getD_some, toNat_ofNat_lt hd]
  rw [if_neg (by omega)]
  by_cases h32 : d < 32
  · rw [if_pos (by omega), if_pos h32]
  · rw [if_neg (by omega), if_neg h32]

theorem decodeLoop_format : ∀ (bs : Bytes) {v : Nat} {rest : Bytes} {rv : Int} {s read : Nat}, vlqNat bs = some (v, rest) →
    0 ≤ rv → rv + v * 2 ^ s < 2147483648 → s + 5 * bs.length < 2147483648 → read + bs.length < 2147483648 →
    vlqDecodeLoop bs rv s read = some (rv + v * 2 ^ s, ((read + (bs.length - rest.length) : Nat) : Int)) := by
  intro bs
  induction bs with
  | nil => intro v rest rv s read h; cases h
  | cons b bs ih =>
    intro v rest rv s read h h0 hlt hs hread
    rw [vlqNat] at h
    have hp : (0 : Int) < 2 ^ s := by positivity
    simp only [List.length_cons] at hs hread ⊢
    split at h
    · cases h
    rename_i d hd
    rw [decodeLoop_digit hd bs (by omega)]
    have hd64 := (digitValue_lt hd).1
    split at h
    · rename_i h32
      obtain ⟨rfl, rfl⟩ : d = v ∧ bs = rest := by simpa using h
      rw [if_pos h32, show ((d : Int) % 32) = d by omega]
      have hpos : (0 : Int) ≤ (d : Int) * 2 ^ s := by positivity
      simp only [Int.toNat_natCast]
      rw [wrap32_id (x := (d : Int) * 2 ^ s) (by omega) (by omega), wrap32_id (by omega) (by omega),
        wrap32_id (by omega) (by omega)]
      have : bs.length + 1 - bs.length = 1 := by omega
      rw [this]; rfl
    · rename_i h32
      split at h
      · cases h
      rename_i v' rest' hv
      cases h
      have hl := vlqNat_length hv
      rw [if_neg h32, show ((d : Int) % 32) = ((d - 32 : Nat) : Int) by omega]
      have e : ((d - 32 + 32 * v' : Nat) : Int) * 2 ^ s = ((d - 32 : Nat) : Int) * 2 ^ s + (v' : Int) * 2 ^ (s + 5) := by
        push_cast; rw [pow_add]; ring
      have hpos : (0 : Int) ≤ ((d - 32 : Nat) : Int) * 2 ^ s := by positivity
      have hpos' : (0 : Int) ≤ (v' : Int) * 2 ^ (s + 5) := by positivity
      rw [e] at hlt ⊢
      simp only [Int.toNat_natCast]
      rw [wrap32_id (x := ((d - 32 : Nat) : Int) * 2 ^ s) (by omega) (by omega), wrap32_id (x := rv + _) (by omega) (by omega),
        wrap32_id (x := (s : Int) + 5) (by omega) (by omega), wrap32_id (by omega) (by omega)]
      have := ih (rv := rv + ((d - 32 : Nat) : Int) * 2 ^ s) (s := s + 5) (read := read + 1) hv (by omega) (by omega) (by omega)
        (by omega)
      push_cast at this ⊢
      rw [this]
      refine congrArg some (Prod.ext (by simp only; ring) ?_)
      simp only
      omega

/-- **C71, partial**: on every text that begins with a VLQ number (by the source map format) of less than 32 bits,
`VLQDecode` returns that number and its length.  Missing from the full statement: other texts are not refused. -/
theorem vlqDecode_format_partial {bs rest : Bytes} {v : Nat} (h : vlqNat bs = some (v, rest)) (hv : v < 2147483648)
    (hl : bs.length < 268435456) :
    vlqDecode bs = some (vlqSigned v, ((bs.length - rest.length : Nat) : Int)) := by
  have := decodeLoop_format bs (rv := 0) (s := 0) (read := 0) h le_rfl (by simp; omega) (by omega) (by omega)
  simp only [Nat.cast_zero, zero_add, pow_zero, mul_one] at this
  rw [vlqDecode, this]
  simp only
  unfold vlqSigned
  split
  · rw [if_pos (by omega), wrap32_id (x := (v : Int) - 1) (by omega) (by omega), wrap32_id (by omega) (by omega)]
    refine congrArg some (Prod.ext ?_ rfl)
    simp only; omega
  · rw [if_neg (by omega)]
    refine congrArg some (Prod.ext ?_ rfl)
    simp only; omega

example : vlqNat b!"hgggC,A" = some (2097153, b!",A") ∧ vlqDecode b!"hgggC,A" = some (-1048576, 5) := by decide +kernel

/-- **C71 is false**: `VLQDecode` does not refuse a text that begins with no VLQ number. -/
theorem vlqDecode_format_refuted : ¬ ∀ bs r, vlqDecode bs = some r →
    ∃ v rest, vlqNat bs = some (v, rest) ∧ r = (vlqSigned v, ((bs.length - rest.length : Nat) : Int)) := by
  intro h
  obtain ⟨v, rest, h1, _⟩ := h b!",A" (0, 1) (by decide +kernel)
  simp [vlqNat, digitValue] at h1

/-- What happens on every text: a byte below 127 that is not a digit is read like `A`. -/
theorem vlqDecode_foreign (bs : Bytes) :
    vlqDecode bs = vlqDecode (bs.map fun b => if b.toNat < 127 ∧ digitValue b = none then 65 else b) := by
  have loop : ∀ (bs : Bytes) (rv shift read : Int), vlqDecodeLoop bs rv shift read =
      vlqDecodeLoop (bs.map fun b => if b.toNat < 127 ∧ digitValue b = none then 65 else b) rv shift read := by
    intro bs
    induction bs with
    | nil => intro rv shift read; rfl
    | cons b bs ih =>
      intro rv shift read
      rw [List.map_cons, vlqDecodeLoop, vlqDecodeLoop]
      have e : base64Reverse[(if b.toNat < 127 ∧ digitValue b = none then (65 : UInt8) else b).toNat]? =
          base64Reverse[b.toNat]? := by
        split
        · rename_i hb
          rw [base64Reverse_exact, base64Reverse_exact, if_pos hb.1, hb.2]
          rfl
        · rfl
      rw [e]
      split
      · rfl
      · simp only [ih]
  unfold vlqDecode
  rw [loop]

/-- A panic needs a byte from 127 on, or a text of more than 2^28 bytes. -/
theorem vlqDecode_safe {bs : Bytes} (h : ∀ b ∈ bs, b.toNat < 127) (hl : bs.length < 268435456) : vlqDecode bs ≠ none := by
  have loop : ∀ (bs : Bytes) (rv : Int) (s : Nat) (read : Int), (∀ b ∈ bs, b.toNat < 127) → s + 5 * bs.length < 2147483648 →
      vlqDecodeLoop bs rv s read ≠ none := by
    intro bs
    induction bs with
    | nil => intro rv s read _ _; simp [vlqDecodeLoop]
    | cons b bs ih =>
      intro rv s read hb hs
      simp only [List.length_cons] at hs
      rw [vlqDecodeLoop]
      simp only [base64Reverse_exact, if_pos (hb b (by simp))]
      rw [if_neg (by omega)]
      split
      · simp
      · rw [wrap32_id (x := (s : Int) + 5) (by omega) (by omega)]
        exact_mod_cast ih _ (s + 5) _ (fun c hc => hb c (by simp [hc])) (by omega)
  unfold vlqDecode
  have := loop bs 0 0 0 h (by omega)
  split
  · rename_i hn; exact absurd hn this
  · split <;> simp

end Cssc
