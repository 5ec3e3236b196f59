import Verif.SourceMap
import Mathlib.Tactic.Ring
import Mathlib.Tactic.Linarith

/-!
# VLQ numbers (C01, C02, C03)
-/

namespace Cssc

theorem wrap32_id {x : Int} (h1 : -2147483648 ≤ x) (h2 : x < 2147483648) : wrap32 x = x := by
  unfold wrap32; rw [Int.bmod_def]; split <;> omega

theorem b64_rev : ∀ c : Fin 64, base64Reverse[(b64 c.val).toNat]? = some (UInt8.ofNat c.val) := by
  decide +kernel

theorem b64_rev' {c : Nat} (h : c < 64) : base64Reverse[(b64 c).toNat]? = some (UInt8.ofNat c) :=
  b64_rev ⟨c, h⟩

theorem toNat_ofNat_lt {c : Nat} (h : c < 64) : (UInt8.ofNat c).toNat = c := by
  rw [UInt8.toNat_ofNat']; omega

/-- What one call of the decode loop does on a digit. -/
theorem vlqDecodeLoop_b64 {c : Nat} (h : c < 64) (rest : Bytes) (rv shift read : Int) (hs : 0 ≤ shift) :
    vlqDecodeLoop (b64 c :: rest) rv shift read =
      if c / 32 % 2 = 0 then
        some (wrap32 (rv + wrap32 ((c : Int) % 32 * 2 ^ shift.toNat)), wrap32 (read + 1))
      else vlqDecodeLoop rest (wrap32 (rv + wrap32 ((c : Int) % 32 * 2 ^ shift.toNat)))
        (wrap32 (shift + 5)) (wrap32 (read + 1)) := by
  rw [vlqDecodeLoop]
  simp only [b64_rev' h, toNat_ofNat_lt h]
  have h1 : ¬ shift < 0 := by omega
  simp only [h1, if_false]
  have h2 : ((c : Int) / 32 % 2 = 0) ↔ (c / 32 % 2 = 0) := by omega
  simp only [h2]

/-- The loop of `VLQEncode` on a non-negative number is undone by the loop of `VLQDecode`, which stops
exactly at its end. -/
theorem vlqDecodeLoop_vlqLoop (m : Nat) : ∀ (x rv : Int) (s read : Nat) (rest : Bytes), x.toNat ≤ m →
    0 ≤ x → x * 2 ^ s < 2147483648 → s < 31 → 0 ≤ rv → rv < 2 ^ s → read ≤ s →
    vlqDecodeLoop (vlqLoop x ++ rest) rv s read =
      some (rv + x * 2 ^ s, ((read + (vlqLoop x).length : Nat) : Int)) := by
  induction m with
  | zero =>
    intro x rv s read rest hm hx hlt hs hrv hrvlt hread
    have : x = 0 := by omega
    subst this
    rw [vlqLoop]
    simp only [Int.zero_ediv, ne_eq, not_true, if_false, le_refl, if_true, List.cons_append,
      List.nil_append]
    rw [show (0 % 32 : Int).toNat = 0 from rfl, vlqDecodeLoop_b64 (by omega) _ _ _ _ (by omega)]
    have h2 : (2 : Int) ^ s ≤ 2 ^ 30 := by
      exact_mod_cast Nat.pow_le_pow_right (by omega) (by omega : s ≤ 30)
    simp only [Nat.zero_div, Nat.zero_mod, if_true, List.length_singleton]
    norm_num at h2 ⊢
    rw [show wrap32 0 = 0 from rfl, add_zero, wrap32_id (by omega) (by omega),
      wrap32_id (by omega) (by omega)]
    exact ⟨rfl, rfl⟩
  | succ m ih =>
    intro x rv s read rest hm hx hlt hs hrv hrvlt hread
    have h2 : (2 : Int) ^ s ≤ 2 ^ 30 := by
      exact_mod_cast Nat.pow_le_pow_right (by omega) (by omega : s ≤ 30)
    have hp : (0 : Int) < 2 ^ s := by positivity
    norm_num at h2
    have hxd : x = 32 * (x / 32) + x % 32 := by omega
    have hmod : x % 32 * 2 ^ s ≤ x * 2 ^ s := by
      apply mul_le_mul_of_nonneg_right _ hp.le; omega
    have hmod0 : 0 ≤ x % 32 * 2 ^ s := by
      apply mul_nonneg _ hp.le; omega
    have hadd : rv + x % 32 * 2 ^ s < 2147483648 := by
      have hq : (2147483648 : Int) = 2 ^ (31 - s) * 2 ^ s := by
        rw [← pow_add, show 31 - s + s = 31 by omega]; norm_num
      have h3 : x < 2 ^ (31 - s) := by
        rw [hq] at hlt
        exact lt_of_mul_lt_mul_right hlt hp.le
      have h4 : (x + 1) * 2 ^ s ≤ 2 ^ (31 - s) * 2 ^ s :=
        mul_le_mul_of_nonneg_right (by omega) hp.le
      rw [← hq] at h4
      linarith
    rw [vlqLoop]
    by_cases hy : x / 32 ≤ 0
    · have hy0 : x / 32 = 0 := by omega
      simp only [hy0, ne_eq, not_true, if_false, le_refl, if_true, List.cons_append, List.nil_append]
      rw [vlqDecodeLoop_b64 (by omega) _ _ _ _ (by omega)]
      have e1 : ((x % 32).toNat : Int) % 32 = x % 32 := by omega
      have e2 : (x % 32).toNat / 32 % 2 = 0 := by omega
      simp only [e1, e2, if_true, Int.toNat_natCast, List.length_singleton]
      rw [wrap32_id (x := x % 32 * 2 ^ s) (by omega) (by omega), wrap32_id (by omega) (by omega),
        wrap32_id (by omega) (by omega)]
      have : x % 32 = x := by omega
      rw [this]; rfl
    · have hy1 : x / 32 ≠ 0 := by omega
      simp only [hy, hy1, ne_eq, not_false_iff, if_true, if_false, List.cons_append]
      rw [vlqDecodeLoop_b64 (by omega) _ _ _ _ (by omega)]
      have e1 : (((x % 32).toNat + 32 : Nat) : Int) % 32 = x % 32 := by omega
      have e2 : ¬ ((x % 32).toNat + 32) / 32 % 2 = 0 := by omega
      simp only [e1, e2, if_false, Int.toNat_natCast, List.length_cons]
      have e3 : x * 2 ^ s = (x / 32) * 2 ^ (s + 5) + x % 32 * 2 ^ s := by
        rw [pow_add]; nlinarith
      have hs5 : s + 5 < 31 := by
        by_contra hc
        have h3 : (2 : Int) ^ 31 ≤ 2 ^ (s + 5) := by
          exact_mod_cast Nat.pow_le_pow_right (by omega) (by omega : 31 ≤ s + 5)
        have h4 : (2 : Int) ^ (s + 5) ≤ x / 32 * 2 ^ (s + 5) :=
          le_mul_of_one_le_left (by positivity) (by omega)
        rw [show (2 : Int) ^ 31 = 2147483648 by norm_num] at h3
        linarith
      rw [wrap32_id (x := x % 32 * 2 ^ s) (by omega) (by omega), wrap32_id (by omega) (by omega),
        wrap32_id (by omega) (by omega), wrap32_id (by omega) (by omega)]
      have := ih (x / 32) (rv + x % 32 * 2 ^ s) (s + 5) (read + 1) rest (by omega) (by omega) (by omega)
        hs5 (by omega) (by rw [pow_add]; have : x % 32 * 2 ^ s ≤ 31 * 2 ^ s := by
                            apply mul_le_mul_of_nonneg_right _ hp.le; omega
                           linarith) (by omega)
      push_cast at this ⊢
      rw [this, e3]
      congr 2 <;> ring

/-- The magnitude-and-sign form that `VLQEncode` works on. -/
theorem vlqEncode_eq {n : Int} (h : -1073741824 < n) (h' : n < 1073741824) :
    vlqEncode n = vlqLoop (if n < 0 then -n * 2 + 1 else n * 2) := by
  have hx : (if n < 0 then wrap32 (wrap32 (wrap32 (-n) * 2) + 1) else wrap32 (n * 2)) =
      if n < 0 then -n * 2 + 1 else n * 2 := by
    split
    · rw [wrap32_id (x := -n) (by omega) (by omega), wrap32_id (x := -n * 2) (by omega) (by omega),
        wrap32_id (by omega) (by omega)]
    · rw [wrap32_id (by omega) (by omega)]
  unfold vlqEncode
  simp only [hx]
  generalize (if n < 0 then -n * 2 + 1 else n * 2) = x
  by_cases h0 : x / 32 = 0
  · rw [if_pos h0, vlqLoop]; simp [h0]
  · rw [if_neg h0]

/-- **C01, C02.** Every integer of magnitude below 2^30 is recovered by `VLQDecode` from what `VLQEncode`
wrote, whatever follows, and the length reported is exactly the number of bytes written. -/
theorem vlq_round_trip {n : Int} (h : -1073741824 < n) (h' : n < 1073741824) (rest : Bytes) :
    vlqDecode (vlqEncode n ++ rest) = some (n, ((vlqEncode n).length : Int)) := by
  rw [vlqEncode_eq h h']
  unfold vlqDecode
  have := vlqDecodeLoop_vlqLoop (if n < 0 then -n * 2 + 1 else n * 2).toNat
    (if n < 0 then -n * 2 + 1 else n * 2) 0 0 0 rest le_rfl (by split <;> omega)
    (by split <;> simp <;> omega) (by omega) le_rfl (by norm_num) le_rfl
  simp only [Nat.cast_zero, pow_zero, mul_one, zero_add] at this
  rw [this]
  simp only
  split
  · rw [if_pos (by omega), wrap32_id (x := -n * 2 + 1 - 1) (by omega) (by omega)]
    have : -n * 2 + 1 - 1 = -n * 2 := by omega
    rw [this, Int.mul_ediv_cancel _ (by norm_num), wrap32_id (by omega) (by omega)]
    simp
  · rw [if_neg (by omega), Int.mul_ediv_cancel _ (by norm_num)]

/-- Non-vacuity: a negative number of several digits, at the far end of the domain, followed by text. -/
example : vlqDecode (vlqEncode (-1073741823) ++ b!",AAAA") =
    some (-1073741823, ((vlqEncode (-1073741823)).length : Int)) :=
  vlq_round_trip (by norm_num) (by norm_num) _

/-- Specification: reading a run of VLQ numbers the way a source map consumer does, one after the other
until the text ends. -/
def readAll : Nat → Bytes → Option (List Int)
  | _, [] => some []
  | 0, _ :: _ => none
  | fuel + 1, b :: bs =>
    match vlqDecode (b :: bs) with
    | none => none
    | some (n, len) => (readAll fuel ((b :: bs).drop len.toNat)).map (n :: ·)

/-- The alphabet of a VLQ number. -/
def isB64 (b : UInt8) : Bool := base64Forward.contains b

theorem b64_isB64 {c : Nat} (h : c < 64) : isB64 (b64 c) = true := by
  have : ∀ c : Fin 64, isB64 (b64 c.val) = true := by decide +kernel
  exact this ⟨c, h⟩

theorem vlqLoop_ne_nil (x : Int) : vlqLoop x ≠ [] := by
  rw [vlqLoop]; split <;> split <;> simp

theorem vlqEncode_ne_nil (n : Int) : vlqEncode n ≠ [] := by
  unfold vlqEncode; simp only
  generalize (if n < 0 then wrap32 (wrap32 (wrap32 (-n) * 2) + 1) else wrap32 (n * 2)) = x
  split
  · simp
  · exact vlqLoop_ne_nil _

theorem vlqLoop_alphabet (m : Nat) : ∀ x : Int, x.toNat ≤ m → ∀ b ∈ vlqLoop x, isB64 b = true := by
  induction m with
  | zero =>
    intro x hx b hb
    rw [vlqLoop] at hb
    have : x / 32 ≤ 0 := by omega
    simp only [this, if_true, List.mem_singleton] at hb
    rw [hb]; apply b64_isB64; split <;> omega
  | succ m ih =>
    intro x hx b hb
    rw [vlqLoop] at hb
    split at hb
    · rw [List.mem_singleton] at hb
      rw [hb]; apply b64_isB64; split <;> omega
    · rw [List.mem_cons] at hb
      rcases hb with hb | hb
      · rw [hb]; apply b64_isB64; split <;> omega
      · exact ih (x / 32) (by omega) b hb

/-- **C02.** For every `int32` (indeed every integer), `VLQEncode` writes only characters of the base64
alphabet, so never `,` or `;`. -/
theorem vlqEncode_alphabet (n : Int) : ∀ b ∈ vlqEncode n, isB64 b = true ∧ b ≠ 44 ∧ b ≠ 59 := by
  intro b hb
  have hm : isB64 b = true := by
    unfold vlqEncode at hb; simp only at hb
    revert hb
    generalize (if n < 0 then wrap32 (wrap32 (wrap32 (-n) * 2) + 1) else wrap32 (n * 2)) = x
    intro hb
    split at hb
    · rw [List.mem_singleton] at hb
      rw [hb]; apply b64_isB64; omega
    · exact vlqLoop_alphabet _ x le_rfl b hb
  refine ⟨hm, ?_, ?_⟩
  · rintro rfl; revert hm; decide
  · rintro rfl; revert hm; decide

/-- **C02.** Any sequence of numbers of magnitude below 2^30, written one after the other without
separators, is read back as the same sequence. -/
theorem vlq_concat_round_trip (ns : List Int) (h : ∀ n ∈ ns, -1073741824 < n ∧ n < 1073741824) :
    readAll ns.length (ns.flatMap vlqEncode) = some ns := by
  induction ns with
  | nil => rfl
  | cons n ns ih =>
    have hn := h n (by simp)
    have ih := ih fun m hm => h m (by simp [hm])
    rw [List.flatMap_cons, List.length_cons]
    obtain ⟨b, bs, hb⟩ := List.exists_cons_of_ne_nil (vlqEncode_ne_nil n)
    have hd := vlq_round_trip hn.1 hn.2 (ns.flatMap vlqEncode)
    rw [hb, List.cons_append] at hd ⊢
    rw [readAll, hd]
    simp only [Int.toNat_natCast]
    rw [← List.cons_append, List.drop_left, ih]
    rfl

example : ∀ n ∈ ([0, -7, 1000000, 16] : List Int), -1073741824 < n ∧ n < 1073741824 := by decide

/-- A negative number is written as a single digit with the continuation bit set. -/
theorem vlqLoop_neg {x : Int} (h : x < 0) : vlqLoop x = [b64 ((x % 32).toNat + 32)] := by
  rw [vlqLoop]
  have h1 : x / 32 ≤ 0 := by omega
  have h2 : x / 32 ≠ 0 := by omega
  simp [h1, h2]

/-- **C03.** Among all `int32` values, those of magnitude below 2^30 are exactly the ones that survive the
round trip. -/
theorem vlq_round_trip_iff {n : Int} (h1 : -2147483648 ≤ n) (h2 : n < 2147483648) :
    (vlqDecode (vlqEncode n)).map Prod.fst = some n ↔ (-1073741824 < n ∧ n < 1073741824) := by
  constructor
  · intro h
    by_contra hc
    have key : ∀ v : Int, (vlqDecode (vlqEncode n)).map Prod.fst = some v → -17 < v ∧ v < 17 := by
      intro v hv
      have single : ∀ c : Fin 64, ∀ v : Int, (vlqDecode [b64 c.val]).map Prod.fst = some v →
          -17 < v ∧ v < 17 := by
        have : ∀ c : Fin 64, (match vlqDecode [b64 c.val] with
          | some (v, _) => decide (-17 < v ∧ v < 17)
          | none => true) = true := by decide +kernel
        intro c v hv
        have := this c
        revert this hv
        cases vlqDecode [b64 c.val] with
        | none => simp
        | some p => obtain ⟨a, l⟩ := p; simp; rintro rfl h1 h2; exact ⟨h1, h2⟩
      have enc : ∃ c : Fin 64, vlqEncode n = [b64 c.val] := by
        unfold vlqEncode
        have hx : (if n < 0 then wrap32 (wrap32 (wrap32 (-n) * 2) + 1) else wrap32 (n * 2)) < 2 := by
          split <;> simp only [wrap32, Int.bmod_def] <;> (repeat' split) <;> omega
        simp only
        revert hx
        generalize (if n < 0 then wrap32 (wrap32 (wrap32 (-n) * 2) + 1) else wrap32 (n * 2)) = x
        intro hx
        split
        · exact ⟨⟨(x % 32).toNat, by omega⟩, rfl⟩
        · exact ⟨⟨(x % 32).toNat + 32, by omega⟩, vlqLoop_neg (by omega)⟩
      obtain ⟨c, hc⟩ := enc
      rw [hc] at hv
      exact single c v hv
    have := key n h
    omega
  · rintro ⟨h3, h4⟩
    have := vlq_round_trip h3 h4 []
    rw [List.append_nil] at this
    rw [this]; rfl

/-- **C03.** The first numbers outside the domain: 2^30 comes back as 0 and -2^31 as 0. -/
theorem vlq_overflow_witness :
    (vlqDecode (vlqEncode 1073741824)).map Prod.fst = some 0 ∧
    (vlqDecode (vlqEncode (-2147483648))).map Prod.fst = some 0 := by
  constructor
  · have : vlqEncode 1073741824 = b!"g" := by
      unfold vlqEncode
      rw [show wrap32 (1073741824 * 2) = -2147483648 by decide]
      simp [vlqLoop]
      decide
    rw [this]; decide +kernel
  · have : vlqEncode (-2147483648) = b!"B" := by
      unfold vlqEncode
      rw [show wrap32 (wrap32 (wrap32 (- -2147483648) * 2) + 1) = 1 by decide]
      decide
    rw [this]; decide +kernel

end Cssc
