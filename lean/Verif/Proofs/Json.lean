import Verif.SourceMap
import Verif.Spec.Json
import Verif.Spec.Mappings

/-!
# JSON strings of UTF-8 texts are read back; the bytes of a `mappings` text
-/

namespace Cssc

theorem toNat_ofNat' {n : Nat} (h : n < 256) : (UInt8.ofNat n).toNat = n := by
  rw [UInt8.toNat_ofNat']; exact Nat.mod_eq_of_lt h

/-- Go's decoder reads a UTF-8 sequence as its scalar value. -/
theorem decodeRune_utf8 {c : Nat} (h : IsScalar c) (t : Bytes) :
    decodeRune (utf8Encode c ++ t) = ((c : Int), (utf8Encode c).length) := by
  have hc : c < 0x110000 := by rcases h with h | h <;> omega
  unfold utf8Encode
  split
  · rename_i h1
    simp [decodeRune, toNat_ofNat' (show c < 256 by omega), h1]
  split
  · rename_i h0 h1
    have e1 := toNat_ofNat' (show 0xC0 + c / 64 < 256 by omega)
    have e2 := toNat_ofNat' (show 0x80 + c % 64 < 256 by omega)
    simp only [decodeRune, List.cons_append, e1, e2, isCont, List.length_cons, List.length_nil]
    rw [if_neg (by omega), if_neg (by omega), if_pos (by omega), if_pos (by simp; omega)]
    simp only [Prod.mk.injEq, and_true]
    omega
  split
  · rename_i h0 h1 h2
    have e1 := toNat_ofNat' (show 0xE0 + c / 4096 < 256 by omega)
    have e2 := toNat_ofNat' (show 0x80 + c / 64 % 64 < 256 by omega)
    have e3 := toNat_ofNat' (show 0x80 + c % 64 < 256 by omega)
    simp only [decodeRune, List.cons_append, e1, e2, e3, isCont, List.length_cons, List.length_nil]
    rw [if_neg (by omega), if_neg (by omega), if_neg (by omega), if_pos (by omega), if_pos]
    · simp only [Prod.mk.injEq, and_true]
      omega
    · simp only [Bool.and_eq_true, decide_eq_true_eq]
      rcases h with h | h
      all_goals
        refine ⟨⟨?_, ?_⟩, ?_, ?_⟩
        all_goals first | omega | (split <;> omega)
  · rename_i h0 h1 h2
    have e1 := toNat_ofNat' (show 0xF0 + c / 262144 < 256 by omega)
    have e2 := toNat_ofNat' (show 0x80 + c / 4096 % 64 < 256 by omega)
    have e3 := toNat_ofNat' (show 0x80 + c / 64 % 64 < 256 by omega)
    have e4 := toNat_ofNat' (show 0x80 + c % 64 < 256 by omega)
    simp only [decodeRune, List.cons_append, e1, e2, e3, e4, isCont, List.length_cons, List.length_nil]
    rw [if_neg (by omega), if_neg (by omega), if_neg (by omega), if_neg (by omega), if_pos (by omega), if_pos]
    · simp only [Prod.mk.injEq, and_true]
      omega
    · simp only [Bool.and_eq_true, decide_eq_true_eq]
      refine ⟨⟨⟨?_, ?_⟩, ?_, ?_⟩, ?_, ?_⟩
      all_goals first | omega | (split <;> omega)

/-! ### Strings -/

/-- A byte that stands for itself in a JSON string. -/
def plainByte (b : UInt8) : Bool := 32 ≤ b.toNat && b != 34 && b != 92

theorem jsonStr_byte {b : UInt8} (h : plainByte b = true) (t : Bytes) :
    jsonStr (b :: t) = (jsonStr t).bind fun x => some (b :: x.1, x.2) := by
  simp only [plainByte, Bool.and_eq_true, decide_eq_true_eq, bne_iff_ne, ne_eq] at h
  rw [jsonStr.eq_5 b t (fun e => h.1.2 e) (fun _ _ _ _ _ e _ => h.2 e) (fun _ _ e _ => h.2 e)]
  rw [if_neg (by rintro (h1 | h1); omega; exact h.2 h1)]
  rfl

theorem jsonStr_plain : ∀ (p : Bytes), (∀ b ∈ p, plainByte b = true) → ∀ t : Bytes,
    jsonStr (p ++ t) = (jsonStr t).bind fun x => some (p ++ x.1, x.2)
  | [], _, t => by simp
  | b :: p, h, t => by
    rw [List.cons_append, jsonStr_byte (h b (by simp)), jsonStr_plain p fun c hc => h c (by simp [hc])]
    cases jsonStr t <;> simp

theorem jsonStr_end (t : Bytes) : jsonStr (34 :: t) = some ([], t) := by
  rw [jsonStr]

theorem jsonStr_short {e x : UInt8} (h : shortEscape e = some x) (he : e ≠ 117) (t : Bytes) :
    jsonStr (92 :: e :: t) = (jsonStr t).bind fun y => some (x :: y.1, y.2) := by
  rw [jsonStr.eq_4 e t (fun _ _ _ _ _ h _ => he h)]
  rw [h]
  rfl

theorem jsonStr_unit {a b c d : UInt8} {x : Bytes} (h : unitEscape a b c d = some x) (t : Bytes) :
    jsonStr (92 :: 117 :: a :: b :: c :: d :: t) = (jsonStr t).bind fun y => some (x ++ y.1, y.2) := by
  rw [jsonStr.eq_3, h]
  rfl

/-- Every control character and `<`, `>`, `&` in the `\u00xx` form. -/
theorem unit_ascii : ∀ b : Fin 128, unitEscape 48 48 (hexDigit (b.val / 16)) (hexDigit (b.val % 16)) =
    some [UInt8.ofNat b.val] := by decide +kernel

theorem utf8_big {c : Nat} (hs : IsScalar c) (h : ¬ c < 0x80) : ∀ b ∈ utf8Encode c, 128 ≤ b.toNat := by
  have hc : c < 0x110000 := by rcases hs with h | h <;> omega
  intro b hb
  unfold utf8Encode at hb
  rw [if_neg h] at hb
  split at hb
  · simp only [List.mem_cons, List.not_mem_nil, or_false] at hb
    rcases hb with rfl | rfl
    all_goals rw [toNat_ofNat' (by omega)]; omega
  split at hb
  · simp only [List.mem_cons, List.not_mem_nil, or_false] at hb
    rcases hb with rfl | rfl | rfl
    all_goals rw [toNat_ofNat' (by omega)]; omega
  · simp only [List.mem_cons, List.not_mem_nil, or_false] at hb
    rcases hb with rfl | rfl | rfl | rfl
    all_goals rw [toNat_ofNat' (by omega)]; omega

theorem plain_big {b : UInt8} (h : 128 ≤ b.toNat) : plainByte b = true := by
  simp only [plainByte, Bool.and_eq_true, decide_eq_true_eq, bne_iff_ne, ne_eq]
  refine ⟨⟨by omega, ?_⟩, ?_⟩
  all_goals rintro rfl; revert h; decide

/-- One ASCII byte, as `json.Marshal` writes it. -/
def jsonAscii (b : UInt8) : Bytes :=
  if b = 92 then b!"\\\\"
  else if b = 34 then b!"\\\""
  else if b = 10 then b!"\\n"
  else if b = 13 then b!"\\r"
  else if b = 9 then b!"\\t"
  else if b.toNat < 0x20 ∨ b = 60 ∨ b = 62 ∨ b = 38 then
    b!"\\u00" ++ [hexDigit (b.toNat / 16), hexDigit (b.toNat % 16)]
  else [b]

theorem jsonAscii_read {b : UInt8} (hb : b.toNat < 128) (t : Bytes) :
    jsonStr (jsonAscii b ++ t) = (jsonStr t).bind fun y => some (b :: y.1, y.2) := by
  unfold jsonAscii
  split
  · rename_i h; subst h; exact jsonStr_short (by decide) (by decide) t
  split
  · rename_i h; subst h; exact jsonStr_short (by decide) (by decide) t
  split
  · rename_i h; subst h; exact jsonStr_short (by decide) (by decide) t
  split
  · rename_i h; subst h; exact jsonStr_short (by decide) (by decide) t
  split
  · rename_i h; subst h; exact jsonStr_short (by decide) (by decide) t
  split
  · have := unit_ascii ⟨b.toNat, hb⟩
    simp only at this
    refine (jsonStr_unit this t).trans ?_
    simp
  · rename_i h1 h2 _ _ _ h
    refine jsonStr_byte ?_ t
    simp only [plainByte, Bool.and_eq_true, decide_eq_true_eq, bne_iff_ne, ne_eq]
    refine ⟨⟨?_, h2⟩, h1⟩
    have : ¬ b.toNat < 32 := fun hc => h (.inl hc)
    omega

theorem ofNat_eq {b : UInt8} {n : Nat} (h : n = b.toNat) : UInt8.ofNat n = b := by
  subst h; exact UInt8.ofNat_toNat

theorem of_ite_ne {α : Type} {c : Prop} [Decidable c] {a b : α} (h : (if c then a else b) ≠ b) : c :=
  Classical.byContradiction fun hc => h (if_neg hc)

/-- What Go's decoder does not refuse begins with a UTF-8 sequence. -/
theorem decodeRune_valid {b : UInt8} {w : Bytes} (h : decodeRune (b :: w) ≠ (runeError, 1)) :
    ∃ c, IsScalar c ∧ utf8Encode c <+: b :: w := by
  have h0 := b.toNat_lt
  unfold decodeRune at h
  dsimp only at h
  split at h
  · rename_i h1
    refine ⟨b.toNat, .inl (by omega), w, ?_⟩
    simp [utf8Encode, h1]
  split at h
  · exact absurd rfl h
  split at h
  · split at h
    · rename_i h1 h2 h3 _ b1 t
      split at h
      · rename_i hy
        simp only [isCont, Bool.and_eq_true, decide_eq_true_eq] at hy
        refine ⟨(b.toNat - 0xC0) * 64 + (b1.toNat - 0x80), .inl (by omega), t, ?_⟩
        unfold utf8Encode
        rw [if_neg (by omega), if_pos (by omega), ofNat_eq (b := b) (by omega), ofNat_eq (b := b1) (by omega)]
        rfl
      · exact absurd rfl h
    · exact absurd rfl h
  split at h
  · split at h
    · rename_i h1 h2 h3 h4 _ b1 b2 t
      have hy := of_ite_ne h
      simp only [isCont, Bool.and_eq_true, decide_eq_true_eq] at hy
      obtain ⟨⟨hl, hh⟩, hz⟩ := hy
      have hl' : 0x80 ≤ b1.toNat ∧ (b.toNat = 0xE0 → 0xA0 ≤ b1.toNat) := by split at hl <;> omega
      have hh' : b1.toNat ≤ 0xBF ∧ (b.toNat = 0xED → b1.toNat ≤ 0x9F) := by split at hh <;> omega
      refine ⟨(b.toNat - 0xE0) * 4096 + (b1.toNat - 0x80) * 64 + (b2.toNat - 0x80), ?_, t, ?_⟩
      · unfold IsScalar; omega
      unfold utf8Encode
      rw [if_neg (by omega), if_neg (by omega), if_pos (by omega), ofNat_eq (b := b) (by omega),
        ofNat_eq (b := b1) (by omega), ofNat_eq (b := b2) (by omega)]
      rfl
    · exact absurd rfl h
  split at h
  · split at h
    · rename_i h1 h2 h3 h4 h5 _ b1 b2 b3 t
      have hy := of_ite_ne h
      simp only [isCont, Bool.and_eq_true, decide_eq_true_eq] at hy
      obtain ⟨⟨⟨hl, hh⟩, hz⟩, hw⟩ := hy
      have hl' : 0x80 ≤ b1.toNat ∧ (b.toNat = 0xF0 → 0x90 ≤ b1.toNat) := by split at hl <;> omega
      have hh' : b1.toNat ≤ 0xBF ∧ (b.toNat = 0xF4 → b1.toNat ≤ 0x8F) := by split at hh <;> omega
      refine ⟨(b.toNat - 0xF0) * 262144 + (b1.toNat - 0x80) * 4096 + (b2.toNat - 0x80) * 64 + (b3.toNat - 0x80), ?_, t, ?_⟩
      · unfold IsScalar; omega
      unfold utf8Encode
      rw [if_neg (by omega), if_neg (by omega), if_neg (by omega), ofNat_eq (b := b) (by omega),
        ofNat_eq (b := b1) (by omega), ofNat_eq (b := b2) (by omega), ofNat_eq (b := b3) (by omega)]
      rfl
    · exact absurd rfl h
  · exact absurd rfl h

theorem decodeRune_bad {b : UInt8} {w : Bytes} (h : ∀ c, IsScalar c → ¬ utf8Encode c <+: b :: w) :
    decodeRune (b :: w) = (runeError, 1) :=
  Classical.byContradiction fun hc => let ⟨c, h1, h2⟩ := decodeRune_valid hc; h c h1 h2

theorem utf8Encode_ne_nil {c : Nat} : utf8Encode c ≠ [] := by
  unfold utf8Encode; repeat' split
  all_goals simp

/-- Every text can be mended. -/
theorem mended_exists : ∀ (n : Nat) (w : Bytes), w.length ≤ n → ∃ v, Mended w v
  | _, [], _ => ⟨[], .nil⟩
  | n + 1, b :: w, hn => by
    simp only [List.length_cons] at hn
    by_cases h : ∃ c, IsScalar c ∧ utf8Encode c <+: b :: w
    · obtain ⟨c, hc, t, ht⟩ := h
      have : 0 < (utf8Encode c).length := List.length_pos_iff.2 utf8Encode_ne_nil
      have hl : (utf8Encode c).length + t.length = w.length + 1 := by
        rw [← List.length_append, ht, List.length_cons]
      obtain ⟨v, hv⟩ := mended_exists n t (by omega)
      exact ⟨_, ht ▸ Mended.char hc hv⟩
    · obtain ⟨v, hv⟩ := mended_exists n w (by omega)
      exact ⟨_, .bad (fun c h1 h2 => h ⟨c, h1, h2⟩) hv⟩
  | 0, _ :: _, hn => by simp at hn

/-- A text in UTF-8 needs no mending. -/
theorem IsUtf8.mended {w : Bytes} (h : IsUtf8 w) : Mended w w := by
  obtain ⟨cs, h, rfl⟩ := h
  induction cs with
  | nil => exact .nil
  | cons c cs ih => exact .char (h c (by simp)) (ih fun x hx => h x (by simp [hx]))

/-- There is one way to mend a text. -/
theorem Mended.unique {w v : Bytes} (h : Mended w v) : ∀ {u : Bytes}, Mended w u → v = u := by
  induction h with
  | nil =>
    intro u hu
    generalize hw : ([] : Bytes) = w at hu
    cases hu with
    | nil => rfl
    | char hc h => exact absurd (List.append_eq_nil_iff.1 hw.symm).1 utf8Encode_ne_nil
    | bad => cases hw
  | @char c w v hc _ ih =>
    intro u hu
    generalize hw : utf8Encode c ++ w = w' at hu
    cases hu with
    | nil => exact absurd (List.append_eq_nil_iff.1 hw).1 utf8Encode_ne_nil
    | @char d x y hd h =>
      have h1 := decodeRune_utf8 hc w
      rw [hw, decodeRune_utf8 hd x] at h1
      have : c = d := by have := congrArg Prod.fst h1; simp only at this; omega
      subst this
      rw [ih (List.append_cancel_left hw ▸ h)]
    | bad hno _ => exact absurd ⟨w, hw⟩ (hno c hc)
  | @bad b w v hno _ ih =>
    intro u hu
    generalize hw : b :: w = w' at hu
    cases hu with
    | nil => cases hw
    | char hc _ => exact absurd ⟨_, hw.symm⟩ (hno _ hc)
    | bad _ h =>
      cases hw
      rw [ih h]

/-- The mended text is in UTF-8. -/
theorem Mended.utf8 {w v : Bytes} (h : Mended w v) : IsUtf8 v := by
  induction h with
  | nil => exact ⟨[], by simp, rfl⟩
  | @char c _ _ hc _ ih =>
    obtain ⟨cs, h, rfl⟩ := ih
    exact ⟨c :: cs, by simpa [hc] using h, rfl⟩
  | bad _ _ ih =>
    obtain ⟨cs, h, rfl⟩ := ih
    exact ⟨0xFFFD :: cs, by simpa [IsScalar] using h, rfl⟩

/-- What `json.Marshal` writes for a text is a JSON string that stands for the mended text. -/
theorem jsonBody_read {w v : Bytes} (hm : Mended w v) (t : Bytes) : ∀ n : Nat, w.length ≤ n →
    jsonStr (jsonBody n w ++ 34 :: t) = some (v, t) := by
  induction hm with
  | nil => intro n _; cases n <;> simp [jsonBody, jsonStr_end]
  | @bad b w v hno _ ih =>
    intro n hn
    cases n with
    | zero => simp at hn
    | succ n =>
      have hb : ¬ b.toNat < 0x80 := fun hb => hno b.toNat (.inl (by omega)) ⟨w, by simp [utf8Encode, hb]⟩
      unfold jsonBody
      rw [if_neg hb]
      simp only [decodeRune_bad hno, and_self, ↓reduceIte]
      show jsonStr (92 :: 117 :: 102 :: 102 :: 102 :: 100 :: (jsonBody n w ++ 34 :: t)) = _
      rw [jsonStr_unit (x := [0xEF, 0xBF, 0xBD]) (by decide), ih n (by simpa using hn)]
      rfl
  | @char c w v hc _ ih =>
    intro n hn
    have hd := decodeRune_utf8 hc w
    rw [List.length_append] at hn
    cases he : utf8Encode c with
    | nil => exact absurd he utf8Encode_ne_nil
    | cons b e =>
      rw [he] at hd hn
      simp only [List.length_cons] at hn
      cases n with
      | zero => omega
      | succ n =>
        rw [List.cons_append]
        unfold jsonBody
        by_cases hb : b.toNat < 0x80
        · have hsmall : c < 0x80 := Classical.byContradiction fun hx =>
            absurd (utf8_big hc hx b (by rw [he]; simp)) (by omega)
          have he' : b = UInt8.ofNat c ∧ e = [] := by
            unfold utf8Encode at he
            rw [if_pos hsmall] at he
            simp only [List.cons.injEq] at he
            exact ⟨he.1.symm, he.2.symm⟩
          rw [if_pos hb]
          show jsonStr (jsonAscii b ++ jsonBody n (e ++ w) ++ 34 :: t) = _
          rw [List.append_assoc, jsonAscii_read hb, he'.2, List.nil_append,
            ih n (by rw [he'.2] at hn; simp at hn; omega)]
          simp
        · have hbig : ¬ c < 0x80 := by
            intro hx
            unfold utf8Encode at he
            rw [if_pos hx] at he
            simp only [List.cons.injEq] at he
            rw [← he.1, toNat_ofNat' (by omega)] at hb
            omega
          have hpl : ∀ x ∈ b :: e, plainByte x = true := fun x hx => plain_big (utf8_big hc hbig x (by rw [he]; exact hx))
          rw [if_neg hb]
          rw [List.cons_append] at hd
          simp only [hd]
          have hlen : (b :: e).length ≥ 2 := by
            rw [← he]; unfold utf8Encode
            rw [if_neg hbig]; repeat' split
            all_goals simp
          rw [if_neg (by rintro ⟨_, h1⟩; omega)]
          have hdrop : (b :: (e ++ w)).drop (b :: e).length = w := by
            rw [← List.cons_append, List.drop_left]
          have htake : (b :: (e ++ w)).take (b :: e).length = b :: e := by
            rw [← List.cons_append, List.take_left]
          rw [hdrop, htake]
          have hih := ih n (by omega)
          split
          · rename_i h2
            have hx : c = 0x2028 ∨ c = 0x2029 := by omega
            rw [← he]
            rcases hx with rfl | rfl
            · show jsonStr (92 :: 117 :: 50 :: 48 :: 50 :: 56 :: (jsonBody n w ++ 34 :: t)) = _
              rw [jsonStr_unit (x := utf8Encode 0x2028) (by decide), hih]
              rfl
            · show jsonStr (92 :: 117 :: 50 :: 48 :: 50 :: 57 :: (jsonBody n w ++ 34 :: t)) = _
              rw [jsonStr_unit (x := utf8Encode 0x2029) (by decide), hih]
              rfl
          · rw [List.append_assoc, jsonStr_plain _ hpl, hih]
            simp

/-! ### The bytes of a `mappings` text -/

theorem mem_splitAt {sep x : UInt8} : ∀ {bs : Bytes}, x ∈ bs → x = sep ∨ ∃ l ∈ splitAt sep bs, x ∈ l
  | b :: rest, h => by
    unfold splitAt
    split
    · rename_i hb
      rcases List.mem_cons.1 h with rfl | h
      · exact .inl hb
      · rcases mem_splitAt h with h | ⟨l, hl, hx⟩
        · exact .inl h
        · exact .inr ⟨l, by simp [hl], hx⟩
    · rcases List.mem_cons.1 h with rfl | h
      · refine .inr ?_
        cases splitAt sep rest with
        | nil => exact ⟨[x], by simp, by simp⟩
        | cons l ls => exact ⟨x :: l, by simp, by simp⟩
      · rcases mem_splitAt h with h | ⟨l, hl, hx⟩
        · exact .inl h
        · refine .inr ?_
          revert hl
          cases splitAt sep rest with
          | nil => intro hl; cases hl
          | cons l' ls =>
            intro hl
            rcases List.mem_cons.1 hl with rfl | hl
            · exact ⟨b :: l, by simp, by simp [hx]⟩
            · exact ⟨l, by simp [hl], hx⟩

theorem vlqNat_digits : ∀ {bs : Bytes} {v : Nat} {rest : Bytes}, vlqNat bs = some (v, rest) →
    ∃ d, bs = d ++ rest ∧ ∀ x ∈ d, digitValue x ≠ none
  | b :: bs, v, rest, h => by
    unfold vlqNat at h
    cases hd : digitValue b with
    | none => rw [hd] at h; cases h
    | some d =>
      simp only [hd] at h
      split at h
      · simp only [Option.some.injEq, Prod.mk.injEq] at h
        exact ⟨[b], by simp [h.2], by simp [hd]⟩
      · cases hr : vlqNat bs with
        | none => rw [hr] at h; cases h
        | some p =>
          obtain ⟨w, r⟩ := p
          simp only [hr, Option.some.injEq, Prod.mk.injEq] at h
          obtain ⟨ds, e, hall⟩ := vlqNat_digits hr
          refine ⟨b :: ds, by rw [e, h.2]; rfl, fun x hx => ?_⟩
          rcases List.mem_cons.1 hx with rfl | hx
          · simp [hd]
          · exact hall x hx

theorem segFields_digits : ∀ {n : Nat} {bs : Bytes} {l : List Int}, segFields n bs = some l →
    ∀ x ∈ bs, digitValue x ≠ none
  | _, [], _, _ => by simp
  | n + 1, b :: bs, l, h => by
    unfold segFields at h
    cases hv : vlqNat (b :: bs) with
    | none => rw [hv] at h; cases h
    | some p =>
      obtain ⟨v, r⟩ := p
      simp only [hv] at h
      obtain ⟨d, e, hall⟩ := vlqNat_digits hv
      cases hs : segFields n r with
      | none => rw [hs] at h; cases h
      | some m =>
        intro x hx
        rw [e] at hx
        rcases List.mem_append.1 hx with hx | hx
        · exact hall x hx
        · exact segFields_digits hs x hx

theorem mapM_each {α β : Type} {f : α → Option β} : ∀ {l : List α} {r : List β}, l.mapM f = some r →
    ∀ x ∈ l, ∃ y, f x = some y
  | [], _, _ => by simp
  | a :: l, r, h => by
    rw [List.mapM_cons] at h
    cases hf : f a with
    | none => rw [hf] at h; cases h
    | some y =>
      rw [hf] at h
      cases hm : l.mapM f with
      | none => rw [hm] at h; cases h
      | some r' =>
        intro x hx
        rcases List.mem_cons.1 hx with rfl | hx
        · exact ⟨y, hf⟩
        · exact mapM_each hm x hx

theorem lineSegs_bytes {line : Bytes} {l : List (List Int)} (h : lineSegs line = some l) :
    ∀ x ∈ line, digitValue x ≠ none ∨ x = 44 := by
  intro x hx
  rcases mem_splitAt (sep := 44) hx with h1 | ⟨s, hs, hxs⟩
  · exact .inr h1
  · unfold lineSegs at h
    obtain ⟨y, hy⟩ := mapM_each h s (by
      rw [List.mem_filter]
      refine ⟨hs, ?_⟩
      cases s with
      | nil => cases hxs
      | cons _ _ => simp)
    exact .inl (segFields_digits hy x hxs)

/-- A `mappings` text that can be read consists of base64 digits, commas and semicolons. -/
theorem decodeMappings_bytes {maps : Bytes} {es : List MapEntry} (h : decodeMappings maps = some es) :
    ∀ x ∈ maps, digitValue x ≠ none ∨ x = 44 ∨ x = 59 := by
  intro x hx
  unfold decodeMappings at h
  cases hm : (splitAt 59 maps).mapM lineSegs with
  | none => rw [hm] at h; cases h
  | some ls =>
    rcases mem_splitAt (sep := 59) hx with h1 | ⟨s, hs, hxs⟩
    · exact .inr (.inr h1)
    · obtain ⟨y, hy⟩ := mapM_each hm s hs
      rcases lineSegs_bytes hy x hxs with h | h
      · exact .inl h
      · exact .inr (.inl h)

theorem mapping_plain : ∀ x : UInt8, (digitValue x ≠ none ∨ x = 44 ∨ x = 59) → plainByte x = true := by
  have h : ∀ n : Fin 256, (digitValue (UInt8.ofNat n.val) ≠ none ∨ UInt8.ofNat n.val = 44 ∨ UInt8.ofNat n.val = 59) →
      plainByte (UInt8.ofNat n.val) = true := by decide +kernel
  intro x
  have := h ⟨x.toNat, x.toNat_lt⟩
  simpa using this

end Cssc
