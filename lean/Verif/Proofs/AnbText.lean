import Verif.Spec.AnB
import Verif.Proofs.LexClass

/-!
# An+B texts
-/

namespace Cssc

theorem decVal_digits {t : Bytes} {v : Nat} (h : decVal t = some v) : t ≠ [] ∧ ∀ b ∈ t, 48 ≤ b.toNat ∧ b.toNat ≤ 57 := by
  unfold decVal at h
  split at h
  · cases h
  · rename_i hne
    refine ⟨hne, ?_⟩
    have key : ∀ (t : Bytes) (acc : Option Nat) (v : Nat),
        t.foldl (fun acc b => match acc, decDigit b with
          | some v, some d => some (10 * v + d)
          | _, _ => none) acc = some v → acc ≠ none ∧ ∀ b ∈ t, 48 ≤ b.toNat ∧ b.toNat ≤ 57 := by
      intro t
      induction t with
      | nil => intro acc v h; exact ⟨(by rintro rfl; cases h), (by simp)⟩
      | cons c t ih =>
        intro acc v h
        rw [List.foldl_cons] at h
        obtain ⟨h1, h2⟩ := ih _ _ h
        cases acc with
        | none => exact absurd rfl h1
        | some w =>
          refine ⟨by simp, fun b hb => ?_⟩
          rcases List.mem_cons.1 hb with rfl | hb
          · by_cases hd : 48 ≤ b.toNat ∧ b.toNat ≤ 57
            · exact hd
            · have : decDigit b = none := by unfold decDigit; rw [if_neg hd]
              rw [this] at h1
              exact absurd rfl h1
          · exact h2 b hb
    exact (key t _ v h).2

/-- An integer text: digits, or a sign and digits. -/
theorem intVal_shape {t : Bytes} {v : Int} (h : intVal t = some v) :
    (∃ d n, t = 43 :: d ∧ decVal d = some n ∧ v = n) ∨ (∃ d n, t = 45 :: d ∧ decVal d = some n ∧ v = -(n : Int)) ∨
    (∃ n, decVal t = some n ∧ v = n) := by
  unfold intVal at h
  split at h
  · rename_i h0
    obtain ⟨n, h1, h2⟩ := Option.map_eq_some_iff.1 h
    cases t with
    | nil => cases h0
    | cons c d => cases h0; exact .inl ⟨d, n, rfl, h1, h2.symm⟩
  · split at h
    · rename_i h0
      obtain ⟨n, h1, h2⟩ := Option.map_eq_some_iff.1 h
      cases t with
      | nil => cases h0
      | cons c d => cases h0; exact .inr (.inl ⟨d, n, rfl, h1, h2.symm⟩)
    · obtain ⟨n, h1, h2⟩ := Option.map_eq_some_iff.1 h
      exact .inr (.inr ⟨n, h1, h2.symm⟩)

theorem decVal_ne {t : Bytes} {v : Nat} (h : decVal t = some v) {c : UInt8} (hc : ¬ (48 ≤ c.toNat ∧ c.toNat ≤ 57)) : c ∉ t :=
  fun hm => hc ((decVal_digits h).2 c hm)

theorem decVal_head {t : Bytes} {v : Nat} (h : decVal t = some v) {c : UInt8} (hc : ¬ (48 ≤ c.toNat ∧ c.toNat ≤ 57)) :
    t.head? ≠ some c := by
  intro e
  cases t with
  | nil => cases e
  | cons b t => cases e; exact decVal_ne h hc (by simp)

theorem intVal_no_n {t : Bytes} {v : Int} (h : intVal t = some v) : 110 ∉ t := by
  rcases intVal_shape h with ⟨d, n, rfl, hd, _⟩ | ⟨d, n, rfl, hd, _⟩ | ⟨n, hd, _⟩
  · have := decVal_ne (c := 110) hd (by decide); simp [this]
  · have := decVal_ne (c := 110) hd (by decide); simp [this]
  · exact decVal_ne hd (by decide)

theorem intVal_of_decVal {t : Bytes} {n : Nat} (h : decVal t = some n) : intVal t = some (n : Int) := by
  unfold intVal
  rw [if_neg (decVal_head h (by decide)), if_neg (decVal_head h (by decide)), h]; rfl

theorem anbVal_n {c r : Bytes} {a b : Int} (hn : 110 ∉ c) (hc : coefVal c = some a) (hr : offsetVal r = some b) :
    anbVal (c ++ (b!"n" ++ r)) = some (a, b) := by
  have hp : ∀ x ∈ c, (decide (x ≠ (110 : UInt8))) = true := by
    intro x hx
    simp only [ne_eq, decide_not, Bool.not_eq_eq_eq_not, Bool.not_true, decide_eq_false_iff_not]
    rintro rfl; exact hn hx
  unfold anbVal
  rw [if_pos (by simp), List.takeWhile_append_of_pos hp, List.dropWhile_append_of_pos hp]
  simp [hc, hr]


/-! ### From the text to the fields -/

/-- The bytes of An+B. -/
def AnbByte (b : UInt8) : Prop := (48 ≤ b.toNat ∧ b.toNat ≤ 57) ∨ b = 43 ∨ b = 45 ∨ b = 110

theorem intVal_bytes {t : Bytes} {v : Int} (h : intVal t = some v) : ∀ b ∈ t, AnbByte b := by
  rcases intVal_shape h with ⟨d, n, rfl, hd, _⟩ | ⟨d, n, rfl, hd, _⟩ | ⟨n, hd, _⟩
  · intro b hb
    rcases List.mem_cons.1 hb with rfl | hb
    · exact .inr (.inl rfl)
    · exact .inl ((decVal_digits hd).2 b hb)
  · intro b hb
    rcases List.mem_cons.1 hb with rfl | hb
    · exact .inr (.inr (.inl rfl))
    · exact .inl ((decVal_digits hd).2 b hb)
  · exact fun b hb => .inl ((decVal_digits hd).2 b hb)

theorem offsetVal_bytes {t : Bytes} {v : Int} (h : offsetVal t = some v) : ∀ b ∈ t, AnbByte b := by
  unfold offsetVal at h
  intro b hb
  split at h
  · rename_i e; rw [e] at hb; cases hb
  · split at h
    · exact intVal_bytes h b hb
    · cases h

theorem anbVal_bytes {t : Bytes} {v : Int × Int} (h : anbVal t = some v) : ∀ b ∈ t, AnbByte b := by
  unfold anbVal at h
  split at h
  · split at h
    · rename_i a c ha hc
      intro b hb
      rw [← List.takeWhile_append_dropWhile (p := (· ≠ (110 : UInt8))) (l := t), List.mem_append] at hb
      rcases hb with hb | hb
      · unfold coefVal at ha
        split at ha
        · rename_i e; rcases e with e | e <;> rw [e] at hb <;> simp_all [AnbByte]
        · split at ha
          · rename_i e; rw [e] at hb; simp_all [AnbByte]
          · exact intVal_bytes ha b hb
      · cases hd : t.dropWhile (· ≠ (110 : UInt8)) with
        | nil => rw [hd] at hb; cases hb
        | cons z u =>
          have hz : z = 110 := by
            have := List.head?_dropWhile_not (p := (· ≠ (110 : UInt8))) (l := t)
            rw [hd] at this
            simpa using this
          rw [hd] at hb hc
          rcases List.mem_cons.1 hb with rfl | hb
          · exact .inr (.inr (.inr hz))
          · exact offsetVal_bytes hc b hb
    · cases h
  · obtain ⟨n, h1, _⟩ := Option.map_eq_some_iff.1 h
    exact intVal_bytes h1

theorem anbVal_split {c r : Bytes} {x y : Int} (hn : 110 ∉ c) (h : anbVal (c ++ 110 :: r) = some (x, y)) :
    coefVal c = some x ∧ offsetVal r = some y := by
  have hp : ∀ x ∈ c, (decide (x ≠ (110 : UInt8))) = true := by
    intro x hx
    simp only [ne_eq, decide_not, Bool.not_eq_eq_eq_not, Bool.not_true, decide_eq_false_iff_not]
    rintro rfl; exact hn hx
  unfold anbVal at h
  rw [if_pos (by simp), List.takeWhile_append_of_pos hp, List.dropWhile_append_of_pos hp] at h
  simp only [ne_eq, not_true_eq_false, decide_false, Bool.false_eq_true, not_false_eq_true, List.takeWhile_cons_of_neg,
    List.append_nil, List.dropWhile_cons_of_neg, List.tail_cons] at h
  split at h
  · rename_i h1 h2; cases h; exact ⟨h1, h2⟩
  · cases h

theorem anbVal_int {t : Bytes} {x y : Int} (hn : 110 ∉ t) (h : anbVal t = some (x, y)) : x = 0 ∧ intVal t = some y := by
  unfold anbVal at h
  rw [if_neg hn] at h
  obtain ⟨n, h1, h2⟩ := Option.map_eq_some_iff.1 h
  cases h2
  exact ⟨rfl, h1⟩

/-- There is no sign within an integer. -/
theorem intVal_mid {u v : Bytes} {c : UInt8} {y : Int} (hu : u ≠ []) (hc : c = 43 ∨ c = 45) : intVal (u ++ c :: v) ≠ some y := by
  intro h
  have hd : ¬ (48 ≤ c.toNat ∧ c.toNat ≤ 57) := by rcases hc with rfl | rfl <;> decide
  cases u with
  | nil => exact hu rfl
  | cons z u =>
    rcases intVal_shape h with ⟨d, n, e, h1, _⟩ | ⟨d, n, e, h1, _⟩ | ⟨n, h1, _⟩
    · rw [← (List.cons.inj e).2] at h1; exact decVal_ne h1 hd (by simp)
    · rw [← (List.cons.inj e).2] at h1; exact decVal_ne h1 hd (by simp)
    · exact decVal_ne h1 hd (by simp)

theorem unspaced_append (t u : Bytes) : unspaced (t ++ u) = unspaced t ++ unspaced u := List.filter_append ..

theorem unspaced_of {t : Bytes} (h : ∀ b ∈ t, ¬ SpaceByte b) : unspaced t = t := by
  unfold unspaced
  rw [List.filter_eq_self]
  intro b hb
  have := h b hb
  unfold SpaceByte at this
  simp only [not_or] at this
  simpa using this

theorem unspaced_nil {t : Bytes} (h : ∀ b ∈ t, SpaceByte b) : unspaced t = [] := by
  unfold unspaced
  rw [List.filter_eq_nil_iff]
  intro b hb
  have := h b hb
  rcases this with rfl | rfl | rfl <;> decide

theorem mem_unspaced {t : Bytes} {b : UInt8} (h : b ∈ t) (hb : ¬ SpaceByte b) : b ∈ unspaced t := by
  unfold unspaced
  rw [List.mem_filter]
  unfold SpaceByte at hb
  simp only [not_or] at hb
  exact ⟨h, by simpa using hb⟩

/-- A text with a foreign byte is not An+B. -/
theorem means_of_mem {t a op b : Bytes} {c : UInt8} (h : c ∈ t) (h1 : ¬ SpaceByte c) (h2 : ¬ AnbByte c) : AnbMeans t a op b :=
  fun _ _ e => absurd (anbVal_bytes e c (mem_unspaced h h1)) h2

/-- What the first half of An+B makes of a text: the coefficient with `n`; `-n`; the coefficient, `n` and the
offset in one token; or an offset alone. -/
inductive Half : Bytes → Bytes → Bytes → Bytes → Prop
  | coef {num : Bytes} : (∀ b ∈ num, NumByte b) → num ≠ b!"+" → num ≠ b!"-" → Half (num ++ b!"n") num [] []
  | minus : Half b!"-n" b!"-1" [] []
  | both {num d : Bytes} {c : UInt8} : (∀ b ∈ num, NumByte b) → num ≠ b!"+" → num ≠ b!"-" → (c = 43 ∨ c = 45) →
      ((∀ b ∈ d, ¬ SpaceByte b) ∨ 92 ∈ d) → Half (num ++ (b!"n" ++ c :: d)) num [c] d
  | off {num : Bytes} : (∀ b ∈ num, NumByte b) → num.head? ≠ some 43 → num.head? ≠ some 45 → Half num b!"0" [] num
  | signed {d : Bytes} {c : UInt8} : (∀ b ∈ d, NumByte b) → (c = 43 ∨ c = 45) → Half (c :: d) b!"0" [c] d

theorem noSpace {num : Bytes} (h : ∀ b ∈ num, NumByte b) : unspaced num = num := unspaced_of fun b hb => (h b hb).1
theorem noN {num : Bytes} (h : ∀ b ∈ num, NumByte b) : 110 ∉ num := fun hm => (h _ hm).2 rfl

theorem coef_fields {num : Bytes} {x : Int} (h : coefVal num = some x) (h1 : num ≠ b!"+") (h2 : num ≠ b!"-") :
    (if num = [] then some 1 else intVal num) = some x := by
  unfold coefVal at h
  by_cases hn : num = []
  · rw [if_pos (.inl hn)] at h; rw [if_pos hn]; exact h
  · rw [if_neg (by simp only [hn, h1, or_self, not_false_eq_true]), if_neg h2] at h
    rw [if_neg hn]; exact h

theorem intVal_sign {d : Bytes} {c : UInt8} {y : Int} (hc : c = 43 ∨ c = 45) (h : intVal (c :: d) = some y) :
    ∃ n : Nat, decVal d = some n ∧ d ≠ [] ∧ ((c = 43 ∧ y = n) ∨ (c = 45 ∧ y = -(n : Int))) := by
  unfold intVal at h
  rcases hc with rfl | rfl
  · rw [if_pos (by simp)] at h
    obtain ⟨n, h1, h2⟩ := Option.map_eq_some_iff.1 h
    exact ⟨n, h1, (decVal_digits h1).1, .inl ⟨rfl, h2.symm⟩⟩
  · rw [if_neg (by simp), if_pos (by simp)] at h
    obtain ⟨n, h1, h2⟩ := Option.map_eq_some_iff.1 h
    exact ⟨n, h1, (decVal_digits h1).1, .inr ⟨rfl, h2.symm⟩⟩

/-- Fields with a sign. -/
theorem fields_sign {a d : Bytes} {c : UInt8} {x y : Int} (ha : (if a = [] then some 1 else intVal a) = some x)
    (hc : c = 43 ∨ c = 45) (h : intVal (c :: d) = some y) : fieldsVal a [c] d = some (x, y) := by
  obtain ⟨n, h1, h2, h3⟩ := intVal_sign hc h
  unfold fieldsVal
  rw [ha, if_neg h2, h1]
  rcases h3 with ⟨rfl, rfl⟩ | ⟨rfl, rfl⟩
  · simp
  · simp

theorem offset_sign {d : Bytes} {c : UInt8} {y : Int} (hc : c = 43 ∨ c = 45) (h : offsetVal (c :: d) = some y) :
    intVal (c :: d) = some y := by
  unfold offsetVal at h
  rw [if_neg (by simp), if_pos (by simpa using hc)] at h
  exact h

/-- The first half alone. -/
theorem Half.means {t a op b : Bytes} (h : Half t a op b) : AnbMeans t a op b := by
  cases h with
  | coef h1 h2 h3 =>
    intro x y e
    rw [unspaced_append, noSpace h1] at e
    obtain ⟨e1, e2⟩ := anbVal_split (noN h1) e
    cases e2
    unfold fieldsVal
    rw [coef_fields e1 h2 h3]
    simp
  | minus =>
    intro x y e
    have : anbVal (unspaced b!"-n") = some (-1, 0) := by decide +kernel
    rw [this] at e; cases e
    decide +kernel
  | both h1 h2 h3 hc hd =>
    rename_i c
    rcases hd with hd | hd
    · intro x y e
      have hcs : unspaced (c :: b) = c :: b := unspaced_of fun z hz => by
        rcases List.mem_cons.1 hz with rfl | hz
        · rcases hc with rfl | rfl <;> decide
        · exact hd z hz
      rw [unspaced_append, noSpace h1, unspaced_append, hcs] at e
      obtain ⟨e1, e2⟩ := anbVal_split (noN h1) e
      exact fields_sign (coef_fields e1 h2 h3) hc (offset_sign hc e2)
    · exact means_of_mem (c := 92) (by simp [hd]) (by decide) (by unfold AnbByte; decide)
  | off h1 h2 h3 =>
    intro x y e
    rw [noSpace h1] at e
    obtain ⟨rfl, e2⟩ := anbVal_int (noN h1) e
    unfold intVal at e2
    rw [if_neg h2, if_neg h3] at e2
    obtain ⟨n, h4, rfl⟩ := Option.map_eq_some_iff.1 e2
    have h0 : intVal b!"0" = some 0 := by decide +kernel
    unfold fieldsVal
    rw [if_neg (by simp), h0, if_neg (decVal_digits h4).1, h4]
    simp
  | signed h1 hc =>
    rename_i c
    intro x y e
    have hcs : unspaced (c :: b) = c :: b := unspaced_of fun z hz => by
      rcases List.mem_cons.1 hz with rfl | hz
      · rcases hc with rfl | rfl <;> decide
      · exact (h1 z hz).1
    rw [hcs] at e
    obtain ⟨rfl, e2⟩ := anbVal_int (by
      intro hm
      rcases List.mem_cons.1 hm with e | hm
      · rcases hc with rfl | rfl <;> cases e
      · exact noN h1 hm) e
    exact fields_sign (by decide +kernel) hc e2

/-- White space, a carriage return or a comment. -/
def Blank (g : Bytes) : Prop := (∀ c ∈ g, SpaceByte c) ∨ 13 ∈ g ∨ 47 ∈ g

/-- The first half followed by a sign and a number. -/
theorem Half.then {t a op b g g' d : Bytes} {c : UInt8} (h : Half t a op b) (hc : c = 43 ∨ c = 45) (hg : Blank g) (hg' : Blank g')
    (hd : ∀ b ∈ d, NumByte b) : AnbMeans (t ++ (g ++ ([c] ++ (g' ++ d)))) a [c] d := by
  have bad : ∀ z, z ∈ t ++ (g ++ ([c] ++ (g' ++ d))) → (z = 13 ∨ z = 47) → AnbMeans (t ++ (g ++ ([c] ++ (g' ++ d)))) a [c] d := by
    intro z hz e
    refine means_of_mem hz ?_ ?_
    · rcases e with rfl | rfl <;> decide
    · unfold AnbByte; rcases e with rfl | rfl <;> decide
  rcases hg with hg | hg | hg
  rotate_left
  · exact bad 13 (by simp [hg]) (.inl rfl)
  · exact bad 47 (by simp [hg]) (.inr rfl)
  rcases hg' with hg' | hg' | hg'
  rotate_left
  · exact bad 13 (by simp [hg']) (.inl rfl)
  · exact bad 47 (by simp [hg']) (.inr rfl)
  have hcs : ¬ SpaceByte c := by rcases hc with rfl | rfl <;> decide
  have hcn : c ≠ 110 := by rcases hc with rfl | rfl <;> decide
  have e0 : unspaced (t ++ (g ++ ([c] ++ (g' ++ d)))) = unspaced t ++ c :: d := by
    rw [unspaced_append, unspaced_append, unspaced_append, unspaced_append, unspaced_nil hg, unspaced_nil hg', noSpace hd,
      unspaced_of (t := [c]) (by simpa using hcs)]
    simp
  intro x y e
  rw [e0] at e
  cases h with
  | coef h1 h2 h3 =>
    rw [unspaced_append, noSpace h1, List.append_assoc] at e
    obtain ⟨e1, e2⟩ := anbVal_split (noN h1) e
    exact fields_sign (coef_fields e1 h2 h3) hc (offset_sign hc e2)
  | minus =>
    obtain ⟨e1, e2⟩ := anbVal_split (c := b!"-") (r := c :: d) (by decide) e
    cases e1
    exact fields_sign (by decide +kernel) hc (offset_sign hc e2)
  | both h1 h2 h3 hc' hd' =>
    rename_i c'
    exfalso
    rw [unspaced_append, noSpace h1, List.append_assoc, unspaced_append, List.append_assoc] at e
    obtain ⟨e1, e2⟩ := anbVal_split (r := unspaced (c' :: b) ++ c :: d) (noN h1) e
    have hcs' : ¬ SpaceByte c' := by rcases hc' with rfl | rfl <;> decide
    have : unspaced (c' :: b) = c' :: unspaced b := by
      rw [show c' :: b = [c'] ++ b from rfl, unspaced_append, unspaced_of (t := [c']) (by simpa using hcs')]; rfl
    rw [this] at e2
    exact intVal_mid (u := c' :: unspaced b) (by simp) hc (offset_sign hc' e2)
  | off h1 h2 h3 =>
    rw [noSpace h1] at e
    obtain ⟨rfl, e2⟩ := anbVal_int (by simp [noN h1, noN hd, hcn.symm]) e
    by_cases hb : t = []
    · subst hb
      exact fields_sign (by decide +kernel) hc e2
    · exact absurd e2 (intVal_mid hb hc)
  | signed h1 hc' =>
    rename_i c'
    exfalso
    have hcs' : ¬ SpaceByte c' := by rcases hc' with rfl | rfl <;> decide
    have hcn' : c' ≠ 110 := by rcases hc' with rfl | rfl <;> decide
    have : unspaced (c' :: b) = c' :: b := by
      rw [show c' :: b = [c'] ++ b from rfl, unspaced_append, unspaced_of (t := [c']) (by simpa using hcs'), noSpace h1]
    rw [this] at e
    obtain ⟨rfl, e2⟩ := anbVal_int (by simp [noN h1, noN hd, hcn.symm, hcn'.symm]) e
    exact intVal_mid (by simp) hc e2

end Cssc
