import Verif.Props.Sources

/-!
# Runes of a text

Decoding can be cut at any ASCII byte, and a newline rune is a newline byte.
-/

namespace Cssc

/-- An ASCII byte is not a continuation byte. -/
theorem decodeRune_append_text {x b : Bytes} {c : UInt8} (hx : x ≠ []) (hc : c.toNat < 128) :
    decodeRune (x ++ c :: b) = decodeRune x := by
  have n1 : isCont c.toNat = false := by simp [isCont]; omega
  have n2 : ∀ lo hi : Nat, 128 ≤ lo → (decide (lo ≤ c.toNat) && decide (c.toNat ≤ hi)) = false := by
    intro lo hi h; simp; omega
  match x, hx with
  | [b0], _ =>
    simp only [List.cons_append, List.nil_append]
    unfold decodeRune
    dsimp only
    repeat' split
    all_goals simp_all <;> try omega
  | [b0, b1], _ =>
    simp only [List.cons_append, List.nil_append]
    unfold decodeRune
    dsimp only
    repeat' split
    all_goals simp_all
  | [b0, b1, b2], _ =>
    simp only [List.cons_append, List.nil_append]
    unfold decodeRune
    dsimp only
    repeat' split
    all_goals simp_all
  | b0 :: b1 :: b2 :: b3 :: r, _ =>
    simp only [List.cons_append]
    unfold decodeRune
    rfl

theorem decodeRune_size {b : UInt8} {t : Bytes} : 1 ≤ (decodeRune (b :: t)).2 ∧ (decodeRune (b :: t)).2 ≤ (b :: t).length := by
  unfold decodeRune
  dsimp only
  repeat' split
  all_goals simp

theorem decodeRune_newline {b : UInt8} {t : Bytes} (h : (decodeRune (b :: t)).1 = 10) : b = 10 := by
  rcases decodeRune_cons b t with ⟨hlt, he⟩ | ⟨hge, h1, _⟩
  · rw [he] at h; exact UInt8.eq_of_toNat (n := 10) (by simp at h; omega)
  · exfalso; omega

theorem runesAux_fuel : ∀ (n m : Nat) (bs : Bytes), bs.length ≤ n → bs.length ≤ m → runesAux n bs = runesAux m bs := by
  intro n
  induction n with
  | zero =>
    intro m bs h1 h2
    have : bs = [] := List.length_eq_zero_iff.1 (by omega)
    subst this
    cases m with
    | zero => rfl
    | succ m => simp [runesAux, decodeRune]
  | succ n ih =>
    intro m bs h1 h2
    cases m with
    | zero =>
      have : bs = [] := List.length_eq_zero_iff.1 (by omega)
      subst this
      simp [runesAux, decodeRune]
    | succ m =>
      cases bs with
      | nil => simp [runesAux, decodeRune]
      | cons b t =>
        have hs := @decodeRune_size b t
        unfold runesAux
        dsimp only
        split
        · rfl
        · rw [ih m _ (by rw [List.length_drop]; omega) (by rw [List.length_drop]; omega)]

theorem runes_nil : runes [] = [] := rfl

theorem runes_cons (b : UInt8) (t : Bytes) :
    runes (b :: t) = (decodeRune (b :: t)).1 :: runes ((b :: t).drop (decodeRune (b :: t)).2) := by
  have hs := @decodeRune_size b t
  show runesAux (t.length + 1) (b :: t) = _
  unfold runesAux
  dsimp only
  rw [if_neg (by omega)]
  congr 1
  exact runesAux_fuel _ _ _ (by rw [List.length_drop, List.length_cons]; omega) (Nat.le_refl _)

/-- Decoding can be cut before an ASCII byte. -/
theorem runes_append_ascii {c : UInt8} (hc : c.toNat < 128) (b : Bytes) : ∀ (n : Nat) (x : Bytes), x.length ≤ n →
    runes (x ++ c :: b) = runes x ++ runes (c :: b) := by
  intro n
  induction n with
  | zero =>
    intro x hx
    have : x = [] := List.length_eq_zero_iff.1 (by omega)
    subst this; rfl
  | succ n ih =>
    intro x hx
    cases x with
    | nil => rfl
    | cons b0 t =>
      have hs := @decodeRune_size b0 t
      have he := decodeRune_append_text (x := b0 :: t) (b := b) (by simp) hc
      rw [List.cons_append, runes_cons, ← List.cons_append, he, runes_cons b0 t, List.cons_append]
      congr 1
      rw [← List.cons_append, List.drop_append_of_le_length hs.2]
      exact ih _ (by rw [List.length_drop]; simp only [List.length_cons] at hx hs ⊢; omega)

theorem runes_ascii_cons {c : UInt8} (hc : c.toNat < 128) (b : Bytes) : runes (c :: b) = (c.toNat : Int) :: runes b := by
  rw [runes_cons, decodeRune_ascii _ hc]; rfl

/-- A text that is empty or ends with an ASCII byte. -/
def AsciiEnd (x : Bytes) : Prop := x = [] ∨ ∃ y c, x = y ++ [c] ∧ c.toNat < 128

/-- Decoding can be cut after an ASCII byte. -/
theorem runes_append {x : Bytes} (h : AsciiEnd x) (b : Bytes) : runes (x ++ b) = runes x ++ runes b := by
  rcases h with rfl | ⟨y, c, rfl, hc⟩
  · rfl
  · rw [List.append_assoc, List.singleton_append, runes_append_ascii hc b _ y (Nat.le_refl _),
      runes_append_ascii hc [] _ y (Nat.le_refl _), runes_ascii_cons hc, runes_ascii_cons hc, runes_nil]
    simp

theorem AsciiEnd.append {x y : Bytes} (hy : AsciiEnd y) (h : y ≠ []) : AsciiEnd (x ++ y) := by
  rcases hy with rfl | ⟨z, c, rfl, hc⟩
  · exact absurd rfl h
  · exact .inr ⟨x ++ z, c, by simp, hc⟩

theorem runes_no_newline : ∀ (n : Nat) (x : Bytes), x.length ≤ n → 10 ∉ x → (10 : Int) ∉ runes x := by
  intro n
  induction n with
  | zero =>
    intro x hx _
    have : x = [] := List.length_eq_zero_iff.1 (by omega)
    subst this; simp [runes_nil]
  | succ n ih =>
    intro x hx h
    cases x with
    | nil => simp [runes_nil]
    | cons b t =>
      have hs := @decodeRune_size b t
      rw [runes_cons, List.mem_cons, not_or]
      refine ⟨fun e => h ?_, ih _ ?_ fun hm => h (List.mem_of_mem_drop hm)⟩
      · rw [decodeRune_newline e.symm]; simp
      · rw [List.length_drop]; omega

/-- The column after some runes, starting from a column. -/
def colAfter : Nat → List Int → Nat
  | c, [] => c
  | c, r :: rs => if r = 10 then colAfter 0 rs else colAfter (c + 1) rs

theorem colAfter_append (x y : List Int) : ∀ c, colAfter c (x ++ y) = colAfter (colAfter c x) y := by
  induction x with
  | nil => intro c; rfl
  | cons r rs ih => intro c; simp only [List.cons_append, colAfter]; split <;> exact ih _

theorem colAfter_no_newline (x : List Int) (h : 10 ∉ x) : ∀ c, colAfter c x = c + x.length := by
  induction x with
  | nil => intro c; rfl
  | cons r rs ih =>
    intro c
    rw [List.mem_cons, not_or] at h
    simp only [colAfter, List.length_cons]
    rw [if_neg (fun e => h.1 e.symm), ih h.2]; omega

theorem colAfter_le (x : List Int) : ∀ c, colAfter c x ≤ c + x.length := by
  induction x with
  | nil => intro c; exact Nat.le_refl _
  | cons r rs ih =>
    intro c
    simp only [colAfter, List.length_cons]
    split
    · have := ih 0; omega
    · have := ih (c + 1); omega

theorem runes_length_le (n : Nat) : ∀ x : Bytes, x.length ≤ n → (runes x).length ≤ x.length := by
  induction n with
  | zero =>
    intro x hx
    have : x = [] := List.length_eq_zero_iff.1 (by omega)
    subst this; simp [runes_nil]
  | succ n ih =>
    intro x hx
    cases x with
    | nil => simp [runes_nil]
    | cons b t =>
      have hs := @decodeRune_size b t
      rw [runes_cons, List.length_cons]
      have := ih ((b :: t).drop (decodeRune (b :: t)).2) (by rw [List.length_drop]; omega)
      rw [List.length_drop] at this
      simp only [List.length_cons] at hs this ⊢; omega

/-- Cutting a text at its last newline. -/
theorem lastLine_split (w : Bytes) : (10 ∉ w ∧ lastLine w = w) ∨ ∃ a, w = a ++ 10 :: lastLine w ∧ 10 ∉ lastLine w := by
  have hno : ∀ l : Bytes, 10 ∉ (l.takeWhile (· != 10)).reverse := by
    intro l hm
    rw [List.mem_reverse] at hm
    have := List.mem_takeWhile_imp hm
    simp at this
  unfold lastLine
  by_cases h : 10 ∈ w
  · right
    have hr : w.reverse = w.reverse.takeWhile (· != 10) ++ w.reverse.dropWhile (· != 10) :=
      (List.takeWhile_append_dropWhile).symm
    cases hd : w.reverse.dropWhile (· != 10) with
    | nil =>
      rw [hd, List.append_nil] at hr
      have : (10 : UInt8) ∈ w.reverse := List.mem_reverse.2 h
      rw [hr] at this
      exact absurd (List.mem_reverse.2 this) (hno _)
    | cons d ds =>
      have hd10 : d = 10 := by
        have := List.head_dropWhile_not (p := (· != (10 : UInt8))) (l := w.reverse) (by rw [hd]; simp)
        simpa [hd] using this
      subst hd10
      rw [hd] at hr
      refine ⟨ds.reverse, ?_, hno _⟩
      have := congrArg List.reverse hr
      simpa using this
  · left
    refine ⟨h, ?_⟩
    rw [List.takeWhile_eq_self_iff.2, List.reverse_reverse]
    intro x hx
    rw [List.mem_reverse] at hx
    simp only [bne_iff_ne, ne_eq]
    rintro rfl; exact h hx

theorem runes_lastLine (w : Bytes) : (runes (lastLine w)).length = colAfter 0 (runes w) := by
  rcases lastLine_split w with ⟨h, e⟩ | ⟨a, e, h⟩
  · rw [e, colAfter_no_newline _ (runes_no_newline _ w (Nat.le_refl _) h), Nat.zero_add]
  · conv => rhs; rw [e]
    rw [runes_append_ascii (by decide) _ _ a (Nat.le_refl _), runes_ascii_cons (by decide), colAfter_append]
    show _ = colAfter 0 (runes (lastLine w))
    rw [colAfter_no_newline _ (runes_no_newline _ _ (Nat.le_refl _) h), Nat.zero_add]

theorem runes_count (n : Nat) : ∀ w : Bytes, w.length ≤ n → (runes w).count 10 = w.count 10 := by
  induction n with
  | zero =>
    intro w hw
    have : w = [] := List.length_eq_zero_iff.1 (by omega)
    subst this; rfl
  | succ n ih =>
    intro w hw
    rcases lastLine_split w with ⟨h, _⟩ | ⟨a, e, h⟩
    · rw [List.count_eq_zero.2 h, List.count_eq_zero.2 (runes_no_newline _ w (Nat.le_refl _) h)]
    · have hl := congrArg List.length e
      rw [List.length_append, List.length_cons] at hl
      rw [e, runes_append_ascii (by decide) _ _ a (Nat.le_refl _), runes_ascii_cons (by decide),
        List.count_append, List.count_append, ih a (by omega)]
      show _ + List.count 10 ((10 : Int) :: runes (lastLine w)) = _
      rw [List.count_cons_self, List.count_cons_self,
        List.count_eq_zero.2 (runes_no_newline _ _ (Nat.le_refl _) h), List.count_eq_zero.2 h]

end Cssc
