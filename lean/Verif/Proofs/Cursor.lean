import Verif.Proofs.Hoare

/-!
# The lexer's cursor

After the first `step` the fields `ch` and `pos` are a function of `lastPos` (and the text).  `curAt`
is that function, `Inv` says so of a state, and `moveTo` is the state after stepping to an offset.
-/

namespace Cssc

/-! ### Facts about decoding -/

theorem UInt8.toNat_lt' (b : UInt8) : b.toNat < 256 := b.toNat_lt

theorem UInt8.eq_of_toNat {b : UInt8} {n : Nat} (h : b.toNat = n) : b = UInt8.ofNat n := by
  subst h; simp

theorem decodeRune_cons (b : UInt8) (t : Bytes) :
    (b.toNat < 0x80 ∧ decodeRune (b :: t) = ((b.toNat : Int), 1)) ∨
    (0x80 ≤ b.toNat ∧ 0x80 ≤ (decodeRune (b :: t)).1 ∧ 1 ≤ (decodeRune (b :: t)).2 ∧
      (decodeRune (b :: t)).2 ≤ (b :: t).length ∧
      ∀ c ∈ t.take ((decodeRune (b :: t)).2 - 1), 0x80 ≤ c.toNat) := by
  by_cases h : b.toNat < 0x80
  · left
    refine ⟨h, ?_⟩
    simp only [decodeRune, h, if_true]
  · right
    refine ⟨by omega, ?_⟩
    simp only [decodeRune, h, if_false]
    repeat' split
    all_goals simp_all only [isCont, runeError, Bool.and_eq_true, decide_eq_true_eq, List.length_cons,
      Nat.cast_add, Nat.cast_mul, Nat.cast_ofNat, List.take_succ_cons, List.take_zero, List.mem_cons,
      List.not_mem_nil, or_false, forall_eq_or_imp, false_imp_iff, implies_true, and_true,
      Nat.sub_self, Nat.add_one_sub_one, Nat.reduceSub]
    all_goals omega

theorem decodeRune_nil : decodeRune [] = (runeError, 0) := rfl

theorem decodeRune_size_le (s : Bytes) : (decodeRune s).2 ≤ s.length := by
  cases s with
  | nil => simp [decodeRune]
  | cons b t =>
    rcases decodeRune_cons b t with ⟨_, h⟩ | ⟨_, _, _, h, _⟩
    · rw [h]; simp
    · exact h

theorem decodeRune_size_pos {s : Bytes} (h : s ≠ []) : 1 ≤ (decodeRune s).2 := by
  cases s with
  | nil => simp at h
  | cons b t =>
    rcases decodeRune_cons b t with ⟨_, h⟩ | ⟨_, _, h, _, _⟩
    · rw [h]
    · exact h

theorem decodeRune_size_zero {s : Bytes} : (decodeRune s).2 = 0 ↔ s = [] := by
  constructor
  · intro h
    by_contra hs
    have := decodeRune_size_pos hs
    omega
  · rintro rfl; rfl

theorem decodeRune_nonneg (s : Bytes) : 0 ≤ (decodeRune s).1 := by
  cases s with
  | nil => simp [decodeRune, runeError]
  | cons b t =>
    rcases decodeRune_cons b t with ⟨_, h⟩ | ⟨_, h, _⟩
    · rw [h]; simp
    · omega

theorem decodeRune_ascii {b : UInt8} (t : Bytes) (h : b.toNat < 0x80) :
    decodeRune (b :: t) = ((b.toNat : Int), 1) := by
  rcases decodeRune_cons b t with ⟨_, h'⟩ | ⟨h', _⟩
  · exact h'
  · omega

/-- A rune below 0x80 is a single byte. -/
theorem decodeRune_of_lt {s : Bytes} (h : (decodeRune s).1 < 0x80) :
    ∃ b t, s = b :: t ∧ (decodeRune s).1 = (b.toNat : Int) ∧ (decodeRune s).2 = 1 := by
  cases s with
  | nil => simp [decodeRune, runeError] at h
  | cons b t =>
    rcases decodeRune_cons b t with ⟨_, h'⟩ | ⟨_, h', _⟩
    · exact ⟨b, t, rfl, by rw [h'], by rw [h']⟩
    · omega

/-! ### Newlines between two offsets -/

/-- The offsets just after the newline bytes at offsets in `[a, b)`. -/
def nls (src : Bytes) (a b : Nat) : List Nat :=
  ((List.range' a (b - a)).filter fun i => src[i]? == some 10).map (· + 1)

theorem nls_self (src : Bytes) (a : Nat) : nls src a a = [] := by simp [nls]

theorem nls_append (src : Bytes) {a b c : Nat} (h : a ≤ b) (h' : b ≤ c) :
    nls src a b ++ nls src b c = nls src a c := by
  unfold nls
  rw [← List.map_append, ← List.filter_append]
  congr 2
  have e1 : c - a = (b - a) + (c - b) := by omega
  have e2 : List.range' b (c - b) = List.range' (a + (b - a)) (c - b) := by congr 1; omega
  rw [e1, e2, List.range'_append_1]

theorem nls_one (src : Bytes) (a : Nat) :
    nls src a (a + 1) = if src[a]? = some 10 then [a + 1] else [] := by
  have e : a + 1 - a = 1 := by omega
  simp only [nls, e, List.range'_one, List.filter_cons, List.filter_nil]
  by_cases h : src[a]? = some 10 <;> simp [h]

theorem nls_none (src : Bytes) (a b : Nat) (h : ∀ i, a ≤ i → i < b → src[i]? ≠ some 10) :
    nls src a b = [] := by
  unfold nls
  simp only [List.map_eq_nil_iff, List.filter_eq_nil_iff, List.mem_range'_1, beq_iff_eq]
  intro i hi
  exact h i hi.1 (by omega)

theorem nls_decode (src : Bytes) (p : Nat) :
    nls src p (p + (decodeRune (src.drop p)).2) =
      if (decodeRune (src.drop p)).1 = 10 then [p + (decodeRune (src.drop p)).2] else [] := by
  cases hd : src.drop p with
  | nil => simp [decodeRune, nls_self, runeError]
  | cons b t =>
    have hb : src[p]? = some b := by
      have := congrArg List.head? hd
      simpa [List.head?_drop] using this
    rcases decodeRune_cons b t with ⟨_, h⟩ | ⟨hge, hcp, h1, hlen, hcont⟩
    · rw [h]
      simp only [nls_one, hb]
      have : (some b = some 10) ↔ ((b.toNat : Int) = 10) := by
        constructor
        · intro e; cases e; rfl
        · intro e
          have : b.toNat = 10 := by omega
          rw [UInt8.eq_of_toNat this]; rfl
      by_cases hh : some b = some 10
      · rw [if_pos hh, if_pos (this.1 hh)]
      · rw [if_neg hh, if_neg (fun e => hh (this.2 e))]
    · rw [if_neg (by omega)]
      apply nls_none
      intro i hi hi' hsrc
      by_cases hip : i = p
      · subst hip
        rw [hb] at hsrc; cases hsrc
        simp at hge
      · have hti : t[i - p - 1]? = some 10 := by
          have h2 : (src.drop p)[i - p]? = some 10 := by
            rw [List.getElem?_drop]; rw [show p + (i - p) = i by omega]; exact hsrc
          rw [hd] at h2
          rw [show i - p = (i - p - 1) + 1 by omega, List.getElem?_cons_succ] at h2
          exact h2
        have hmem : (10 : UInt8) ∈ t.take ((decodeRune (b :: t)).2 - 1) := by
          rw [List.mem_iff_getElem?]
          refine ⟨i - p - 1, ?_⟩
          rw [List.getElem?_take_of_lt (by omega)]; exact hti
        have := hcont _ hmem
        simp at this

/-! ### The cursor -/

/-- The rune at offset `p` as `step` reads it (a carriage return is read together with what follows),
and the offset after it. -/
def curAt (src : Bytes) (p : Nat) : Int × Nat :=
  let d := decodeRune (src.drop p)
  if d.2 = 0 then (-1, p)
  else if d.1 = r!"\r" then
    let e := decodeRune (src.drop (p + d.2))
    (e.1, p + d.2 + e.2)
  else (d.1, p + d.2)

theorem curAt_eof {src : Bytes} {p : Nat} (h : src.length ≤ p) : curAt src p = (-1, p) := by
  simp [curAt, List.drop_eq_nil_of_le h, decodeRune]

theorem curAt_lt {src : Bytes} {p : Nat} (h : p < src.length) :
    0 ≤ (curAt src p).1 ∧ p < (curAt src p).2 ∧ (curAt src p).2 ≤ src.length := by
  have hne : src.drop p ≠ [] := by simp; omega
  have h1 := decodeRune_size_pos hne
  have h2 := decodeRune_size_le (src.drop p)
  have h3 := decodeRune_nonneg (src.drop p)
  rw [List.length_drop] at h2
  simp only [curAt]
  rw [if_neg (by omega)]
  split
  · have h4 := decodeRune_size_le (src.drop (p + (decodeRune (src.drop p)).2))
    have h5 := decodeRune_nonneg (src.drop (p + (decodeRune (src.drop p)).2))
    rw [List.length_drop] at h4
    exact ⟨h5, by simp only; omega, by simp only; omega⟩
  · exact ⟨h3, by simp only; omega, by simp only; omega⟩

theorem curAt_ne {src : Bytes} {p : Nat} (h : (curAt src p).1 ≠ -1) : p < src.length := by
  by_contra hp
  rw [curAt_eof (by omega)] at h
  exact h rfl

theorem curAt_le {src : Bytes} {p : Nat} (h : p ≤ src.length) :
    p ≤ (curAt src p).2 ∧ (curAt src p).2 ≤ src.length := by
  by_cases hp : p < src.length
  · have := curAt_lt hp; omega
  · rw [curAt_eof (by omega)]; simp only; omega

theorem nls_curAt (src : Bytes) (p : Nat) :
    nls src p (curAt src p).2 =
      (let d := decodeRune (src.drop p)
       if d.2 = 0 then []
       else if d.1 = r!"\r" then
         let e := decodeRune (src.drop (p + d.2))
         if e.1 = r!"\n" then [p + d.2 + e.2] else []
       else if d.1 = r!"\n" then [p + d.2] else []) := by
  simp only [curAt]
  split
  · simp [nls_self]
  · split
    · rename_i h1 h2
      rw [← nls_append src (b := p + (decodeRune (src.drop p)).2) (by omega) (by simp),
        nls_decode, nls_decode, h2]
      simp
    · rw [nls_decode]

/-- The lexer's position invariant: the cursor is at `lastPos`, within the text. -/
structure Inv (s : St) : Prop where
  le : s.lex.lastPos ≤ s.src.length
  ch : s.lex.ch = (curAt s.src s.lex.lastPos).1
  pos : s.lex.pos = (curAt s.src s.lex.lastPos).2

theorem Inv.pos_le {s : St} (h : Inv s) : s.lex.lastPos ≤ s.lex.pos ∧ s.lex.pos ≤ s.src.length := by
  rw [h.pos]; exact curAt_le h.le

theorem Inv.lt_of_ne {s : St} (h : Inv s) (hc : s.lex.ch ≠ -1) : s.lex.lastPos < s.lex.pos := by
  rw [h.ch] at hc
  rw [h.pos]
  exact (curAt_lt (curAt_ne hc)).2.1

theorem Inv.eof_iff {s : St} (h : Inv s) : s.lex.ch = -1 ↔ s.lex.lastPos = s.src.length := by
  constructor
  · intro hc
    by_contra hl
    have := curAt_lt (src := s.src) (p := s.lex.lastPos) (by have := h.le; omega)
    rw [← h.ch] at this
    omega
  · intro hl
    rw [h.ch, curAt_eof (by omega)]

theorem Inv.ch_ge {s : St} (h : Inv s) : -1 ≤ s.lex.ch := by
  rw [h.ch]
  by_cases hp : s.lex.lastPos < s.src.length
  · have := curAt_lt hp; omega
  · rw [curAt_eof (by omega)]

theorem Inv.pos_zero {s : St} (h : Inv s) (h0 : s.lex.pos = 0) : s.lex.ch = -1 := by
  by_contra hc
  have := h.lt_of_ne hc
  omega

/-- The state after stepping to offset `q`. -/
def St.moveTo (s : St) (q : Nat) : St :=
  { s with
    lines := s.lines ++ nls s.src s.lex.pos (curAt s.src q).2
    lex := { s.lex with ch := (curAt s.src q).1, pos := (curAt s.src q).2, lastPos := q } }

theorem moveTo_self {s : St} (h : Inv s) : s.moveTo s.lex.lastPos = s := by
  rcases s with ⟨src, lines, lex, id⟩
  rcases lex with ⟨ch, pos, lastPos⟩
  have h1 := h.ch
  have h2 := h.pos
  simp only at h1 h2
  simp [St.moveTo, ← h1, ← h2, nls_self]

theorem inv_moveTo {s : St} {q : Nat} (h : q ≤ s.src.length) : Inv (s.moveTo q) :=
  ⟨h, rfl, rfl⟩

/-- `q` can be reached from `p` by steps: its cursor is not behind. -/
def Fwd (src : Bytes) (p q : Nat) : Prop :=
  p ≤ q ∧ q ≤ src.length ∧ (curAt src p).2 ≤ (curAt src q).2

theorem Fwd.refl {src : Bytes} {p : Nat} (h : p ≤ src.length) : Fwd src p p := ⟨by omega, h, by omega⟩

theorem Fwd.trans {src : Bytes} {p q r : Nat} (h : Fwd src p q) (h' : Fwd src q r) : Fwd src p r :=
  ⟨Nat.le_trans h.1 h'.1, h'.2.1, Nat.le_trans h.2.2 h'.2.2⟩

theorem Fwd.step {src : Bytes} {p : Nat} (h : p ≤ src.length) : Fwd src p (curAt src p).2 := by
  have h1 := curAt_le h
  exact ⟨h1.1, h1.2, (curAt_le h1.2).1⟩

theorem moveTo_moveTo {s : St} (h : Inv s) {q r : Nat} (h1 : Fwd s.src s.lex.lastPos q)
    (h2 : Fwd s.src q r) : (s.moveTo q).moveTo r = s.moveTo r := by
  simp only [St.moveTo, List.append_assoc]
  congr 2
  rw [nls_append]
  · rw [h.pos]; exact h1.2.2
  · exact h2.2.2

/-- What one step does. -/
theorem step_eq {s : St} (h : Inv s) (hp : s.lex.pos ≠ 0) :
    step s = .ok () (s.moveTo s.lex.pos) := by
  have hle := h.pos_le
  have hn := nls_curAt s.src s.lex.pos
  unfold step St.moveTo
  rw [hn]
  simp only [hp, if_false, curAt]
  rw [if_neg (by omega)]
  split
  · simp_all
  · split
    · split <;> simp_all
    · split <;> simp_all

/-- The first step of a new lexer. -/
theorem step_init (src : Bytes) (id : Nat) :
    step (St.init src id) = .ok () { (St.init src id).moveTo 0 with
      lines := 0 :: nls src 0 (curAt src 0).2 } := by
  have hn := nls_curAt src 0
  unfold step St.moveTo
  rw [hn]
  simp only [St.init, Lex.zero, if_true, curAt, List.nil_append]
  rw [if_neg (by omega)]
  split
  · simp_all
  · split
    · split <;> simp_all
    · split <;> simp_all

end Cssc
