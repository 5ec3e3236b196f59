import Verif.Spec.Keeps
import Verif.Spec.Lit
import Verif.Proofs.RoundPrint
import Verif.Proofs.Tokens

/-!
# Stylesheets without lossy constructs are printable

From the conditions on single nodes (`Spec/Keeps.lean`) and the form of trees (`Spec/Lit.lean`) to the
conditions on the sequence of tokens (`Lay`) that reading back needs.
-/

namespace Cssc

/-! ### Sequences of tokens in front of a text -/

/-- `Lay` in front of a text. -/
def LayR : List PTok → Bytes → Prop
  | [], _ => True
  | t :: ts, rest => t.Wf ∧ t.Follow (texts ts ++ rest) ∧ LayR ts rest

theorem LayR.lay : ∀ {ts : List PTok}, LayR ts [] → Lay ts
  | [], _ => trivial
  | t :: ts, h => by
    obtain ⟨h1, h2, h3⟩ := h
    rw [List.append_nil] at h2
    exact ⟨h1, h2, h3.lay⟩

theorem LayR.of_lay : ∀ {ts : List PTok}, Lay ts → LayR ts []
  | [], _ => trivial
  | t :: ts, h => by
    obtain ⟨h1, h2, h3⟩ := h
    exact ⟨h1, by rw [List.append_nil]; exact h2, .of_lay h3⟩

theorem layR_append : ∀ {a b : List PTok} {rest : Bytes}, LayR a (texts b ++ rest) → LayR b rest → LayR (a ++ b) rest
  | [], _, _, _, h => h
  | t :: ts, b, rest, h, hb => by
    obtain ⟨h1, h2, h3⟩ := h
    refine ⟨h1, ?_, layR_append h3 hb⟩
    show t.Follow (texts (ts ++ b) ++ rest)
    rw [texts_append, List.append_assoc]
    exact h2

theorem layR_left : ∀ {a b : List PTok} {rest : Bytes}, LayR (a ++ b) rest → LayR a (texts b ++ rest)
  | [], _, _, _ => trivial
  | t :: ts, b, rest, h => by
    obtain ⟨h1, h2, h3⟩ := h
    refine ⟨h1, ?_, layR_left h3⟩
    have h2 : t.Follow (texts (ts ++ b) ++ rest) := h2
    rwa [texts_append, List.append_assoc] at h2

theorem layR_punct {b : UInt8} {ts : List PTok} {rest : Bytes} (hb : (punctTok b).isSome = true) (h : LayR ts rest) :
    LayR (.punct b :: ts) rest := ⟨hb, trivial, h⟩

/-- What follows tokens that `a` ends with does not matter. -/
def Shut (a : List PTok) : Prop := ∀ rest rest' : Bytes, LayR a rest → LayR a rest'

/-! ### Texts that do not run into what stands before them -/

/-- A text that starts with a byte that is not part of any token before it. -/
def Calm (rest : Bytes) : Prop :=
  rest = [] ∨ ∃ b t, rest = b :: t ∧ b.toNat < 0x80 ∧ isNameByte b = false ∧ b ≠ 13 ∧ b ≠ 92 ∧ b ≠ 40 ∧ b ≠ 37 ∧ b ≠ 46 ∧
    (b = 43 → isDigit (headRune t) = false)

/-- The bytes that are always calm. -/
def calmByte (b : UInt8) : Bool :=
  b.toNat < 0x80 && !isNameByte b && ![13, 92, 40, 37, 46, 43].contains b

theorem calm_cons {b : UInt8} {t : Bytes} (h : calmByte b = true) : Calm (b :: t) := by
  simp only [calmByte, Bool.and_eq_true, decide_eq_true_eq, Bool.not_eq_true', List.contains_eq_mem, List.mem_cons,
    List.not_mem_nil, or_false, decide_eq_false_iff_not, not_or] at h
  obtain ⟨⟨h1, h2⟩, h3, h4, h5, h6, h7, h8⟩ := h
  exact .inr ⟨b, t, rfl, h1, h2, h3, h4, h5, h6, h7, fun e => absurd e h8⟩

theorem Calm.word {rest : Bytes} (h : Calm rest) : WordStop rest ∧ ∀ t, rest ≠ 40 :: t := by
  rcases h with rfl | ⟨b, t, rfl, h1, h2, h3, h4, h5, h6, h7, _⟩
  · exact ⟨.inl rfl, by simp⟩
  · exact ⟨.inr ⟨b, t, rfl, h1, h3, h2, h4⟩, fun u e => h5 (List.cons.inj e).1⟩

theorem nameByte_digit {b : UInt8} (h : isNameByte b = false) : isAD b = false := by
  simp only [isNameByte, Bool.or_eq_false_iff] at h
  exact h.1.2

theorem nameByte_letter {b : UInt8} (h : isNameByte b = false) : b ≠ 101 ∧ b ≠ 69 := by
  constructor <;> (rintro rfl; revert h; decide)

theorem Calm.num {rest : Bytes} (h : Calm rest) : NumStop rest ∧ WordStop rest ∧ ∀ t, rest ≠ 37 :: t := by
  refine ⟨?_, h.word.1, ?_⟩
  · rcases h with rfl | ⟨b, t, rfl, h1, h2, h3, h4, h5, h6, h7, _⟩
    · exact .inl rfl
    · exact .inr ⟨b, t, rfl, h1, h3, nameByte_digit h2, fun e => absurd e h7,
        fun e => e.elim (fun e => absurd e (nameByte_letter h2).1) (fun e => absurd e (nameByte_letter h2).2)⟩
  · rcases h with rfl | ⟨b, t, rfl, h1, h2, h3, h4, h5, h6, h7, _⟩
    · simp
    · exact fun u e => h6 (List.cons.inj e).1

theorem Calm.noDigit {rest : Bytes} (h : Calm rest) : isDigit (headRune rest) = false := by
  rcases h with rfl | ⟨b, t, rfl, h1, h2, _⟩
  · decide
  · rw [headRune_cons h1, isDigit_byte h1]; exact nameByte_digit h2

/-- A unit in front of a calm text. -/
theorem Calm.unit {u rest : Bytes} (h : Calm rest) (hc : Clean u) (hw : IsWord u) (hd : ∀ b t, u = b :: t → isAD b = false)
    (he : expLike u = false) : NumStop (u ++ rest) ∧ WordStop rest := by
  refine ⟨?_, h.word.1⟩
  cases u with
  | nil => exact absurd rfl hw.1
  | cons b t =>
    have hb := hc b (by simp)
    refine .inr ⟨b, t ++ rest, rfl, hb.1, hb.2.1, hd b t rfl, ?_, ?_⟩
    · rintro rfl
      exact absurd (hw.2.2 46 (by simp)) (by decide)
    · intro hbe
      have hbe' : (b == 101 || b == 69) = true := by simpa using hbe
      cases t with
      | nil =>
        rw [List.nil_append]
        rintro (h1 | ⟨h1, h2⟩)
        · rw [h.noDigit] at h1; cases h1
        · rcases h with rfl | ⟨c, v, rfl, k1, k2, k3, k4, k5, k6, k7, k8⟩
          · revert h1; decide
          · rw [headRune_cons k1] at h1
            rcases h1 with h1 | h1
            · have : c = 43 := UInt8.eq_of_toNat (n := 43) (by omega)
              rw [List.drop_succ_cons, List.drop_zero] at h2
              rw [k8 this] at h2; cases h2
            · have : c = 45 := UInt8.eq_of_toNat (n := 45) (by omega)
              subst this; revert k2; decide
      | cons d v =>
        simp only [expLike, hbe', Bool.true_and, Bool.or_eq_false_iff] at he
        have hdc := hc d (by simp)
        rw [List.cons_append, headRune_cons hdc.1, isDigit_byte hdc.1, List.drop_succ_cons, List.drop_zero]
        rintro (h1 | ⟨h1, h2⟩)
        · rw [he.1] at h1; cases h1
        · rcases h1 with h1 | h1
          · have : d = 43 := UInt8.eq_of_toNat (n := 43) (by omega)
            subst this
            exact absurd (hw.2.2 43 (by simp)) (by decide)
          · have : d = 45 := UInt8.eq_of_toNat (n := 45) (by omega)
            subst this
            have he2 := he.2
            cases v with
            | nil => rw [List.nil_append, h.noDigit] at h2; cases h2
            | cons f w =>
              have hf := hc f (by simp)
              rw [List.cons_append, headRune_cons hf.1, isDigit_byte hf.1] at h2
              simp [h2] at he2

/-! ### Tokens in front of a calm text -/

theorem layR_ident {w rest : Bytes} (hw : IsIdent w) (h : Calm rest) : LayR [.ident w] rest :=
  ⟨hw, h.word, trivial⟩

theorem layR_hash {w rest : Bytes} (hw : w ≠ [] ∧ ∀ b ∈ w, isNameByte b = true) (h : Calm rest) : LayR [.hash w] rest :=
  ⟨hw, h.word.1, trivial⟩

theorem layR_string {v rest : Bytes} (hq : Quotable v) : LayR [.string 34 v] rest :=
  ⟨⟨.inl rfl, hq⟩, trivial, trivial⟩

/-! ### The first byte -/

/-- The first byte of a value. -/
def valueByte (b : UInt8) : Bool := !isWsByte b && b != 13 && b != 42 && b != 33

/-- Neither white space nor a carriage return. -/
def inkByte (b : UInt8) : Bool := !isWsByte b && b != 13

/-- A text that starts with a byte of a kind. -/
def HeadIs (p : UInt8 → Bool) (bs : Bytes) : Prop := ∃ b t, bs = b :: t ∧ p b = true

theorem HeadIs.append {p : UInt8 → Bool} {a : Bytes} (h : HeadIs p a) (b : Bytes) : HeadIs p (a ++ b) := by
  obtain ⟨x, t, rfl, hx⟩ := h
  exact ⟨x, t ++ b, rfl, hx⟩

/-- The first byte of a number. -/
def numHead (b : UInt8) : Bool := isAD b || b == 43 || b == 45 || b == 46

theorem IsNum.head {n : Bytes} (h : IsNum n) : HeadIs numHead n := by
  obtain ⟨sgn, ds, fr, ex, h, rfl⟩ := h
  rcases h.sgnOk with rfl | rfl | rfl
  · cases ds with
    | nil =>
      rcases h.frOk with rfl | ⟨f, rfl, _, _⟩
      · exact absurd rfl (h.nonempty.resolve_left (by simp))
      · exact ⟨46, _, rfl, by decide⟩
    | cons d ds => exact ⟨d, _, rfl, by simp [numHead, h.dsOk d (by simp)]⟩
  · exact ⟨43, _, rfl, by decide⟩
  · exact ⟨45, _, rfl, by decide⟩

/-- The first byte of an identifier without escapes. -/
def wordHead (b : UInt8) : Bool := isLetter b || b == 45 || 0x80 ≤ b.toNat

theorem IsIdent.head {w : Bytes} (h : IsIdent w) : HeadIs wordHead w := by
  rcases h.2 with ⟨b, t, rfl, h2⟩ | ⟨b, t, rfl, h2, _⟩ | ⟨b, t, rfl, h2⟩ | ⟨b, t, rfl, h2⟩ | ⟨b, t, rfl⟩
  · exact ⟨b, t, rfl, by simp [wordHead, h2]⟩
  · exact ⟨b, t, rfl, by simp [wordHead, h2]⟩
  · exact ⟨45, _, rfl, by decide⟩
  · exact ⟨45, _, rfl, by decide⟩
  · exact ⟨45, _, rfl, by decide⟩

theorem byte_all {p q : UInt8 → Bool} (h : ∀ n : Fin 256, p (UInt8.ofNat n.val) = true → q (UInt8.ofNat n.val) = true)
    (b : UInt8) (hb : p b = true) : q b = true := by
  have := h ⟨b.toNat, b.toNat_lt⟩
  simp only [UInt8.ofNat_toNat] at this
  exact this hb

theorem HeadIs.imp {p q : UInt8 → Bool} {bs : Bytes} (h : HeadIs p bs)
    (hpq : ∀ n : Fin 256, p (UInt8.ofNat n.val) = true → q (UInt8.ofNat n.val) = true) : HeadIs q bs := by
  obtain ⟨b, t, e, hb⟩ := h
  exact ⟨b, t, e, byte_all hpq b hb⟩

/-- A byte that does not start an unsigned number. -/
def tameByte (b : UInt8) : Bool := b.toNat < 0x80 && !isAD b && b != 46

theorem HeadIs.tame {bs : Bytes} (h : HeadIs tameByte bs) : ¬ StartsUnsigned bs := by
  obtain ⟨b, t, rfl, hb⟩ := h
  simp only [tameByte, Bool.and_eq_true, decide_eq_true_eq, Bool.not_eq_true', bne_iff_ne, ne_eq] at hb
  obtain ⟨⟨h1, h2⟩, h3⟩ := hb
  unfold StartsUnsigned
  rw [headRune_cons h1, isDigit_byte h1, h2]
  rintro (h | ⟨h, _⟩)
  · cases h
  · exact h3 (UInt8.eq_of_toNat (n := 46) (by omega))

theorem notUnsigned {b : UInt8} {t : Bytes} (h1 : b.toNat < 0x80) (h2 : isAD b = false) (h3 : b ≠ 46) :
    ¬ StartsUnsigned (b :: t) :=
  HeadIs.tame ⟨b, t, rfl, by simp [tameByte, h1, h2, h3]⟩

theorem letter_noDigit {b : UInt8} (h : isLetter b = true) : b.toNat < 0x80 ∧ isAD b = false ∧ b ≠ 46 ∧ b ≠ 43 ∧ b ≠ 45 := by
  have := byte_all (p := isLetter) (q := fun b => b.toNat < 0x80 && !isAD b && b != 46 && b != 43 && b != 45) (by decide +kernel) b h
  simpa [and_assoc] using this

theorem startsNum_head {b : UInt8} {t : Bytes} (h1 : b.toNat < 0x80) (h2 : isAD b = false) (h3 : b ≠ 46) (h4 : b ≠ 43)
    (h5 : b ≠ 45) : ¬ StartsNum (b :: t) := by
  unfold StartsNum StartsUnsigned
  rw [headRune_cons h1, isDigit_byte h1, h2]
  rintro ((h | ⟨h, _⟩) | ⟨h | h, _⟩)
  · cases h
  · exact h3 (UInt8.eq_of_toNat (n := 46) (by omega))
  · exact h4 (UInt8.eq_of_toNat (n := 43) (by omega))
  · exact h5 (UInt8.eq_of_toNat (n := 45) (by omega))

/-- A character behind 0x7f in front of ASCII. -/
theorem headRune_high {b : UInt8} {u t : Bytes} (hb : 0x80 ≤ b.toNat) (ht : t = [] ∨ ∃ c v, t = c :: v ∧ c.toNat < 0x80) :
    headRune (b :: (u ++ t)) = (decodeRune (b :: u)).1 ∧ 0x80 ≤ (decodeRune (b :: u)).1 := by
  have hd := decodeRune_append (w := b :: u) (by simp) ht
  refine ⟨by simp only [headRune, reduceCtorEq, if_false]; rw [← hd]; rfl, ?_⟩
  rcases decodeRune_cons b u with ⟨h1, _⟩ | ⟨_, h1, _⟩
  · omega
  · exact h1

theorem high_notNum {b : UInt8} {u t : Bytes} (hb : 0x80 ≤ b.toNat) (hd : isDigit (decodeRune (b :: u)).1 = false)
    (ht : t = [] ∨ ∃ c v, t = c :: v ∧ c.toNat < 0x80) : ¬ StartsNum (b :: (u ++ t)) := by
  obtain ⟨h1, h2⟩ := headRune_high (u := u) hb ht
  simp only [StartsNum, StartsUnsigned, h1, hd, Bool.false_eq_true, false_or]
  omega

/-- An identifier does not look like a number. -/
theorem IsIdent.notNum {w : Bytes} (h : IsIdent w) {t : Bytes} (ht : t = [] ∨ ∃ c v, t = c :: v ∧ c.toNat < 0x80) :
    ¬ StartsNum (w ++ t) := by
  have minus : ∀ {c : UInt8} {u : Bytes}, c.toNat < 0x80 → isAD c = false → c ≠ 46 → ¬ StartsNum (45 :: c :: u) := by
    intro c u h1 h2 h3 hs
    rcases hs with hs | ⟨_, hs⟩
    · exact notUnsigned (by decide) (by decide) (by decide) hs
    · exact notUnsigned h1 h2 h3 hs
  rcases h.2 with ⟨b, u, rfl, h2⟩ | ⟨b, u, rfl, h2, hd⟩ | ⟨b, u, rfl, h2⟩ | ⟨b, u, rfl, h2, hd⟩ | ⟨b, u, rfl⟩
  · obtain ⟨k1, k2, k3, k4, k5⟩ := letter_noDigit h2
    exact startsNum_head k1 k2 k3 k4 k5
  · exact high_notNum h2 hd ht
  · obtain ⟨k1, k2, k3, _⟩ := letter_noDigit h2
    exact minus k1 k2 k3
  · rintro (hs | ⟨_, hs⟩)
    · exact notUnsigned (by decide) (by decide) (by decide) hs
    · exact high_notNum h2 hd ht (.inl hs)
  · exact minus (by decide) (by decide) (by decide)

theorem IsIdent.notUnsigned {w : Bytes} (h : IsIdent w) {t : Bytes} (ht : t = [] ∨ ∃ c v, t = c :: v ∧ c.toNat < 0x80) :
    ¬ StartsUnsigned (w ++ t) := fun hs => h.notNum ht (.inl hs)

/-- An identifier after `.` does not look like a number. -/
theorem IsIdent.notFrac {w : Bytes} (h : IsIdent w) {t : Bytes} (ht : t = [] ∨ ∃ c v, t = c :: v ∧ c.toNat < 0x80) :
    ¬ StartsUnsigned (46 :: (w ++ t)) := by
  have := h.notUnsigned ht
  simp only [StartsUnsigned, not_or] at this
  simp only [StartsUnsigned, not_or]
  rw [headRune_cons (by decide), isDigit_byte (by decide), List.drop_succ_cons, List.drop_zero]
  exact ⟨by decide, fun hs => this.1 hs.2⟩

theorem HeadIs.calm {bs : Bytes} (h : HeadIs calmByte bs) : Calm bs := by
  obtain ⟨b, t, rfl, hb⟩ := h
  exact calm_cons hb

/-! ### Values -/

/-- A byte that does not run into a `-` before it. -/
def fenceByte (b : UInt8) : Bool := b.toNat < 0x80 && !isNameByte b && b != 46 && b != 92

/-- What is known about a value without lossy constructs. -/
structure VKeep (v : Value) : Prop where
  val : v.isComp = true → v.Shape .val
  sum : v.isTerm = true → v.Shape .sum
  prod : v.isTerm = true → v.isSum = false → v.Shape .prod
  atom : v.isTerm = true → v.isMath = false → v.Shape .atom
  lay : v.isRaw = false → ∀ rest, v.closed = true ∨ Calm rest → LayR v.toks rest
  head : v.isTerm = true → HeadIs valueByte (texts v.toks)
  tame : v.isTerm = true → v.unsigned = false → ∀ rest, LayR v.toks rest → ¬ StartsUnsigned (texts v.toks ++ rest)
  opener : v.opener = true → HeadIs calmByte (texts v.toks)
  fenced : v.fenced = true → HeadIs fenceByte (texts v.toks)

/-- A component value. -/
theorem VKeep.comp {v : Value} (hv : v.Shape .val) (hl : ∀ rest, v.closed = true ∨ Calm rest → LayR v.toks rest)
    (hh : HeadIs valueByte (texts v.toks)) 
    (ht : v.unsigned = false → ∀ rest, LayR v.toks rest → ¬ StartsUnsigned (texts v.toks ++ rest))
    (ho : v.opener = true → HeadIs calmByte (texts v.toks)) (hf : v.fenced = true → HeadIs fenceByte (texts v.toks)) : VKeep v :=
  ⟨fun _ => hv, fun _ => .sum (.prod (.atom hv)), fun _ _ => .prod (.atom hv), fun _ _ => .atom hv, fun _ => hl,
    fun _ => hh, fun _ => ht, ho, hf⟩

/-- What holds for every item under a list of values holds under each. -/
theorem mem_itemsL : ∀ {vs : List Value} {v : Value} {it : Item}, v ∈ vs → it ∈ v.items → it ∈ Value.itemsL vs
  | w :: vs, v, it, hv, hi => by
    unfold Value.itemsL
    rcases List.mem_cons.mp hv with rfl | hv
    · exact List.mem_append_left _ hi
    · exact List.mem_append_right _ (mem_itemsL hv hi)

theorem isMathName_iff (name : Bytes) : mathNames.contains name = isMathName name := by
  unfold mathNames isMathName
  simp [List.contains_eq_mem, Bool.decide_or, Bool.or_assoc]
  simp only [Bool.beq_eq_decide_eq]

/-- A value that is written. -/
theorem VKeep.nonempty {v : Value} (h : VKeep v) (ho : v.isSep = true ∨ v.isTerm = true) : ∃ b t, texts v.toks = b :: t := by
  rcases ho with ho | ho
  · cases v <;> simp [Value.isSep] at ho
    exact ⟨44, [], by simp [Value.toks, texts, PTok.text]⟩
  · obtain ⟨b, t, e, _⟩ := h.head ho
    exact ⟨b, t, e⟩

/-- The arguments of a function. -/
theorem args_lay : ∀ {vs : List Value}, (∀ v ∈ vs, VKeep v ∧ v.isRaw = false) → Touching vs →
    ∀ {rest : Bytes}, Calm rest → LayR (argsToks vs) rest
  | [], _, _, _, _ => by unfold argsToks; exact trivial
  | [v], h, _, rest, hr => by
    unfold argsToks argsToks
    rw [List.append_nil]
    exact (h v (by simp)).1.lay (h v (by simp)).2 rest (.inr hr)
  | v :: w :: vs, h, ht, rest, hr => by
    unfold argsToks
    refine layR_append ((h v (by simp)).1.lay (h v (by simp)).2 _ ?_) (args_lay (fun x hx => h x (by simp [hx])) ht.2 hr)
    refine ht.1.imp id fun ho => ?_
    unfold argsToks
    rw [texts_append, List.append_assoc]
    exact (((h w (by simp)).1.opener ho).append _).calm

theorem calm_punct {b : UInt8} {t : Bytes} (h : calmByte b = true) : Calm (texts [.punct b] ++ t) := calm_cons h

/-- A single space in front of something that is not white space. -/
theorem layR_space {ts : List PTok} {rest : Bytes} (h : HeadIs inkByte (texts ts ++ rest)) (hl : LayR ts rest) :
    LayR (.space :: ts) rest := by
  refine ⟨⟨by simp, by simp [isWsByte]⟩, ?_, hl⟩
  obtain ⟨b, t, e, hb⟩ := h
  rw [e]
  simp only [inkByte, Bool.and_eq_true, Bool.not_eq_true', bne_iff_ne, ne_eq] at hb
  exact .inr ⟨b, t, rfl, hb.1, hb.2⟩

/-- Values between brackets. -/
theorem spaced_head : ∀ {vs : List Value}, (∀ v ∈ vs, VKeep v ∧ v.isTerm = true) → vs ≠ [] →
    HeadIs valueByte (texts (spacedToks vs))
  | v :: vs, h, _ => by
    unfold spacedToks
    rw [texts_append]
    exact ((h v (by simp)).1.head (h v (by simp)).2).append _

theorem spaced_lay : ∀ {vs : List Value}, (∀ v ∈ vs, VKeep v ∧ v.isTerm = true) → ∀ {rest : Bytes}, Calm rest →
    LayR (spacedToks vs) rest
  | [], _, _, _ => by unfold spacedToks; exact trivial
  | [v], h, rest, hr => by
    unfold spacedToks
    simp only [List.isEmpty_nil, if_true, List.append_nil]
    have := h v (by simp)
    exact this.1.lay (by cases v <;> simp_all [Value.isTerm, Value.isRaw]) rest (.inr hr)
  | v :: w :: vs, h, rest, hr => by
    unfold spacedToks
    simp only [List.isEmpty_cons, Bool.false_eq_true, if_false]
    have hv := h v (by simp)
    have hw : ∀ x ∈ w :: vs, VKeep x ∧ x.isTerm = true := fun x hx => h x (by simp [List.mem_cons.mp hx])
    refine layR_append (hv.1.lay (by cases v <;> simp_all [Value.isTerm, Value.isRaw]) _ (.inr ?_))
      (layR_space (((spaced_head hw (by simp)).append _).imp (by decide +kernel)) (spaced_lay hw hr))
    exact calm_cons (b := 32) (by decide)

/-- A function with its arguments. -/
theorem func_lay {name : Bytes} {vs : List Value} (hn : IsIdent name) (hv : ∀ v ∈ vs, VKeep v ∧ v.isRaw = false)
    (ht : Touching vs) (hu : IsUrlWord name → ∃ sp v vs', vs = .str sp v :: vs') (rest : Bytes) :
    LayR (.func name :: (argsToks vs ++ [.punct 41])) rest := by
  refine ⟨hn, ?_, layR_append (args_lay hv ht (calm_punct (by decide))) ⟨rfl, trivial, trivial⟩⟩
  intro hw
  obtain ⟨sp, v, vs', rfl⟩ := hu hw
  refine ⟨34, v ++ [34] ++ (texts (argsToks vs' ++ [.punct 41]) ++ rest), ?_, .inl rfl⟩
  simp [argsToks, Value.toks, texts, PTok.text, texts_append]

theorem Value.comp_term {v : Value} (h : v.isComp = true) : v.isTerm = true := by
  cases v <;> simp_all [Value.isComp, Value.isTerm]

theorem Value.term_notRaw {v : Value} (h : v.isTerm = true) : v.isRaw = false := by
  cases v <;> simp_all [Value.isRaw, Value.isTerm]

theorem Value.sep_notRaw {v : Value} (h : v.isSep = true) : v.isRaw = false := by
  cases v <;> simp_all [Value.isRaw, Value.isSep]

theorem ArgOk.sepTerm {name : Bytes} {v : Value} (h : ArgOk name v) : v.isSep = true ∨ v.isTerm = true := by
  rcases h with h | h
  · exact .inl h
  · right
    split at h
    · exact h
    · exact Value.comp_term h

theorem ArgOk.notRaw {name : Bytes} {v : Value} (h : ArgOk name v) : v.isRaw = false :=
  h.sepTerm.elim Value.sep_notRaw Value.term_notRaw

/-- An identifier can stand in `url(...)`. -/
theorem IsIdent.urlBody {w : Bytes} (h : IsIdent w) : isUrlBody w = true := by
  have key : ∀ b : UInt8, isNameByte b = true → isUrlBodyByte b = true ∧ b ≠ 92 ∧ isWsByte b = false := by
    intro b hb
    have aux : ∀ n : Nat, n < 256 → isNameByte (UInt8.ofNat n) = true → isUrlBodyByte (UInt8.ofNat n) = true ∧
        UInt8.ofNat n ≠ 92 ∧ isWsByte (UInt8.ofNat n) = false := by decide +kernel
    have := aux b.toNat b.toNat_lt
    rw [UInt8.ofNat_toNat] at this
    exact this hb
  have esc : ∀ w : Bytes, (∀ b ∈ w, isNameByte b = true) → noEscLf w = true := by
    intro w
    induction w with
    | nil => intro _; rfl
    | cons b w ih =>
      intro hw
      simp [noEscLf, (key b (hw b (by simp))).2.1, ih fun c hc => hw c (by simp [hc])]
  rw [isUrlBody, esc w h.1, List.all_eq_true.2 fun b hb => (key b (h.1 b hb)).1]
  cases w with
  | nil => rfl
  | cons b w => simp [(key b (h.1 b (by simp))).2.2]

mutual

/-- A well-formed value without lossy constructs. -/
theorem value_keeps : ∀ {v : Value}, VLit v → (∀ it ∈ v.items, it.Keeps) → VKeep v
  | .nil, h, _ => by unfold VLit at h; exact h.elim
  | .comma sp, _, _ => by
    refine ⟨by simp [Value.isComp], by simp [Value.isTerm], by simp [Value.isTerm], by simp [Value.isTerm], fun _ rest _ => ?_,
      by simp [Value.isTerm], by simp [Value.isTerm], fun _ => ?_, by simp [Value.fenced]⟩
    · unfold Value.toks; exact ⟨rfl, trivial, trivial⟩
    · unfold Value.toks; exact ⟨44, [], rfl, by decide⟩
  | .raw sp v, _, _ =>
    ⟨by simp [Value.isComp], by simp [Value.isTerm], by simp [Value.isTerm], by simp [Value.isTerm], by simp [Value.isRaw],
      by simp [Value.isTerm], by simp [Value.isTerm], by simp [Value.opener], by simp [Value.fenced]⟩
  | .str sp v, _, hk => by
    have hq : Quotable v := hk (.value (.str sp v)) (by simp [Value.items])
    have ht : texts (Value.toks (.str sp v)) = 34 :: (v ++ [34]) := by simp [Value.toks, texts, PTok.text]
    refine .comp .str (fun rest _ => ?_) ?_ (fun _ => ?_) (fun _ => ?_) (fun _ => ?_)
    · unfold Value.toks; exact layR_string hq
    on_goal 2 => exact fun rest _ => HeadIs.tame (by rw [ht]; exact ⟨_, _, rfl, by decide⟩)
    all_goals rw [ht]; exact ⟨_, _, rfl, by decide⟩
  | .hex sp v, h, hk => by
    have hq : NoEsc v := hk (.value (.hex sp v)) (by simp [Value.items])
    unfold VLit at h
    have ht : texts (Value.toks (.hex sp v)) = 35 :: v := by simp [Value.toks, texts, PTok.text]
    refine .comp .hex (fun rest hr => ?_) ?_ (fun _ => ?_) (fun _ => ?_) (fun _ => ?_)
    · unfold Value.toks; exact layR_hash (h hq) (hr.resolve_left (by simp [Value.closed]))
    on_goal 2 => exact fun rest _ => HeadIs.tame (by rw [ht]; exact ⟨_, _, rfl, by decide⟩)
    all_goals rw [ht]; exact ⟨_, _, rfl, by decide⟩
  | .ident sp v, h, hk => by
    have hq : NoEsc v := hk (.value (.ident sp v)) (by simp [Value.items])
    unfold VLit at h
    have ht : texts (Value.toks (.ident sp v)) = v := by simp [Value.toks, texts, PTok.text]
    have hh := (h hq).head
    refine .comp .ident (fun rest hr => ?_) ?_ (fun _ => ?_) (by simp [Value.opener]) (by simp [Value.fenced])
    · unfold Value.toks; exact layR_ident (h hq) (hr.resolve_left (by simp [Value.closed]))
    · rw [ht]; exact hh.imp (by decide +kernel)
    · intro rest hl
      have hf : (PTok.ident v).Follow ([] ++ rest) := by unfold Value.toks at hl; exact hl.2.1
      rw [ht]
      exact (h hq).notUnsigned hf.1.ascii
  | .dim sp num unit, h, hk => by
    obtain ⟨hn, hc, hcu, he⟩ : num ≠ [] ∧ Clean num ∧ Clean unit ∧ expLike unit = false :=
      hk (.value (.dim sp num unit)) (by simp [Value.items])
    unfold VLit at h
    have hd := h
    have hnum : IsNum num := (hd.1 hc).resolve_left fun e => hn e.1
    have hu := hd.2 hcu
    have ht : ∃ u, texts (Value.toks (.dim sp num unit)) = num ++ u := by
      unfold Value.toks
      split
      · exact ⟨[], by simp [texts, PTok.text]⟩
      · split
        · exact ⟨[37], by simp [texts, PTok.text]⟩
        · exact ⟨unit, by simp [texts, PTok.text]⟩
    obtain ⟨u, ht⟩ := ht
    refine .comp .dim (fun rest hr => ?_) ?_ (fun hs => ?_) (by simp [Value.opener]) (by simp [Value.fenced])
    · unfold Value.toks
      by_cases h0 : unit = []
      · rw [if_pos h0]
        exact ⟨hnum, (hr.resolve_left (by simp [Value.closed, h0])).num, trivial⟩
      · rw [if_neg h0]
        by_cases h1 : unit = [37]
        · rw [if_pos h1]
          exact ⟨hnum, trivial, trivial⟩
        · rw [if_neg h1]
          obtain ⟨hw, hd⟩ := (hu.resolve_left h0).resolve_left h1
          exact ⟨⟨hnum, hw⟩, (hr.resolve_left (by simpa [Value.closed] using h1)).unit hcu hw hd he, trivial⟩
    · rw [ht]; exact (hnum.head.append _).imp (by decide +kernel)
    · rw [ht]
      obtain ⟨b, t, rfl, hb⟩ := hnum.head
      refine fun rest _ => HeadIs.tame ⟨b, t ++ u ++ rest, by simp, ?_⟩
      simp only [Value.unsigned, Bool.and_eq_false_iff, bne_eq_false_iff_eq] at hs
      rcases hs with rfl | rfl <;> decide
  | .brackets sp vs, h, hk => by
    unfold VLit at h
    obtain ⟨hvs, hcomp⟩ := h
    have ih := values_keeps hvs (fun it hi => hk it (by simp [Value.items, hi]))
    have hall : ∀ v ∈ vs, VKeep v ∧ v.isTerm = true := fun v hv => ⟨ih v hv, Value.comp_term (hcomp v hv)⟩
    have ht : texts (Value.toks (.brackets sp vs)) = 91 :: texts (spacedToks vs ++ [.punct 93]) := by
      unfold Value.toks; rfl
    refine .comp (.brackets fun v hv => (ih v hv).val (hcomp v hv)) (fun rest _ => ?_) ?_ (fun _ => ?_) (fun _ => ?_) (fun _ => ?_)
    · unfold Value.toks
      exact layR_punct (by decide) (layR_append (spaced_lay hall (calm_punct (by decide))) ⟨rfl, trivial, trivial⟩)
    on_goal 2 => exact fun rest _ => HeadIs.tame (by rw [ht]; exact ⟨_, _, rfl, by decide⟩)
    all_goals rw [ht]; exact ⟨_, _, rfl, by decide⟩
  | .func sp name vs, h, hk => by
    obtain ⟨hc, ha⟩ : NoEsc name ∧ KeepArgs name vs := hk (.value (.func sp name vs)) (by simp [Value.items])
    unfold VLit at h
    unfold KeepArgs at ha
    by_cases hu : isUrlCall name vs = true
    · have : ∃ isp w, name = b!"url" ∧ vs = [.ident isp w] := by
        unfold isUrlCall at hu
        split at hu
        · exact ⟨_, _, rfl, rfl⟩
        · cases hu
      obtain ⟨isp, w, rfl, rfl⟩ := this
      have hne : NoEsc w := hk (.value (.ident isp w)) (by simp [Value.items, Value.itemsL])
      have hw : isUrlBody w = true := by
        rcases h with ⟨_, isp', w', e, hl⟩ | ⟨hl, _⟩
        · cases e
          exact hl fun hm => (hne 13 hm).1 rfl
        · have hid : IdentLit w := hl.1
          exact IsIdent.urlBody (hid hne)
      have ht : (Value.func sp b!"url" [.ident isp w]).toks = [.url b!"url" w] := by
        rw [Value.toks]; rfl
      refine .comp .url (fun rest _ => ?_) ?_ (fun _ => ?_) (by simp [Value.opener]) (by simp [Value.fenced])
      · rw [ht]; exact ⟨⟨⟨by decide, by decide⟩, hw⟩, trivial, trivial⟩
      on_goal 2 => exact fun rest _ => HeadIs.tame (by rw [ht]; exact ⟨117, _, rfl, by decide⟩)
      all_goals rw [ht]; exact ⟨117, _, rfl, by decide⟩
    · have ha := ha.resolve_left hu
      have hu : isUrlCall name vs = false := by simpa using hu
      obtain h | ⟨hvs, hid, hargs⟩ := h
      · obtain ⟨rfl, _, w, rfl, _⟩ := h
        simp [isUrlCall] at hu
      · have ih := values_keeps hvs (fun it hi => hk it (by simp [Value.items, hi]))
        have ht : (Value.func sp name vs).toks = .func name :: (argsToks vs ++ [.punct 41]) := by
          conv => lhs; unfold Value.toks
          split
          · simp [isUrlCall] at hu
          · rfl
        have hh : HeadIs wordHead (texts (Value.func sp name vs).toks) := by
          rw [ht, texts_cons]
          exact ((hid hc).head.append _).append _
        refine .comp ?_ (fun rest _ => ?_) (hh.imp (by decide +kernel)) (fun _ rest _ => ?_) (by simp [Value.opener]) (by simp [Value.fenced])
        · by_cases hm : isMathName name = true
          · refine .mathFunc hm fun v hv hnc => (ih v hv).sum ?_
            rcases hargs v hv with hs | hs
            · cases v <;> simp [Value.isSep] at hs
              exact absurd rfl (hnc _)
            · rwa [if_pos (by rw [isMathName_iff]; exact hm)] at hs
          · refine .func (by simpa using hm) hu fun v hv hnc => (ih v hv).val ?_
            rcases hargs v hv with hs | hs
            · cases v <;> simp [Value.isSep] at hs
              exact absurd rfl (hnc _)
            · rwa [if_neg (by rw [isMathName_iff]; exact hm)] at hs
        · rw [ht]
          exact func_lay (hid hc) (fun v hv => ⟨ih v hv, (hargs v hv).notRaw⟩) ha.1 ha.2 rest
        · rw [ht, texts_cons, List.append_assoc]
          show ¬ StartsUnsigned (name ++ [40] ++ _)
          rw [List.append_assoc]
          exact (hid hc).notUnsigned (.inr ⟨40, _, rfl, by decide⟩)
  | .paren sp v, h, hk => by
    have hne : v ≠ .nil := hk (.value (.paren sp v)) (by simp [Value.items])
    unfold VLit at h
    obtain ⟨hv, hterm⟩ := h.resolve_left hne
    have ih := value_keeps hv (fun it hi => hk it (by simp [Value.items, hi]))
    have hs : (Value.paren sp v).Shape .atom := .paren (ih.sum hterm)
    have ht : texts (Value.toks (.paren sp v)) = 40 :: texts (v.toks ++ [.punct 41]) := by
      rw [Value.toks]; rfl
    refine ⟨by simp [Value.isComp], fun _ => .sum (.prod hs), fun _ _ => .prod hs, fun _ _ => hs, fun _ rest _ => ?_,
      fun _ => ?_, fun _ _ => ?_, by simp [Value.opener], fun _ => ?_⟩
    · unfold Value.toks
      exact layR_punct (by decide) (layR_append (ih.lay (Value.term_notRaw hterm) _ (.inr (calm_punct (by decide))))
        ⟨rfl, trivial, trivial⟩)
    on_goal 2 => exact fun rest _ => HeadIs.tame (by rw [ht]; exact ⟨_, _, rfl, by decide⟩)
    all_goals rw [ht]; exact ⟨_, _, rfl, by decide⟩
  | .math sp op l r, h, hk => by
    obtain ⟨hno, hun⟩ : (op = b!"-" → l.closed = true ∧ r.fenced = true) ∧ (op = b!"+" → r.unsigned = false) := hk (.value (.math sp op l r)) (by simp [Value.items])
    unfold VLit at h
    obtain ⟨hl, hr, hm, tl, tr⟩ := h
    have il := value_keeps hl (fun it hi => hk it (by simp [Value.items, hi]))
    have ir := value_keeps hr (fun it hi => hk it (by simp [Value.items, hi]))
    have hop : op = b!"+" ∨ op = b!"-" ∨ op = b!"*" ∨ op = b!"/" := by
      rcases hm with ⟨h | h, _⟩ | ⟨h | h, _⟩
      · exact .inl h
      · exact .inr (.inl h)
      · exact .inr (.inr (.inl h))
      · exact .inr (.inr (.inr h))
    have ht : (Value.math sp op l r).toks = l.toks ++ (op.map .delim ++ r.toks) := by
      conv => lhs; unfold Value.toks
    refine ⟨by simp [Value.isComp], fun _ => ?_, fun _ hs => ?_, fun _ hs => by simp [Value.isMath] at hs, fun _ rest hrest => ?_,
      fun _ => ?_, fun _ hu => ?_, fun ho => ?_, fun hf => ?_⟩
    · rcases hm with ⟨h, hrs⟩ | ⟨h, hls, hrm⟩
      · exact .add h (il.sum tl) (ir.prod tr hrs)
      · exact .sum (.mul h (il.prod tl hls) (ir.atom tr hrm))
    · rcases hm with ⟨h, hrs⟩ | ⟨h, hls, hrm⟩
      · rcases h with rfl | rfl <;> simp [Value.isSum] at hs
      · exact .mul h (il.prod tl hls) (ir.atom tr hrm)
    · rw [ht]
      have lr : LayR r.toks rest := ir.lay (Value.term_notRaw tr) rest hrest
      rcases hop with rfl | rfl | rfl | rfl
      · have hc := ir.tame tr (hun rfl) rest lr
        refine layR_append (il.lay (Value.term_notRaw tl) _ (.inr (.inr ⟨43, _, rfl, by decide, by decide, by decide, by decide,
          by decide, by decide, by decide, fun _ => ?_⟩))) ⟨.inr (.inl rfl), .inr (.inl ⟨rfl, hc⟩), lr⟩
        have := hc
        simp only [StartsUnsigned, not_or] at this
        simpa using this.1
      · obtain ⟨hlc, hrf⟩ := hno rfl
        obtain ⟨c, t, e, hc⟩ := (ir.fenced hrf).append rest
        simp only [fenceByte, Bool.and_eq_true, decide_eq_true_eq, Bool.not_eq_true', bne_iff_ne, ne_eq] at hc
        exact layR_append (il.lay (Value.term_notRaw tl) _ (.inl hlc)) ⟨.inr (.inr (.inl rfl)),
          .inr (.inr (.inl ⟨rfl, .inr ⟨c, t, e, hc.1.1.1, hc.1.1.2, hc.1.2, hc.2⟩⟩)), lr⟩
      · exact layR_append (il.lay (Value.term_notRaw tl) _ (.inr (calm_cons (b := 42) (by decide)))) ⟨.inl (by decide), .inl (by decide), lr⟩
      · refine layR_append (il.lay (Value.term_notRaw tl) _ (.inr (calm_cons (b := 47) (by decide))))
          ⟨.inr (.inr (.inr (.inr (.inl rfl)))), .inr (.inr (.inr (.inr (.inl ⟨rfl, fun t e => ?_⟩)))), lr⟩
        obtain ⟨b, u, e2, hb⟩ := (ir.head tr).append rest
        have e3 : texts (List.map PTok.delim [] ++ r.toks) ++ rest = 42 :: t := e
        rw [List.map_nil, List.nil_append, e2] at e3
        rw [(List.cons.inj e3).1] at hb
        revert hb; decide
    · rw [ht, texts_append]; exact (il.head tl).append _
    · rw [ht, texts_append]; intro rest hl; rw [List.append_assoc]; exact il.tame tl hu _ (layR_left (ht ▸ hl))
    · rw [ht, texts_append]; exact (il.opener ho).append _
    · rw [ht, texts_append]; exact (il.fenced hf).append _

theorem values_keeps : ∀ {vs : List Value}, VsLit vs → (∀ it ∈ Value.itemsL vs, it.Keeps) → ∀ v ∈ vs, VKeep v
  | [], _, _ => by simp
  | w :: vs, h, hk => by
    unfold VsLit at h
    have h1 := value_keeps h.1 fun it hi => hk it (by simp [Value.itemsL, hi])
    have h2 := values_keeps h.2 fun it hi => hk it (by simp [Value.itemsL, hi])
    intro v hv
    rcases List.mem_cons.mp hv with rfl | hv
    · exact h1
    · exact h2 v hv

end

end Cssc
