import Verif.Proofs.LexSpec

/-!
# A semicolon that no token swallows

A text that ends in a semicolon followed by closing braces and white space: every token is read before the
semicolon, or is the semicolon, or comes after it.
-/

namespace Cssc

set_option linter.unusedSimpArgs false

/-- Abnormal outcomes do not matter. -/
def XT : Exc where
  err _ _ := True
  crash _ := True
  timeout := True

theorem wp_top {m : P α} {Q : α → St → Prop} {X : Exc} {s : St} (h : wp m Q X s) : wp m Q XT s :=
  wp_conseq h (fun _ _ h => h) (fun _ _ _ => trivial) (fun _ _ => trivial) (fun _ => trivial)

theorem wp_trivial {m : P α} {s : St} : wp m (fun _ _ => True) XT s := by
  unfold wp
  cases m s <;> trivial

/-- The bytes that may follow the last semicolon. -/
def TailByte (b : UInt8) : Prop := b = 125 ∨ b = 32 ∨ b = 10 ∨ b = 9

/-- The runes read from the last semicolon on. -/
def TailRune (c : Int) : Prop := c = 59 ∨ c = 125 ∨ c = 32 ∨ c = 10 ∨ c = 9 ∨ c = -1

instance (c : Int) : Decidable (TailRune c) := by unfold TailRune; infer_instance

/-- There is a semicolon at `p`, not preceded by a carriage return, and after it only closing braces and
white space. -/
structure Bar (src : Bytes) (p : Nat) : Prop where
  semi : src[p]? = some 59
  before : ∀ q, q + 1 = p → src[q]? ≠ some 13
  tail : ∀ i b, p < i → src[i]? = some b → TailByte b

theorem Bar.lt {src : Bytes} {p : Nat} (B : Bar src p) : p < src.length := by
  have := B.semi
  rw [List.getElem?_eq_some_iff] at this
  exact this.1

/-- A rune does not contain the bytes below 0x80 after its first. -/
theorem decode_size {src : Bytes} {q i : Nat} {b : UInt8} (hb : b.toNat < 0x80) (h : src[i]? = some b) (hq : q < i) :
    q + (decodeRune (src.drop q)).2 ≤ i := by
  cases hd : src.drop q with
  | nil =>
    rw [decodeRune_nil]; simp only; omega
  | cons c t =>
    rcases decodeRune_cons c t with ⟨_, h1⟩ | ⟨hge, hcp, h1, hlen, hcont⟩
    · rw [h1]; simp only; omega
    · refine Classical.byContradiction fun hlt => ?_
      have hti : t[i - q - 1]? = some b := by
        have h2 : (src.drop q)[i - q]? = some b := by
          rw [List.getElem?_drop, show q + (i - q) = i by omega]; exact h
        rw [hd, show i - q = (i - q - 1) + 1 by omega, List.getElem?_cons_succ] at h2
        exact h2
      have hmem : b ∈ t.take ((decodeRune (c :: t)).2 - 1) := by
        rw [List.mem_iff_getElem?]
        refine ⟨i - q - 1, ?_⟩
        rw [List.getElem?_take_of_lt (by omega)]; exact hti
      have := hcont _ hmem
      omega

theorem decode_at {src : Bytes} {q : Nat} {b : UInt8} (hb : b.toNat < 0x80) (h : src[q]? = some b) :
    decodeRune (src.drop q) = ((b.toNat : Int), 1) := by
  obtain ⟨hlt, e⟩ := List.getElem?_eq_some_iff.1 h
  rw [List.drop_eq_getElem_cons hlt, e, decodeRune_ascii _ hb]

/-- A carriage return is one byte. -/
theorem decode_cr {src : Bytes} {q : Nat} (h : (decodeRune (src.drop q)).1 = 13) :
    src[q]? = some 13 ∧ (decodeRune (src.drop q)).2 = 1 := by
  cases hd : src.drop q with
  | nil => rw [hd] at h; exact absurd h (by decide)
  | cons c t =>
    have hb : src[q]? = some c := by
      have := congrArg List.head? hd
      simpa [List.head?_drop] using this
    rw [hd] at h
    rcases decodeRune_cons c t with ⟨_, h1⟩ | ⟨hge, hcp, h1, hlen, hcont⟩
    · rw [h1] at h ⊢
      have : c.toNat = 13 := by have := h; simp only at this; omega
      rw [hb, UInt8.eq_of_toNat this]
      exact ⟨rfl, rfl⟩
    · omega

/-- The cursor does not jump over the semicolon. -/
theorem Bar.cur_le {src : Bytes} {p q : Nat} (B : Bar src p) (h : q < p) : (curAt src q).2 ≤ p := by
  have h1 := decode_size (by decide) B.semi h
  unfold curAt
  dsimp only
  split
  · simp only; omega
  · split
    · rename_i hcr
      obtain ⟨e1, e2⟩ := decode_cr hcr
      have hne : q + 1 ≠ p := fun e => B.before q e e1
      rw [e2]
      exact decode_size (by decide) B.semi (by omega)
    · exact h1

theorem Bar.cur_at {src : Bytes} {p : Nat} (B : Bar src p) : curAt src p = (59, p + 1) := by
  unfold curAt
  rw [decode_at (by decide) B.semi]
  rfl

theorem TailByte.lt {b : UInt8} (h : TailByte b) : b.toNat < 0x80 := by
  rcases h with rfl | rfl | rfl | rfl <;> decide

/-- The cursor after the semicolon. -/
theorem Bar.cur_tail {src : Bytes} {p q : Nat} (B : Bar src p) (h : p < q) (hq : q < src.length) :
    ∃ b, src[q]? = some b ∧ TailByte b ∧ curAt src q = ((b.toNat : Int), q + 1) := by
  have hb : src[q]? = some src[q] := List.getElem?_eq_getElem hq
  have ht := B.tail _ _ h hb
  refine ⟨_, hb, ht, ?_⟩
  unfold curAt
  rw [decode_at ht.lt hb]
  have : ((src[q].toNat : Nat) : Int) ≠ 13 := by
    rcases ht with e | e | e | e <;> rw [e] <;> decide
  simp only [Nat.succ_ne_self, if_neg this]
  rfl

theorem Bar.rune_tail {src : Bytes} {p q : Nat} (B : Bar src p) (h : p ≤ q) : TailRune (curAt src q).1 := by
  rcases Nat.eq_or_lt_of_le h with rfl | h
  · rw [B.cur_at]; exact .inl rfl
  · by_cases hq : q < src.length
    · obtain ⟨b, _, ht, e⟩ := B.cur_tail h hq
      rw [e]
      rcases ht with rfl | rfl | rfl | rfl <;> simp [TailRune]
    · rw [curAt_eof (by omega)]; simp [TailRune]

/-! ### Steps -/

/-- A cursor in this text. -/
structure G (src : Bytes) (s : St) : Prop where
  good : Good s
  srcEq : s.src = src

/-- The cursor has not passed the semicolon. -/
def Lo (src : Bytes) (p : Nat) (s : St) : Prop := G src s ∧ s.lex.lastPos ≤ p

theorem G.same {src : Bytes} {s s' : St} (h : G src s) (sc : SameCursor s s') : G src s' :=
  ⟨sc.good h.good, sc.src.trans h.srcEq⟩

theorem Lo.same {src : Bytes} {p : Nat} {s s' : St} (h : Lo src p s) (sc : SameCursor s s') : Lo src p s' :=
  ⟨h.1.same sc, by rw [sc.lastPos]; exact h.2⟩

section
variable {src : Bytes} {p : Nat}

theorem g_step {s : St} (h : G src s) : wp step (fun _ s' => G src s' ∧ s'.lex.lastPos = s.lex.pos) XT s := by
  rw [wp_step h.good]
  exact ⟨⟨(mov_step h.good.inv).good h.good, h.srcEq⟩, rfl⟩

theorem Bar.pos_le (B : Bar src p) {s : St} (h : G src s) (hlo : s.lex.lastPos ≤ p) (hne : s.lex.ch ≠ 59) : s.lex.pos ≤ p := by
  rw [h.good.inv.pos, h.srcEq]
  rcases Nat.eq_or_lt_of_le hlo with e | hlt
  · rw [h.good.inv.ch, e, h.srcEq, B.cur_at] at hne
    exact absurd rfl hne
  · exact B.cur_le hlt

theorem Bar.lo_of (B : Bar src p) {s : St} (h : G src s) (hne : ¬ TailRune s.lex.ch) : s.lex.lastPos ≤ p := by
  refine Classical.byContradiction fun hlt => hne ?_
  rw [h.good.inv.ch, h.srcEq]
  exact B.rune_tail (by omega)

/-- A step before the semicolon. -/
theorem lo_step (B : Bar src p) {s : St} (h : Lo src p s) (hne : s.lex.ch ≠ 59) : wp step (fun _ s' => Lo src p s') XT s :=
  wp_mono (g_step h.1) fun _ s' ⟨g, e⟩ => ⟨g, by rw [e]; exact B.pos_le h.1 h.2 hne⟩

/-- A step over a rune that does not occur from the semicolon on. -/
theorem end_step (B : Bar src p) {s : St} (h : G src s) (hne : ¬ TailRune s.lex.ch) :
    wp step (fun _ s' => Lo src p s') XT s :=
  lo_step B ⟨h, B.lo_of h hne⟩ fun e => hne (.inl e)

theorem not_tail_digit {c : Int} (h : isDigit c = true) : ¬ TailRune c := by
  rintro (rfl | rfl | rfl | rfl | rfl | rfl) <;> revert h <;> decide
theorem not_tail_name {c : Int} (h : isName c = true) : ¬ TailRune c := by
  rintro (rfl | rfl | rfl | rfl | rfl | rfl) <;> revert h <;> decide
theorem ws_ne_semi {c : Int} (h : isWhitespace c = true) : c ≠ 59 := by
  rintro rfl; revert h; decide
theorem hex_ne_semi {c : Int} (h : isHexDigit c = true) : c ≠ 59 := by
  rintro rfl; revert h; decide
theorem digit_ne_semi {c : Int} (h : isDigit c = true) : c ≠ 59 := by
  rintro rfl; revert h; decide
theorem name_ne_semi {c : Int} (h : isName c = true) : c ≠ 59 := by
  rintro rfl; revert h; decide

/-! ### Methods started before the semicolon -/

theorem digitsLoop_lo (B : Bar src p) : ∀ (n : Nat) (s : St), Lo src p s → wp (digitsLoop n) (fun _ s' => Lo src p s') XT s
  | 0, _, _ => trivial
  | n + 1, s, h => by
    simp only [digitsLoop]
    wpb
    refine wp_ite (fun hc => ?_) fun _ => h
    exact wp_seq (lo_step B h (digit_ne_semi hc)) fun _ s' h' => digitsLoop_lo B n s' h'

theorem wsLoop_lo (B : Bar src p) : ∀ (n : Nat) (s : St), Lo src p s → wp (wsLoop n) (fun _ s' => Lo src p s') XT s
  | 0, _, _ => trivial
  | n + 1, s, h => by
    simp only [wsLoop]
    wpb
    refine wp_ite (fun hc => ?_) fun _ => h
    exact wp_seq (lo_step B h (ws_ne_semi hc)) fun _ s' h' => wsLoop_lo B n s' h'

theorem urlWsLoop_lo (B : Bar src p) : ∀ (n : Nat) (s : St), Lo src p s → wp (urlWsLoop n) (fun _ s' => Lo src p s') XT s
  | 0, _, h => h
  | n + 1, s, h => by
    simp only [urlWsLoop]
    wpb
    refine wp_ite (fun hc => ?_) fun _ => h
    exact wp_seq (lo_step B h (ws_ne_semi hc)) fun _ s' h' => urlWsLoop_lo B n s' h'

theorem whenP_lo {c : Prop} [Decidable c] {m : P Unit} {s : St} (h : Lo src p s)
    (hm : c → wp m (fun _ s' => Lo src p s') XT s) : wp (whenP c m) (fun _ s' => Lo src p s') XT s :=
  wp_whenP hm fun _ => h

theorem escapedLoop_lo (B : Bar src p) : ∀ (n : Nat) (s : St), Lo src p s → wp (escapedLoop n) (fun _ s' => Lo src p s') XT s
  | 0, _, h => h
  | n + 1, s, h => by
    simp only [escapedLoop]
    wpb
    refine wp_ite (fun hc => ?_) fun _ => h
    refine wp_seq (lo_step B h (hex_ne_semi hc)) fun _ s' h' => ?_
    wpb
    refine wp_seq (whenP_lo h' fun hw => lo_step B h' (ws_ne_semi hw)) fun _ s2 h2 => ?_
    exact escapedLoop_lo B n s2 h2

theorem nextEscaped_lo (B : Bar src p) {s : St} (h : Lo src p s) (hc : s.lex.ch ≠ 59) :
    wp nextEscaped (fun _ s' => Lo src p s') XT s :=
  wp_seq (lo_step B h hc) fun _ s' h' => escapedLoop_lo B 5 s' h'

theorem nameLoop_lo (B : Bar src p) : ∀ (n : Nat) (s : St), Lo src p s → wp (nameLoop n) (fun _ s' => Lo src p s') XT s
  | 0, _, _ => trivial
  | n + 1, s, h => by
    simp only [nameLoop]
    wpb
    refine wp_ite (fun hc => ?_) fun _ => wp_ite (fun hc => ?_) fun _ => h
    · exact wp_seq (lo_step B h (name_ne_semi hc)) fun _ s' h' => nameLoop_lo B n s' h'
    · refine wp_seq (nextEscaped_lo B h ?_) fun _ s' h' => nameLoop_lo B n s' h'
      rw [escape_ne hc]; decide

theorem nextName_lo (B : Bar src p) {s : St} (h : Lo src p s) : wp nextName (fun _ s' => Lo src p s') XT s := by
  simp only [nextName, wp_bind, wp_lexFuel]
  exact nameLoop_lo B _ s h

/-- The rune after a step is the one that was peeked. -/
theorem peek_after {s s' : St} (h : G src s) (h' : G src s') (e : s'.lex.lastPos = s.lex.pos) {c : Int}
    (hp : s.peek 0 = c) (h13 : c ≠ 13) (h1 : c ≠ -1) : s'.lex.ch = c := by
  rw [h'.good.inv.ch, h'.srcEq, e]
  unfold St.peek at hp
  rw [h.srcEq, Nat.add_zero] at hp
  split at hp
  · exact absurd hp.symm h1
  · unfold curAt
    dsimp only at hp ⊢
    split at hp
    · exact absurd hp.symm h1
    · rename_i hs
      rw [if_neg hs, if_neg (by rw [hp]; exact h13)]
      exact hp

theorem nextNumber_lo (B : Bar src p) {s : St} (h : Lo src p s) : wp nextNumber (fun _ s' => Lo src p s') XT s := by
  rw [nextNumber]
  wpb
  refine wp_seq (whenP_lo h fun hc => lo_step B h (by rcases hc with hc | hc <;> rw [hc] <;> decide)) fun _ s1 h1 => ?_
  refine wp_seq (digitsLoop_lo B _ s1 h1) fun _ s2 h2 => ?_
  wpb
  refine wp_seq (whenP_lo h2 fun hc => ?_) fun _ s3 h3 => ?_
  · refine wp_seq (g_step h2.1) fun _ t ⟨gt, et⟩ => ?_
    have hlo : t.lex.lastPos ≤ p := by rw [et]; exact B.pos_le h2.1 h2.2 (by rw [hc.1]; decide)
    have hch : t.lex.ch = s2.peek 0 := peek_after h2.1 gt et rfl
      (by intro e; have := hc.2; rw [e] at this; revert this; decide)
      (by intro e; have := hc.2; rw [e] at this; revert this; decide)
    refine wp_seq (lo_step B ⟨gt, hlo⟩ (by rw [hch]; exact digit_ne_semi hc.2)) fun _ t2 ht2 => ?_
    exact digitsLoop_lo B _ t2 ht2
  · wpb
    refine whenP_lo h3 fun hc => ?_
    refine wp_seq (lo_step B h3 (by rcases hc.1 with hc | hc <;> rw [hc] <;> decide)) fun _ t ht => ?_
    wpb
    refine wp_seq (whenP_lo ht fun hc => lo_step B ht (by rcases hc with hc | hc <;> rw [hc] <;> decide)) fun _ t1 ht1 => ?_
    exact digitsLoop_lo B _ t1 ht1

theorem slice_top {a b : Nat} {Q : Bytes → St → Prop} {s : St} (h : ∀ t, Q t s) : wp (slice a b) Q XT s := by
  unfold wp slice
  by_cases hc : a ≤ b ∧ b ≤ s.src.length
  · rw [if_pos hc]; exact h _
  · rw [if_neg hc]; trivial

theorem sc_cur (s : St) (t : Tok) : SameCursor s { s with lex := { s.lex with cur := t } } := by constructor <;> rfl
theorem sc_str (s : St) (t : Bytes) : SameCursor s { s with lex := { s.lex with str := t } } := by constructor <;> rfl
theorem sc_num (s : St) (t : Bytes) : SameCursor s { s with lex := { s.lex with num := t } } := by constructor <;> rfl

theorem setCur_lo {s : St} (h : Lo src p s) (t : Tok) : wp (setCur t) (fun _ s' => Lo src p s') XT s := by
  rw [wp_setCur]; exact h.same (sc_cur s t)

theorem sliceStr_lo {s : St} (h : Lo src p s) {a b : Nat} :
    wp (slice a b >>= fun x => setStr x) (fun _ s' => Lo src p s') XT s :=
  wp_seq (R := fun _ s' => Lo src p s') (slice_top fun _ => h) fun t s' h' => by
    rw [wp_setStr]; exact h'.same (sc_str s' t)

theorem nextDelimToken_lo (B : Bar src p) {s : St} (h : Lo src p s) (hc : s.lex.ch ≠ 59) :
    wp nextDelimToken (fun _ s' => Lo src p s') XT s := by
  rw [nextDelimToken]
  wpb
  refine wp_seq (lo_step B h hc) fun _ s1 h1 => ?_
  wpb
  exact sliceStr_lo (h1.same (sc_cur s1 _))

theorem nextNumericToken_lo (B : Bar src p) {s : St} (h : Lo src p s) :
    wp nextNumericToken (fun _ s' => Lo src p s') XT s := by
  rw [nextNumericToken]
  wpb
  refine wp_seq (nextNumber_lo B h) fun _ s1 h1 => ?_
  wpb
  refine wp_seq (R := fun _ s' => Lo src p s') (slice_top fun _ => h1) fun t s2 h2 => ?_
  wpb
  have h3 := h2.same (sc_num s2 t)
  refine wp_ite (fun hid => ?_) fun _ => wp_ite (fun hpc => ?_) fun _ => ?_
  · wpb
    refine wp_seq (nextName_lo B h3) fun _ s4 h4 => ?_
    wpb
    refine wp_seq (R := fun _ s' => Lo src p s') (slice_top fun _ => h4) fun t s5 h5 => ?_
    wpb
    exact (h5.same (sc_str s5 t)).same (sc_cur _ _)
  · wpb
    exact lo_step B (h3.same (sc_cur _ _)) (by simp only at hpc ⊢; rw [hpc]; decide)
  · exact setCur_lo h3 _

theorem urlLoop_lo (B : Bar src p) (u : Nat) : ∀ (n : Nat) (s : St), G src s → wp (urlLoop u n) (fun _ s' => Lo src p s') XT s
  | 0, _, _ => trivial
  | n + 1, s, h => by
    have go : ∀ s', Good s' → s'.src = s.src → wp (urlLoop u n) (fun _ s' => Lo src p s') XT s' :=
      fun s' g e => urlLoop_lo B u n s' ⟨g, e.trans h.srcEq⟩
    simp only [urlLoop]
    wpb
    refine wp_ite (fun hc => ?_) fun _ => wp_ite (fun _ => trivial) fun hne => wp_ite (fun _ => trivial) fun _ =>
      wp_ite (fun hc => ?_) fun _ => wp_ite (fun hc => ?_) fun _ => wp_ite (fun _ => trivial) fun _ => ?_
    · wpb
      refine wp_seq (R := fun _ s' => s' = s) (slice_top fun _ => rfl) fun t s2 e2 => ?_
      subst e2
      wpb
      refine end_step B (h.same (sc_str _ t)) ?_
      simp only [hc]
      decide
    · wpb
      refine wp_ite (fun he => ?_) fun _ => trivial
      exact wp_seq (wp_top (nextEscaped_spec h.good)) fun _ s' ⟨m, _⟩ => go s' (m.good h.good) m.src
    · exact wp_seq (wp_top (X := XT) (step_ne h.good hne)) fun _ s' ⟨m, _⟩ => go s' (m.good h.good) m.src
    · exact wp_seq (wp_top (X := XT) (step_ne h.good hne)) fun _ s' ⟨m, _⟩ => go s' (m.good h.good) m.src

theorem nextIdentLikeToken_lo (B : Bar src p) {s : St} (h : Lo src p s) :
    wp nextIdentLikeToken (fun _ s' => Lo src p s') XT s := by
  rw [nextIdentLikeToken]
  wpb
  refine wp_seq (nextName_lo B h) fun _ s1 h1 => ?_
  wpb
  refine wp_seq (R := fun _ s' => Lo src p s') (slice_top fun _ => h1) fun t s2 h2 => ?_
  wpb
  have h3 := h2.same (sc_str s2 t)
  refine wp_ite (fun hu => ?_) fun _ => wp_ite (fun hc => ?_) fun _ => ?_
  · refine wp_seq (lo_step B h3 (by rw [show _ = _ from hu.2]; decide)) fun _ s4 h4 => ?_
    wpb
    refine wp_seq (urlWsLoop_lo B _ s4 h4) fun _ s5 h5 => ?_
    wpb
    refine wp_ite (fun _ => setCur_lo h5 _) fun _ => ?_
    wpb
    exact urlLoop_lo B _ _ _ (h5.same (sc_cur s5 _)).1
  · refine wp_seq (lo_step B h3 (by rw [show _ = _ from hc]; decide)) fun _ s4 h4 => ?_
    exact setCur_lo h4 _
  · exact setCur_lo h3 _

theorem commentLoop_lo (B : Bar src p) : ∀ (n : Nat) (s : St), G src s →
    wp (commentLoop n) (fun _ s' => Lo src p s') XT s
  | 0, _, _ => trivial
  | n + 1, s, h => by
    simp only [commentLoop]
    wpb
    refine wp_ite (fun hc => ?_) fun _ => wp_ite (fun _ => trivial) fun hne => ?_
    · wpb
      refine wp_seq (g_step h) fun _ s1 ⟨g1, _⟩ => ?_
      wpb
      refine wp_ite (fun hc1 => ?_) fun _ => commentLoop_lo B n s1 g1
      exact wp_seq (end_step B g1 (by rw [hc1]; decide)) fun _ s2 h2 => h2
    · exact wp_seq (g_step h) fun _ s1 ⟨g1, _⟩ => commentLoop_lo B n s1 g1

theorem stringLoop_lo (B : Bar src p) (mark : Int) (hmark : ¬ TailRune mark) : ∀ (n : Nat) (s : St), G src s →
    wp (stringLoop mark n) (fun _ s' => Lo src p s') XT s
  | 0, _, _ => trivial
  | n + 1, s, h => by
    simp only [stringLoop]
    wpb
    refine wp_ite (fun hc => ?_) fun _ => wp_ite (fun _ => trivial) fun _ =>
      wp_ite (fun hc => ?_) fun _ => wp_ite (fun _ => trivial) fun hne => ?_
    · wpb
      exact wp_seq (end_step B h (by rw [hc]; exact hmark)) fun _ s1 h1 => h1
    · refine wp_seq (g_step h) fun _ s1 ⟨g1, _⟩ => ?_
      wpb
      refine wp_ite (fun hc1 => ?_) fun _ => wp_ite (fun _ => trivial) fun hne1 =>
        wp_ite (fun _ => ?_) fun _ => stringLoop_lo B mark hmark n s1 g1
      · exact wp_seq (g_step g1) fun _ s2 ⟨g2, _⟩ => stringLoop_lo B mark hmark n s2 g2
      · exact wp_seq (wp_top (nextEscaped_spec g1.good)) fun _ s2 ⟨m2, _⟩ =>
          stringLoop_lo B mark hmark n s2 ⟨m2.good g1.good, m2.src.trans g1.srcEq⟩
    · exact wp_seq (g_step h) fun _ s1 ⟨g1, _⟩ => stringLoop_lo B mark hmark n s1 g1

/-! ### Tokens -/

/-- A token that ends before the semicolon, or is the semicolon. -/
def Zone (p : Nat) (s : St) : Prop := s.lex.lastPos ≤ p ∨ (s.lex.cur = .semicolon ∧ s.lex.start = p ∧ s.lex.lastPos = p + 1)

theorem Lo.zone {s : St} (h : Lo src p s) : Zone p s := .inl h.2

/-- A token read from before the semicolon. -/
theorem nextLoop_lo (B : Bar src p) : ∀ (n : Nat) (s : St), Inv s → s.src = src → s.lex.lastPos ≤ p →
    wp (nextLoop n) (fun _ s' => Zone p s') XT s
  | 0, _, _, _, _ => trivial
  | n + 1, s, h, hsrc, hlo => by
    rw [nextLoop, wpb_modLex]
    generalize hs0 : ({ s with lex := { s.lex with start := s.lex.lastPos } } : St) = s0
    have sc : SameCursor s s0 := by subst hs0; constructor <;> rfl
    have st0 : s0.lex.start = s0.lex.lastPos := by subst hs0; rfl
    have i0 := sc.inv h
    have lp0 := sc.lastPos
    have src0 := sc.src
    clear hs0
    wpb
    refine wp_ite (fun hc => ?_) fun hne => ?_
    · rw [wp_setCur]
      left
      simp only
      omega
    have g0 : G src s0 := ⟨⟨i0, fun hp => hne (i0.pos_zero hp)⟩, src0.trans hsrc⟩
    have h0 : Lo src p s0 := ⟨g0, by omega⟩
    have fin : ∀ {m : P Unit}, wp m (fun _ s' => Lo src p s') XT s0 → wp m (fun _ s' => Zone p s') XT s0 :=
      fun hm => wp_mono hm fun _ _ h => h.zone
    refine wp_ite (fun hc => ?_) fun hsemi => ?_
    · -- the semicolon
      rw [wpb_setCur]
      rw [wp_step (g0.same (sc_cur s0 .semicolon)).good]
      rcases Nat.eq_or_lt_of_le h0.2 with e | hlt
      · refine .inr ⟨rfl, st0.trans e, ?_⟩
        show s0.lex.pos = p + 1
        rw [i0.pos, g0.srcEq, e, B.cur_at]
      · left
        show s0.lex.pos ≤ p
        rw [i0.pos, g0.srcEq]
        exact B.cur_le hlt
    have single : ∀ t, wp (do setCur t; step) (fun _ s' => Zone p s') XT s0 := fun t => by
      rw [wpb_setCur]
      exact wp_mono (lo_step B (h0.same (sc_cur s0 t)) hsemi) fun _ _ h => h.zone
    have numeric := fin (nextNumericToken_lo B h0)
    have dlm := fin (nextDelimToken_lo B h0 hsemi)
    have ident := fin (nextIdentLikeToken_lo B h0)
    refine wp_ite (fun _ => single _) fun _ => ?_
    refine wp_ite (fun _ => wp_ite (fun _ => numeric) fun _ => dlm) fun _ => ?_
    refine wp_ite (fun hc => wp_ite (fun _ => numeric) fun _ => wp_ite (fun _ => fin (setCur_lo h0 _)) fun _ =>
      wp_ite (fun _ => ident) fun _ => dlm) fun _ => ?_
    refine wp_ite (fun _ => wp_ite (fun _ => fin (setCur_lo h0 _)) fun _ => dlm) fun _ => ?_
    refine wp_ite (fun _ => wp_ite (fun _ => ?_) fun _ => dlm) fun _ => ?_
    · refine fin (wp_seq (lo_step B h0 hsemi) fun _ s1 h1 => ?_)
      wpb
      refine wp_seq (nextName_lo B (h1.same (sc_cur s1 _))) fun _ s2 h2 => ?_
      wpb
      exact sliceStr_lo h2
    refine wp_ite (fun _ => wp_ite (fun _ => ?_) fun _ => dlm) fun _ => ?_
    · refine fin ?_
      wpb
      refine wp_seq (lo_step B (h0.same (sc_cur s0 _)) hsemi) fun _ s1 h1 => ?_
      wpb
      refine wp_seq (nextName_lo B h1) fun _ s2 h2 => ?_
      wpb
      exact sliceStr_lo h2
    iterate 7 refine wp_ite (fun _ => single _) fun _ => ?_
    refine wp_ite (fun _ => wp_ite (fun _ => numeric) fun _ => dlm) fun _ => ?_
    refine wp_ite (fun _ => wp_ite (fun he => ident) fun _ => trivial) fun _ => ?_
    refine wp_ite (fun _ => wp_ite (fun _ => dlm) fun _ => ?_) fun _ => ?_
    · -- comment
      refine wp_seq (g_step g0) fun _ s1 ⟨g1, _⟩ => ?_
      refine wp_seq (g_step g1) fun _ s2 ⟨g2, _⟩ => ?_
      wpb
      refine wp_seq (commentLoop_lo B _ s2 g2) fun e s3 h3 => ?_
      wpb
      have h4 := h3.same (sc_cur s3 .comment)
      refine wp_seq (R := fun _ s' => Lo src p s') (slice_top fun _ => h4) fun t s5 h5 => ?_
      wpb
      have h6 := h5.same (sc_str s5 t)
      refine wp_ite (fun _ => h6.zone) fun _ => ?_
      exact nextLoop_lo B n _ h6.1.good.inv h6.1.srcEq h6.2
    refine wp_ite (fun hq => ?_) fun _ => ?_
    · -- string
      refine wp_seq (g_step g0) fun _ s1 ⟨g1, _⟩ => ?_
      wpb
      refine wp_seq (stringLoop_lo B _ (by rcases hq with hq | hq <;> rw [hq] <;> decide) _ s1 g1) fun e s3 h3 => ?_
      wpb
      exact wp_mono (sliceStr_lo (h3.same (sc_cur s3 _))) fun _ _ h => h.zone
    refine wp_ite (fun hw => ?_) fun _ => ?_
    · wpb
      refine wp_ite (fun hr => ?_) fun _ => ?_
      · refine fin ?_
        wpb
        exact wp_seq (wsLoop_lo B _ s0 h0) fun _ s1 h1 => setCur_lo h1 _
      · refine wp_seq (lo_step B h0 hsemi) fun _ s1 h1 => ?_
        exact nextLoop_lo B n s1 h1.1.good.inv h1.1.srcEq h1.2
    exact wp_ite (fun _ => numeric) fun _ => wp_ite (fun _ => ident) fun _ => dlm

/-- A token read from after the semicolon. -/
theorem nextLoop_hi (B : Bar src p) : ∀ (n : Nat) (s : St), Inv s → s.src = src → p < s.lex.lastPos →
    wp (nextLoop n) (fun _ s' => (s'.lex.cur = .rcurly ∨ s'.lex.cur = .eof ∨ s'.lex.cur = .whitespace) ∧
      (s.lex.retainWS = false → (∃ i, s.lex.lastPos ≤ i ∧ src[i]? = some 125) → s'.lex.cur = .rcurly)) XT s
  | 0, _, _, _, _ => trivial
  | n + 1, s, h, hsrc, hlo => by
    rw [nextLoop, wpb_modLex]
    generalize hs0 : ({ s with lex := { s.lex with start := s.lex.lastPos } } : St) = s0
    have sc : SameCursor s s0 := by subst hs0; constructor <;> rfl
    have st0 : s0.lex.start = s0.lex.lastPos := by subst hs0; rfl
    have i0 := sc.inv h
    have lp0 := sc.lastPos
    have src0 := sc.src
    have ws0 := sc.retainWS
    clear hs0
    rw [← ws0, ← lp0]
    wpb
    by_cases hend : s0.lex.lastPos < src.length
    · obtain ⟨b, hb, ht, e⟩ := B.cur_tail (q := s0.lex.lastPos) (by omega) hend
      have hch : s0.lex.ch = (b.toNat : Int) := by rw [i0.ch, src0, hsrc, e]
      have hpos : s0.lex.pos = s0.lex.lastPos + 1 := by rw [i0.pos, src0, hsrc, e]
      have g0 : G src s0 := ⟨⟨i0, by omega⟩, src0.trans hsrc⟩
      have curly : b = 125 → wp (do setCur .rcurly; step) (fun _ s' => (s'.lex.cur = .rcurly ∨ s'.lex.cur = .eof ∨
          s'.lex.cur = .whitespace) ∧ (s0.lex.retainWS = false → (∃ i, s0.lex.lastPos ≤ i ∧ src[i]? = some 125) →
          s'.lex.cur = .rcurly)) XT s0 := fun _ => by
        rw [wpb_setCur, wp_step (g0.same (sc_cur s0 .rcurly)).good]
        exact ⟨.inl rfl, fun _ _ => rfl⟩
      have white : b ≠ 125 → wp (do
            let s ← P.get
            if s.lex.retainWS then
              wsLoop (← lexFuel)
              setCur .whitespace
            else
              step
              nextLoop n) (fun _ s' => (s'.lex.cur = .rcurly ∨ s'.lex.cur = .eof ∨
          s'.lex.cur = .whitespace) ∧ (s0.lex.retainWS = false → (∃ i, s0.lex.lastPos ≤ i ∧ src[i]? = some 125) →
          s'.lex.cur = .rcurly)) XT s0 := fun hne => by
        wpb
        refine wp_ite (fun hr => ?_) fun hr => ?_
        · wpb
          refine wp_seq (R := fun _ _ => True) wp_trivial fun _ s1 _ => ?_
          rw [wp_setCur]
          exact ⟨.inr (.inr rfl), fun h => absurd hr (by rw [h]; decide)⟩
        · rw [wp_bind, wp_step g0.good]
          have m := mov_step i0
          refine wp_mono (nextLoop_hi B n _ (m.good g0.good).inv g0.srcEq ?_) fun _ s' ⟨h1, h2⟩ => ⟨h1, fun h3 ⟨i, hi, h4⟩ => ?_⟩
          · show p < s0.lex.pos
            omega
          · refine h2 h3 ⟨i, ?_, h4⟩
            show s0.lex.pos ≤ i
            rcases Nat.eq_or_lt_of_le hi with rfl | hi
            · rw [hb] at h4; exact absurd (Option.some.inj h4) hne
            · omega
      rw [hch]
      rcases ht with rfl | rfl | rfl | rfl
      · exact curly rfl
      · exact white (by decide)
      · exact white (by decide)
      · exact white (by decide)
    · have hle := i0.le
      rw [src0, hsrc] at hle
      have hc : s0.lex.ch = -1 := i0.eof_iff.2 (by rw [src0, hsrc]; omega)
      rw [if_pos hc, wp_setCur]
      refine ⟨.inr (.inl rfl), fun _ ⟨i, hi, h4⟩ => ?_⟩
      rw [List.getElem?_eq_none (by omega)] at h4
      cases h4

/-- One token, seen from the semicolon. -/
theorem next_zone (B : Bar src p) {s : St} (h : Inv s) (hsrc : s.src = src) :
    wp next (fun _ s' => (s.lex.lastPos ≤ p → Zone p s') ∧
      (p < s.lex.lastPos → (s'.lex.cur = .rcurly ∨ s'.lex.cur = .eof ∨ s'.lex.cur = .whitespace) ∧
        (s.lex.retainWS = false → (∃ i, s.lex.lastPos ≤ i ∧ src[i]? = some 125) → s'.lex.cur = .rcurly))) XT s := by
  rw [next, wpb_lexFuel]
  by_cases hlo : s.lex.lastPos ≤ p
  · exact wp_mono (nextLoop_lo B _ s h hsrc hlo) fun _ _ h => ⟨fun _ => h, fun h => by omega⟩
  · exact wp_mono (nextLoop_hi B _ s h hsrc (by omega)) fun _ _ h => ⟨fun h => absurd h hlo, fun _ => h⟩

end

end Cssc
