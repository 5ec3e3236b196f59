import Verif.Proofs.LexFwd

/-!
# Reading one token forward

`fwd_tok`: when the text at the cursor is that of a token of the specification (`Spec/Tok.lean`) followed
by something that may follow it, one turn of the lexer's loop reads exactly that token.
-/

namespace Cssc

/-- The body of the loop of `Next`, after the first reads. -/
def tokBody (n : Nat) (c p0 p1 p2 : Int) : P Unit := do
  if c = -1 then setCur .eof
  else if c = r!";" then
    setCur .semicolon
    step
  else if c = r!":" then
    setCur .colon
    step
  else if c = r!"+" then
    if startsNumber c p0 p1 then nextNumericToken else nextDelimToken
  else if c = r!"-" then
    if startsNumber c p0 p1 then nextNumericToken
    else if p0 = r!"-" ∧ p1 = r!">" then setCur .cdc
    else if startsIdentifier p0 p1 p2 then nextIdentLikeToken
    else nextDelimToken
  else if c = r!"<" then
    if p0 = r!"!" ∧ p1 = r!"-" ∧ p2 = r!"-" then setCur .cdo else nextDelimToken
  else if c = r!"@" then
    if startsIdentifier p0 p1 p2 then
      step
      setCur .at
      let start ← getLastPos
      nextName
      let e ← getLastPos
      setStr (← slice start e)
    else nextDelimToken
  else if c = r!"#" then
    if isName p0 || startsEscape p0 p1 then
      setCur .hash
      step
      let start ← getLastPos
      nextName
      let e ← getLastPos
      setStr (← slice start e)
    else nextDelimToken
  else if c = r!"," then
    setCur .comma
    step
  else if c = r!"(" then
    setCur .lparen
    step
  else if c = r!")" then
    setCur .rparen
    step
  else if c = r!"[" then
    setCur .lbracket
    step
  else if c = r!"]" then
    setCur .rbracket
    step
  else if c = r!"{" then
    setCur .lcurly
    step
  else if c = r!"}" then
    setCur .rcurly
    step
  else if c = r!"." then
    if startsNumber p0 p1 p2 then nextNumericToken else nextDelimToken
  else if c = r!"\\" then
    if startsEscape c p0 then nextIdentLikeToken else errorf "parse error"
  else if c = r!"/" then
    if p0 ≠ r!"*" then nextDelimToken
    else
      step
      step
      let start ← getLastPos
      let e ← commentLoop (← lexFuel)
      setCur .comment
      setStr (← slice start e)
      let s ← P.get
      if s.lex.retainComments then pure () else nextLoop n
  else if c = r!"\"" ∨ c = r!"'" then
    step
    let start ← getLastPos
    let e ← stringLoop c (← lexFuel)
    setCur .string
    setStr (← slice start e)
  else if isWhitespace c then
    let s ← P.get
    if s.lex.retainWS then
      wsLoop (← lexFuel)
      setCur .whitespace
    else
      step
      nextLoop n
  else if isDigit c then nextNumericToken
  else if isNameStart c then nextIdentLikeToken
  else nextDelimToken

theorem nextLoop_eq (n : Nat) : nextLoop (n + 1) = (do
    P.modLex fun l => { l with start := l.lastPos }
    let c ← getCh
    let p0 ← peek 0
    let p1 ← peek 1
    let p2 ← peek 2
    tokBody n c p0 p1 p2) := rfl

/-- The state after reading the token `t` at the cursor of `s`, with `rest` still ahead. -/
structure Reads (s s' : St) (t : PTok) (rest : Bytes) : Prop where
  on : On s' rest
  adv : Adv s s'
  cur : s'.lex.cur = t.tok
  start : s'.lex.start = s.lex.lastPos
  str : ∀ b, t.str = some b → s'.lex.str = b
  num : ∀ b, t.num = some b → s'.lex.num = b

theorem SameCursor.on {s s' : St} {rest : Bytes} (h : SameCursor s s') (o : On s rest) : On s' rest :=
  ⟨h.inv o.inv, by rw [h.src, h.lastPos]; exact o.rest⟩

theorem nextLoop_wp {n : Nat} {s : St} {Q : Unit → St → Prop} {X : Exc} :
    wp (nextLoop (n + 1)) Q X s = wp (tokBody n s.lex.ch (s.peek 0) (s.peek 1) (s.peek 2)) Q X
      { s with lex := { s.lex with start := s.lex.lastPos } } := by
  rw [nextLoop_eq]
  wpb
  rfl

theorem punct_cases {b : UInt8} (h : (punctTok b).isSome = true) :
    b = 59 ∨ b = 58 ∨ b = 44 ∨ b = 40 ∨ b = 41 ∨ b = 91 ∨ b = 93 ∨ b = 123 ∨ b = 125 := by
  unfold punctTok at h
  split at h <;> simp at h ⊢

/-- Setting the token kind, then stepping over one byte. -/
theorem fwd_punct {s s0 : St} {b : UInt8} {rest : Bytes} {X : Exc} {k : Tok} (h : On s (b :: rest))
    (hs : s0 = { s with lex := { s.lex with start := s.lex.lastPos } })
    (hb : b.toNat < 0x80) (hcr : b ≠ 13) (hk : punctTok b = some k) :
    wp (do setCur k; step) (fun _ s' => Reads s s' (.punct b) rest) X s0 := by
  subst hs
  wpb
  have sc : SameCursor s { s with lex := { s.lex with start := s.lex.lastPos, cur := k } } :=
    ⟨rfl, rfl, rfl, rfl, rfl, rfl, rfl, rfl⟩
  refine wp_mono (fwd_byte (sc.on h) hb hcr) fun _ s1 ⟨m1, o1⟩ => ?_
  exact ⟨o1, (sc.adv h.inv).trans h.inv m1.adv, by rw [m1.cur]; simp [PTok.tok, hk], m1.start,
    by simp [PTok.str], by simp [PTok.num]⟩

theorem fwd_tok_punct {s : St} {b : UInt8} {rest : Bytes} {X : Exc} {n : Nat} (h : On s (b :: rest))
    (hb : (punctTok b).isSome = true) :
    wp (nextLoop (n + 1)) (fun _ s' => Reads s s' (.punct b) rest) X s := by
  rw [nextLoop_wp]
  have hc := h.chEq
  rcases punct_cases hb with rfl | rfl | rfl | rfl | rfl | rfl | rfl | rfl | rfl <;>
  · rw [chOf_cons (by decide) (by decide)] at hc
    rw [hc]
    exact fwd_punct h rfl (by decide) (by decide) rfl

/-- What is asserted of the state after a token, in terms of the state after the token's start was
recorded. -/
theorem fwd_delim {s : St} {b : UInt8} {rest : Bytes} {X : Exc} (h : On s (b :: rest))
    (hb : b.toNat < 0x80) (hcr : b ≠ 13) :
    wp nextDelimToken (fun _ s' => Reads s s' (.delim b) rest) X
      { s with lex := { s.lex with start := s.lex.lastPos } } := by
  have sc : SameCursor s { s with lex := { s.lex with start := s.lex.lastPos } } :=
    ⟨rfl, rfl, rfl, rfl, rfl, rfl, rfl, rfl⟩
  generalize hs0 : ({ s with lex := { s.lex with start := s.lex.lastPos } } : St) = s0 at sc
  have hst : s0.lex.start = s.lex.lastPos := by rw [← hs0]
  have o0 := sc.on h
  rw [nextDelimToken]
  wpb
  have hh := o0.byte hb hcr
  refine wp_seq (wp_of_eq (Q := fun _ s' => s' = s0.moveTo (s0.lex.lastPos + 1)) hh.2.2.1 rfl) ?_
  rintro _ s1 rfl
  have m1 : Mov s0 (s0.moveTo (s0.lex.lastPos + 1)) := by rw [← hh.2.1]; exact mov_step o0.inv
  have o1 := hh.2.2.2
  have hl : (s0.moveTo (s0.lex.lastPos + 1)).lex.lastPos = s0.lex.lastPos + 1 := rfl
  generalize s0.moveTo (s0.lex.lastPos + 1) = s1 at m1 o1 hl
  rw [wpb_setCur]
  have sc2 : SameCursor s1 { s1 with lex := { s1.lex with cur := .delim } } :=
    ⟨rfl, rfl, rfl, rfl, rfl, rfl, rfl, rfl⟩
  wpb
  rw [wpb_slice (by show s0.lex.lastPos ≤ s1.lex.lastPos; omega) (by exact o1.inv.le)]
  wpb
  refine ⟨?_, ?_, rfl, ?_, ?_, by simp [PTok.num]⟩
  · exact SameCursor.on (s := s1) ⟨rfl, rfl, rfl, rfl, rfl, rfl, rfl, rfl⟩ o1
  · refine (sc.adv h.inv).trans h.inv (m1.adv.trans o0.inv (SameCursor.adv (s := s1) ⟨rfl, rfl, rfl, rfl, rfl, rfl, rfl, rfl⟩ o1.inv))
  · exact m1.start.trans hst
  · intro x hx
    simp only [PTok.str, Option.some.injEq] at hx
    subst hx
    show sub s1.src s0.lex.lastPos s1.lex.lastPos = [b]
    rw [hl, m1.src]
    exact On.sub (w := [b]) o0

theorem tokBody_nameStart {n : Nat} {c p0 p1 p2 : Int} (h : isNameStart c = true) (hd : isDigit c = false) :
    tokBody n c p0 p1 p2 = nextIdentLikeToken := by
  have hc : c ≠ -1 ∧ c ≠ 59 ∧ c ≠ 58 ∧ c ≠ 43 ∧ c ≠ 45 ∧ c ≠ 60 ∧ c ≠ 64 ∧ c ≠ 35 ∧ c ≠ 44 ∧ c ≠ 40 ∧
      c ≠ 41 ∧ c ≠ 91 ∧ c ≠ 93 ∧ c ≠ 123 ∧ c ≠ 125 ∧ c ≠ 46 ∧ c ≠ 92 ∧ c ≠ 47 ∧ c ≠ 34 ∧ c ≠ 39 ∧
      isWhitespace c = false := by
    simp only [isNameStart, isWhitespace, Bool.or_eq_true, Bool.and_eq_true, decide_eq_true_eq, beq_iff_eq,
      Bool.or_eq_false_iff, beq_eq_false_iff_ne] at h ⊢
    omega
  simp only [tokBody, hc, h, hd, if_true, if_false, or_self, Bool.false_eq_true]

theorem headRune_name {b : UInt8} {t : Bytes} (hb : isNameByte b = true) : isName (headRune (b :: t)) = true := by
  by_cases h : b.toNat < 0x80
  · rw [headRune_cons h, isName_byte h, hb]
  · simp only [headRune, reduceCtorEq, if_false]
    rcases decodeRune_cons b t with ⟨h', _⟩ | ⟨_, h', _⟩
    · omega
    · exact isName_high h'

/-- The dispatch on the first runes of a word. -/
theorem tokBody_ident {s : St} {w rest : Bytes} {n : Nat} (h : On s (w ++ rest)) (hw : IsIdent w)
    (hr : rest = [] ∨ ∃ b t, rest = b :: t ∧ b.toNat < 0x80) :
    tokBody n s.lex.ch (s.peek 0) (s.peek 1) (s.peek 2) = nextIdentLikeToken := by
  obtain ⟨hall, hw⟩ := hw
  have hch := h.chEq
  have letter : ∀ b, isLetter b = true → b.toNat < 0x80 ∧ b ≠ 13 ∧ isNameStart (b.toNat : Int) = true ∧
      isDigit (b.toNat : Int) = false ∧ (b.toNat : Int) ≠ 45 ∧ (b.toNat : Int) ≠ 46 ∧ (b.toNat : Int) ≠ 10 := by
    intro b hb
    have hlt : b.toNat < 0x80 := by
      simp only [isLetter, Bool.or_eq_true, Bool.and_eq_true, decide_eq_true_eq, beq_iff_eq] at hb
      omega
    refine ⟨hlt, ?_, ?_, ?_, ?_⟩
    · rintro rfl; simp [isLetter] at hb
    · simp only [isLetter, isNameStart, Bool.or_eq_true, Bool.and_eq_true, decide_eq_true_eq, beq_iff_eq] at hb ⊢
      omega
    · rw [isDigit_byte hlt]
      simp only [isLetter, Bool.or_eq_true, Bool.and_eq_true, decide_eq_true_eq, beq_iff_eq] at hb
      simp only [isAD, Bool.and_eq_false_iff, decide_eq_false_iff_not]
      omega
    · simp only [isLetter, Bool.or_eq_true, Bool.and_eq_true, decide_eq_true_eq, beq_iff_eq] at hb
      omega
  rcases hw with ⟨b, t, rfl, hb⟩ | ⟨b, t, rfl, hb, hd⟩ | ⟨b, t, rfl, hb⟩ | ⟨b, t, rfl, hb, hd⟩ |
    ⟨b, t, rfl⟩
  · have hl := letter b hb
    rw [List.cons_append, chOf_cons hl.1 hl.2.1] at hch
    rw [hch]
    exact tokBody_nameStart hl.2.2.1 hl.2.2.2.1
  · have hne : (b :: t) ++ rest ≠ [] := by simp
    have hd' := decodeRune_append (w := b :: t) (by simp) hr
    have hhi : 0x80 ≤ (decodeRune (b :: t)).1 := by
      rcases decodeRune_cons b t with ⟨h1, _⟩ | ⟨_, h1, _⟩
      · omega
      · exact h1
    have hc := (h.ch hne (by rw [hd']; omega)).1
    rw [hc, hd']
    refine tokBody_nameStart ?_ hd
    simp only [isNameStart, Bool.or_eq_true, decide_eq_true_eq]
    exact .inl (.inr (by omega))
  · have hl := letter b hb
    simp only [List.cons_append] at h hch
    rw [chOf_cons (by decide) (by decide)] at hch
    rw [hch, h.peekEq (by decide) (by decide), h.peekEq (by decide) (by decide),
      h.peekEq (by decide) (by decide)]
    rw [List.drop_zero, headRune_cons hl.1]
    have e1 : ∀ p, startsNumber 45 (b.toNat : Int) p = false := by
      intro p; simp [startsNumber, hl.2.2.2.1, hl.2.2.2.2]
    have e2 : ∀ p q, startsIdentifier (b.toNat : Int) p q = true := by
      intro p q; simp [startsIdentifier, hl.2.2.2.2, isName, hl.2.2.1]
    show tokBody n 45 _ _ _ = _
    simp only [tokBody, e1, e2]
    simp [hl.2.2.2.2]
  · have hd' := decodeRune_append (w := b :: t) (by simp) hr
    have hhi : 0x80 ≤ (decodeRune (b :: t)).1 := by
      rcases decodeRune_cons b t with ⟨h1, _⟩ | ⟨_, h1, _⟩
      · omega
      · exact h1
    simp only [List.cons_append] at h hch hd'
    rw [chOf_cons (by decide) (by decide)] at hch
    rw [hch, h.peekEq (by decide) (by decide), h.peekEq (by decide) (by decide),
      h.peekEq (by decide) (by decide)]
    rw [List.drop_zero, show headRune (b :: (t ++ rest)) = (decodeRune (b :: t)).1 by
      simp only [headRune, reduceCtorEq, if_false, hd']]
    revert hhi hd
    generalize (decodeRune (b :: t)).1 = r
    intro hd hhi
    have hn : isName r = true := isName_high hhi
    have e1 : ∀ p, startsNumber 45 r p = false := by
      intro p; simp [startsNumber, hd, show r ≠ 46 by omega]
    have e2 : ∀ p q, startsIdentifier r p q = true := by
      intro p q
      simp [startsIdentifier, hn, show r ≠ 45 by omega, show r ≠ 10 by omega]
    show tokBody n 45 _ _ _ = _
    simp only [tokBody, e1, e2]
    simp [show r ≠ 45 by omega]
  · have hnb := hall b (by simp)
    have hbn : isName (headRune (b :: (t ++ rest))) = true := headRune_name hnb
    have hgt : headRune (b :: (t ++ rest)) ≠ 62 := by
      intro e
      rw [e] at hbn
      revert hbn; decide
    simp only [List.cons_append] at h hch
    rw [chOf_cons (by decide) (by decide)] at hch
    rw [hch, h.peekEq (by decide) (by decide), h.peekEq (by decide) (by decide),
      h.peekEq (by decide) (by decide)]
    rw [List.drop_zero, headRune_cons (by decide), List.drop_succ_cons, List.drop_zero]
    revert hbn hgt
    generalize headRune (b :: (t ++ rest)) = r
    intro hbn hgt
    have e1 : ∀ p, startsNumber 45 45 p = false := by
      intro p; simp [startsNumber]; decide
    have e2 : ∀ q, startsIdentifier 45 r q = true := by
      intro q; simp [startsIdentifier, hbn]
    show tokBody n 45 45 _ _ = _
    simp only [tokBody, e1, e2]
    simp [hgt]

theorem WordStop.ascii {rest : Bytes} (h : WordStop rest) : rest = [] ∨ ∃ b t, rest = b :: t ∧ b.toNat < 0x80 := by
  rcases h with rfl | ⟨b, t, rfl, hb, _⟩
  · exact .inl rfl
  · exact .inr ⟨b, t, rfl, hb⟩

theorem WordStop.stop {rest : Bytes} (h : WordStop rest) : isName (chOf rest) = false ∧ chOf rest ≠ r!"\\" := by
  rcases h with rfl | ⟨b, t, rfl, h1, h2, h3, h4⟩
  · exact ⟨by decide, by decide⟩
  · rw [chOf_cons h1 h2, isName_byte h1]
    exact ⟨h3, fun e => h4 (UInt8.eq_of_toNat (n := 92) (by omega))⟩

theorem WordStop.lparen (t : Bytes) : WordStop (40 :: t) :=
  .inr ⟨40, t, rfl, by decide, by decide, by decide, by decide⟩

theorem isURLString_iff {w : Bytes} : isURLString w = true ↔ IsUrlWord w := by
  constructor
  · intro h
    unfold isURLString at h
    split at h
    · simp only [Bool.and_eq_true, Bool.or_eq_true, beq_iff_eq] at h
      obtain ⟨⟨ha, hb⟩, hc⟩ := h
      rcases ha with rfl | rfl <;> rcases hb with rfl | rfl <;> rcases hc with rfl | rfl <;>
        simp [IsUrlWord]
    · simp at h
  · rintro ⟨h1, h2⟩
    rcases w with _ | ⟨a, _ | ⟨b, _ | ⟨c, _ | ⟨d, w⟩⟩⟩⟩
    all_goals simp only [List.map_cons, List.map_nil, List.cons.injEq, reduceCtorEq, and_false] at h1
    simp only [List.mem_cons, List.not_mem_nil, or_false, forall_eq_or_imp, forall_eq] at h2
    have ha : a = 117 ∨ a = 85 := by
      have : a.toNat = 117 ∨ a.toNat = 85 := by omega
      exact this.imp (fun h => UInt8.eq_of_toNat h) fun h => UInt8.eq_of_toNat h
    have hb : b = 114 ∨ b = 82 := by
      have : b.toNat = 114 ∨ b.toNat = 82 := by omega
      exact this.imp (fun h => UInt8.eq_of_toNat h) fun h => UInt8.eq_of_toNat h
    have hc : c = 108 ∨ c = 76 := by
      have : c.toNat = 108 ∨ c.toNat = 76 := by omega
      exact this.imp (fun h => UInt8.eq_of_toNat h) fun h => UInt8.eq_of_toNat h
    simp [isURLString, ha, hb, hc]

/-- Reading a name and storing it as the token's payload. -/
theorem fwd_word {s : St} {w rest : Bytes} {X : Exc} {f : P α} {Q : α → St → Prop}
    (h : On s (w ++ rest)) (hw : ∀ b ∈ w, isNameByte b = true) (hr : WordStop rest)
    (hf : ∀ s', On s' rest → Adv s s' → s'.lex.str = w → s'.lex.start = s.lex.start →
      s'.lex.cur = s.lex.cur → s'.lex.num = s.lex.num → wp f Q X s') :
    wp (do
      let start ← getLastPos
      nextName
      let e ← getLastPos
      let x ← slice start e
      setStr x
      f) Q X s := by
  wpb
  refine wp_seq (fwd_nextName h hw hr.stop.1 hr.stop.2) fun _ s1 ⟨m1, o1⟩ => ?_
  wpb
  rw [wpb_slice m1.le o1.inv.le]
  have hsub : sub s1.src s.lex.lastPos s1.lex.lastPos = w := by
    have h1 := h.len
    have h2 := o1.len
    rw [m1.src, List.length_append] at *
    have : s1.lex.lastPos = s.lex.lastPos + w.length := by omega
    rw [this]; exact h.sub
  rw [hsub, wpb_setStr]
  have sc : SameCursor s1 { s1 with lex := { s1.lex with str := w } } :=
    ⟨rfl, rfl, rfl, rfl, rfl, rfl, rfl, rfl⟩
  exact hf _ (sc.on o1) (m1.adv.trans h.inv (sc.adv o1.inv)) rfl m1.start m1.cur m1.num

theorem fwd_identLike_ident {s : St} {w rest : Bytes} {X : Exc} (h : On s (w ++ rest))
    (hw : ∀ b ∈ w, isNameByte b = true) (hr : WordStop rest) (hp : ∀ t, rest ≠ 40 :: t) :
    wp nextIdentLikeToken (fun _ s' => Reads s s' (.ident w) rest) X
      { s with lex := { s.lex with start := s.lex.lastPos } } := by
  have sc : SameCursor s { s with lex := { s.lex with start := s.lex.lastPos } } :=
    ⟨rfl, rfl, rfl, rfl, rfl, rfl, rfl, rfl⟩
  generalize hs0 : ({ s with lex := { s.lex with start := s.lex.lastPos } } : St) = s0 at sc
  have hst : s0.lex.start = s.lex.lastPos := by rw [← hs0]
  have o0 := sc.on h
  rw [nextIdentLikeToken]
  refine fwd_word o0 hw hr fun s1 o1 a1 e1 e2 e3 e4 => ?_
  wpb
  have hc : s1.lex.ch ≠ 40 := by
    rw [o1.chEq]
    rcases hr with rfl | ⟨b, t, rfl, h1, h2, h3, h4⟩
    · decide
    · rw [chOf_cons h1 h2]
      intro e
      exact hp t (by rw [UInt8.eq_of_toNat (b := b) (n := 40) (by omega)]; rfl)
  rw [if_neg (by simp [hc]), if_neg hc]
  wpb
  have sc2 : SameCursor s1 { s1 with lex := { s1.lex with cur := .ident } } :=
    ⟨rfl, rfl, rfl, rfl, rfl, rfl, rfl, rfl⟩
  refine ⟨sc2.on o1, (sc.adv h.inv).trans h.inv (a1.trans o0.inv (sc2.adv o1.inv)), rfl, ?_, ?_, by simp [PTok.num]⟩
  · exact e2.trans hst
  · intro b hb
    simp only [PTok.str, Option.some.injEq] at hb
    subst hb; exact e1

/-- A word followed by `(` that is not a quote-less `url(`. -/
theorem fwd_identLike_func {s : St} {w rest : Bytes} {X : Exc} (h : On s (w ++ 40 :: rest))
    (hw : ∀ b ∈ w, isNameByte b = true) (hu : IsUrlWord w → ∃ m t, rest = m :: t ∧ (m = 34 ∨ m = 39)) :
    wp nextIdentLikeToken (fun _ s' => Reads s s' (.func w) rest) X
      { s with lex := { s.lex with start := s.lex.lastPos } } := by
  have sc : SameCursor s { s with lex := { s.lex with start := s.lex.lastPos } } :=
    ⟨rfl, rfl, rfl, rfl, rfl, rfl, rfl, rfl⟩
  generalize hs0 : ({ s with lex := { s.lex with start := s.lex.lastPos } } : St) = s0 at sc
  have hst : s0.lex.start = s.lex.lastPos := by rw [← hs0]
  have o0 := sc.on h
  rw [nextIdentLikeToken]
  refine fwd_word o0 hw (WordStop.lparen _) fun s1 o1 a1 e1 e2 e3 e4 => ?_
  wpb
  have hc : s1.lex.ch = 40 := by
    rw [o1.chEq, chOf_cons (by decide) (by decide)]; rfl
  have fin : ∀ s2, Mov s1 s2 → On s2 rest →
      Reads s { s2 with lex := { s2.lex with cur := .functionStart } } (.func w) rest := by
    intro s2 m2 o2
    have sc2 : SameCursor s2 { s2 with lex := { s2.lex with cur := .functionStart } } :=
      ⟨rfl, rfl, rfl, rfl, rfl, rfl, rfl, rfl⟩
    refine ⟨sc2.on o2, (sc.adv h.inv).trans h.inv (a1.trans o0.inv (m2.adv.trans o1.inv (sc2.adv o2.inv))),
      rfl, ?_, ?_, by simp [PTok.num]⟩
    · exact m2.start.trans (e2.trans hst)
    · intro b hb
      simp only [PTok.str, Option.some.injEq] at hb
      subst hb; exact m2.str.trans e1
  by_cases hu' : isURLString w = true
  · obtain ⟨m, t, rfl, hm⟩ := hu (isURLString_iff.1 hu')
    rw [if_pos (by rw [e1]; exact ⟨hu', hc⟩)]
    refine wp_seq (fwd_byte o1 (by decide) (by decide)) fun _ s2 ⟨m2, o2⟩ => ?_
    have hmc : s2.lex.ch = m.toNat := by
      rw [o2.chEq]
      exact chOf_cons (by rcases hm with rfl | rfl <;> decide) (by rcases hm with rfl | rfl <;> decide)
    have hws : isWhitespace s2.lex.ch = false := by
      rw [hmc]; rcases hm with rfl | rfl <;> decide
    have hu0 : ∀ k, urlWsLoop k s2 = .ok () s2 := by
      intro k
      cases k with
      | zero => rfl
      | succ k =>
        show (getCh >>= _) s2 = _
        rw [getCh_bind, hws]; rfl
    refine wp_seq (m := P.get) (wp_of_eq (Q := fun a s' => a = s2 ∧ s' = s2) rfl ⟨rfl, rfl⟩) fun a s3 ⟨ha, hs3⟩ => ?_
    rw [ha, hs3]
    refine wp_seq (wp_of_eq (Q := fun _ s' => s' = s2) (hu0 _) rfl) fun _ s4 hs4 => ?_
    rw [hs4]
    wpb
    rw [if_pos (by rw [hmc]; rcases hm with rfl | rfl <;> simp)]
    wpb
    exact fin _ m2 o2
  · rw [if_neg (by rw [e1]; simp [hu']), if_pos hc]
    refine wp_seq (fwd_byte o1 (by decide) (by decide)) fun _ s2 ⟨m2, o2⟩ => ?_
    wpb
    exact fin _ m2 o2

theorem urlBodyByte_cases {b : UInt8} (hb : isUrlBodyByte b = true) (hlt : b.toNat < 0x80) :
    b = 92 ∨ ((b.toNat : Int) ≠ 41 ∧ (b.toNat : Int) ≠ 34 ∧ (b.toNat : Int) ≠ 39 ∧ (b.toNat : Int) ≠ 40 ∧
      (b.toNat : Int) ≠ 92 ∧ (isWhitespace (b.toNat : Int) = true ∨ isNonPrintable (b.toNat : Int) = false)) := by
  set_option synthInstance.maxSize 1000 in
  have aux : ∀ n : Nat, n < 128 → isUrlBodyByte (UInt8.ofNat n) = true → UInt8.ofNat n = 92 ∨ ((n : Int) ≠ 41 ∧
      (n : Int) ≠ 34 ∧ (n : Int) ≠ 39 ∧ (n : Int) ≠ 40 ∧ (n : Int) ≠ 92 ∧
      (isWhitespace (n : Int) = true ∨ isNonPrintable (n : Int) = false)) := by decide +kernel
  have := aux b.toNat hlt
  rw [UInt8.ofNat_toNat] at this
  exact this hb

theorem noEscLf_drop : ∀ (j : Nat) {w : Bytes}, noEscLf w = true → noEscLf (w.drop j) = true
  | 0, _, h => h
  | _ + 1, [], h => h
  | j + 1, b :: w, h => by
    simp only [noEscLf, Bool.and_eq_true] at h
    exact noEscLf_drop j h.2

/-- One character of an unquoted address. -/
theorem fwd_urlRune {X : Exc} {s : St} {w rest : Bytes} (h : On s (w ++ 41 :: rest)) (hw : w ≠ [])
    (hd : ∀ b ∈ w, isUrlBodyByte b = true) :
    wp step (fun _ s' => Mov s s' ∧ ∃ j, 1 ≤ j ∧ j ≤ w.length ∧ On s' (w.drop j ++ 41 :: rest) ∧
      s'.lex.lastPos = s.lex.lastPos + j) X s := by
  obtain ⟨j, hj1, hj2, hstep, hon, hpos, _⟩ := h.rune (p := isUrlBodyByte) hw hd (by decide)
    (.inr ⟨41, rest, rfl, by decide⟩)
  have hm : Mov s (s.moveTo (s.lex.lastPos + j)) := by rw [← hpos]; exact mov_step h.inv
  exact wp_of_eq hstep ⟨hm, j, hj1, hj2, hon, rfl⟩

/-- The digits of an escape in an unquoted address. -/
theorem fwd_urlEscape {X : Exc} : ∀ (i : Nat) (w : Bytes) (s : St) (rest : Bytes), On s (w ++ 41 :: rest) →
    (∀ b ∈ w, isUrlBodyByte b = true) →
    wp (escapedLoop i) (fun _ s' => Mov s s' ∧ ∃ j, j ≤ w.length ∧ On s' (w.drop j ++ 41 :: rest) ∧
      s'.lex.lastPos = s.lex.lastPos + j) X s
  | 0, w, s, rest, h, _ => ⟨Mov.refl h.inv, 0, by omega, h, rfl⟩
  | i + 1, w, s, rest, h, hd => by
    have sub : ∀ j, ∀ b ∈ w.drop j, isUrlBodyByte b = true := fun j b hb => hd b (List.mem_of_mem_drop hb)
    simp only [escapedLoop]
    wpb
    refine wp_ite (fun hc => ?_) fun _ => ⟨Mov.refl h.inv, 0, by omega, h, rfl⟩
    have hw : w ≠ [] := by
      rintro rfl
      rw [h.chEq, List.nil_append, chOf_cons (by decide) (by decide)] at hc
      exact absurd hc (by decide)
    refine wp_seq (fwd_urlRune h hw hd) fun _ s1 ⟨m1, j, hj1, hj2, o1, l1⟩ => ?_
    wpb
    have fin : ∀ (s2 : St) (k : Nat), Mov s s2 → k ≤ w.length → On s2 (w.drop k ++ 41 :: rest) →
        s2.lex.lastPos = s.lex.lastPos + k →
        wp (escapedLoop i) (fun _ s' => Mov s s' ∧ ∃ j, j ≤ w.length ∧ On s' (w.drop j ++ 41 :: rest) ∧
          s'.lex.lastPos = s.lex.lastPos + j) X s2 := by
      intro s2 k m2 hk o2 l2
      refine wp_mono (fwd_urlEscape i (w.drop k) s2 rest o2 (sub k)) fun _ s3 ⟨m3, j', hj', o3, l3⟩ => ?_
      rw [List.length_drop] at hj'
      refine ⟨m2.trans h.inv m3, k + j', by omega, ?_, by omega⟩
      rw [← List.drop_drop]; exact o3
    have hws : wp (whenP (isWhitespace s1.lex.ch = true) step) (fun _ s2 => Mov s s2 ∧ ∃ k, k ≤ w.length ∧
        On s2 (w.drop k ++ 41 :: rest) ∧ s2.lex.lastPos = s.lex.lastPos + k) X s1 := by
      refine wp_whenP (fun hws => ?_) fun _ => ⟨m1, j, hj2, o1, l1⟩
      have hw2 : w.drop j ≠ [] := by
        intro e
        rw [e, List.nil_append] at o1
        rw [o1.chEq, chOf_cons (by decide) (by decide)] at hws
        exact absurd hws (by decide)
      refine wp_mono (fwd_urlRune o1 hw2 (sub j)) fun _ s2 ⟨m2, k, hk1, hk2, o2, l2⟩ => ?_
      rw [List.length_drop] at hk2
      rw [List.drop_drop] at o2
      exact ⟨m1.trans h.inv m2, j + k, by omega, o2, by omega⟩
    exact wp_seq hws fun _ s2 ⟨m2, k, hk, o2, l2⟩ => fin s2 k m2 hk o2 l2

/-- The loop over an unquoted address. -/
theorem fwd_url {X : Exc} {us : Nat} : ∀ (k : Nat) (w : Bytes) (n : Nat) (s : St) (rest : Bytes),
    w.length ≤ k → On s (w ++ 41 :: rest) → (∀ b ∈ w, isUrlBodyByte b = true) → noEscLf w = true → w.length < n →
    us ≤ s.lex.lastPos →
    wp (urlLoop us n) (fun _ s' => On s' rest ∧ Adv s s' ∧ s'.lex.str = sub s.src us (s.lex.lastPos + w.length) ∧
      s'.lex.start = s.lex.start ∧ s'.lex.cur = s.lex.cur ∧ s'.lex.num = s.lex.num) X s
  | _, _, 0, _, _, _, _, _, _, hn, _ => by omega
  | k, [], n + 1, s, rest, _, h, _, _, _, hus => by
    simp only [urlLoop]
    wpb
    rw [List.nil_append] at h
    rw [h.chEq, chOf_cons (by decide) (by decide), if_pos (by decide)]
    wpb
    rw [wpb_slice hus h.inv.le, wpb_setStr]
    have sc : SameCursor s { s with lex := { s.lex with str := sub s.src us s.lex.lastPos } } :=
      ⟨rfl, rfl, rfl, rfl, rfl, rfl, rfl, rfl⟩
    refine wp_mono (fwd_byte (sc.on h) (by decide) (by decide)) fun _ s1 ⟨m1, o1⟩ => ?_
    exact ⟨o1, (sc.adv h.inv).trans h.inv m1.adv, m1.str, m1.start, m1.cur, m1.num⟩
  | 0, b :: w, n + 1, s, rest, hk, h, hd, _, hn, _ => by simp at hk
  | k + 1, b :: w, n + 1, s, rest, hk, h, hd, he, hn, hus => by
    simp only [List.length_cons] at hk hn
    have again : ∀ (s1 : St) (j : Nat), Mov s s1 → 1 ≤ j → j ≤ w.length + 1 → On s1 ((b :: w).drop j ++ 41 :: rest) →
        s1.lex.lastPos = s.lex.lastPos + j →
        wp (urlLoop us n) (fun _ s' => On s' rest ∧ Adv s s' ∧
          s'.lex.str = sub s.src us (s.lex.lastPos + (b :: w).length) ∧
          s'.lex.start = s.lex.start ∧ s'.lex.cur = s.lex.cur ∧ s'.lex.num = s.lex.num) X s1 := by
      intro s1 j m1 hj1 hj2 o1 l1
      have hlen : ((b :: w).drop j).length = w.length + 1 - j := by simp
      refine wp_mono (fwd_url k ((b :: w).drop j) n s1 rest (by omega) o1
        (fun c hc => hd c (List.mem_of_mem_drop hc)) (noEscLf_drop j he) (by omega) (by omega))
        fun _ s2 ⟨o2, a2, e2, e3, e4, e5⟩ => ?_
      refine ⟨o2, m1.adv.trans h.inv a2, ?_, e3.trans m1.start, e4.trans m1.cur, e5.trans m1.num⟩
      rw [e2, l1, hlen, m1.src, List.length_cons]
      congr 1; omega
    simp only [urlLoop]
    wpb
    obtain ⟨j, hj1, hj2, hstep, hon, hpos, hcase⟩ := h.rune (p := isUrlBodyByte) (by simp) hd
      (by decide) (.inr ⟨41, rest, rfl, by decide⟩)
    simp only [List.length_cons] at hj2
    have hm : Mov s (s.moveTo (s.lex.lastPos + j)) := by rw [← hpos]; exact mov_step h.inv
    have hcases : b = 92 ∨ (s.lex.ch ≠ 41 ∧ s.lex.ch ≠ 34 ∧ s.lex.ch ≠ 39 ∧ s.lex.ch ≠ 40 ∧
        s.lex.ch ≠ 92 ∧ (isWhitespace s.lex.ch = true ∨ isNonPrintable s.lex.ch = false)) := by
      rcases hcase with ⟨c, w', he, hlt, hp, hch, _⟩ | hge
      · obtain ⟨rfl, _⟩ := List.cons.inj he
        rw [hch]
        exact urlBodyByte_cases hp hlt
      · right
        refine ⟨by omega, by omega, by omega, by omega, by omega, .inr ?_⟩
        simp only [isNonPrintable, Bool.or_eq_false_iff, beq_eq_false_iff_ne, Bool.and_eq_false_iff,
            decide_eq_false_iff_not]
        refine ⟨⟨⟨?_, ?_⟩, ?_⟩, ?_⟩ <;> omega
    have hge : s.lex.ch ≠ -1 := by
      rcases hcase with ⟨c, w', he, hlt, hp, hch, _⟩ | hge <;> omega
    rcases hcases with rfl | ⟨n1, n3, n4, n5, n6, n7⟩
    · have hch : s.lex.ch = 92 := by
        rw [h.chEq, List.cons_append, chOf_cons (by decide) (by decide)]; decide
      rw [hch, if_neg (by decide), if_neg (by decide), if_neg (by decide), if_pos (by decide)]
      wpb
      have hse : startsEscape 92 (s.peek 0) = true := by
        have hne : s.peek 0 ≠ 10 := by
          rw [List.cons_append] at h
          rw [h.peekEq (by decide) (by decide), List.drop_zero]
          cases w with
          | nil => rw [List.nil_append, headRune_cons (by decide)]; decide
          | cons c w =>
            have hc10 : c ≠ 10 := by
              rintro rfl
              simp [noEscLf] at he
            rw [List.cons_append]
            by_cases hlt : c.toNat < 0x80
            · rw [headRune_cons hlt]
              intro e
              exact hc10 (UInt8.eq_of_toNat (n := 10) (by omega))
            · rw [headRune, if_neg (by simp)]
              rcases decodeRune_cons c (w ++ 41 :: rest) with ⟨h1, _⟩ | ⟨_, h1, _⟩ <;> omega
        simp [startsEscape, hne]
      rw [if_pos hse, nextEscaped, wpb_assoc]
      have hb := h.byte (by decide) (by decide)
      refine wp_seq (wp_of_eq (Q := fun _ s' => Mov s s' ∧ On s' (w ++ 41 :: rest) ∧
        s'.lex.lastPos = s.lex.lastPos + 1) hb.2.2.1 ⟨by rw [← hb.2.1]; exact mov_step h.inv, hb.2.2.2, rfl⟩)
        fun _ s1 ⟨m1, o1, l1⟩ => ?_
      refine wp_seq (fwd_urlEscape 5 w s1 rest o1 fun c hc => hd c (by simp [hc])) fun _ s2 ⟨m2, j', hj', o2, l2⟩ => ?_
      exact again s2 (j' + 1) (m1.trans h.inv m2) (by omega) (by omega) o2 (by omega)
    · rw [if_neg n1, if_neg hge, if_neg (by simp [n3, n4, n5]), if_neg n6]
      have go : wp (do step; urlLoop us n) (fun _ s' => On s' rest ∧ Adv s s' ∧
          s'.lex.str = sub s.src us (s.lex.lastPos + (b :: w).length) ∧
          s'.lex.start = s.lex.start ∧ s'.lex.cur = s.lex.cur ∧ s'.lex.num = s.lex.num) X s :=
        wp_seq (wp_of_eq (Q := fun _ s' => Mov s s' ∧ On s' ((b :: w).drop j ++ 41 :: rest) ∧
          s'.lex.lastPos = s.lex.lastPos + j) hstep ⟨hm, hon, rfl⟩) fun _ s1 ⟨m1, o1, l1⟩ =>
          again s1 j m1 hj1 hj2 o1 l1
      refine wp_ite (fun _ => go) fun hnw => wp_ite (fun hnp => ?_) fun _ => go
      rcases n7 with n7 | n7
      · exact absurd n7 hnw
      · rw [n7] at hnp; cases hnp

/-- An unquoted `url(...)`. -/
theorem fwd_identLike_url {s : St} {w v rest : Bytes} {X : Exc} (h : On s (w ++ 40 :: (v ++ 41 :: rest)))
    (hw : ∀ b ∈ w, isNameByte b = true) (hu : IsUrlWord w) (hv : isUrlBody v = true) :
    wp nextIdentLikeToken (fun _ s' => Reads s s' (.url w v) rest) X
      { s with lex := { s.lex with start := s.lex.lastPos } } := by
  have sc : SameCursor s { s with lex := { s.lex with start := s.lex.lastPos } } :=
    ⟨rfl, rfl, rfl, rfl, rfl, rfl, rfl, rfl⟩
  generalize hs0 : ({ s with lex := { s.lex with start := s.lex.lastPos } } : St) = s0 at sc
  have hst : s0.lex.start = s.lex.lastPos := by rw [← hs0]
  have o0 := sc.on h
  simp only [isUrlBody, Bool.and_eq_true, List.all_eq_true] at hv
  obtain ⟨⟨hv, hesc⟩, hfirst⟩ := hv
  rw [nextIdentLikeToken]
  refine fwd_word o0 hw (WordStop.lparen _) fun s1 o1 a1 e1 e2 e3 e4 => ?_
  wpb
  have hc : s1.lex.ch = 40 := by
    rw [o1.chEq, chOf_cons (by decide) (by decide)]; rfl
  rw [if_pos (by rw [e1]; exact ⟨isURLString_iff.2 hu, hc⟩)]
  refine wp_seq (fwd_byte o1 (by decide) (by decide)) fun _ s2 ⟨m2, o2⟩ => ?_
  have hch : isWhitespace s2.lex.ch = false ∧ s2.lex.ch ≠ 39 ∧ s2.lex.ch ≠ 34 := by
    cases v with
    | nil =>
      have : s2.lex.ch = 41 := by rw [o2.chEq]; exact chOf_cons (by decide) (by decide)
      rw [this]; decide
    | cons b v' =>
      obtain ⟨j, _, _, _, _, _, hcase⟩ := o2.rune (p := isUrlBodyByte) (by simp) hv (by decide) (.inr ⟨41, rest, rfl, by decide⟩)
      rcases hcase with ⟨c, w', he, hlt, hp, hch, _⟩ | hge
      · obtain ⟨rfl, rfl⟩ := List.cons.inj he
        rw [hch]
        have hws : isWhitespace (b.toNat : Int) = false := by
          have aux : ∀ n : Nat, n < 128 → isWsByte (UInt8.ofNat n) = false → isWhitespace (n : Int) = false := by
            decide +kernel
          have := aux b.toNat hlt
          rw [UInt8.ofNat_toNat] at this
          exact this (by simpa using hfirst)
        rcases urlBodyByte_cases hp hlt with rfl | ⟨n1, n3, n4, n5, n6, n7⟩
        · exact ⟨hws, by decide, by decide⟩
        · exact ⟨hws, n4, n3⟩
      · refine ⟨?_, by omega, by omega⟩
        simp only [isWhitespace, Bool.or_eq_false_iff, beq_eq_false_iff_ne]
        refine ⟨⟨?_, ?_⟩, ?_⟩ <;> omega
  have hu0 : ∀ k, urlWsLoop k s2 = .ok () s2 := by
    intro k
    cases k with
    | zero => rfl
    | succ k =>
      show (getCh >>= _) s2 = _
      rw [getCh_bind, hch.1]; rfl
  refine wp_seq (m := P.get) (wp_of_eq (Q := fun a s' => a = s2 ∧ s' = s2) rfl ⟨rfl, rfl⟩) fun a s3 ⟨ha, hs3⟩ => ?_
  rw [ha, hs3]
  refine wp_seq (wp_of_eq (Q := fun _ s' => s' = s2) (hu0 _) rfl) fun _ s4 hs4 => ?_
  rw [hs4]
  clear hs3 hs4 ha
  wpb
  rw [if_neg (by simp [hch])]
  wpb
  have sc2 : SameCursor s2 { s2 with lex := { s2.lex with cur := .url } } :=
    ⟨rfl, rfl, rfl, rfl, rfl, rfl, rfl, rfl⟩
  have hl := o2.len
  simp only [List.length_append, List.length_cons] at hl
  refine wp_mono (fwd_url (us := s2.lex.lastPos) v.length v _ _ rest (Nat.le_refl _) (sc2.on o2) hv hesc ?_ (Nat.le_refl _))
    fun _ s5 ⟨o4, a4, f1, f2, f3, f4⟩ => ?_
  · show v.length < s2.src.length + 2
    omega
  refine ⟨o4, (sc.adv h.inv).trans h.inv (a1.trans o0.inv (m2.adv.trans o1.inv ((sc2.adv o2.inv).trans o2.inv a4))),
    f3, ?_, ?_, by simp [PTok.num]⟩
  · exact f2.trans (m2.start.trans (e2.trans hst))
  · intro b hb
    simp only [PTok.str, Option.some.injEq] at hb
    subst hb
    rw [f1]
    exact o2.sub

/-- Reading a name and storing it as the token's payload, at the end of a method. -/
theorem fwd_word_end {s : St} {w rest : Bytes} {X : Exc} {Q : Unit → St → Prop}
    (h : On s (w ++ rest)) (hw : ∀ b ∈ w, isNameByte b = true) (hr : WordStop rest)
    (hf : ∀ s', On s' rest → Adv s s' → s'.lex.str = w → s'.lex.start = s.lex.start →
      s'.lex.cur = s.lex.cur → s'.lex.num = s.lex.num → Q () s') :
    wp (do
      let start ← getLastPos
      nextName
      let e ← getLastPos
      let x ← slice start e
      setStr x) Q X s :=
  fwd_word (f := pure ()) h hw hr hf

theorem IsIdent.word {w : Bytes} (h : IsIdent w) : IsWord w := by
  obtain ⟨hall, hw⟩ := h
  rcases hw with ⟨b, t, rfl, hb⟩ | ⟨b, t, rfl, hb, _⟩ | ⟨b, t, rfl, hb⟩ | ⟨b, t, rfl, _⟩ | ⟨b, t, rfl⟩
  · refine ⟨by simp, ?_, hall⟩
    intro e
    cases e
    revert hb; decide
  · refine ⟨by simp, ?_, hall⟩
    intro e
    cases e
    revert hb; decide
  · exact ⟨by simp, by simp, hall⟩
  · exact ⟨by simp, by simp, hall⟩
  · exact ⟨by simp, by simp, hall⟩

theorem startsIdentifier_word {w rest : Bytes} (hw : IsWord w) :
    startsIdentifier (headRune (w ++ rest)) (headRune ((w ++ rest).drop 1)) (headRune ((w ++ rest).drop 2)) = true := by
  obtain ⟨h1, h2, hall⟩ := hw
  cases w with
  | nil => exact absurd rfl h1
  | cons b t =>
    have hb := headRune_name (t := t ++ rest) (hall b (by simp))
    rw [List.cons_append]
    unfold startsIdentifier
    split
    · cases t with
      | nil =>
        rename_i he
        by_cases hlt : b.toNat < 0x80
        · rw [headRune_cons hlt] at he
          exact absurd (by rw [show b = 45 from UInt8.eq_of_toNat (by show b.toNat = 45; omega)]) h2
        · simp only [headRune, reduceCtorEq, if_false] at he
          rcases decodeRune_cons b ([] ++ rest) with ⟨h', _⟩ | ⟨_, h', _⟩
          · omega
          · rw [he] at h'; omega
      | cons c u =>
        have hc := headRune_name (t := u ++ rest) (hall c (by simp))
        simp only [List.cons_append, List.drop_succ_cons, List.drop_zero]
        rw [hc]
        simp
    · split
      · rename_i he
        rw [he] at hb
        revert hb; decide
      · exact hb

theorem fwd_tok_at {s : St} {w rest : Bytes} {X : Exc} {n : Nat} (h : On s (64 :: (w ++ rest)))
    (hw : IsWord w) (hr : WordStop rest) :
    wp (nextLoop (n + 1)) (fun _ s' => Reads s s' (.at w) rest) X s := by
  rw [nextLoop_wp]
  have hc := h.chEq
  rw [chOf_cons (by decide) (by decide)] at hc
  rw [hc, h.peekEq (by decide) (by decide), h.peekEq (by decide) (by decide),
      h.peekEq (by decide) (by decide), List.drop_zero]
  show wp (if startsIdentifier _ _ _ = true then _ else _) _ _ _
  rw [if_pos (startsIdentifier_word hw)]
  have sc : SameCursor s { s with lex := { s.lex with start := s.lex.lastPos } } :=
    ⟨rfl, rfl, rfl, rfl, rfl, rfl, rfl, rfl⟩
  generalize hs0 : ({ s with lex := { s.lex with start := s.lex.lastPos } } : St) = s0 at sc
  have hst : s0.lex.start = s.lex.lastPos := by rw [← hs0]
  have o0 := sc.on h
  refine wp_seq (fwd_byte o0 (by decide) (by decide)) fun _ s1 ⟨m1, o1⟩ => ?_
  rw [wpb_setCur]
  have sc1 : SameCursor s1 { s1 with lex := { s1.lex with cur := .at } } :=
    ⟨rfl, rfl, rfl, rfl, rfl, rfl, rfl, rfl⟩
  refine fwd_word_end (sc1.on o1) hw.2.2 hr fun s2 o2 a2 e1 e2 e3 e4 => ?_
  have a1 := (sc.adv h.inv).trans h.inv (m1.adv.trans o0.inv (sc1.adv o1.inv))
  refine ⟨o2, a1.trans h.inv a2, e3, ?_, ?_, by simp [PTok.num]⟩
  · exact e2.trans (m1.start.trans hst)
  · intro b hb
    simp only [PTok.str, Option.some.injEq] at hb
    subst hb; exact e1

theorem fwd_tok_hash {s : St} {w rest : Bytes} {X : Exc} {n : Nat} (h : On s (35 :: (w ++ rest)))
    (hw : w ≠ []) (hall : ∀ b ∈ w, isNameByte b = true) (hr : WordStop rest) :
    wp (nextLoop (n + 1)) (fun _ s' => Reads s s' (.hash w) rest) X s := by
  rw [nextLoop_wp]
  have hc := h.chEq
  rw [chOf_cons (by decide) (by decide)] at hc
  rw [hc, h.peekEq (by decide) (by decide), h.peekEq (by decide) (by decide),
      h.peekEq (by decide) (by decide), List.drop_zero]
  show wp (if (isName _ || startsEscape _ _) = true then _ else _) _ _ _
  have hn : isName (headRune (w ++ rest)) = true := by
    obtain ⟨b, t, rfl⟩ := List.exists_cons_of_ne_nil hw
    exact headRune_name (hall b (by simp))
  rw [if_pos (by rw [hn]; rfl)]
  have sc : SameCursor s { s with lex := { s.lex with start := s.lex.lastPos, cur := .hash } } :=
    ⟨rfl, rfl, rfl, rfl, rfl, rfl, rfl, rfl⟩
  rw [wpb_setCur]
  generalize hs0 : ({ s with lex := { s.lex with start := s.lex.lastPos, cur := .hash } } : St) = s0 at sc
  have hst : s0.lex.start = s.lex.lastPos := by rw [← hs0]
  have hcur : s0.lex.cur = .hash := by rw [← hs0]
  have o0 := sc.on h
  refine wp_seq (fwd_byte o0 (by decide) (by decide)) fun _ s1 ⟨m1, o1⟩ => ?_
  refine fwd_word_end o1 hall hr fun s2 o2 a2 e1 e2 e3 e4 => ?_
  have a1 := (sc.adv h.inv).trans h.inv m1.adv
  refine ⟨o2, a1.trans h.inv a2, e3.trans (m1.cur.trans hcur), ?_, ?_, by simp [PTok.num]⟩
  · exact e2.trans (m1.start.trans hst)
  · intro b hb
    simp only [PTok.str, Option.some.injEq] at hb
    subst hb; exact e1

theorem fwd_tok_string {s : St} {mark : UInt8} {w rest : Bytes} {X : Exc} {n : Nat}
    (h : On s (mark :: (w ++ mark :: rest))) (hm : mark = 34 ∨ mark = 39)
    (hw : isStringBody mark w = true) :
    wp (nextLoop (n + 1)) (fun _ s' => Reads s s' (.string mark w) rest) X s := by
  rw [nextLoop_wp]
  have hmlt : mark.toNat < 0x80 ∧ mark ≠ 13 := by rcases hm with rfl | rfl <;> decide
  have hc := h.chEq
  rw [chOf_cons hmlt.1 hmlt.2] at hc
  have hbody : tokBody n s.lex.ch (s.peek 0) (s.peek 1) (s.peek 2) = (do
      step
      let start ← getLastPos
      let fuel ← lexFuel
      let e ← stringLoop (mark.toNat : Int) fuel
      setCur .string
      let x ← slice start e
      setStr x) := by
    rw [hc]
    rcases hm with rfl | rfl <;> rfl
  rw [hbody]
  have sc : SameCursor s { s with lex := { s.lex with start := s.lex.lastPos } } :=
    ⟨rfl, rfl, rfl, rfl, rfl, rfl, rfl, rfl⟩
  generalize hs0 : ({ s with lex := { s.lex with start := s.lex.lastPos } } : St) = s0 at sc
  have hst : s0.lex.start = s.lex.lastPos := by rw [← hs0]
  have o0 := sc.on h
  refine wp_seq (fwd_byte o0 hmlt.1 hmlt.2) fun _ s1 ⟨m1, o1⟩ => ?_
  wpb
  have hl1 := o1.len
  rw [List.length_append] at hl1
  refine wp_seq (fwd_string mark hm _ w s1 rest o1 hw (by omega))
    fun e s2 ⟨m2, o2, he⟩ => ?_
  rw [wpb_setCur]
  have sc2 : SameCursor s2 { s2 with lex := { s2.lex with cur := .string } } :=
    ⟨rfl, rfl, rfl, rfl, rfl, rfl, rfl, rfl⟩
  generalize hs3 : ({ s2 with lex := { s2.lex with cur := .string } } : St) = s3 at sc2
  have hcur : s3.lex.cur = .string := by rw [← hs3]
  have hst3 : s3.lex.start = s2.lex.start := by rw [← hs3]
  have hsrc : s3.src = s1.src := sc2.src.trans m2.src
  subst he
  rw [wpb_slice (by omega) (by rw [hsrc]; omega), hsrc, o1.sub]
  wpb
  have sc4 : SameCursor s3 { s3 with lex := { s3.lex with str := w } } :=
    ⟨rfl, rfl, rfl, rfl, rfl, rfl, rfl, rfl⟩
  have sc2 := sc4.on (sc2.on o2)
  refine ⟨sc2, ?_, hcur, ?_, ?_, by simp [PTok.num]⟩
  · have a1 := (sc.adv h.inv).trans h.inv (m1.adv.trans o0.inv m2.adv)
    have a2 : Adv s2 s3 := SameCursor.adv (by assumption) o2.inv
    exact a1.trans h.inv (a2.trans o2.inv (sc4.adv a2.inv))
  · show s3.lex.start = _
    rw [hst3, m2.start, m1.start, hst]
  · intro b hb
    simp only [PTok.str, Option.some.injEq] at hb
    subst hb; rfl

/-! ### Numeric tokens -/

theorem tokBody_digit {n : Nat} {b : UInt8} {p0 p1 p2 : Int} (h : isAD b = true) :
    tokBody n (b.toNat : Int) p0 p1 p2 = nextNumericToken := by
  have hd : isDigit (b.toNat : Int) = true := by rw [isDigit_byte (isAD_lt h).1, h]
  generalize (b.toNat : Int) = c at hd
  have hr : 48 ≤ c ∧ c ≤ 57 ∨ 255 < c := by
    unfold isDigit at hd
    split at hd
    · left; simpa using hd
    · right; omega
  have hc : c ≠ -1 ∧ c ≠ 59 ∧ c ≠ 58 ∧ c ≠ 43 ∧ c ≠ 45 ∧ c ≠ 60 ∧ c ≠ 64 ∧ c ≠ 35 ∧ c ≠ 44 ∧ c ≠ 40 ∧
      c ≠ 41 ∧ c ≠ 91 ∧ c ≠ 93 ∧ c ≠ 123 ∧ c ≠ 125 ∧ c ≠ 46 ∧ c ≠ 92 ∧ c ≠ 47 ∧ c ≠ 34 ∧ c ≠ 39 ∧
      isWhitespace c = false := by
    simp only [isWhitespace, Bool.or_eq_false_iff, beq_eq_false_iff_ne]
    omega
  simp only [tokBody, hc, hd, if_true, if_false, or_self, Bool.false_eq_true]

/-- The dispatch on the first runes of a number. -/
theorem tokBody_num {s : St} {sgn ds fr ex rest : Bytes} {n : Nat} (hn : IsNumeral sgn ds fr ex)
    (h : On s (sgn ++ (ds ++ (fr ++ (ex ++ rest))))) :
    tokBody n s.lex.ch (s.peek 0) (s.peek 1) (s.peek 2) = nextNumericToken := by
  have hch := h.chEq
  have key : ∀ b t, isAD b = true → headRune (b :: t) = b.toNat ∧ isDigit (headRune (b :: t)) = true := by
    intro b t hb
    rw [headRune_cons (isAD_lt hb).1, isDigit_byte (isAD_lt hb).1]
    exact ⟨rfl, hb⟩
  -- what follows the sign starts with a digit, or with a point and a digit
  have hd : (∃ b t, ds ++ (fr ++ (ex ++ rest)) = b :: t ∧ isAD b = true) ∨
      ∃ b t, ds ++ (fr ++ (ex ++ rest)) = 46 :: b :: t ∧ isAD b = true := by
    cases ds with
    | nil =>
      right
      rcases hn.frOk with rfl | ⟨f, rfl, hf, hfd⟩
      · exact absurd hn.nonempty (by simp)
      · obtain ⟨b, t, rfl, hb, _⟩ := digits_cons hf hfd
        exact ⟨b, _, rfl, hb⟩
    | cons b ds => exact .inl ⟨b, _, rfl, hn.dsOk b (by simp)⟩
  generalize ds ++ (fr ++ (ex ++ rest)) = tail at h hch hd
  have sn : ∀ c : Int, c = 43 ∨ c = 45 → startsNumber c (headRune tail) (headRune (tail.drop 1)) = true := by
    intro c hc
    rcases hd with ⟨b, t, rfl, hb⟩ | ⟨b, t, rfl, hb⟩
    · simp only [startsNumber, hc, (key b t hb).2, if_true]
    · simp only [List.drop_succ_cons, List.drop_zero, headRune_cons (b := 46) (t := b :: t) (by decide)]
      show startsNumber c 46 _ = true
      simp only [startsNumber, hc, (key b t hb).2, if_true, and_self]
      decide
  rcases hn.sgnOk with rfl | rfl | rfl
  · rw [List.nil_append] at h hch
    rcases hd with ⟨b, t, rfl, hb⟩ | ⟨b, t, rfl, hb⟩
    · have hl := isAD_lt hb
      rw [chOf_cons hl.1 hl.2] at hch
      rw [hch]; exact tokBody_digit hb
    · rw [chOf_cons (by decide) (by decide)] at hch
      rw [hch, h.peekEq (by decide) (by decide), h.peekEq (by decide) (by decide), List.drop_zero]
      show (if startsNumber _ _ _ = true then _ else _) = _
      rw [if_pos]
      have hl := isAD_lt hb
      have hr : 48 ≤ headRune (b :: t) ∧ headRune (b :: t) ≤ 57 := by
        rw [headRune_cons hl.1]
        simp only [isAD, Bool.and_eq_true, decide_eq_true_eq] at hb
        omega
      rw [startsNumber, if_neg (by omega), if_neg (by omega)]
      exact (key b t hb).2
  · rw [List.cons_append, List.nil_append] at h hch
    rw [chOf_cons (by decide) (by decide)] at hch
    rw [hch, h.peekEq (by decide) (by decide), h.peekEq (by decide) (by decide), List.drop_zero]
    show (if startsNumber 43 _ _ = true then _ else _) = _
    rw [if_pos (sn 43 (.inl rfl))]
  · rw [List.cons_append, List.nil_append] at h hch
    rw [chOf_cons (by decide) (by decide)] at hch
    rw [hch, h.peekEq (by decide) (by decide), h.peekEq (by decide) (by decide), List.drop_zero]
    show (if startsNumber 45 _ _ = true then _ else _) = _
    rw [if_pos (sn 45 (.inr rfl))]

theorem numeral_text {sgn ds fr ex rest : Bytes} :
    (sgn ++ (ds ++ (fr ++ ex))) ++ rest = sgn ++ (ds ++ (fr ++ (ex ++ rest))) := by
  simp only [List.append_assoc]

/-- The common part of numeric tokens. -/
theorem fwd_numeric {s : St} {num rest : Bytes} {X : Exc} {n : Nat} {Q : Unit → St → Prop} (hn : IsNum num)
    (h : On s (num ++ rest)) (hr : NumStop rest)
    (hf : ∀ s1, On s1 rest → Adv s s1 → s1.lex.num = num → s1.lex.start = s.lex.lastPos →
      wp (if startsIdentifier s1.lex.ch (s1.peek 0) (s1.peek 1) then do
            let dimenStart ← getLastPos
            nextName
            let e ← getLastPos
            let x ← slice dimenStart e
            setStr x
            setCur .dimension
          else if s1.lex.ch = r!"%" then do
            setCur .percentage
            step
          else setCur .number) Q X s1) :
    wp (nextLoop (n + 1)) Q X s := by
  obtain ⟨sgn, ds, fr, ex, hn, rfl⟩ := hn
  rw [numeral_text] at h
  rw [nextLoop_wp, tokBody_num hn h, nextNumericToken]
  have sc : SameCursor s { s with lex := { s.lex with start := s.lex.lastPos } } :=
    ⟨rfl, rfl, rfl, rfl, rfl, rfl, rfl, rfl⟩
  generalize hs0 : ({ s with lex := { s.lex with start := s.lex.lastPos } } : St) = s0 at sc
  have hst : s0.lex.start = s.lex.lastPos := by rw [← hs0]
  have o0 := sc.on h
  wpb
  refine wp_seq (fwd_number hn o0 hr) fun _ s1 ⟨m1, o1⟩ => ?_
  wpb
  rw [wpb_slice m1.le o1.inv.le]
  have hsub : sub s1.src s0.lex.lastPos s1.lex.lastPos = sgn ++ (ds ++ (fr ++ ex)) := by
    rw [← numeral_text] at o0
    have h1 := o0.len
    have h2 := o1.len
    rw [m1.src, List.length_append] at *
    have : s1.lex.lastPos = s0.lex.lastPos + (sgn ++ (ds ++ (fr ++ ex))).length := by omega
    rw [this]; exact o0.sub
  rw [hsub, wpb_setNum]
  have sc2 : SameCursor s1 { s1 with lex := { s1.lex with num := sgn ++ (ds ++ (fr ++ ex)) } } :=
    ⟨rfl, rfl, rfl, rfl, rfl, rfl, rfl, rfl⟩
  generalize hs2 : ({ s1 with lex := { s1.lex with num := sgn ++ (ds ++ (fr ++ ex)) } } : St) = s2 at sc2
  have hst2 : s2.lex.start = s1.lex.start := by rw [← hs2]
  have hnum : s2.lex.num = sgn ++ (ds ++ (fr ++ ex)) := by rw [← hs2]
  have a : Adv s s2 := (sc.adv h.inv).trans h.inv (m1.adv.trans o0.inv (sc2.adv o1.inv))
  wpb
  exact hf s2 (sc2.on o1) a hnum (hst2.trans (m1.start.trans hst))

theorem fwd_tok_number {s : St} {num rest : Bytes} {X : Exc} {n : Nat} (hn : IsNum num)
    (h : On s (num ++ rest)) (hr : NumStop rest) (hw : WordStop rest) (hp : ∀ t, rest ≠ 37 :: t) :
    wp (nextLoop (n + 1)) (fun _ s' => Reads s s' (.number num) rest) X s := by
  refine fwd_numeric hn h hr fun s1 o1 a1 e1 e2 => ?_
  have hc : isName s1.lex.ch = false ∧ s1.lex.ch ≠ 45 ∧ s1.lex.ch ≠ 37 := by
    rw [o1.chEq]
    rcases hw with rfl | ⟨b, t, rfl, h1, h2, h3, h4⟩
    · decide
    · rw [chOf_cons h1 h2, isName_byte h1]
      refine ⟨h3, ?_, ?_⟩
      · intro e
        rw [UInt8.eq_of_toNat (b := b) (n := 45) (by omega)] at h3
        simp [isNameByte] at h3
      · intro e
        exact hp t (by rw [UInt8.eq_of_toNat (b := b) (n := 37) (by omega)]; rfl)
  have hsi : startsIdentifier s1.lex.ch (s1.peek 0) (s1.peek 1) = false := by
    rw [startsIdentifier, if_neg hc.2.1]
    split
    · rfl
    · exact hc.1
  rw [hsi, if_neg (by simp), if_neg hc.2.2]
  wpb
  have sc : SameCursor s1 { s1 with lex := { s1.lex with cur := .number } } :=
    ⟨rfl, rfl, rfl, rfl, rfl, rfl, rfl, rfl⟩
  refine ⟨sc.on o1, a1.trans h.inv (sc.adv o1.inv), rfl, e2, by simp [PTok.str], ?_⟩
  intro b hb
  simp only [PTok.num, Option.some.injEq] at hb
  subst hb; exact e1

theorem NumStop.percent (t : Bytes) : NumStop (37 :: t) :=
  .inr ⟨37, t, rfl, by decide, by decide, by decide, fun h => absurd h (by decide), fun h => absurd h (by decide)⟩

theorem fwd_tok_percentage {s : St} {num rest : Bytes} {X : Exc} {n : Nat} (hn : IsNum num)
    (h : On s (num ++ 37 :: rest)) :
    wp (nextLoop (n + 1)) (fun _ s' => Reads s s' (.percentage num) rest) X s := by
  refine fwd_numeric hn h (NumStop.percent rest) fun s1 o1 a1 e1 e2 => ?_
  have hc : s1.lex.ch = 37 := by rw [o1.chEq, chOf_cons (by decide) (by decide)]; rfl
  rw [hc]
  show wp (do setCur .percentage; step) _ _ _
  rw [wpb_setCur]
  have sc : SameCursor s1 { s1 with lex := { s1.lex with cur := .percentage } } :=
    ⟨rfl, rfl, rfl, rfl, rfl, rfl, rfl, rfl⟩
  refine wp_mono (fwd_byte (sc.on o1) (by decide) (by decide)) fun _ s2 ⟨m2, o2⟩ => ?_
  refine ⟨o2, a1.trans h.inv ((sc.adv o1.inv).trans o1.inv m2.adv), m2.cur, m2.start.trans e2,
    by simp [PTok.str], ?_⟩
  intro b hb
  simp only [PTok.num, Option.some.injEq] at hb
  subst hb; exact m2.num.trans e1

theorem fwd_tok_dimension {s : St} {num u rest : Bytes} {X : Exc} {n : Nat} (hn : IsNum num)
    (hu : IsWord u) (h : On s (num ++ (u ++ rest))) (hr : NumStop (u ++ rest)) (hw : WordStop rest) :
    wp (nextLoop (n + 1)) (fun _ s' => Reads s s' (.dimension num u) rest) X s := by
  refine fwd_numeric hn h hr fun s1 o1 a1 e1 e2 => ?_
  have hsi : startsIdentifier s1.lex.ch (s1.peek 0) (s1.peek 1) = true := by
    have hs := startsIdentifier_word (rest := rest) hu
    rcases hr with hr | ⟨b, t, hr, hb1, hb2, _⟩
    · rw [hr] at hs; simp [headRune] at hs; exact absurd hs (by decide)
    · have hd0 : u ++ rest = b :: t := hr
      have o1' := o1
      rw [hr] at hs o1'
      rw [o1'.chEq, chOf_cons hb1 hb2, o1'.peekEq hb1 hb2, o1'.peekEq hb1 hb2]
      rw [headRune_cons hb1] at hs
      exact hs
  rw [hsi, if_pos rfl]
  refine fwd_word o1 hu.2.2 hw fun s2 o2 a2 f1 f2 f3 f4 => ?_
  wpb
  have sc : SameCursor s2 { s2 with lex := { s2.lex with cur := .dimension } } :=
    ⟨rfl, rfl, rfl, rfl, rfl, rfl, rfl, rfl⟩
  refine ⟨sc.on o2, a1.trans h.inv (a2.trans o1.inv (sc.adv o2.inv)), rfl, f2.trans e2, ?_, ?_⟩
  · intro b hb
    simp only [PTok.str, Option.some.injEq] at hb
    subst hb; exact f1
  · intro b hb
    simp only [PTok.num, Option.some.injEq] at hb
    subst hb; exact f4.trans e1

/-! ### Delimiters and white space -/

theorem lone_delim {b : UInt8} (h : isLoneDelim b = true) : b.toNat < 0x80 ∧ b ≠ 13 ∧
    ∀ n p0 p1 p2, tokBody n (b.toNat : Int) p0 p1 p2 = nextDelimToken := by
  simp only [isLoneDelim, Bool.and_eq_true, decide_eq_true_eq, Bool.not_eq_true', bne_iff_ne,
    List.contains_eq_mem, List.mem_cons, List.not_mem_nil, or_false, decide_eq_false_iff_not, not_or] at h
  obtain ⟨⟨⟨⟨⟨h1, h2⟩, h3⟩, h4⟩, h5⟩, h6⟩ := h
  refine ⟨h1, h4, fun n p0 p1 p2 => ?_⟩
  have ne : ∀ (k : Nat), k < 256 → b ≠ UInt8.ofNat k → (b.toNat : Int) ≠ k := by
    intro k hk h e
    exact h (UInt8.eq_of_toNat (by omega))
  have np : ∀ (k : UInt8), (punctTok k).isSome = true → b ≠ k := by
    intro k hk e
    subst e
    rw [Option.isNone_iff_eq_none] at h5
    rw [h5] at hk
    cases hk
  have hw : isWhitespace (b.toNat : Int) = false := by
    simp only [isWsByte, Bool.or_eq_false_iff, beq_eq_false_iff_ne] at h3
    simp only [isWhitespace, Bool.or_eq_false_iff, beq_eq_false_iff_ne]
    exact ⟨⟨ne 10 (by omega) h3.2, ne 9 (by omega) h3.1.2⟩, ne 32 (by omega) h3.1.1⟩
  have hn := isName_byte h1
  rw [h2] at hn
  have hd : isDigit (b.toNat : Int) = false := by
    rw [isDigit_byte h1]
    simp only [isNameByte, Bool.or_eq_false_iff] at h2
    exact h2.1.2
  have hns : isNameStart (b.toNat : Int) = false := by
    simp only [isName, Bool.or_eq_false_iff] at hn
    exact hn.1.1
  have c1 := ne 59 (by omega) (np 59 rfl)
  have c2 := ne 58 (by omega) (np 58 rfl)
  have c3 := ne 44 (by omega) (np 44 rfl)
  have c4 := ne 40 (by omega) (np 40 rfl)
  have c5 := ne 41 (by omega) (np 41 rfl)
  have c6 := ne 91 (by omega) (np 91 rfl)
  have c7 := ne 93 (by omega) (np 93 rfl)
  have c8 := ne 123 (by omega) (np 123 rfl)
  have c9 := ne 125 (by omega) (np 125 rfl)
  have d1 := ne 34 (by omega) h6.1
  have d2 := ne 35 (by omega) h6.2.1
  have d3 := ne 39 (by omega) h6.2.2.1
  have d4 := ne 43 (by omega) h6.2.2.2.1
  have d5 := ne 45 (by omega) h6.2.2.2.2.1
  have d6 := ne 46 (by omega) h6.2.2.2.2.2.1
  have d7 := ne 47 (by omega) h6.2.2.2.2.2.2.1
  have d8 := ne 60 (by omega) h6.2.2.2.2.2.2.2.1
  have d9 := ne 64 (by omega) h6.2.2.2.2.2.2.2.2.1
  have d10 := ne 92 (by omega) h6.2.2.2.2.2.2.2.2.2
  have d11 : (b.toNat : Int) ≠ -1 := by omega
  simp only [Nat.cast_ofNat] at *
  simp only [tokBody, hw, hd, hns, c1, c2, c3, c4, c5, c6, c7, c8, c9, d1, d2, d3, d4, d5, d6, d7, d8, d9,
    d10, d11, if_false, or_self, Bool.false_eq_true]

/-- A rune of one byte at the head. -/
theorem headRune_byte {b : UInt8} {t : Bytes} (hb : b.toNat < 0x80) (h : headRune t = b.toNat) : ∃ u, t = b :: u := by
  cases t with
  | nil => simp [headRune] at h
  | cons c t =>
    by_cases hc : c.toNat < 0x80
    · rw [headRune_cons hc] at h
      exact ⟨t, by rw [UInt8.eq_of_toNat (b := c) (n := b.toNat) (by omega), UInt8.ofNat_toNat]⟩
    · simp only [headRune, reduceCtorEq, if_false] at h
      rcases decodeRune_cons c t with ⟨h', _⟩ | ⟨_, h', _⟩
      · omega
      · omega

theorem fwd_tok_delim {s : St} {b : UInt8} {rest : Bytes} {X : Exc} {n : Nat} (h : On s (b :: rest))
    (hf : (PTok.delim b).Follow rest) :
    wp (nextLoop (n + 1)) (fun _ s' => Reads s s' (.delim b) rest) X s := by
  rw [nextLoop_wp]
  have hch := h.chEq
  rcases hf with hb | ⟨rfl, hr⟩ | ⟨rfl, hr⟩ | ⟨rfl, hr⟩ | ⟨rfl, hr⟩ | ⟨rfl, hr⟩ | ⟨he, hr⟩
  · obtain ⟨h1, h2, h3⟩ := lone_delim hb
    rw [chOf_cons h1 h2] at hch
    rw [hch, h3]
    exact fwd_delim h h1 h2
  · rw [chOf_cons (by decide) (by decide)] at hch
    rw [hch, h.peekEq (by decide) (by decide), h.peekEq (by decide) (by decide),
      h.peekEq (by decide) (by decide), List.drop_zero]
    show wp (if startsNumber 43 _ _ = true then _ else _) _ _ _
    have hsn : startsNumber 43 (headRune rest) (headRune (rest.drop 1)) = false := by
      rw [startsNumber, if_pos (.inl rfl), if_neg fun e => hr (.inl e), if_neg fun e => hr (.inr e)]
    rw [hsn, if_neg (by simp)]
    exact fwd_delim h (by decide) (by decide)
  · rw [chOf_cons (by decide) (by decide)] at hch
    rw [hch, h.peekEq (by decide) (by decide), h.peekEq (by decide) (by decide),
      h.peekEq (by decide) (by decide), List.drop_zero]
    suffices he : tokBody n ((45 : UInt8).toNat : Int) (headRune rest) (headRune (rest.drop 1)) (headRune (rest.drop 2)) =
        nextDelimToken by
      rw [he]; exact fwd_delim h (by decide) (by decide)
    have hp : isName (headRune rest) = false ∧ headRune rest ≠ 46 ∧ headRune rest ≠ 92 ∧
        isDigit (headRune rest) = false ∧ headRune rest ≠ 45 := by
      rcases hr with rfl | ⟨c, t, rfl, hc1, hc2, hc3, hc4⟩
      · decide
      · rw [headRune_cons hc1, isName_byte hc1, isDigit_byte hc1]
        refine ⟨hc2, ?_, ?_, ?_, ?_⟩
        · intro e; exact hc3 (UInt8.eq_of_toNat (n := 46) (by omega))
        · intro e; exact hc4 (UInt8.eq_of_toNat (n := 92) (by omega))
        · simp only [isNameByte, Bool.or_eq_false_iff] at hc2
          exact hc2.1.2
        · intro e
          rw [UInt8.eq_of_toNat (b := c) (n := 45) (by omega)] at hc2
          simp [isNameByte] at hc2
    have hsn : startsNumber 45 (headRune rest) (headRune (rest.drop 1)) = false := by
      simp only [startsNumber, hp, or_true, if_true, if_false, false_and, Bool.false_eq_true]
    have hsi : startsIdentifier (headRune rest) (headRune (rest.drop 1)) (headRune (rest.drop 2)) = false := by
      rw [startsIdentifier, if_neg hp.2.2.2.2]
      split
      · rfl
      · exact hp.1
    show (if startsNumber 45 _ _ = true then _ else if headRune rest = 45 ∧ _ then _ else
      if startsIdentifier _ _ _ = true then _ else _) = _
    rw [hsn, hsi, if_neg (by simp), if_neg (by simp [hp.2.2.2.2]), if_neg (by simp)]
  · rw [chOf_cons (by decide) (by decide)] at hch
    rw [hch, h.peekEq (by decide) (by decide), h.peekEq (by decide) (by decide),
      h.peekEq (by decide) (by decide), List.drop_zero]
    show wp (if startsNumber _ _ _ = true then _ else _) _ _ _
    have hsn : startsNumber (headRune rest) (headRune (rest.drop 1)) (headRune (rest.drop 2)) = false := by
      rw [startsNumber]
      have hd2 : (rest.drop 1).drop 1 = rest.drop 2 := by rw [List.drop_drop]
      split
      · rename_i hs
        have hr' : ¬ StartsUnsigned (rest.drop 1) := fun e => hr (.inr ⟨hs, e⟩)
        rw [StartsUnsigned, hd2] at hr'
        rw [if_neg fun e => hr' (.inl e), if_neg fun e => hr' (.inr e)]
      · have hr' : ¬ StartsUnsigned rest := fun e => hr (.inl e)
        rw [if_neg fun e => hr' (.inr e)]
        exact Bool.eq_false_iff.mpr fun e => hr' (.inl e)
    rw [hsn, if_neg (by simp)]
    exact fwd_delim h (by decide) (by decide)
  · rw [chOf_cons (by decide) (by decide)] at hch
    rw [hch, h.peekEq (by decide) (by decide), List.drop_zero]
    have hne : headRune rest ≠ 42 := by
      cases rest with
      | nil => decide
      | cons c t =>
        by_cases hc : c.toNat < 0x80
        · rw [headRune_cons hc]
          intro e
          exact hr t (by rw [UInt8.eq_of_toNat (b := c) (n := 42) (by omega)]; rfl)
        · simp only [headRune, reduceCtorEq, if_false]
          rcases decodeRune_cons c t with ⟨h', _⟩ | ⟨_, h', _⟩
          · omega
          · omega
    show wp (if headRune rest ≠ 42 then _ else _) _ _ _
    rw [if_pos hne]
    exact fwd_delim h (by decide) (by decide)
  · rw [chOf_cons (by decide) (by decide)] at hch
    rw [hch, h.peekEq (by decide) (by decide), h.peekEq (by decide) (by decide),
      h.peekEq (by decide) (by decide), List.drop_zero]
    have hne : ¬ (headRune rest = 33 ∧ headRune (rest.drop 1) = 45 ∧ headRune (rest.drop 2) = 45) := by
      rintro ⟨e0, e1, e2⟩
      obtain ⟨t0, rfl⟩ := headRune_byte (b := 33) (by decide) e0
      obtain ⟨t1, rfl⟩ := headRune_byte (b := 45) (by decide) e1
      obtain ⟨t2, rfl⟩ := headRune_byte (b := 45) (by decide) e2
      exact hr t2 rfl
    show wp (if headRune rest = 33 ∧ _ ∧ _ then _ else _) _ _ _
    rw [if_neg hne]
    exact fwd_delim h (by decide) (by decide)
  · have hp : isName (headRune rest) = false ∧ headRune rest ≠ 92 ∧ headRune rest ≠ 45 := by
      rcases hr with rfl | ⟨c, t, rfl, hc1, hc2, hc3⟩
      · decide
      · rw [headRune_cons hc1, isName_byte hc1]
        refine ⟨hc2, ?_, ?_⟩
        · intro e; exact hc3 (UInt8.eq_of_toNat (n := 92) (by omega))
        · intro e
          rw [UInt8.eq_of_toNat (b := c) (n := 45) (by omega)] at hc2
          simp [isNameByte] at hc2
    rcases he with rfl | rfl
    · rw [chOf_cons (by decide) (by decide)] at hch
      rw [hch, h.peekEq (by decide) (by decide), h.peekEq (by decide) (by decide), List.drop_zero]
      show wp (if (isName (headRune rest) || startsEscape (headRune rest) _) = true then _ else _) _ _ _
      rw [if_neg (by simp [hp.1, startsEscape, hp.2.1])]
      exact fwd_delim h (by decide) (by decide)
    · rw [chOf_cons (by decide) (by decide)] at hch
      rw [hch, h.peekEq (by decide) (by decide), h.peekEq (by decide) (by decide),
        h.peekEq (by decide) (by decide), List.drop_zero]
      show wp (if startsIdentifier (headRune rest) _ _ = true then _ else _) _ _ _
      have hsi : startsIdentifier (headRune rest) (headRune (rest.drop 1)) (headRune (rest.drop 2)) = false := by
        rw [startsIdentifier, if_neg hp.2.2]
        split
        · rfl
        · exact hp.1
      rw [hsi, if_neg (by simp)]
      exact fwd_delim h (by decide) (by decide)

theorem ws_byte {b : UInt8} (h : isWsByte b = true) : b.toNat < 0x80 ∧ b ≠ 13 ∧
    isWhitespace (b.toNat : Int) = true := by
  simp only [isWsByte, Bool.or_eq_true, beq_iff_eq] at h
  rcases h with (rfl | rfl) | rfl <;> decide

theorem tokBody_ws {n : Nat} {b : UInt8} {p0 p1 p2 : Int} (h : isWsByte b = true) :
    tokBody n (b.toNat : Int) p0 p1 p2 = (do
      let s ← P.get
      if s.lex.retainWS then
        let fuel ← lexFuel
        wsLoop fuel
        setCur .whitespace
      else
        step
        nextLoop n) := by
  simp only [isWsByte, Bool.or_eq_true, beq_iff_eq] at h
  rcases h with (rfl | rfl) | rfl <;> rfl

theorem fwd_wsLoop {X : Exc} : ∀ (w : Bytes) (n : Nat) (s : St) (rest : Bytes), On s (w ++ rest) →
    (∀ b ∈ w, isWsByte b = true) → isWhitespace (chOf rest) = false → w.length < n →
    wp (wsLoop n) (fun _ s' => Mov s s' ∧ On s' rest) X s
  | w, 0, _, _, _, _, _, hn => by omega
  | [], n + 1, s, rest, h, _, hr, _ => by
    simp only [wsLoop]
    wpb
    rw [List.nil_append] at h
    rw [h.chEq, hr]
    exact ⟨Mov.refl h.inv, h⟩
  | b :: w, n + 1, s, rest, h, hd, hr, hn => by
    simp only [wsLoop]
    wpb
    have hl := ws_byte (hd b (by simp))
    rw [List.cons_append] at h
    rw [h.chEq, chOf_cons hl.1 hl.2.1, hl.2.2, if_pos rfl]
    refine wp_seq (fwd_byte h hl.1 hl.2.1) fun _ s1 ⟨m1, o1⟩ => ?_
    refine wp_mono (fwd_wsLoop w n s1 rest o1 (fun c hc => hd c (by simp [hc])) hr
      (by simp only [List.length_cons] at hn; omega)) fun _ s2 ⟨m2, o2⟩ => ?_
    exact ⟨m1.trans h.inv m2, o2⟩

theorem fwd_tok_ws {s : St} {w rest : Bytes} {X : Exc} {n : Nat} (h : On s (w ++ rest)) (hw : w ≠ [])
    (hall : ∀ b ∈ w, isWsByte b = true) (hr : isWhitespace (chOf rest) = false) (hret : s.lex.retainWS = true) :
    wp (nextLoop (n + 1)) (fun _ s' => Reads s s' (.ws w) rest) X s := by
  rw [nextLoop_wp]
  obtain ⟨b, t, rfl⟩ := List.exists_cons_of_ne_nil hw
  have hl := ws_byte (hall b (by simp))
  have hch := h.chEq
  rw [List.cons_append, chOf_cons hl.1 hl.2.1] at hch
  rw [hch, tokBody_ws (hall b (by simp))]
  have sc : SameCursor s { s with lex := { s.lex with start := s.lex.lastPos } } :=
    ⟨rfl, rfl, rfl, rfl, rfl, rfl, rfl, rfl⟩
  generalize hs0 : ({ s with lex := { s.lex with start := s.lex.lastPos } } : St) = s0 at sc
  have hst : s0.lex.start = s.lex.lastPos := by rw [← hs0]
  have o0 := sc.on h
  wpb
  rw [sc.retainWS, hret, if_pos rfl]
  wpb
  have hlen := o0.len
  rw [List.length_append] at hlen
  refine wp_seq (fwd_wsLoop (b :: t) _ s0 rest o0 hall hr (by omega)) fun _ s1 ⟨m1, o1⟩ => ?_
  wpb
  have sc1 : SameCursor s1 { s1 with lex := { s1.lex with cur := .whitespace } } :=
    ⟨rfl, rfl, rfl, rfl, rfl, rfl, rfl, rfl⟩
  exact ⟨sc1.on o1, (sc.adv h.inv).trans h.inv (m1.adv.trans o0.inv (sc1.adv o1.inv)), rfl,
    m1.start.trans hst, by simp [PTok.str], by simp [PTok.num]⟩

/-- Skipping one byte of white space that is not retained. -/
theorem fwd_skip_ws {s : St} {b : UInt8} {rest : Bytes} {X : Exc} {n : Nat} {Q : Unit → St → Prop}
    (h : On s (b :: rest)) (hb : isWsByte b = true) (hret : s.lex.retainWS = false)
    (hf : ∀ s1, On s1 rest → Adv s s1 → s1.lex.lastPos = s.lex.lastPos + 1 → wp (nextLoop n) Q X s1) :
    wp (nextLoop (n + 1)) Q X s := by
  rw [nextLoop_wp]
  have hl := ws_byte hb
  have hch := h.chEq
  rw [chOf_cons hl.1 hl.2.1] at hch
  rw [hch, tokBody_ws hb]
  have sc : SameCursor s { s with lex := { s.lex with start := s.lex.lastPos } } :=
    ⟨rfl, rfl, rfl, rfl, rfl, rfl, rfl, rfl⟩
  generalize hs0 : ({ s with lex := { s.lex with start := s.lex.lastPos } } : St) = s0 at sc
  have o0 := sc.on h
  wpb
  rw [sc.retainWS, hret, if_neg (by simp)]
  refine wp_seq (fwd_byte o0 hl.1 hl.2.1) fun _ s1 ⟨m1, o1⟩ => ?_
  refine hf s1 o1 ((sc.adv h.inv).trans h.inv m1.adv) ?_
  have h1 := o0.len
  have h2 := o1.len
  have h3 := m1.src
  have h4 := sc.lastPos
  rw [h3] at h2
  simp only [List.length_cons] at h1
  omega

theorem urlWord_ident {w : Bytes} (h : IsUrlWord w) : IsIdent w := by
  have h := isURLString_iff.2 h
  unfold isURLString at h
  split at h
  · simp only [Bool.and_eq_true, Bool.or_eq_true, beq_iff_eq] at h
    obtain ⟨⟨ha, hb⟩, hc⟩ := h
    rcases ha with rfl | rfl <;> rcases hb with rfl | rfl <;> rcases hc with rfl | rfl <;>
      exact ⟨by decide, .inl ⟨_, _, rfl, by decide⟩⟩
  · simp at h

/-- One turn of the lexer's loop reads the token at the cursor. -/
theorem fwd_tok {s : St} {t : PTok} {rest : Bytes} {X : Exc} {n : Nat} (hw : t.Wf) (hf : t.Follow rest)
    (hws : t.tok = .whitespace → s.lex.retainWS = true) (h : On s (t.text ++ rest)) :
    wp (nextLoop (n + 1)) (fun _ s' => Reads s s' t rest) X s := by
  cases t with
  | punct b => exact fwd_tok_punct h hw
  | delim b => exact fwd_tok_delim h hf
  | ident w =>
    rw [nextLoop_wp, tokBody_ident h hw hf.1.ascii]
    exact fwd_identLike_ident h hw.1 hf.1 hf.2
  | func w =>
    have h' : On s (w ++ 40 :: rest) := by simpa [PTok.text] using h
    rw [nextLoop_wp, tokBody_ident h' hw (.inr ⟨40, rest, rfl, by decide⟩)]
    exact fwd_identLike_func h' hw.1 hf
  | «at» w => exact fwd_tok_at h hw hf
  | hash w => exact fwd_tok_hash h hw.1 hw.2 hf
  | number m => exact fwd_tok_number hw h hf.1 hf.2.1 hf.2.2
  | percentage m => exact fwd_tok_percentage hw (by simpa [PTok.text] using h)
  | dimension m u => exact fwd_tok_dimension hw.1 hw.2 (by simpa [PTok.text] using h) hf.1 hf.2
  | string m body => exact fwd_tok_string (by simpa [PTok.text] using h) hw.1 hw.2
  | url w v =>
    have h' : On s (w ++ 40 :: (v ++ 41 :: rest)) := by simpa [PTok.text] using h
    have hi : IsIdent w := urlWord_ident hw.1
    rw [nextLoop_wp, tokBody_ident h' hi (.inr ⟨40, _, rfl, by decide⟩)]
    exact fwd_identLike_url h' hi.1 hw.1 hw.2
  | ws w =>
    refine fwd_tok_ws h hw.1 hw.2 ?_ (hws rfl)
    rcases hf with rfl | ⟨b, t, rfl, hb, hcr⟩
    · decide
    · by_cases hlt : b.toNat < 0x80
      · rw [chOf_cons hlt hcr]
        simp only [isWsByte, Bool.or_eq_false_iff, beq_eq_false_iff_ne] at hb
        simp only [isWhitespace, Bool.or_eq_false_iff, beq_eq_false_iff_ne]
        refine ⟨⟨fun e => hb.2 ?_, fun e => hb.1.2 ?_⟩, fun e => hb.1.1 ?_⟩
        · exact UInt8.eq_of_toNat (n := 10) (by omega)
        · exact UInt8.eq_of_toNat (n := 9) (by omega)
        · exact UInt8.eq_of_toNat (n := 32) (by omega)
      · have := chOf_high (t := t) (b := b) (by omega)
        simp only [isWhitespace, Bool.or_eq_false_iff, beq_eq_false_iff_ne]
        omega

end Cssc
