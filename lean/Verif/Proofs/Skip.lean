import Verif.Proofs.Tokens
import Verif.Proofs.Rel

/-!
# Skipping white space and comments
-/

namespace Cssc

theorem On.posEq {s : St} {rest : Bytes} (h : On s rest) : s.lex.pos = s.lex.lastPos + (curAt rest 0).2 := by
  rw [h.inv.pos]
  simp only [curAt, List.drop_zero, Nat.zero_add]
  rw [← List.drop_drop, h.rest]
  split
  · rfl
  · split
    · simp only; omega
    · rfl

/-- One step, whatever is under the cursor. -/
theorem On.stepAny {s : St} {rest : Bytes} (h : On s rest) (hr : rest ≠ []) {X : Exc} :
    wp step (fun _ s' => Mov s s' ∧ On s' (rest.drop (curAt rest 0).2) ∧
      s'.lex.lastPos = s.lex.lastPos + (curAt rest 0).2) X s := by
  rw [wp_step (h.good hr)]
  refine ⟨mov_step h.inv, ⟨(mov_step h.inv).adv.inv, ?_⟩, h.posEq⟩
  show s.src.drop s.lex.pos = _
  rw [h.posEq, ← List.drop_drop, h.rest]

theorem curAt_cr_cons {b : UInt8} {t : Bytes} (hb : b.toNat < 0x80) : curAt (13 :: b :: t) 0 = ((b.toNat : Int), 2) := by
  simp only [curAt, List.drop_zero, Nat.zero_add]
  rw [decodeRune_ascii (b := 13) (b :: t) (by decide)]
  simp only [List.drop_succ_cons, List.drop_zero, decodeRune_ascii t hb]
  rfl

theorem curAt_ascii {b : UInt8} {t : Bytes} (hb : b.toNat < 0x80) (hcr : b ≠ 13) :
    curAt (b :: t) 0 = ((b.toNat : Int), 1) := by
  simp only [curAt, List.drop_zero, decodeRune_ascii t hb, Nat.zero_add]
  rw [if_neg (by omega), if_neg]
  intro e
  exact hcr (UInt8.eq_of_toNat (n := 13) (by omega))

theorem IsCommentBody.drop {w : Bytes} (h : IsCommentBody w) (k : Nat) : IsCommentBody (w.drop k) :=
  ⟨fun hi => h.close (hi.trans (List.drop_suffix k w).isInfix),
    fun hi => h.closeCr (hi.trans (List.drop_suffix k w).isInfix)⟩

/-- The rune after a star in a comment body (before the end marker) is not a slash. -/
theorem IsCommentBody.after_star {w rest : Bytes} (h : IsCommentBody (42 :: w)) :
    chOf (w ++ 42 :: 47 :: rest) ≠ 47 := by
  cases w with
  | nil => rw [List.nil_append, chOf_cons (by decide) (by decide)]; decide
  | cons b w =>
    rw [List.cons_append]
    by_cases hb : b.toNat < 0x80
    · by_cases hcr : b = 13
      · subst hcr
        cases w with
        | nil =>
          show (curAt (13 :: 42 :: 47 :: rest) 0).1 ≠ 47
          rw [curAt_cr_cons (by decide)]; decide
        | cons c w =>
          by_cases hc : c.toNat < 0x80
          · show (curAt (13 :: c :: (w ++ 42 :: 47 :: rest)) 0).1 ≠ 47
            rw [curAt_cr_cons hc]
            intro e
            have : c = 47 := UInt8.eq_of_toNat (n := 47) (by simp only at e; omega)
            subst this
            exact h.closeCr ⟨[], w, rfl⟩
          · show (curAt (13 :: c :: (w ++ 42 :: 47 :: rest)) 0).1 ≠ 47
            simp only [curAt, List.drop_zero, Nat.zero_add]
            rw [decodeRune_ascii (b := 13) _ (by decide)]
            simp only [List.drop_succ_cons, List.drop_zero]
            rw [if_neg (by decide), if_pos (by decide)]
            rcases decodeRune_cons c (w ++ 42 :: 47 :: rest) with ⟨h', _⟩ | ⟨_, h', _⟩
            · omega
            · simp only; omega
      · rw [chOf_cons hb hcr]
        intro e
        have : b = 47 := UInt8.eq_of_toNat (n := 47) (by omega)
        subst this
        exact h.close ⟨[], w, rfl⟩
    · have := chOf_high (b := b) (t := w ++ 42 :: 47 :: rest) (by omega)
      omega

theorem curAt_size_pos {r : Bytes} (h : r ≠ []) : 1 ≤ (curAt r 0).2 := by
  simp only [curAt, List.drop_zero, Nat.zero_add]
  have := decodeRune_size_pos h
  rw [if_neg (by omega)]
  split <;> simp only <;> omega

theorem curAt_cr_high {c : UInt8} {t : Bytes} : (curAt (13 :: c :: t) 0).2 = 1 + (decodeRune (c :: t)).2 ∧
    (curAt (13 :: c :: t) 0).1 = (decodeRune (c :: t)).1 := by
  simp only [curAt, List.drop_zero, Nat.zero_add]
  rw [decodeRune_ascii (b := 13) _ (by decide)]
  simp only [List.drop_succ_cons, List.drop_zero]
  rw [if_neg (by decide), if_pos (by decide)]
  exact ⟨rfl, rfl⟩

theorem curAt_high {c : UInt8} {t : Bytes} (h : 0x80 ≤ c.toNat) : curAt (c :: t) 0 = decodeRune (c :: t) := by
  simp only [curAt, List.drop_zero, Nat.zero_add]
  rcases decodeRune_cons c t with ⟨h', _⟩ | ⟨_, h1, h2, _⟩
  · omega
  · rw [if_neg (by omega), if_neg (by omega)]

/-- A step inside a comment body stays inside it, or takes a final carriage return with the star of the
end marker. -/
theorem comment_within {w rest : Bytes} (hw : w ≠ []) :
    (curAt (w ++ 42 :: 47 :: rest) 0).2 ≤ w.length ∨
      (w = [13] ∧ (curAt (w ++ 42 :: 47 :: rest) 0).2 = 2 ∧ chOf (w ++ 42 :: 47 :: rest) = 42) := by
  obtain ⟨b, w, rfl⟩ := List.exists_cons_of_ne_nil hw
  rw [List.cons_append]
  by_cases hcr : b = 13
  · subst hcr
    cases w with
    | nil =>
      right
      refine ⟨rfl, ?_, ?_⟩
      · rw [List.nil_append, curAt_cr_cons (by decide)]
      · show (curAt (13 :: 42 :: 47 :: rest) 0).1 = _
        rw [curAt_cr_cons (by decide)]; decide
    | cons c w =>
      left
      rw [List.cons_append, curAt_cr_high.1]
      have := decodeRune_within (w := c :: w) (rest := 42 :: 47 :: rest) (by simp) (.inr ⟨42, _, rfl, by decide⟩)
      rw [List.cons_append] at this
      simp only [List.length_cons] at this ⊢
      omega
  · left
    by_cases hb : b.toNat < 0x80
    · rw [curAt_ascii hb hcr]; simp
    · rw [curAt_high (by omega)]
      have := decodeRune_within (w := b :: w) (rest := 42 :: 47 :: rest) (by simp) (.inr ⟨42, _, rfl, by decide⟩)
      rw [List.cons_append] at this
      exact this

theorem star_head {w rest : Bytes} (hw : w ≠ []) (h : chOf (w ++ 42 :: 47 :: rest) = 42) :
    (∃ w', w = 42 :: w') ∨ (∃ w', w = 13 :: 42 :: w') ∨ w = [13] := by
  obtain ⟨b, w, rfl⟩ := List.exists_cons_of_ne_nil hw
  rw [List.cons_append] at h
  by_cases hb : b.toNat < 0x80
  · by_cases hcr : b = 13
    · subst hcr
      cases w with
      | nil => exact .inr (.inr rfl)
      | cons c w =>
        right; left
        have h2 := h
        simp only [chOf, List.cons_append, curAt_cr_high.2] at h2
        rcases decodeRune_cons c (w ++ 42 :: 47 :: rest) with ⟨hc, hd⟩ | ⟨_, hd, _⟩
        · rw [hd] at h2
          exact ⟨w, by rw [UInt8.eq_of_toNat (b := c) (n := 42) (by simp only at h2; omega)]; rfl⟩
        · omega
    · rw [chOf_cons hb hcr] at h
      exact .inl ⟨w, by rw [UInt8.eq_of_toNat (b := b) (n := 42) (by omega)]; rfl⟩
  · have := chOf_high (b := b) (t := w ++ 42 :: 47 :: rest) (by omega)
    omega

theorem fwd_comment {X : Exc} : ∀ (k : Nat) (w : Bytes) (n : Nat) (s : St) (rest : Bytes), w.length ≤ k →
    On s (w ++ 42 :: 47 :: rest) → IsCommentBody w → w.length + 1 < n →
    wp (commentLoop n) (fun e s' => Mov s s' ∧ On s' rest ∧ s.lex.lastPos ≤ e ∧ e ≤ s.lex.lastPos + w.length) X s
  | _, _, 0, _, _, _, _, _, hn => by omega
  | k, [], n + 1, s, rest, _, h, _, _ => by
    rw [List.nil_append] at h
    simp only [commentLoop]
    wpb
    rw [h.chEq, chOf_cons (by decide) (by decide), if_pos (by decide)]
    wpb
    refine wp_seq (fwd_byte h (by decide) (by decide)) fun _ s1 ⟨m1, o1⟩ => ?_
    wpb
    rw [o1.chEq, chOf_cons (by decide) (by decide), if_pos (by decide)]
    refine wp_seq (fwd_byte o1 (by decide) (by decide)) fun _ s2 ⟨m2, o2⟩ => ?_
    exact ⟨m1.trans h.inv m2, o2, Nat.le_refl _, by simp⟩
  | 0, b :: w, n + 1, s, rest, hk, h, hd, hn => by simp at hk
  | k + 1, b :: w, n + 1, s, rest, hk, h, hd, hn => by
    simp only [commentLoop]
    wpb
    have hne : (b :: w) ++ 42 :: 47 :: rest ≠ [] := by simp
    have hsz := curAt_size_pos hne
    by_cases hstar : s.lex.ch = 42
    · rw [if_pos hstar]
      wpb
      refine wp_seq (h.stepAny hne) fun _ s1 ⟨m1, o1, l1⟩ => ?_
      wpb
      rcases comment_within (w := b :: w) (rest := rest) (by simp) with hin | ⟨hw, hsz2, _⟩
      · rw [List.drop_append_of_le_length hin] at o1
        have hns : s1.lex.ch ≠ 47 := by
          rw [o1.chEq]
          rw [h.chEq] at hstar
          rcases star_head (by simp) hstar with ⟨w', hw'⟩ | ⟨w', hw'⟩ | hw'
          · rw [hw', List.cons_append, curAt_ascii (by decide) (by decide)]
            rw [hw'] at hd
            exact hd.after_star
          · rw [hw']
            simp only [List.cons_append]
            rw [curAt_cr_cons (by decide)]
            rw [hw'] at hd
            exact (hd.drop 1).after_star
          · rw [hw'] at hin
            simp only [List.cons_append, List.nil_append, curAt_cr_cons (b := 42) (by decide)] at hin
            simp at hin
        rw [if_neg hns]
        have hlen : ((b :: w).drop (curAt ((b :: w) ++ 42 :: 47 :: rest) 0).2).length + (curAt ((b :: w) ++ 42 :: 47 :: rest) 0).2 =
            w.length + 1 := by rw [List.length_drop]; simp only [List.length_cons] at hin ⊢; omega
        simp only [List.length_cons] at hk hn
        refine wp_mono (fwd_comment k _ n s1 rest (by omega) o1 (hd.drop _) (by omega)) ?_
        intro e s2 ⟨m2, o2, he1, he2⟩
        refine ⟨m1.trans h.inv m2, o2, by omega, ?_⟩
        simp only [List.length_cons]; omega
      · rw [hw] at o1
        simp only [List.cons_append, List.nil_append] at o1
        rw [curAt_cr_cons (by decide)] at o1
        have hs1 : s1.lex.ch = 47 := by
          rw [o1.chEq]; exact chOf_cons (by decide) (by decide)
        rw [if_pos hs1]
        refine wp_seq (fwd_byte o1 (by decide) (by decide)) fun _ s2 ⟨m2, o2⟩ => ?_
        exact ⟨m1.trans h.inv m2, o2, Nat.le_refl _, by omega⟩
    · rw [if_neg hstar]
      have heof : s.lex.ch ≠ -1 := by
        intro e
        have := h.inv.eof_iff.1 e
        have := h.len
        simp only [List.length_append, List.length_cons] at this
        omega
      rw [if_neg heof]
      refine wp_seq (h.stepAny hne) fun _ s1 ⟨m1, o1, l1⟩ => ?_
      rcases comment_within (w := b :: w) (rest := rest) (by simp) with hin | ⟨_, _, hc⟩
      · rw [List.drop_append_of_le_length hin] at o1
        have hlen : ((b :: w).drop (curAt ((b :: w) ++ 42 :: 47 :: rest) 0).2).length + (curAt ((b :: w) ++ 42 :: 47 :: rest) 0).2 =
            w.length + 1 := by rw [List.length_drop]; simp only [List.length_cons] at hin ⊢; omega
        simp only [List.length_cons] at hk hn
        refine wp_mono (fwd_comment k _ n s1 rest (by omega) o1 (hd.drop _) (by omega)) ?_
        intro e s2 ⟨m2, o2, he1, he2⟩
        refine ⟨m1.trans h.inv m2, o2, by omega, ?_⟩
        simp only [List.length_cons]; omega
      · exact absurd (h.chEq.trans hc) hstar

/-- Skipping one comment that is not retained. -/
theorem fwd_skip_comment {s : St} {body rest : Bytes} {X : Exc} {n : Nat} {Q : Unit → St → Prop}
    (h : On s (47 :: 42 :: (body ++ 42 :: 47 :: rest))) (hb : IsCommentBody body)
    (hret : s.lex.retainComments = false)
    (hf : ∀ s1, On s1 rest → Adv s s1 → wp (nextLoop n) Q X s1) :
    wp (nextLoop (n + 1)) Q X s := by
  rw [nextLoop_wp]
  have hch := h.chEq
  rw [chOf_cons (by decide) (by decide)] at hch
  rw [hch, h.peekEq (by decide) (by decide), List.drop_zero, headRune_cons (by decide)]
  have e : ∀ p1 p2, tokBody n ((47 : UInt8).toNat : Int) ((42 : UInt8).toNat : Int) p1 p2 = (do
      step
      step
      let start ← getLastPos
      let fuel ← lexFuel
      let e ← commentLoop fuel
      setCur .comment
      let x ← slice start e
      setStr x
      let s ← P.get
      if s.lex.retainComments then pure () else nextLoop n) := fun _ _ => rfl
  rw [e]
  have sc : SameCursor s { s with lex := { s.lex with start := s.lex.lastPos } } :=
    ⟨rfl, rfl, rfl, rfl, rfl, rfl, rfl, rfl⟩
  generalize hs0 : ({ s with lex := { s.lex with start := s.lex.lastPos } } : St) = s0 at sc
  have o0 := sc.on h
  refine wp_seq (fwd_byte o0 (by decide) (by decide)) fun _ s1 ⟨m1, o1⟩ => ?_
  refine wp_seq (fwd_byte o1 (by decide) (by decide)) fun _ s2 ⟨m2, o2⟩ => ?_
  wpb
  have hl := o2.len
  simp only [List.length_append, List.length_cons] at hl
  refine wp_seq (fwd_comment body.length body _ s2 rest (Nat.le_refl _) o2 hb (by omega))
    fun e s3 ⟨m3, o3, he1, he2⟩ => ?_
  rw [wpb_setCur]
  have sc4 : SameCursor s3 { s3 with lex := { s3.lex with cur := .comment } } :=
    ⟨rfl, rfl, rfl, rfl, rfl, rfl, rfl, rfl⟩
  rw [wpb_slice he1 (by show e ≤ s3.src.length; rw [m3.src]; omega), wpb_setStr]
  generalize hs5 : ({ s3 with lex := { s3.lex with cur := .comment, str := sub s3.src s2.lex.lastPos e } } : St) = s5
  have sc5 : SameCursor s3 s5 := by subst hs5; exact ⟨rfl, rfl, rfl, rfl, rfl, rfl, rfl, rfl⟩
  have a5 : Adv s s5 := (sc.adv h.inv).trans h.inv ((m1.adv.trans o0.inv (m2.adv.trans o1.inv m3.adv)).trans o0.inv
    (sc5.adv o3.inv))
  show wp (P.get >>= _) _ _ s5
  wpb
  rw [a5.retainComments, hret, if_neg (by simp)]
  exact hf s5 (sc5.on o3) a5

/-- Skipping CR LF. -/
theorem fwd_skip_crlf {s : St} {rest : Bytes} {X : Exc} {n : Nat} {Q : Unit → St → Prop}
    (h : On s (13 :: 10 :: rest)) (hret : s.lex.retainWS = false)
    (hf : ∀ s1, On s1 rest → Adv s s1 → wp (nextLoop n) Q X s1) :
    wp (nextLoop (n + 1)) Q X s := by
  rw [nextLoop_wp]
  have hch := h.chEq
  have hcur : curAt (13 :: 10 :: rest) 0 = (10, 2) := curAt_cr_cons (by decide)
  rw [chOf, hcur] at hch
  rw [hch]
  have e : ∀ p0 p1 p2, tokBody n 10 p0 p1 p2 = _ := fun p0 p1 p2 => tokBody_ws (n := n) (b := 10) (p0 := p0) (p1 := p1) (p2 := p2) rfl
  show wp (tokBody n 10 _ _ _) _ _ _
  rw [e]
  have sc : SameCursor s { s with lex := { s.lex with start := s.lex.lastPos } } :=
    ⟨rfl, rfl, rfl, rfl, rfl, rfl, rfl, rfl⟩
  generalize hs0 : ({ s with lex := { s.lex with start := s.lex.lastPos } } : St) = s0 at sc
  have o0 := sc.on h
  wpb
  rw [sc.retainWS, hret, if_neg (by simp)]
  refine wp_seq (o0.stepAny (by simp)) fun _ s1 ⟨m1, o1, _⟩ => ?_
  rw [hcur] at o1
  exact hf s1 o1 ((sc.adv h.inv).trans h.inv m1.adv)

/-- Skipping white space and comments. -/
theorem fwd_skip {w : Bytes} (hw : Gap w) : ∀ {s : St} {rest : Bytes} {X : Exc} {n : Nat} {Q : Unit → St → Prop},
    On s (w ++ rest) → s.lex.retainWS = false → s.lex.retainComments = false → w.length ≤ n →
    (∀ s1 j, On s1 rest → Adv s s1 → n ≤ j + w.length → wp (nextLoop j) Q X s1) → wp (nextLoop n) Q X s := by
  induction hw with
  | nil =>
    intro s rest X n Q h _ _ _ hf
    exact hf s n h (Adv.refl h.inv) (by simp)
  | @ws b w hb _ ih =>
    intro s rest X n Q h h1 h2 hn hf
    simp only [List.length_cons] at hn hf
    obtain ⟨n, rfl⟩ : ∃ m, n = m + 1 := ⟨n - 1, by omega⟩
    refine fwd_skip_ws h hb h1 fun s1 o1 a1 _ => ?_
    refine ih o1 (a1.retainWS.trans h1) (a1.retainComments.trans h2) (by omega) fun s2 j o2 a2 hj => ?_
    exact hf s2 j o2 (a1.trans h.inv a2) (by omega)
  | @crlf w _ ih =>
    intro s rest X n Q h h1 h2 hn hf
    simp only [List.length_cons] at hn hf
    obtain ⟨n, rfl⟩ : ∃ m, n = m + 1 := ⟨n - 1, by omega⟩
    refine fwd_skip_crlf h h1 fun s1 o1 a1 => ?_
    refine ih o1 (a1.retainWS.trans h1) (a1.retainComments.trans h2) (by omega) fun s2 j o2 a2 hj => ?_
    exact hf s2 j o2 (a1.trans h.inv a2) (by omega)
  | @comment body w hb _ ih =>
    intro s rest X n Q h h1 h2 hn hf
    simp only [List.length_cons, List.length_append] at hn hf
    obtain ⟨n, rfl⟩ : ∃ m, n = m + 1 := ⟨n - 1, by omega⟩
    have h' : On s (47 :: 42 :: (body ++ 42 :: 47 :: (w ++ rest))) := by simpa using h
    refine fwd_skip_comment h' hb h2 fun s1 o1 a1 => ?_
    refine ih o1 (a1.retainWS.trans h1) (a1.retainComments.trans h2) (by omega) fun s2 j o2 a2 hj => ?_
    exact hf s2 j o2 (a1.trans h.inv a2) (by omega)

/-- `next`, after white space and comments, reads the token there. -/
theorem fwd_next {s : St} {w : Bytes} {t : PTok} {rest : Bytes} {X : Exc} (hw : Gap w) (ht : t.Wf)
    (hf : t.Follow rest) (h : On s (w ++ (t.text ++ rest))) (h1 : s.lex.retainWS = false)
    (h2 : s.lex.retainComments = false) (hws : t.tok ≠ .whitespace) :
    wp next (fun _ s' => ∃ s1, On s1 (t.text ++ rest) ∧ Adv s s1 ∧ Reads s1 s' t rest) X s := by
  rw [next]
  wpb
  have hl := h.len
  simp only [List.length_append] at hl
  refine fwd_skip hw h h1 h2 (by omega) fun s1 j o1 a1 hj => ?_
  obtain ⟨j, rfl⟩ : ∃ m, j = m + 1 := ⟨j - 1, by omega⟩
  refine wp_mono (fwd_tok ht hf (fun e => absurd e hws) o1) fun _ s2 r => ⟨s1, o1, a1, r⟩

/-- `next` at the end of the text. -/
theorem fwd_eof {s : St} {w : Bytes} {X : Exc} (hw : Gap w) (h : On s w) (h1 : s.lex.retainWS = false)
    (h2 : s.lex.retainComments = false) :
    wp next (fun _ s' => On s' [] ∧ Adv s s' ∧ s'.lex.cur = .eof) X s := by
  rw [next]
  wpb
  have hl := h.len
  rw [← List.append_nil w] at h
  refine fwd_skip hw h h1 h2 (by omega) fun s1 j o1 a1 hj => ?_
  obtain ⟨j, rfl⟩ : ∃ m, j = m + 1 := ⟨j - 1, by omega⟩
  rw [nextLoop_wp, o1.chEq]
  show wp (setCur .eof) _ _ _
  wpb
  have sc : SameCursor s1 { s1 with lex := { s1.lex with start := s1.lex.lastPos, cur := .eof } } :=
    ⟨rfl, rfl, rfl, rfl, rfl, rfl, rfl, rfl⟩
  exact ⟨sc.on o1, a1.trans h.inv (sc.adv o1.inv), trivial⟩

end Cssc
