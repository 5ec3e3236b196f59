import Verif.Proofs.ParseSpec
import Verif.Proofs.AnbText

/-!
# What the parser makes of An+B
-/

namespace Cssc

variable {src : Bytes} {id : Nat}

/-- One token, and what is between it and the one before. -/
theorem next_between {s : St} (h : PI src id s) :
    wp next (fun _ s' => PI src id s' ∧ s.lex.lastPos ≤ s'.lex.start ∧ Between src s.lex.lastPos s'.lex.start) XT s :=
  wp_mono (wp_and (wp_top (next_pi (C := True) h)) (next_tkn h.inv h.srcEq)) fun _ _ ⟨⟨a, b⟩, _, c, _⟩ => ⟨a, b, c⟩

theorem expect_between {s : St} (h : PI src id s) (t : Tok) :
    wp (expect t) (fun _ s' => PI src id s' ∧ s.lex.lastPos ≤ s'.lex.start ∧ Between src s.lex.lastPos s'.lex.start ∧
      s.lex.cur = t) XT s := by
  rw [expect]
  wpb
  refine wp_ite (fun _ => trivial) fun hc => ?_
  exact wp_mono (next_between h) fun _ _ ⟨a, b, c⟩ => ⟨a, b, c, Classical.not_not.1 hc⟩

theorem hasPrefix_one {t : Bytes} {c : UInt8} (h : hasPrefix t [c] = true) : t = c :: t.drop 1 := by
  cases t with
  | nil => simp [hasPrefix] at h
  | cons b t =>
    simp only [hasPrefix, Bool.and_true, beq_iff_eq] at h
    subst h; rfl

theorem not_hasPrefix_one {t : Bytes} {c : UInt8} (h : ¬ hasPrefix t [c] = true) : t.head? ≠ some c := by
  intro e
  cases t with
  | nil => cases e
  | cons b t => cases e; simp [hasPrefix] at h

/-- The first half of An+B: either it is understood, or nothing was read. -/
def FirstOk (src : Bytes) (id : Nat) (s : St) (r : Bytes × Bytes × Bytes × Nat) (s' : St) : Prop :=
  PI src id s' ∧ r.2.2.2 = s.lex.lastPos ∧
    (s'.lex.cur = .dimension ∨
      (s.lex.lastPos ≤ s'.lex.start ∧ Between src s.lex.lastPos s'.lex.start ∧
        Half (sub src s.lex.start s.lex.lastPos) r.1 r.2.1 r.2.2.1))

theorem anbFirst_means {s : St} (h : PI src id s) (hcur : s.lex.cur = .number ∨ s.lex.cur = .dimension ∨
      (s.lex.cur = .ident ∧ (s.lex.str = b!"n" ∨ s.lex.str = b!"-n"))) :
    wp anbFirst (FirstOk src id s) XT s := by
  have fin : ∀ {a op b : Bytes}, Half (sub src s.lex.start s.lex.lastPos) a op b → ∀ s', PI src id s' →
      s.lex.lastPos ≤ s'.lex.start → Between src s.lex.lastPos s'.lex.start →
      wp (pure (a, op, b, s.lex.lastPos) : P (Bytes × Bytes × Bytes × Nat)) (FirstOk src id s) XT s' := by
    intro a op b hh s' h' hl hb
    wpb
    exact ⟨h', rfl, .inr ⟨hl, hb, hh⟩⟩
  rw [anbFirst]
  wpb
  refine wp_ite (fun hc => ?_) fun h1 => wp_ite (fun hc => ?_) fun h2 => wp_ite (fun hc => ?_) fun h3 =>
    wp_ite (fun hc => ?_) fun h4 => wp_ite (fun hc => ?_) fun h5 => ?_
  · refine wp_seq (next_between h) fun _ s1 ⟨h1, h2, h3⟩ => fin ?_ s1 h1 h2 h3
    rw [← h.dimension hc.1, hc.2]
    exact .coef (h.more.numBytes (.inr hc.1)) (h.more.signNum hc.1).1 (h.more.signNum hc.1).2
  · have key : ∀ c : UInt8, (c = 43 ∨ c = 45) → hasPrefix (s.lex.str.drop 1) [c] = true →
        Half (sub src s.lex.start s.lex.lastPos) s.lex.num [c] ((s.lex.str.drop 1).drop 1) := by
      intro c hcs hp
      have e1 := hasPrefix_one hc.2
      have e2 := hasPrefix_one hp
      rw [← h.dimension hc.1]
      have hb := h.more.strBytes hc.1
      rw [e2] at e1
      generalize (s.lex.str.drop 1).drop 1 = d at *
      rw [e1]
      rw [e1] at hb
      refine .both (h.more.numBytes (.inr hc.1)) (h.more.signNum hc.1).1 (h.more.signNum hc.1).2 hcs ?_
      rcases hb with hb | hb
      · exact .inl fun b hm => hb b (by simp [hm])
      · right
        rcases List.mem_cons.1 hb with e | hb
        · cases e
        · rcases List.mem_cons.1 hb with e | hb
          · rcases hcs with rfl | rfl <;> cases e
          · exact hb
    refine wp_ite (fun hp => wp_ite (fun _ => trivial) fun _ => ?_) fun _ =>
      wp_ite (fun hp => wp_ite (fun _ => trivial) fun _ => ?_) fun _ => trivial
    · exact wp_seq (next_between h) fun _ s1 ⟨h1, h2, h3⟩ => fin (key 45 (.inr rfl) hp) s1 h1 h2 h3
    · exact wp_seq (next_between h) fun _ s1 ⟨h1, h2, h3⟩ => fin (key 43 (.inl rfl) hp) s1 h1 h2 h3
  · refine wp_seq (expect_between h _) fun _ s1 ⟨h1, h2, h3, _⟩ => fin ?_ s1 h1 h2 h3
    rw [← h.ident hc.1, hc.2]
    exact .coef (num := []) (by simp) (by simp) (by simp)
  · refine wp_seq (expect_between h _) fun _ s1 ⟨h1, h2, h3, _⟩ => fin ?_ s1 h1 h2 h3
    rw [← h.ident hc.1, hc.2]
    exact .minus
  · have hb := h.more.numBytes (.inl hc)
    refine wp_seq (expect_between h _) fun _ s1 ⟨h1, h2, h3, _⟩ => ?_
    refine wp_ite (fun hp => fin ?_ s1 h1 h2 h3) fun hm => wp_ite (fun hp => fin ?_ s1 h1 h2 h3) fun hp => fin ?_ s1 h1 h2 h3
    · rw [← h.number hc]
      have e := hasPrefix_one hp
      generalize s.lex.num.drop 1 = d at *
      rw [e]
      exact .signed (fun b hm => hb b (by rw [e]; simp [hm])) (.inr rfl)
    · rw [← h.number hc]
      have e := hasPrefix_one hp
      generalize s.lex.num.drop 1 = d at *
      rw [e]
      exact .signed (fun b hm => hb b (by rw [e]; simp [hm])) (.inl rfl)
    · rw [← h.number hc]
      exact .off hb (not_hasPrefix_one hp) (not_hasPrefix_one hm)
  · wpb
    refine ⟨h, rfl, .inl ?_⟩
    rcases hcur with e | e | ⟨e, e'⟩
    · exact absurd e h5
    · exact e
    · rcases e' with e' | e'
      · exact absurd ⟨e, e'⟩ h3
      · exact absurd ⟨e, e'⟩ h4

/-- What An+B should be, unless it was not understood. -/
def AnbDone (src : Bytes) (x : PArgs) (s' : St) : Prop :=
  s'.lex.cur = .dimension ∨ ∀ sp a op b, x = .anb sp a op b → AnbMeans (textAt src sp) a op b

theorem anbSecond_means {s0 s : St} {r : Bytes × Bytes × Bytes × Nat} (h0 : PI src id s0) (hf : FirstOk src id s0 r s) :
    wp (anbSecond s0.lex.start r) (AnbDone src) XT s := by
  obtain ⟨a, op, b, stop⟩ := r
  obtain ⟨h, e, hf⟩ := hf
  simp only at e hf
  subst e
  rw [anbSecond]
  wpb
  have hle0 := h0.start_le
  rcases hf with hd | ⟨hl, hb, hh⟩
  · rw [if_neg (by rw [hd]; decide), if_neg (by rw [hd]; simp)]
    wpb
    exact .inl hd
  have hle := h.start_le
  have key : ∀ {c : UInt8} {g' d : Bytes} {e : Nat}, (c = 43 ∨ c = 45) → Blank g' → (∀ b ∈ d, NumByte b) → s.lex.start ≤ e →
      sub src s.lex.start e = [c] ++ (g' ++ d) → AnbMeans (textAt src ⟨s0.lex.start, e⟩) a [c] d := by
    intro c g' d e hc hg hd he heq
    have := hh.then hc (g := sub src s0.lex.lastPos s.lex.start) hb hg hd
    rw [← heq, sub_append src hl he, sub_append src hle0 (by omega)] at this
    exact this
  refine wp_ite (fun hc => ?_) fun _ => wp_ite (fun hc => ?_) fun _ => ?_
  · have hnb := h.more.numBytes (.inl hc)
    have hnum := h.number hc
    have one : ∀ c : UInt8, (c = 43 ∨ c = 45) → hasPrefix s.lex.num [c] = true →
        AnbMeans (textAt src ⟨s0.lex.start, s.lex.lastPos⟩) a [c] (s.lex.num.drop 1) := by
      intro c hcs hp
      have e := hasPrefix_one hp
      refine key (g' := []) hcs (.inl (by simp)) (fun b hm => hnb b ?_) hle ?_
      · exact List.mem_of_mem_drop hm
      · rw [← hnum]; exact e
    refine wp_ite (fun hp => ?_) fun _ => wp_ite (fun hp => ?_) fun _ => trivial
    · refine wp_seq (R := fun _ _ => True) wp_trivial fun _ s1 _ => ?_
      wpb
      right
      rintro _ _ _ _ e
      cases e
      exact one 45 (.inr rfl) hp
    · refine wp_seq (R := fun _ _ => True) wp_trivial fun _ s1 _ => ?_
      wpb
      right
      rintro _ _ _ _ e
      cases e
      exact one 43 (.inl rfl) hp
  · refine wp_seq (next_between h) fun _ s1 ⟨h1, l1, b1⟩ => ?_
    wpb
    refine wp_seq (expect_between h1 _) fun _ s2 ⟨_, _, _, hcur⟩ => ?_
    wpb
    right
    rintro _ _ _ _ e
    cases e
    have hle1 := h1.start_le
    obtain ⟨c, hcs, hstr⟩ : ∃ c : UInt8, (c = 43 ∨ c = 45) ∧ s.lex.str = [c] := by
      rcases hc.2 with e | e
      · exact ⟨43, .inl rfl, e⟩
      · exact ⟨45, .inr rfl, e⟩
    rw [hstr]
    refine key hcs (g' := sub src s.lex.lastPos s1.lex.start) b1 (h1.more.numBytes (.inl hcur)) (by omega) ?_
    rw [← hstr, h.delim hc.1, h1.number hcur, sub_append src l1 hle1, sub_append src hle (by omega)]
  · wpb
    right
    rintro _ _ _ _ e
    cases e
    exact hh.means

theorem withRetain_top {s : St} {b : Bool} {m : P α} {Q : α → St → Prop}
    (hm : wp m (fun a s' => Q a { s' with lex := { s'.lex with retainWS := s.lex.retainWS } }) XT
      { s with lex := { s.lex with retainWS := b } }) : wp (withRetain b m) Q XT s := by
  unfold wp withRetain at *
  cases hr : m { s with lex := { s.lex with retainWS := b } } with
  | ok a s' => rw [hr] at hm; exact hm
  | err e s' => trivial
  | crash s' => trivial
  | timeout => trivial

theorem parseANPlusB_means {s : St} (h : PI src id s) (hcur : s.lex.cur = .number ∨ s.lex.cur = .dimension ∨
      (s.lex.cur = .ident ∧ (s.lex.str = b!"n" ∨ s.lex.str = b!"-n"))) :
    wp parseANPlusB (AnbDone src) XT s := by
  have h0 : PI src id { s with lex := { s.lex with retainWS := false } } :=
    ⟨h.srcEq, h.idEq, ⟨h.inv.le, h.inv.ch, h.inv.pos⟩, h.start_le, h.ident, h.delim, h.number, h.dimension, h.lit, h.pct, h.more⟩
  have key : wp (tokenSpan >>= fun sp => anbFirst >>= fun first => anbSecond sp.start first) (AnbDone src) XT
      { s with lex := { s.lex with retainWS := false } } := by
    wpb
    exact wp_seq (anbFirst_means h0 hcur) fun r s1 hf =>
      anbSecond_means (s0 := { s with lex := { s.lex with retainWS := false } }) h0 hf
  rw [parseANPlusB]
  exact withRetain_top (wp_mono key fun _ _ h => h)

end Cssc
