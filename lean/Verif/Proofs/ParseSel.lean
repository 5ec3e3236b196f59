import Verif.Proofs.ParseAnb

/-!
# What the parser builds: selectors
-/

namespace Cssc

/-! ### An+B -/

theorem isNth_eq (name : Bytes) : isNth name = nthNames.contains name := by
  simp only [isNth, nthNames, List.contains_cons, List.contains_nil, Bool.or_false, Bool.or_assoc]

/-- A number with a sign has more than the sign. -/
theorem PI.signed {src : Bytes} {id : Nat} {s : St} (h : PI src id s) (hc : s.lex.cur = .number) {b : UInt8} (hb : b = 43 ∨ b = 45)
    (hp : hasPrefix s.lex.num [b] = true) : s.lex.num.drop 1 ≠ [] := by
  intro e
  have e1 : s.lex.num = [b] := by
    cases hn : s.lex.num with
    | nil => rw [hn] at hp; cases hp
    | cons c t =>
      rw [hn] at hp e
      rw [hasPrefix] at hp
      simp only [List.drop_succ_cons, List.drop_zero] at e
      subst e
      simp at hp
      rw [hp.1]
  have hk := h.more.cls
  rw [hc] at hk
  rw [e1] at hk
  have hk := hk (by intro x hx; rw [List.mem_singleton] at hx; subst hx; rcases hb with rfl | rfl <;> decide)
  rcases hk with hk | ⟨sgn, ds, fr, ex, hk, e2⟩
  · cases hk
  · have mem : ∀ x, x ∈ ds ++ (fr ++ ex) → x = b := fun x hx =>
      List.mem_singleton.1 (by rw [e2]; exact List.mem_append_right _ hx)
    rcases hk.nonempty with hd | hf
    · obtain ⟨x, hx⟩ := List.exists_mem_of_ne_nil _ hd
      have e3 := mem x (List.mem_append_left _ hx)
      have hx := hk.dsOk x hx
      subst e3
      rcases hb with rfl | rfl <;> cases hx
    · rcases hk.frOk with e | ⟨f, e, _⟩
      · exact hf e
      · have := mem 46 (by rw [e]; simp)
        subst this
        rcases hb with e | e <;> cases e

/-- A number has text, unless the lexer made it up. -/
theorem PI.number_text {src : Bytes} {id : Nat} {s : St} (h : PI src id s) (hc : s.lex.cur = .number) :
    s.lex.num ≠ [] ∨ StuckIn src := by
  refine (h.more.prog (by simp [hc])).imp (fun hl e => ?_) fun e => e
  have hend := h.end_le
  have := congrArg List.length (h.number hc)
  rw [e] at this
  simp [sub] at this
  omega

/-- What the first half of An+B yields. -/
theorem anbFirst_pi {C : Prop} {src : Bytes} {id : Nat} {s : St} (h : PI src id s) :
    wp anbFirst (fun r s' => PI src id s' ∧ s.lex.start ≤ s'.lex.start ∧ s.lex.lastPos ≤ s'.lex.lastPos ∧
      r.2.2.2 = s.lex.lastPos ∧ AnbOk src ⟨s.lex.start, s.lex.lastPos⟩ r.1 r.2.1 r.2.2.1) (PX C src id) s := by
  have hle := h.start_le
  have hend := h.end_le
  have nil : TextIn src ⟨s.lex.start, s.lex.lastPos⟩ [] := .nil hle
  have fin : ∀ {a op b : Bytes}, AnbOk src ⟨s.lex.start, s.lex.lastPos⟩ a op b → ∀ s', PI src id s' →
      s.lex.lastPos ≤ s'.lex.start →
      wp (pure (a, op, b, s.lex.lastPos) : P (Bytes × Bytes × Bytes × Nat))
        (fun r s' => PI src id s' ∧ s.lex.start ≤ s'.lex.start ∧ s.lex.lastPos ≤ s'.lex.lastPos ∧
      r.2.2.2 = s.lex.lastPos ∧ AnbOk src ⟨s.lex.start, s.lex.lastPos⟩ r.1 r.2.1 r.2.2.1) (PX C src id) s' := by
    intro a op b hok s' h' hl
    have := h'.start_le
    wpb
    exact ⟨h', by omega, by omega, trivial, hok⟩
  rw [anbFirst]
  wpb
  refine wp_ite (fun hc => ?_) fun _ => wp_ite (fun hc => ?_) fun _ => wp_ite (fun hc => ?_) fun _ =>
    wp_ite (fun hc => ?_) fun _ => wp_ite (fun hc => ?_) fun _ => ?_
  · have hd := h.dimension hc.1
    refine wp_seq (next_pi h) fun _ s1 ⟨h1, h2⟩ => fin ⟨.inl ?_, .inl rfl, nil, by simp⟩ s1 h1 h2
    exact (TextIn.append (by rw [hd]; exact .self hle) hend).1
  · have hd := h.dimension hc.1
    obtain ⟨hnum, hstr⟩ := TextIn.append (t := s.lex.num) (u := s.lex.str) (sp := ⟨s.lex.start, s.lex.lastPos⟩)
      (by rw [hd]; exact .self hle) hend
    have hb := (hstr.drop hend 1).drop hend 1
    refine wp_ite (fun _ => wp_ite (fun _ => errorf_pi h _) fun hne => ?_) fun _ =>
      wp_ite (fun _ => wp_ite (fun _ => errorf_pi h _) fun hne => ?_) fun _ => errorf_pi h _
    · exact wp_seq (next_pi h) fun _ s1 ⟨h1, h2⟩ => fin ⟨.inl hnum, .inr (.inr rfl), hb, fun _ => .inl hne⟩ s1 h1 h2
    · exact wp_seq (next_pi h) fun _ s1 ⟨h1, h2⟩ => fin ⟨.inl hnum, .inr (.inl rfl), hb, fun _ => .inl hne⟩ s1 h1 h2
  · exact wp_seq (expect_pi h _) fun _ s1 ⟨h1, h2, _⟩ => fin ⟨.inl nil, .inl rfl, nil, by simp⟩ s1 h1 h2
  · exact wp_seq (expect_pi h _) fun _ s1 ⟨h1, h2, _⟩ => fin ⟨.inr (.inl rfl), .inl rfl, nil, by simp⟩ s1 h1 h2
  · have hd := h.number hc
    have hnum : TextIn src ⟨s.lex.start, s.lex.lastPos⟩ s.lex.num := by rw [hd]; exact .self hle
    refine wp_seq (expect_pi h _) fun _ s1 ⟨h1, h2, _⟩ => ?_
    refine wp_ite (fun hp => ?_) fun _ => wp_ite (fun hp => ?_) fun _ => ?_
    · exact fin ⟨.inr (.inr rfl), .inr (.inr rfl), hnum.drop hend 1, fun _ => .inl (h.signed hc (.inr rfl) hp)⟩ s1 h1 h2
    · exact fin ⟨.inr (.inr rfl), .inr (.inl rfl), hnum.drop hend 1, fun _ => .inl (h.signed hc (.inl rfl) hp)⟩ s1 h1 h2
    · exact fin ⟨.inr (.inr rfl), .inl rfl, hnum, by simp⟩ s1 h1 h2
  · wpb
    exact ⟨h, Nat.le_refl _, Nat.le_refl _, trivial, .inl nil, .inl rfl, nil, by simp⟩

theorem AnbOk.mono {src a op b : Bytes} {sp sp' : Span} (h : AnbOk src sp a op b) (h1 : sp'.start ≤ sp.start)
    (h2 : sp.stop ≤ sp'.stop) : AnbOk src sp' a op b :=
  ⟨h.1.imp (fun x => x.mono h1 h2) id, h.2.1, h.2.2.1.mono h1 h2, h.2.2.2⟩

/-- What An+B yields. -/
theorem anbSecond_pi {C : Prop} {src : Bytes} {id : Nat} {s : St} {start : Nat} {r : Bytes × Bytes × Bytes × Nat}
    (h : PI src id s) (hs : start ≤ r.2.2.2) (hl : r.2.2.2 ≤ s.lex.lastPos) (hst : start ≤ s.lex.start)
    (hr : AnbOk src ⟨start, r.2.2.2⟩ r.1 r.2.1 r.2.2.1) :
    wp (anbSecond start r) (fun x s' => PI src id s' ∧ s.lex.start ≤ s'.lex.start ∧
      ∃ stop a op b, x = .anb ⟨start, stop⟩ a op b ∧ start ≤ stop ∧ stop ≤ s'.lex.lastPos ∧
        AnbOk src ⟨start, stop⟩ a op b) (PX C src id) s := by
  obtain ⟨a, op, b, stop⟩ := r
  simp only at hs hl hr
  have hle := h.start_le
  have hend := h.end_le
  rw [anbSecond]
  wpb
  refine wp_ite (fun hc => ?_) fun _ => wp_ite (fun hc => ?_) fun _ => ?_
  · have hd := h.number hc
    have hnum : TextIn src ⟨s.lex.start, s.lex.lastPos⟩ s.lex.num := by rw [hd]; exact .self hle
    have hb : TextIn src ⟨start, s.lex.lastPos⟩ (s.lex.num.drop 1) := (hnum.drop hend 1).mono hst (Nat.le_refl _)
    have ha : AnbOk src ⟨start, s.lex.lastPos⟩ a op b := hr.mono (Nat.le_refl _) hl
    refine wp_ite (fun hp => ?_) fun _ => wp_ite (fun hp => ?_) fun _ => errorf_pi h _
    · refine wp_seq (expect_pi h _) fun _ s1 ⟨h1, h2, _⟩ => ?_
      have := h1.start_le
      wpb
      exact ⟨h1, by omega, _, _, _, _, rfl, by omega, by omega, ha.1, .inr (.inr rfl), hb, fun _ => .inl (h.signed hc (.inr rfl) hp)⟩
    · refine wp_seq (expect_pi h _) fun _ s1 ⟨h1, h2, _⟩ => ?_
      have := h1.start_le
      wpb
      exact ⟨h1, by omega, _, _, _, _, rfl, by omega, by omega, ha.1, .inr (.inl rfl), hb, fun _ => .inl (h.signed hc (.inl rfl) hp)⟩
  · refine wp_seq (next_pi h) fun _ s1 ⟨h1, h2⟩ => ?_
    wpb
    refine wp_seq (expect_pi h1 _) fun _ s2 ⟨h3, h4, hcur⟩ => ?_
    have hd := h1.number hcur
    have hle1 := h1.start_le
    have hle2 := h3.start_le
    have hnum : TextIn src ⟨s1.lex.start, s1.lex.lastPos⟩ s1.lex.num := by rw [hd]; exact .self hle1
    wpb
    refine ⟨h3, by omega, _, _, _, _, rfl, by omega, by omega, ?_, .inr hc.2, hnum.mono (by dom) (Nat.le_refl _), fun _ => h1.number_text hcur⟩
    exact (hr.mono (sp' := ⟨start, s1.lex.lastPos⟩) (Nat.le_refl _) (by dom)).1
  · wpb
    exact ⟨h, Nat.le_refl _, _, _, _, _, rfl, hs, hl, hr⟩

theorem parseANPlusB_pi {C : Prop} {src : Bytes} {id : Nat} {s : St} (h : PI src id s) :
    wp parseANPlusB (fun x s' => PI src id s' ∧ s.lex.start ≤ s'.lex.start ∧
      ∃ stop a op b, x = .anb ⟨s.lex.start, stop⟩ a op b ∧ s.lex.start ≤ stop ∧ stop ≤ s'.lex.lastPos ∧
        AnbOk src ⟨s.lex.start, stop⟩ a op b) (PX C src id) s := by
  rw [parseANPlusB]
  refine withRetain_pi h fun s0 h0 e1 e2 e3 e4 e5 => ?_
  wpb
  refine wp_seq (anbFirst_pi h0) fun r s1 ⟨h1, h2, h2', h3, h4⟩ => ?_
  refine wp_mono (anbSecond_pi h1 (by rw [h3]; exact h0.start_le) (by omega) h2 (by rw [h3]; exact h4))
    fun x s2 ⟨h5, h6, stop, a, op, b, e, h7, h8, h9⟩ => ⟨h5, fun s3 h10 e6 e7 => ?_⟩
  rw [← e1]
  exact ⟨h10, by omega, stop, a, op, b, e, h7, by omega, h9⟩

/-- The arguments of `nth-*`; a dimension that is not An+B is left alone. -/
theorem parseNthArgs_pi {C : Prop} {src : Bytes} {id : Nat} {s : St} (h : PI src id s) :
    wp parseNthArgs (fun x s' => PI src id s' ∧ s.lex.start ≤ s'.lex.start ∧
      (s'.lex.cur = .dimension ∨ ∀ lo, lo ≤ s.lex.start → ArgsOk src ⟨lo, s'.lex.lastPos⟩ true x)) (PX C src id) s := by
  have hle := h.start_le
  have anb : (s.lex.cur = .number ∨ s.lex.cur = .dimension ∨
      (s.lex.cur = .ident ∧ (s.lex.str = b!"n" ∨ s.lex.str = b!"-n"))) → wp parseANPlusB (fun x s' => PI src id s' ∧
      s.lex.start ≤ s'.lex.start ∧
      (s'.lex.cur = .dimension ∨ ∀ lo, lo ≤ s.lex.start → ArgsOk src ⟨lo, s'.lex.lastPos⟩ true x)) (PX C src id) s := by
    intro hcur
    refine wp_mono (wp_and (parseANPlusB_pi h) (parseANPlusB_means h hcur))
      fun x s2 ⟨⟨h5, h6, stop, a, op, b, e, h7, h8, h9⟩, hd⟩ => ⟨h5, h6, hd.imp (fun z => z) fun hd lo hlo => ?_⟩
    have hm := hd _ _ _ _ e
    subst e
    simp only [ArgsOk]
    exact ⟨trivial, ⟨hlo, h7, h8⟩, h9, hm⟩
  rw [parseNthArgs]
  wpb
  split
  · rename_i hc; exact anb (.inl hc)
  · rename_i hc; exact anb (.inr (.inl hc))
  · rename_i hc
    refine wp_ite (fun hn => anb (.inr (.inr ⟨hc, hn⟩))) fun _ => wp_ite (fun _ => errorf_pi h _) fun hn => ?_
    refine wp_seq (next_pi h) fun _ s1 ⟨h1, h2⟩ => ?_
    have := h1.start_le
    wpb
    refine ⟨h1, by omega, .inr fun lo hlo => ?_⟩
    simp only [ArgsOk]
    refine ⟨trivial, ⟨hlo, hle, by dom⟩, h.ident hc, ?_⟩
    by_cases he : s.lex.str = b!"even"
    · exact .inl he
    · by_cases ho : s.lex.str = b!"odd"
      · exact .inr ho
      · exact absurd ⟨he, ho⟩ hn
  · wpb
    exact ⟨h, Nat.le_refl _, .inr fun _ _ => trivial⟩

/-! ### Attribute selectors -/

/-- A call of a math function and an attribute selector. -/
def MathAttr (src : Bytes) : Prop := MathIn src ∧ SliceOf src b!"["

theorem parseAttributeSelector_pi {C : Prop} {src : Bytes} {id n : Nat} {s : St} (hC : MathAttr src → C) (h : PI src id s)
    (hb : s.lex.cur = .lbracket) :
    wp (parseAttributeSelector n) (fun p s' => PI src id s' ∧ PartOk src p ∧ p.loc.start = s.lex.start ∧
      p.loc.stop ≤ s'.lex.start) (PX C src id) s := by
  rw [parseAttributeSelector]
  refine withRetain_pi h fun s0 h0 e1 e2 e3 e4 e5 => ?_
  wpb
  have hle0 := h0.start_le
  refine wp_seq (next_pi h0) fun _ s1 ⟨h1, l1⟩ => ?_
  wpb
  refine wp_seq (expect_pi h1 _) fun _ s2 ⟨h2, l2, hid⟩ => ?_
  have hle1 := h1.start_le
  have hle2 := h2.start_le
  have hend2 := h2.end_le
  have hprop : ∀ e, s1.lex.lastPos ≤ e → TextIn src ⟨s0.lex.start, e⟩ s1.lex.str := by
    intro e he
    rw [h1.ident hid]
    exact (TextIn.self (sp := ⟨s1.lex.start, s1.lex.lastPos⟩) hle1).mono (by dom) he
  wpb
  refine wp_ite (fun _ => ?_) fun _ => ?_
  · wpb
    refine wp_seq (next_pi h2) fun _ s3 ⟨h3, l3⟩ => ?_
    wpb
    refine ⟨h3, fun s4 h4 e6 e7 => ⟨h4, ?_, e1, by rw [e6]; exact l3⟩⟩
    simp only [PartOk]
    refine ⟨⟨?_, hend2⟩, hprop _ (by omega), by simp, .inl rfl, fun _ => (by trivial), by simp, h1.identLit hid⟩
    dom
  · wpb
    refine wp_seq (R := fun preOp s3 => PI src id s3 ∧ s2.lex.lastPos ≤ s3.lex.start ∧
      preOp ∈ [[], b!"^", b!"~", b!"$", b!"*", b!"|"]) ?_ fun preOp s3 ⟨h3, l3, hop⟩ => ?_
    · refine wp_ite (fun hop => ?_) fun _ => ?_
      · refine wp_seq (next_pi h2) fun _ s3 ⟨h3, l3⟩ => ?_
        wpb
        refine wp_ite (fun _ => errorf_pi h3 _) fun _ => ?_
        refine wp_seq (expect_pi h3 _) fun _ s4 ⟨h4, l4, _⟩ => ?_
        have := h3.start_le
        wpb
        refine ⟨h4, by omega, ?_⟩
        simp only [List.mem_cons, List.not_mem_nil, or_false]
        exact .inr hop
      · refine wp_seq (expect_pi h2 _) fun _ s3 ⟨h3, l3, _⟩ => ?_
        wpb
        exact ⟨h3, l3, by simp⟩
    · refine wp_seq ((valueSpec src id (fun hm => hC ⟨hm, h.more.bracket hb⟩) n).value h3) fun v s4 ⟨⟨h4, hv⟩, hcomp⟩ => ?_
      rcases hv with ⟨rfl, rfl⟩ | ⟨hv, g1, g2, g3, _⟩
      · exact errorf_pi h4 _
      · have hne := hv.ne
        have hsp := hv.spOk
        have hle3 := h3.start_le
        have hle4 := h4.start_le
        have hend4 := h4.end_le
        have fin : ∀ (md : Bytes), md ∈ [[], b!"s", b!"i"] → ∀ s5 : St, s4.lex.lastPos ≤ s5.lex.start → ∀ s6 : St,
            PI src id s6 → s6.lex.start = s5.lex.start →
            PI src id s6 ∧ PartOk src (.attr ⟨s0.lex.start, s4.lex.lastPos⟩ s1.lex.str preOp v md) ∧
            (SelPart.attr ⟨s0.lex.start, s4.lex.lastPos⟩ s1.lex.str preOp v md).loc.start = s.lex.start ∧
            (SelPart.attr ⟨s0.lex.start, s4.lex.lastPos⟩ s1.lex.str preOp v md).loc.stop ≤ s6.lex.start := by
          intro md hmd s5 l5 s6 h6 e6
          refine ⟨h6, ?_, e1, by rw [e6]; exact l5⟩
          simp only [PartOk]
          refine ⟨⟨?_, hend4⟩, hprop _ (by omega), hop, .inr ⟨hv, ⟨?_, hsp.1, ?_⟩, hcomp.resolve_left hne⟩,
            fun e => absurd e hne, hmd, h1.identLit hid⟩
          all_goals dom
        have go : wp (do
            let e ← tokenEnd
            let str ← getStr
            if (← getCur) = .ident ∧ (str = b!"s" ∨ str = b!"i") then
              next
              expect .rbracket
              pure (.attr ⟨s0.lex.start, e⟩ s1.lex.str preOp v str)
            else
              expect .rbracket
              pure (.attr ⟨s0.lex.start, e⟩ s1.lex.str preOp v []) : P SelPart) (fun a s' => PI src id s' ∧
            ∀ s'', PI src id s'' → s''.lex.start = s'.lex.start → s''.lex.lastPos = s'.lex.lastPos →
              PI src id s'' ∧ PartOk src a ∧ a.loc.start = s.lex.start ∧ a.loc.stop ≤ s''.lex.start) (PX C src id) s4 := by
          wpb
          refine wp_ite (fun hmd => ?_) fun _ => ?_
          · refine wp_seq (next_pi h4) fun _ s5 ⟨h5, l5⟩ => ?_
            refine wp_seq (expect_pi h5 _) fun _ s6 ⟨h6, l6, _⟩ => ?_
            have := h5.start_le
            wpb
            refine ⟨h6, fun s7 h7 e6 _ => fin _ ?_ s6 (by omega) s7 h7 e6⟩
            rcases hmd.2 with e | e <;> rw [e] <;> simp
          · refine wp_seq (expect_pi h4 _) fun _ s6 ⟨h6, l6, _⟩ => ?_
            wpb
            exact ⟨h6, fun s7 h7 e6 _ => fin _ (by simp) s6 (by omega) s7 h7 e6⟩
        cases v <;> first | exact absurd rfl hne | exact go

/-! ### Selectors -/

theorem PartsOk.snoc {src : Bytes} : ∀ {ps : List SelPart} {p : SelPart}, PartsOk src ps → PartOk src p →
    PartsOk src (ps ++ [p])
  | [], _, _, h => by simp only [List.nil_append, PartsOk, and_true]; exact h
  | _ :: _, _, h, h' => by
    simp only [List.cons_append, PartsOk] at h ⊢
    exact ⟨h.1, PartsOk.snoc h.2 h'⟩

theorem SelsOk.snoc {src : Bytes} : ∀ {ps : List Sel} {p : Sel}, SelsOk src ps → SelOk src p →
    SelsOk src (ps ++ [p])
  | [], _, _, h => by simp only [List.nil_append, SelsOk, and_true]; exact h
  | _ :: _, _, h, h' => by
    simp only [List.cons_append, SelsOk] at h ⊢
    exact ⟨h.1, SelsOk.snoc h.2 h'⟩

theorem PartOk.spOk {src : Bytes} {p : SelPart} (h : PartOk src p) : SpOk src p.loc := by
  cases p <;> simp only [PartOk] at h <;> first | exact h.1 | exact h

theorem SelOk.spOk {src : Bytes} {p : Sel} (h : SelOk src p) : SpOk src p.loc := by
  cases p; simp only [SelOk] at h; exact h.1

/-- All functions of the selector parser. -/
structure SelSpec (C : Prop) (src : Bytes) (id n : Nat) : Prop where
  listLoop : ∀ {s acc lo}, PI src id s → SelsOk src acc → Ordered lo s.lex.start (acc.map Sel.loc) →
    wp (selListLoop n acc) (fun l s' => PI src id s' ∧ l ≠ [] ∧ SelsOk src l ∧
      Ordered lo s'.lex.start (l.map Sel.loc)) (PX C src id) s
  list : ∀ {s}, PI src id s → wp (parseSelectorList n) (fun l s' => PI src id s' ∧ SelListOk src l ∧
    l.sp.start = s.lex.start ∧ l.sp.stop ≤ s'.lex.start) (PX C src id) s
  sel : ∀ {s}, PI src id s → wp (parseSelector n) (fun x s' => PI src id s' ∧ SelOk src x ∧
    x.loc.start = s.lex.start ∧ x.loc.stop ≤ s'.lex.start) (PX C src id) s
  loop : ∀ {s sp parts}, PI src id s → PartsOk src parts → Ordered sp.start s.lex.start (parts.map SelPart.loc) →
    wp (selLoop n sp parts) (fun x s' => PI src id s' ∧ SelOk src x ∧ x.loc.start = sp.start ∧
      x.loc.stop ≤ s'.lex.start) (PX C src id) s
  pseudo : ∀ {s sp}, PI src id s → sp.start ≤ sp.stop → sp.stop ≤ s.lex.start →
    wp (parsePseudo n sp) (fun p s' => PI src id s' ∧ PartOk src p ∧ p.loc.start = sp.start ∧
      p.loc.stop ≤ s'.lex.start) (PX C src id) s
  name : ∀ {s sp}, PI src id s → sp.start ≤ s.lex.start →
    wp (parsePseudoName n sp) (fun r s' => PI src id s' ∧ r.1.start = sp.start ∧ SpOk src r.1 ∧
      r.1.stop ≤ s'.lex.start ∧ s.lex.start ≤ s'.lex.start ∧ TextIn src r.1 r.2.1 ∧
      ArgsOk src r.1 (nthNames.contains r.2.1) r.2.2 ∧ IdentLit r.2.1) (PX C src id) s

theorem selSpec {C : Prop} (src : Bytes) (id : Nat) (hC : MathAttr src → C) : ∀ n, SelSpec C src id n
  | 0 => ⟨fun _ _ _ => trivial, fun _ => trivial, fun _ => trivial, fun _ _ _ => trivial, fun _ _ _ => trivial,
      fun _ _ => trivial⟩
  | n + 1 => by
    have ih := selSpec src id hC n
    refine ⟨?_, ?_, ?_, ?_, ?_, ?_⟩
    · intro s acc lo h ha ho
      rw [selListLoop]
      wpb
      refine wp_ite (fun _ => errorf_pi h _) fun _ => ?_
      refine wp_seq (ih.sel h) fun x s1 ⟨h1, hx, g1, g2⟩ => ?_
      have hsp := hx.spOk
      wpb
      refine wp_ite (fun _ => ?_) fun _ => ?_
      · refine wp_seq (next_pi h1) fun _ s2 ⟨h2, l2⟩ => ?_
        have := h1.start_le
        refine ih.listLoop h2 (ha.snoc hx) ?_
        rw [List.map_append]
        exact ho.snoc (by omega) hsp.1 (by omega)
      · wpb
        refine ⟨h1, by simp, ha.snoc hx, ?_⟩
        rw [List.map_append]
        exact ho.snoc (by omega) hsp.1 g2
    · intro s h
      rw [parseSelectorList]
      wpb
      refine wp_seq (ih.listLoop (lo := s.lex.start) h (by simp only [SelsOk]) (Nat.le_refl _))
        fun l s1 ⟨h1, hne, hl, ho⟩ => ?_
      cases hlast : l.getLast? with
      | none => exact absurd (List.getLast?_eq_none_iff.1 hlast) hne
      | some last =>
        obtain ⟨a, b, c, d⟩ := ho.last (sp := last.loc) (by rw [List.getLast?_map, hlast]; rfl)
        have := h1.end_le
        have := h1.start_le
        show wp (pure _) _ _ _
        wpb
        exact ⟨h1, ⟨⟨by dom, by dom⟩, hne, a, hl⟩, by trivial, b⟩
    · intro s h
      rw [parseSelector]
      wpb
      refine withRetain_pi h fun s0 h0 e1 e2 e3 e4 e5 => ?_
      refine wp_mono (ih.loop h0 (by simp only [PartsOk]) (show _ ≤ _ by rw [e1]))
        fun x s1 ⟨h1, hx, g1, g2⟩ => ⟨h1, fun s2 h2 e6 e7 => ⟨h2, hx, g1, by omega⟩⟩
    · intro s sp parts h hp ho
      have hle := h.start_le
      -- append one part and go on
      have more : ∀ {p : SelPart} {s1 : St}, PI src id s1 → PartOk src p → s.lex.start ≤ p.loc.start →
          p.loc.stop ≤ s1.lex.start → wp (selLoop n sp (parts ++ [p])) (fun x s' => PI src id s' ∧ SelOk src x ∧
            x.loc.start = sp.start ∧ x.loc.stop ≤ s'.lex.start) (PX C src id) s1 := by
        intro p s1 h1 hpo g1 g2
        refine ih.loop h1 (hp.snoc hpo) ?_
        rw [List.map_append]
        exact ho.snoc g1 hpo.spOk.1 g2
      have one : ∀ {p : SelPart}, PartOk src p → p.loc = ⟨s.lex.start, s.lex.lastPos⟩ →
          wp (next >>= fun _ => selLoop n sp (parts ++ [p])) (fun x s' => PI src id s' ∧ SelOk src x ∧
            x.loc.start = sp.start ∧ x.loc.stop ≤ s'.lex.start) (PX C src id) s := by
        intro p hpo e
        refine wp_seq (next_pi h) fun _ s1 ⟨h1, l1⟩ => more h1 hpo (by rw [e]) (by rw [e]; exact l1)
      rw [selLoop]
      wpb
      split
      · exact errorf_pi h _
      · exact one (by simp only [PartOk]; exact h.span) rfl
      · rename_i hc
        exact one (by simp only [PartOk]; exact ⟨h.span, h.ident hc, .inr (h.identLit hc)⟩) rfl
      · rename_i hc
        exact one (by simp only [PartOk]; exact ⟨h.span, h.lit (by rw [hc]; rfl), h.hashLit hc⟩) rfl
      · rename_i hc
        have hd := h.delim hc
        refine wp_ite (fun _ => ?_) fun _ => wp_ite (fun hop => ?_) fun _ => wp_ite (fun hst => ?_) fun _ =>
          errorf_pi h _
        · refine wp_seq (next_pi h) fun _ s1 ⟨h1, l1⟩ => ?_
          wpb
          refine wp_seq (expect_pi h1 _) fun _ s2 ⟨h2, l2, hid⟩ => ?_
          have hle1 := h1.start_le
          refine more h2 ?_ (Nat.le_refl _) l2
          simp only [PartOk]
          refine ⟨⟨by dom, h1.end_le⟩, ?_, h1.identLit hid⟩
          rw [h1.ident hid]
          exact (TextIn.self (sp := ⟨s1.lex.start, s1.lex.lastPos⟩) hle1).mono (by dom) (Nat.le_refl _)
        · refine one ?_ rfl
          simp only [PartOk]
          refine ⟨h.span, hd, ?_⟩
          simp only [List.mem_cons, List.not_mem_nil, or_false]
          exact hop
        · exact one (by simp only [PartOk]; exact ⟨h.span, hd, .inl hst⟩) rfl
      · refine wp_seq (next_pi h) fun _ s1 ⟨h1, l1⟩ => ?_
        refine wp_seq (ih.pseudo h1 hle l1) fun p s2 ⟨h2, hpo, g1, g2⟩ => more h2 hpo (by dom) g2
      · rename_i hb
        refine wp_seq (parseAttributeSelector_pi hC h hb) fun p s1 ⟨h1, hpo, g1, g2⟩ => more h1 hpo (by omega) g2
      · cases hlast : parts.getLast? with
        | none => exact errorf_pi h _
        | some last =>
          obtain ⟨a, b, c, d⟩ := ho.last (sp := last.loc) (by rw [List.getLast?_map, hlast]; rfl)
          have := h.end_le
          show wp (pure _) _ _ _
          wpb
          refine ⟨h, ?_, rfl, b⟩
          simp only [SelOk]
          refine ⟨⟨by dom, by dom⟩, ?_, a, hp⟩
          rintro rfl
          cases hlast
    · intro s sp h hsp hl
      rw [parsePseudo]
      wpb
      refine wp_ite (fun _ => ?_) fun _ => ?_
      · wpb
        refine wp_seq (next_pi h) fun _ s1 ⟨h1, l1⟩ => ?_
        have hle := h.start_le
        refine wp_seq (ih.name (sp := ⟨s.lex.start, s.lex.lastPos⟩) h1 (by dom))
          fun r s2 ⟨h2, g1, g2, g3, g4, g5, g6, g7⟩ => ?_
        obtain ⟨isp, name, args⟩ := r
        simp only at g1 g2 g3 g5 g6 g7
        have hle2 := g2.1
        show wp (pure _) _ _ _
        wpb
        refine ⟨h2, ?_, rfl, g3⟩
        simp only [PartOk]
        refine ⟨⟨by dom, g2.2⟩, ⟨by dom, hle2, Nat.le_refl _⟩, g5, g6, g7⟩
      · refine wp_seq (ih.name h (by omega)) fun r s2 ⟨h2, g1, g2, g3, g4, g5, g6, g7⟩ => ?_
        obtain ⟨isp, name, args⟩ := r
        show wp (pure _) _ _ _
        wpb
        refine ⟨h2, ?_, g1, g3⟩
        simp only [PartOk]
        exact ⟨g2, g5, g6, g7⟩
    · intro s sp h hl
      have hle := h.start_le
      rw [parsePseudoName]
      wpb
      split
      · rename_i hc
        wpb
        refine wp_seq (next_pi h) fun _ s1 ⟨h1, l1⟩ => ?_
        wpb
        refine ⟨h1, trivial, ⟨by dom, h.end_le⟩, l1, by omega, ?_, by simp only [ArgsOk],
          h.identLit hc⟩
        rw [h.ident hc]
        exact (TextIn.self (sp := ⟨s.lex.start, s.lex.lastPos⟩) hle).mono hl (Nat.le_refl _)
      · rename_i hc
        have hname := h.lit (by rw [hc]; rfl)
        refine wp_seq (next_pi h) fun _ s1 ⟨h1, l1⟩ => ?_
        refine wp_seq (R := fun x s' => PI src id s' ∧ s1.lex.start ≤ s'.lex.start ∧
          (s'.lex.cur = .dimension ∨ ArgsOk src ⟨sp.start, s'.lex.lastPos⟩ (nthNames.contains s.lex.str) x))
          ?_ fun args s2 ⟨h2, l2, ha⟩ => ?_
        · rw [← isNth_eq]
          refine wp_ite (fun hn => ?_) fun hn => ?_
          · rw [hn]
            exact wp_mono (parseNthArgs_pi h1) fun x s' ⟨a, b, c⟩ => ⟨a, b, c.imp (fun z => z) fun c => c _ (by omega)⟩
          · rw [Bool.not_eq_true] at hn
            rw [hn]
            refine wp_seq (ih.list h1) fun l s2 ⟨h2, hlo, g1, g2⟩ => ?_
            have := h2.start_le
            have := hlo.1.1
            wpb
            refine ⟨h2, by omega, .inr ?_⟩
            simp only [ArgsOk]
            refine ⟨trivial, ⟨by dom, hlo.1.1, by dom⟩, hlo.2⟩
        · have hle2 := h2.start_le
          have hle1 := h1.start_le
          wpb
          refine wp_seq (expect_pi h2 _) fun _ s3 ⟨h3, l3, hcur⟩ => ?_
          wpb
          refine ⟨h3, trivial, ⟨by dom, h2.end_le⟩, l3, by omega, ?_, ha.resolve_left (by rw [hcur]; decide),
            h.funcLit hc⟩
          exact hname.mono hl (by dom)
      · exact errorf_pi h _

end Cssc
