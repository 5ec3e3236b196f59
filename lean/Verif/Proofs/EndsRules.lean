import Verif.Proofs.Ends

/-!
# Texts on which the parser ends: selectors, media queries, rules
-/

namespace Cssc

section
variable {st : Bool} {src : Bytes} {p id : Nat} {C : Prop}

/-- After something that consumed at least one token. -/
def Ran (src : Bytes) (p id : Nat) (s s' : St) : Prop := Moves src p id s s' ∧ s.lex.start < s'.lex.start

theorem Moves.ran {s s1 s2 : St} (h : Moves src p id s s1) (h' : Ran src p id s1 s2) : Ran src p id s s2 :=
  ⟨h.trans h'.1, Nat.lt_of_le_of_lt h.mono h'.2⟩

theorem Ran.run {s s1 s2 : St} (h : Ran src p id s s1) (h' : Moves src p id s1 s2) : Ran src p id s s2 :=
  ⟨h.1.trans h', Nat.lt_of_lt_of_le h.2 h'.mono⟩

theorem Stp.ran {s s' : St} (h : Stp src p id s s') (hc : s.lex.cur ≠ .eof) : Ran src p id s s' := ⟨h.run, h.lt hc⟩

theorem VGo.ran {s s' : St} {v : Value} (h : VGo src p id s v s') (hv : v ≠ .nil) : Ran src p id s s' :=
  ⟨h.go.run, h.lt hv⟩

theorem TI.retain {s : St} (h : TI src p id s) (b : Bool) : TI src p id { s with lex := { s.lex with retainWS := b } } := by
  refine ⟨?_, h.z, h.rc⟩
  have h := h.pi
  exact ⟨h.srcEq, h.idEq, ⟨h.inv.le, h.inv.ch, h.inv.pos⟩, h.start_le, h.ident, h.delim, h.number, h.dimension, h.lit, h.pct, h.more⟩

theorem withRetain_run {s : St} {b : Bool} {m : P α} (h : TI src p id s)
    (hm : ∀ s0, TI src p id s0 → s0.lex.start = s.lex.start → s0.lex.cur = s.lex.cur →
      s0.lex.retainWS = b → wp m (fun _ s' => Moves src p id s0 s') (EX C src id) s0) :
    wp (withRetain b m) (fun _ s' => Moves src p id s s') (EX C src id) s := by
  have hm := hm _ (h.retain b) rfl rfl rfl
  unfold wp withRetain at *
  cases hr : m { s with lex := { s.lex with retainWS := b } } with
  | ok a s' =>
    rw [hr] at hm
    exact ⟨hm.ti.retain _, rfl, hm.mono⟩
  | err e s' => rw [hr] at hm; exact hm
  | crash s' => rw [hr] at hm; exact hm
  | timeout => rw [hr] at hm; exact hm

theorem withRetain_ran {s : St} {b : Bool} {m : P α} (h : TI src p id s)
    (hm : ∀ s0, TI src p id s0 → s0.lex.start = s.lex.start → s0.lex.cur = s.lex.cur →
      s0.lex.retainWS = b → wp m (fun _ s' => Ran src p id s0 s') (EX C src id) s0) :
    wp (withRetain b m) (fun _ s' => Ran src p id s s') (EX C src id) s := by
  have hm := hm _ (h.retain b) rfl rfl rfl
  unfold wp withRetain at *
  cases hr : m { s with lex := { s.lex with retainWS := b } } with
  | ok a s' =>
    rw [hr] at hm
    exact ⟨⟨hm.1.ti.retain _, rfl, hm.1.mono⟩, hm.2⟩
  | err e s' => rw [hr] at hm; exact hm
  | crash s' => rw [hr] at hm; exact hm
  | timeout => rw [hr] at hm; exact hm

/-! ### Selectors -/

theorem next_pure (F : Fair st src p C) {s : St} {a : α} (h : TI src p id s) :
    wp (next >>= fun _ => pure a) (fun _ s' => Moves src p id s s') (EX C src id) s :=
  wp_seq (next_go F h) fun _ _ a => a.run

theorem expect_pure (F : Fair st src p C) {s : St} {t : Tok} {a : α} (h : TI src p id s) :
    wp (expect t >>= fun _ => pure a) (fun _ s' => Moves src p id s s') (EX C src id) s :=
  wp_seq (expect_go F h t) fun _ _ ⟨a, _⟩ => a.run

theorem anbFirst_ends (F : Fair st src p C) {s : St} (h : TI src p id s) :
    wp anbFirst (fun _ s' => Moves src p id s s') (EX C src id) s := by
  rw [anbFirst]
  wpb
  refine wp_ite (fun _ => next_pure F h) fun _ => wp_ite (fun _ => ?_) fun _ => wp_ite (fun _ => expect_pure F h) fun _ =>
    wp_ite (fun _ => expect_pure F h) fun _ => wp_ite (fun _ => ?_) fun _ => ?_
  · refine wp_ite (fun _ => wp_ite (fun _ => errorf_go h _) fun _ => next_pure F h) fun _ =>
      wp_ite (fun _ => wp_ite (fun _ => errorf_go h _) fun _ => next_pure F h) fun _ => errorf_go h _
  · refine wp_seq (expect_go F h _) fun _ s1 ⟨a, _⟩ => ?_
    refine wp_ite (fun _ => a.run) fun _ => wp_ite (fun _ => a.run) fun _ => a.run
  · exact Moves.refl h

theorem anbSecond_ends (F : Fair st src p C) {s : St} (h : TI src p id s) (start : Nat) : ∀ x,
    wp (anbSecond start x) (fun _ s' => Moves src p id s s') (EX C src id) s := by
  rintro ⟨a, op, b, stop⟩
  rw [anbSecond]
  wpb
  refine wp_ite (fun _ => ?_) fun _ => wp_ite (fun _ => ?_) fun _ => Moves.refl h
  · exact wp_ite (fun _ => expect_pure F h) fun _ => wp_ite (fun _ => expect_pure F h) fun _ => errorf_go h _
  · refine wp_seq (next_go F h) fun _ s1 a => ?_
    wpb
    refine wp_seq (expect_go F a.ti _) fun _ s2 ⟨b, _⟩ => a.run.trans b.run

theorem parseANPlusB_ends (F : Fair st src p C) {s : St} (h : TI src p id s) :
    wp parseANPlusB (fun _ s' => Moves src p id s s') (EX C src id) s := by
  rw [parseANPlusB]
  refine withRetain_run h fun s0 h0 _ _ _ => ?_
  wpb
  refine wp_seq (anbFirst_ends F h0) fun x s1 a => ?_
  exact wp_mono (anbSecond_ends F a.ti _ x) fun _ _ b => a.trans b

theorem parseNthArgs_ends (F : Fair st src p C) {s : St} (h : TI src p id s) :
    wp parseNthArgs (fun _ s' => Moves src p id s s') (EX C src id) s := by
  rw [parseNthArgs]
  wpb
  split
  · exact parseANPlusB_ends F h
  · exact parseANPlusB_ends F h
  · exact wp_ite (fun _ => parseANPlusB_ends F h) fun _ => wp_ite (fun _ => errorf_go h _) fun _ => next_pure F h
  · exact Moves.refl h

theorem parseAttributeSelector_ends (F : Fair st src p C) {n : Nat} {s : St} (h : TI src p id s) (hc : s.lex.cur = .lbracket)
    (hn : 10 * (src.length - s.lex.start) + 1 ≤ n) :
    wp (parseAttributeSelector n) (fun _ s' => Ran src p id s s') (EX C src id) s := by
  rw [parseAttributeSelector]
  refine withRetain_ran h fun s0 h0 e0 c0 r0 => ?_
  wpb
  refine wp_seq (next_go F h0) fun _ s1 a => ?_
  have ra := a.ran (by rw [c0, hc]; simp)
  wpb
  refine wp_seq (expect_go F a.ti _) fun _ s2 ⟨b, _⟩ => ?_
  have rb := ra.run b.run
  wpb
  refine wp_ite (fun _ => ?_) fun _ => ?_
  · wpb
    exact wp_seq (next_go F b.ti) fun _ s3 c => rb.run c.run
  · wpb
    refine wp_seq (R := fun _ s' => Moves src p id s2 s') ?_ fun op s3 c => ?_
    · refine wp_ite (fun _ => ?_) fun _ => ?_
      · refine wp_seq (next_go F b.ti) fun _ s3 c => ?_
        wpb
        refine wp_ite (fun _ => errorf_go c.ti _) fun _ => ?_
        exact wp_seq (expect_go F c.ti _) fun _ s4 ⟨d, _⟩ => c.run.trans d.run
      · exact expect_pure F b.ti
    · have rc := rb.run c
      have l1 := rc.2
      have := c.ti.len
      have := h0.len
      refine wp_seq ((valueEnds F n).value c.ti (rc.1.ret.trans r0) (.zero .first _) (by omega)) fun v s4 ⟨d, _⟩ => ?_
      have rd := rc.run d.go.run
      have ok : wp (do
          let e ← tokenEnd
          let str ← getStr
          if (← getCur) = .ident ∧ (str = b!"s" ∨ str = b!"i") then
            next
            expect .rbracket
            pure (.attr ⟨s0.lex.start, e⟩ s1.lex.str op v str)
          else
            expect .rbracket
            pure (.attr ⟨s0.lex.start, e⟩ s1.lex.str op v []) : P SelPart) (fun _ s' => Ran src p id s0 s') (EX C src id) s4 := by
        wpb
        refine wp_ite (fun _ => ?_) fun _ => ?_
        · refine wp_seq (next_go F d.go.ti) fun _ s5 e => ?_
          exact wp_seq (expect_go F e.ti _) fun _ s6 ⟨f, _⟩ => (rd.run e.run).run f.run
        · exact wp_seq (expect_go F d.go.ti _) fun _ s6 ⟨f, _⟩ => rd.run f.run
      cases v <;> first | exact errorf_go d.go.ti _ | exact ok

/-- All functions of the selector parser. -/
structure SelEnds (C : Prop) (src : Bytes) (p id n : Nat) : Prop where
  loopL : ∀ {s acc}, TI src p id s → 10 * (src.length - s.lex.start) + 5 ≤ n →
    wp (selListLoop n acc) (fun l s' => Ran src p id s s' ∧ l ≠ []) (EX C src id) s
  list : ∀ {s}, TI src p id s → 10 * (src.length - s.lex.start) + 6 ≤ n →
    wp (parseSelectorList n) (fun _ s' => Ran src p id s s') (EX C src id) s
  sel : ∀ {s}, TI src p id s → 10 * (src.length - s.lex.start) + 4 ≤ n →
    wp (parseSelector n) (fun _ s' => Ran src p id s s') (EX C src id) s
  loop : ∀ {s sp parts}, TI src p id s → 10 * (src.length - s.lex.start) + 3 ≤ n →
    wp (selLoop n sp parts) (fun _ s' => Moves src p id s s' ∧ (parts = [] → s.lex.start < s'.lex.start)) (EX C src id) s
  pseudo : ∀ {s span}, TI src p id s → 10 * (src.length - s.lex.start) + 2 ≤ n →
    wp (parsePseudo n span) (fun _ s' => Moves src p id s s') (EX C src id) s
  name : ∀ {s span}, TI src p id s → 10 * (src.length - s.lex.start) + 1 ≤ n →
    wp (parsePseudoName n span) (fun _ s' => Moves src p id s s') (EX C src id) s

theorem selEnds (F : Fair st src p C) : ∀ n, SelEnds C src p id n
  | 0 => ⟨fun _ h => absurd h (by omega), fun _ h => absurd h (by omega), fun _ h => absurd h (by omega),
      fun _ h => absurd h (by omega), fun _ h => absurd h (by omega), fun _ h => absurd h (by omega)⟩
  | n + 1 => by
    have ih := selEnds F n
    refine ⟨?_, ?_, ?_, ?_, ?_, ?_⟩
    · intro s acc h hn
      have hlen := h.len
      rw [selListLoop]
      wpb
      refine wp_ite (fun _ => errorf_go h _) fun _ => ?_
      refine wp_seq (ih.sel h (by omega)) fun x s1 a => ?_
      wpb
      refine wp_ite (fun _ => ?_) fun _ => ⟨a, by simp⟩
      refine wp_seq (next_go F a.1.ti) fun _ s2 b => ?_
      have r := a.run b.run
      have := r.2
      have := r.1.ti.len
      exact wp_mono (ih.loopL r.1.ti (by omega)) fun _ s3 ⟨c, c'⟩ => ⟨r.run c.1, c'⟩
    · intro s h hn
      rw [parseSelectorList]
      wpb
      refine wp_seq (ih.loopL h (by omega)) fun l s1 ⟨a, a'⟩ => ?_
      cases hl : l.getLast? with
      | none => exact absurd (List.getLast?_eq_none_iff.1 hl) a'
      | some x => exact a
    · intro s h hn
      rw [parseSelector]
      wpb
      refine withRetain_ran h fun s0 h0 e0 _ _ => ?_
      exact wp_mono (ih.loop (parts := []) h0 (by omega)) fun _ s1 ⟨a, b⟩ => ⟨a, b rfl⟩
    · intro s sp parts h hn
      have hlen := h.len
      have again : ∀ {s1 part}, Ran src p id s s1 → wp (selLoop n sp (parts ++ [part]))
          (fun _ s' => Moves src p id s s' ∧ (parts = [] → s.lex.start < s'.lex.start)) (EX C src id) s1 := by
        intro s1 part a
        have := a.2
        have := a.1.ti.len
        exact wp_mono (ih.loop a.1.ti (by omega)) fun _ s2 ⟨b, _⟩ => ⟨a.1.trans b, fun _ => (a.run b).2⟩
      rw [selLoop]
      wpb
      split
      · exact errorf_go h _
      · rename_i hc
        exact wp_seq (next_go F h) fun _ s1 a => again (a.ran (by simp [hc]))
      · rename_i hc
        exact wp_seq (next_go F h) fun _ s1 a => again (a.ran (by simp [hc]))
      · rename_i hc
        exact wp_seq (next_go F h) fun _ s1 a => again (a.ran (by simp [hc]))
      · rename_i hc
        refine wp_ite (fun _ => ?_) fun _ => wp_ite (fun _ => ?_) fun _ => wp_ite (fun _ => ?_) fun _ => errorf_go h _
        · refine wp_seq (next_go F h) fun _ s1 a => ?_
          wpb
          exact wp_seq (expect_go F a.ti _) fun _ s2 ⟨b, _⟩ => again ((a.ran (by simp [hc])).run b.run)
        · exact wp_seq (next_go F h) fun _ s1 a => again (a.ran (by simp [hc]))
        · exact wp_seq (next_go F h) fun _ s1 a => again (a.ran (by simp [hc]))
      · rename_i hc
        refine wp_seq (next_go F h) fun _ s1 a => ?_
        have r := a.ran (by simp [hc])
        have := r.2
        have := a.ti.len
        exact wp_seq (ih.pseudo a.ti (by omega)) fun _ s2 b => again (r.run b)
      · rename_i hc
        exact wp_seq (parseAttributeSelector_ends F h hc (by omega)) fun _ s1 a => again a
      · cases hl : parts.getLast? with
        | none => exact errorf_go h _
        | some x => exact ⟨.refl h, fun e => by subst e; cases hl⟩
    · intro s span h hn
      have hlen := h.len
      rw [parsePseudo]
      wpb
      refine wp_ite (fun hc => ?_) fun _ => ?_
      · wpb
        refine wp_seq (next_go F h) fun _ s1 a => ?_
        have := a.lt (by simp [hc])
        have := a.ti.len
        refine wp_seq (ih.name a.ti (by omega)) fun x s2 b => ?_
        obtain ⟨_, _, _⟩ := x
        exact a.run.trans b
      · refine wp_seq (ih.name h (by omega)) fun x s2 b => ?_
        obtain ⟨_, _, _⟩ := x
        exact b
    · intro s span h hn
      have hlen := h.len
      rw [parsePseudoName]
      wpb
      split
      · wpb
        exact next_pure F h
      · rename_i hc
        refine wp_seq (next_go F h) fun _ s1 a => ?_
        have := a.lt (by simp [hc])
        have := a.ti.len
        refine wp_seq (R := fun _ s' => Moves src p id s1 s') ?_ fun x s2 b => ?_
        · refine wp_ite (fun _ => parseNthArgs_ends F a.ti) fun _ => ?_
          exact wp_seq (ih.list a.ti (by omega)) fun l s2 b => b.1
        · wpb
          exact wp_seq (expect_go F b.ti _) fun _ s3 ⟨c, _⟩ => a.run.trans (b.trans c.run)
      · exact errorf_go h _

/-! ### Rules -/

theorem ksLoop_ends (F : Fair st src p C) : ∀ (n : Nat) {s : St} {acc : List KSel}, TI src p id s →
    10 * (src.length - s.lex.start) + 1 ≤ n → wp (ksLoop n acc) (fun _ s' => Ran src p id s s') (EX C src id) s
  | 0, _, _, _, h => absurd h (by omega)
  | n + 1, s, acc, h, hn => by
    have hlen := h.len
    have add : ∀ k : KSel, s.lex.cur ≠ .eof →
        wp (do
          next
          if (← getCur) = .comma then
            next
            ksLoop n (acc ++ [k])
          else pure (acc ++ [k])) (fun _ s' => Ran src p id s s') (EX C src id) s := by
      intro k hc
      refine wp_seq (next_go F h) fun _ s1 a => ?_
      have ra := a.ran hc
      wpb
      refine wp_ite (fun _ => ?_) fun _ => ra
      refine wp_seq (next_go F a.ti) fun _ s2 b => ?_
      have rb := ra.run b.run
      have := rb.2
      have := b.ti.len
      exact wp_mono (ksLoop_ends F n b.ti (by omega)) fun _ s3 c => rb.run c.1
    rw [ksLoop]
    wpb
    split
    · exact errorf_go h _
    · rename_i hc
      exact add _ (by simp [hc])
    · rename_i hc
      exact wp_ite (fun _ => errorf_go h _) fun _ => add _ (by simp [hc])
    · exact errorf_go h _

theorem parseKeyframeSelectorList_ends (F : Fair st src p C) {n : Nat} {s : St} (h : TI src p id s)
    (hn : 10 * (src.length - s.lex.start) + 1 ≤ n) :
    wp (parseKeyframeSelectorList n) (fun _ s' => Ran src p id s s') (EX C src id) s := by
  rw [parseKeyframeSelectorList]
  wpb
  refine wp_seq (ksLoop_ends F n h hn) fun l s1 a => ?_
  cases l.getLast? with
  | none => exact errorf_go a.1.ti _
  | some x => exact a

theorem ruleLoop_ends (F : Fair st src p C) {kf : Bool} : ∀ (n : Nat) {s : St} {sp : Span} {pre : Prelude}, TI src p id s →
    s.lex.retainWS = false → 10 * (src.length - s.lex.start) + 7 ≤ n →
    wp (ruleLoop kf n sp pre) (fun _ s' => Ran src p id s s') (EX C src id) s
  | 0, _, _, _, _, _, h => absurd h (by omega)
  | n + 1, s, sp, pre, h, hr, hn => by
    have hlen := h.len
    have again : ∀ {s1 pre}, Ran src p id s s1 → wp (ruleLoop kf n sp pre) (fun _ s' => Ran src p id s s') (EX C src id) s1 := by
      intro s1 pre a
      have := a.2
      have := a.1.ti.len
      exact wp_mono (ruleLoop_ends F n a.1.ti (a.1.ret.trans hr) (by omega)) fun _ s2 b => a.run b.1
    rw [ruleLoop]
    wpb
    split
    · exact errorf_go h _
    · rename_i hc
      exact wp_seq (parseDeclarationBlock_ends F h (h.zone_of (by simp [hc]) (by simp [hc]) (by simp [hc])) hr (by omega))
        fun b s1 a => a
    · refine wp_ite (fun _ => ?_) fun _ => ?_
      · exact wp_seq (parseKeyframeSelectorList_ends F h (by omega)) fun _ s1 a => again a
      · exact wp_seq ((selEnds F n).list h (by omega)) fun _ s1 a => again a

theorem parseQualifiedRule_ends (F : Fair st src p C) {kf : Bool} {n : Nat} {s : St} (h : TI src p id s)
    (hr : s.lex.retainWS = false) (hn : 10 * (src.length - s.lex.start) + 7 ≤ n) :
    wp (parseQualifiedRule kf n) (fun _ s' => Ran src p id s s') (EX C src id) s := by
  rw [parseQualifiedRule]
  wpb
  exact ruleLoop_ends F n h hr hn

/-! ### Media queries -/

theorem parseMediaRangeOperator_ends (F : Fair st src p C) {s : St} (h : TI src p id s) :
    wp parseMediaRangeOperator (fun _ s' => Moves src p id s s') (EX C src id) s := by
  rw [parseMediaRangeOperator]
  wpb
  refine wp_seq (next_go F h) fun _ s1 a => ?_
  wpb
  refine wp_ite (fun _ => ?_) fun _ => ?_
  · wpb
    refine wp_ite (fun _ => errorf_go a.ti _) fun _ => ?_
    refine wp_seq (next_go F a.ti) fun _ s2 b => ?_
    exact wp_ite (fun _ => a.run.trans b.run) fun _ => wp_ite (fun _ => a.run.trans b.run) fun _ => errorf_go b.ti _
  · exact wp_ite (fun _ => a.run) fun _ => wp_ite (fun _ => a.run) fun _ => errorf_go a.ti _

theorem mediaRange_ends (F : Fair st src p C) {n start : Nat} {first : Value} {s : St} (h : TI src p id s) (hr : s.lex.retainWS = false)
    (hn : 10 * (src.length - s.lex.start) + 1 ≤ n) :
    wp (mediaRange n start first) (fun _ s' => Moves src p id s s') (EX C src id) s := by
  have hlen := h.len
  rw [mediaRange]
  refine wp_seq (parseMediaRangeOperator_ends F h) fun op s1 a => ?_
  have := a.mono
  have := a.ti.len
  refine wp_seq ((valueEnds F n).value a.ti (a.ret.trans hr) (.zero .first _) (by omega)) fun v s2 ⟨b, _⟩ => ?_
  have rb := a.trans b.go.run
  have := rb.mono
  have := rb.ti.len
  have last : wp (match first with
      | .ident psp prop => do
        let e ← tokenEnd
        expect .rparen
        pure (.range ⟨start, e⟩ psp prop .nil op v)
      | _ => errorf "expected identifier" : P MQPart) (fun _ s' => Moves src p id s s') (EX C src id) s2 := by
    split
    · wpb
      exact wp_seq (expect_go F rb.ti _) fun _ s3 ⟨c, _⟩ => rb.trans c.run
    · exact errorf_go rb.ti _
  cases v <;> first | exact last | skip
  wpb
  refine wp_seq (R := fun _ s' => Moves src p id s2 s') ?_ fun r s3 c => ?_
  · refine wp_ite (fun _ => ?_) fun _ => Moves.refl rb.ti
    refine wp_seq (parseMediaRangeOperator_ends F rb.ti) fun op2 s3 c => ?_
    have := c.mono
    have := c.ti.len
    refine wp_ite (fun _ => errorf_go c.ti _) fun _ => ?_
    exact wp_mono ((valueEnds F n).value c.ti (c.ret.trans (rb.ret.trans hr)) (.zero .first _) (by omega)) fun _ s4 ⟨d, _⟩ => c.trans d.go.run
  · wpb
    exact wp_seq (expect_go F c.ti _) fun _ s4 ⟨d, _⟩ => rb.trans (c.trans d.run)

theorem parseMediaFeature_ends (F : Fair st src p C) {n : Nat} {s : St} (h : TI src p id s) (hr : s.lex.retainWS = false)
    (hn : 10 * (src.length - s.lex.start) + 1 ≤ n) :
    wp (parseMediaFeature n) (fun _ s' => Ran src p id s s') (EX C src id) s := by
  have hlen := h.len
  rw [parseMediaFeature]
  wpb
  refine wp_seq (expect_go F h _) fun _ s1 ⟨a, hc⟩ => ?_
  have ra := a.ran (by simp [hc])
  have := ra.2
  have := a.ti.len
  refine wp_seq ((valueEnds F n).value a.ti (a.ret.trans hr) (.zero .first _) (by omega)) fun v s2 ⟨b, _⟩ => ?_
  have rb := ra.run b.go.run
  have := rb.2
  have hti := b.go.ti
  have := hti.len
  wpb
  split
  · wpb
    refine wp_seq (next_go F hti) fun _ s3 c => ?_
    cases v <;> first | exact errorf_go c.ti _ | exact rb.run c.run
  · refine wp_seq (next_go F hti) fun _ s3 c => ?_
    have := c.mono
    have := c.ti.len
    cases v <;> first | exact errorf_go c.ti _ | skip
    refine wp_seq ((valueEnds F n).value c.ti (c.ret.trans (rb.1.ret.trans hr)) (.zero .first _) (by omega)) fun _ s4 ⟨d, _⟩ => ?_
    wpb
    exact wp_seq (expect_go F d.go.ti _) fun _ s5 ⟨e, _⟩ => ((rb.run c.run).run d.go.run).run e.run
  · exact wp_mono (mediaRange_ends F hti (rb.1.ret.trans hr) (by omega)) fun _ s3 c => rb.run c
  · exact errorf_go hti _

/-- An identifier is read as one. -/
theorem ident_value {n : Nat} {s : St} (hc : s.lex.cur = .ident) :
    wp (parseValue n) (fun v _ => ∃ sp t, v = .ident sp t) XT s := by
  cases n with
  | zero => rw [parseValue]; trivial
  | succ n =>
    rw [parseValue]
    wpb
    rw [hc]
    refine wp_seq (R := fun _ _ => True) ?_ fun _ s1 _ => ⟨_, _, rfl⟩
    unfold wp
    cases next s <;> trivial

theorem mqLoop_ends (F : Fair st src p C) : ∀ (n : Nat) {s : St} {sp : Span} {parts : List MQPart}, TI src p id s → s.lex.retainWS = false →
    10 * (src.length - s.lex.start) + 2 ≤ n → wp (mqLoop n sp parts) (fun _ s' => Moves src p id s s') (EX C src id) s
  | 0, _, _, _, _, _, h => absurd h (by omega)
  | n + 1, s, sp, parts, h, hr, hn => by
    have hlen := h.len
    have again : ∀ {s1 parts}, Ran src p id s s1 → wp (mqLoop n sp parts) (fun _ s' => Moves src p id s s') (EX C src id) s1 := by
      intro s1 parts a
      have := a.2
      have := a.1.ti.len
      exact wp_mono (mqLoop_ends F n a.1.ti (a.1.ret.trans hr) (by omega)) fun _ s2 b => a.1.trans b
    rw [mqLoop]
    wpb
    split
    · exact errorf_go h _
    · exact wp_seq (parseMediaFeature_ends F h hr (by omega)) fun _ s1 a => again a
    · rename_i hc
      refine wp_seq (wp_and ((valueEnds F n).value h hr (.zero .first _) (by omega)) (ident_value hc)) fun v s1 ⟨⟨a, _⟩, isp, t, e⟩ => ?_
      subst e
      exact again (a.ran (by simp))
    · cases parts.getLast? <;> exact Moves.refl h

theorem mqlLoop_ends (F : Fair st src p C) : ∀ (n : Nat) {s : St} {acc : List MQ}, TI src p id s → s.lex.retainWS = false →
    10 * (src.length - s.lex.start) + 3 ≤ n → wp (mqlLoop n acc) (fun _ s' => Moves src p id s s') (EX C src id) s
  | 0, _, _, _, _, h => absurd h (by omega)
  | n + 1, s, acc, h, hr, hn => by
    have hlen := h.len
    rw [mqlLoop]
    wpb
    refine wp_ite (fun _ => errorf_go h _) fun _ => ?_
    rw [parseMediaQuery]
    rw [wpb_assoc]
    wpb
    refine wp_seq (mqLoop_ends F n h hr (by omega)) fun q s1 a => ?_
    wpb
    refine wp_ite (fun hc => ?_) fun _ => a
    refine wp_seq (next_go F a.ti) fun _ s2 b => ?_
    have := a.mono
    have := b.lt (by simp [hc])
    have := b.ti.len
    exact wp_mono (mqlLoop_ends F n b.ti (b.ret.trans (a.ret.trans hr)) (by omega)) fun _ s3 c => a.trans (b.run.trans c)

theorem parseMediaQueryList_ends (F : Fair st src p C) {n : Nat} {s : St} (h : TI src p id s) (hr : s.lex.retainWS = false)
    (hn : 10 * (src.length - s.lex.start) + 3 ≤ n) :
    wp (parseMediaQueryList n) (fun _ s' => Moves src p id s s') (EX C src id) s := by
  rw [parseMediaQueryList]
  wpb
  refine wp_seq (mqlLoop_ends F n h hr hn) fun l s1 a => ?_
  cases l.getLast? <;> exact a

/-! ### At-rules -/

theorem rulesLoop_ends (F : Fair st src p C) {kf : Bool} : ∀ (n : Nat) {s : St} {acc : List QRule}, TI src p id s →
    s.lex.retainWS = false → 10 * (src.length - s.lex.start) + 8 ≤ n →
    wp (rulesLoop kf n acc) (fun _ s' => Moves src p id s s') (EX C src id) s
  | 0, _, _, _, _, h => absurd h (by omega)
  | n + 1, s, acc, h, hr, hn => by
    have hlen := h.len
    rw [rulesLoop]
    wpb
    split
    · exact errorf_go h _
    · wpb
      exact next_pure F h
    · refine wp_seq (parseQualifiedRule_ends F h hr (by omega)) fun r s1 a => ?_
      have := a.2
      have := a.1.ti.len
      exact wp_mono (rulesLoop_ends F n a.1.ti (a.1.ret.trans hr) (by omega)) fun _ s2 b => a.1.trans b

theorem parseImportAtRule_ends (F : Fair st src p C) {n : Nat} {s : St} (h : TI src p id s) (hc : s.lex.cur ≠ .eof)
    (hr : s.lex.retainWS = false)
    (hn : 10 * (src.length - s.lex.start) + 3 ≤ n) :
    wp (parseImportAtRule n) (fun _ s' => Ran src p id s s') (EX C src id) s := by
  have hlen := h.len
  unfold parseImportAtRule
  show wp (tokenSpan >>= _) _ _ s
  wpb
  refine wp_seq (next_go F h) fun _ s1 a => ?_
  have ra := a.ran hc
  wpb
  refine wp_seq (R := fun _ s' => Moves src p id s1 s') ?_ fun x s2 b => ?_
  · wpb
    split
    · exact next_pure F a.ti
    · refine wp_ite (fun _ => errorf_go a.ti _) fun _ => ?_
      refine wp_seq (next_go F a.ti) fun _ s2 b => ?_
      wpb
      refine wp_seq (expect_go F b.ti _) fun _ s3 ⟨c, _⟩ => ?_
      wpb
      exact wp_seq (expect_go F c.ti _) fun _ s4 ⟨d, _⟩ => b.run.trans (c.run.trans d.run)
    · exact expect_pure F a.ti
    · exact errorf_go a.ti _
  · have rb := ra.run b
    have := rb.2
    have := b.ti.len
    exact wp_seq (parseMediaQueryList_ends F b.ti (rb.1.ret.trans hr) (by omega)) fun _ s3 c => rb.run c

theorem parseKeyframes_ends (F : Fair st src p C) {n : Nat} {s : St} (h : TI src p id s) (hc : s.lex.cur ≠ .eof)
    (hr : s.lex.retainWS = false) (hn : 10 * (src.length - s.lex.start) + 8 ≤ n) :
    wp (parseKeyframes n) (fun _ s' => Ran src p id s s') (EX C src id) s := by
  have hlen := h.len
  unfold parseKeyframes
  show wp (tokenSpan >>= _) _ _ s
  wpb
  refine wp_seq (next_go F h) fun _ s1 a => ?_
  have ra := a.ran hc
  wpb
  refine wp_seq (R := fun _ s' => s' = s1) ?_ fun x s2 e => ?_
  · wpb
    split <;> first | rfl | exact errorf_go a.ti _
  subst e
  refine wp_seq (next_go F a.ti) fun _ s3 b => ?_
  wpb
  refine wp_seq (expect_go F b.ti _) fun _ s4 ⟨c, _⟩ => ?_
  have rc := (ra.run b.run).run c.run
  have := rc.2
  have := c.ti.len
  exact wp_seq (rulesLoop_ends F n c.ti (rc.1.ret.trans hr) (by omega)) fun _ s5 d => rc.run d

theorem parseMediaAtRule_ends (F : Fair st src p C) {n : Nat} {s : St} (h : TI src p id s) (hc : s.lex.cur ≠ .eof)
    (hr : s.lex.retainWS = false) (hn : 10 * (src.length - s.lex.start) + 8 ≤ n) :
    wp (parseMediaAtRule n) (fun _ s' => Ran src p id s s') (EX C src id) s := by
  have hlen := h.len
  unfold parseMediaAtRule
  show wp (tokenSpan >>= _) _ _ s
  wpb
  refine wp_seq (next_go F h) fun _ s1 a => ?_
  have ra := a.ran hc
  have := ra.2
  have := a.ti.len
  refine wp_seq (parseMediaQueryList_ends F a.ti (a.ret.trans hr) (by omega)) fun q s2 b => ?_
  wpb
  refine wp_seq (expect_go F b.ti _) fun _ s4 ⟨c, _⟩ => ?_
  have rc := (ra.run b).run c.run
  have := rc.2
  have := c.ti.len
  exact wp_seq (rulesLoop_ends F n c.ti (rc.1.ret.trans hr) (by omega)) fun _ s5 d => rc.run d

theorem parseCustomMediaAtRule_ends (F : Fair st src p C) {n : Nat} {s : St} (h : TI src p id s) (hc : s.lex.cur ≠ .eof)
    (hr : s.lex.retainWS = false) (hC : C)
    (hn : 10 * (src.length - s.lex.start) + 3 ≤ n) :
    wp (parseCustomMediaAtRule n) (fun _ s' => Ran src p id s s') (EX C src id) s := by
  have hlen := h.len
  unfold parseCustomMediaAtRule
  show wp (tokenSpan >>= _) _ _ s
  wpb
  refine wp_seq (next_go F h) fun _ s1 a => ?_
  have ra := a.ran hc
  have := ra.2
  have := a.ti.len
  refine wp_seq ((valueEnds F n).value a.ti (a.ret.trans hr) (.zero .first _) (by omega)) fun v s2 ⟨b, _⟩ => ?_
  have rb := ra.run b.go.run
  have := rb.2
  have := b.go.ti.len
  cases v <;> first | exact errorf_go b.go.ti _ | skip
  refine wp_seq (parseMediaQueryList_ends F b.go.ti (rb.1.ret.trans hr) (by omega)) fun q s3 c => ?_
  split
  · exact c.ti.crash hC
  · exact rb.run c
  · exact errorf_go c.ti _

theorem parseGenericAtRule_ends (F : Fair st src p C) {n : Nat} {s : St} (h : TI src p id s) (hc : s.lex.cur = .at)
    (hr : s.lex.retainWS = false) (hn : 10 * (src.length - s.lex.start) + 3 ≤ n) :
    wp (parseGenericAtRule n) (fun _ s' => Ran src p id s s') (EX C src id) s := by
  have hlen := h.len
  unfold parseGenericAtRule
  show wp (tokenSpan >>= _) _ _ s
  wpb
  have hz := h.zone_of (by simp [hc]) (by simp [hc]) (by simp [hc])
  refine wp_seq (next_go F h) fun _ s1 a => ?_
  have ra := a.ran (by simp [hc])
  have := ra.2
  have := a.ti.len
  exact wp_seq (parseDeclarationBlock_ends F a.ti (a.zone hz (by simp [hc])) (a.ret.trans hr) (by omega))
    fun b s2 c => ra.run c.1

theorem parseAtRule_ends (F : Fair st src p C) {n : Nat} {s : St} (h : TI src p id s) (hc : s.lex.cur = .at)
    (hr : s.lex.retainWS = false) (hn : 10 * (src.length - s.lex.start) + 8 ≤ n) :
    wp (parseAtRule n) (fun _ s' => Ran src p id s s') (EX C src id) s := by
  rw [parseAtRule]
  wpb
  have hne : s.lex.cur ≠ .eof := by simp [hc]
  exact wp_ite (fun _ => parseImportAtRule_ends F h hne hr (by omega)) fun _ =>
    wp_ite (fun _ => parseMediaAtRule_ends F h hne hr hn) fun _ =>
    wp_ite (fun _ => parseKeyframes_ends F h hne hr hn) fun _ =>
    wp_ite (fun e => parseCustomMediaAtRule_ends F h hne hr (F.custom (by have := h.pi.more.atRule hc; rwa [e] at this)) (by omega)) fun _ => parseGenericAtRule_ends F h hc hr (by omega)

theorem topLoop_ends (F : Fair st src p C) : ∀ (n : Nat) {s : St} {ss : Stylesheet}, TI src p id s → s.lex.retainWS = false →
    10 * (src.length - s.lex.start) + 9 ≤ n → wp (topLoop n ss) (fun _ _ => True) (EX C src id) s
  | 0, _, _, _, _, h => absurd h (by omega)
  | n + 1, s, ss, h, hr, hn => by
    have hlen := h.len
    have again : ∀ {s1 ss}, Ran src p id s s1 → wp (topLoop n ss) (fun _ _ => True) (EX C src id) s1 := by
      intro s1 ss a
      have := a.2
      have := a.1.ti.len
      exact topLoop_ends F n a.1.ti (a.1.ret.trans hr) (by omega)
    rw [topLoop]
    wpb
    split
    · trivial
    · rename_i hc
      exact wp_seq (parseAtRule_ends F h hc hr (by omega)) fun _ s1 a => again a
    · rename_i hc
      exact wp_seq (next_go F h) fun _ s1 a => again (a.ran (by simp [hc]))
    · rename_i hc
      exact wp_seq (next_go F h) fun _ s1 a => again (a.ran (by simp [hc]))
    · rename_i hc
      exact wp_seq (next_go F h) fun _ s1 a => again (a.ran (by simp [hc]))
    · exact wp_seq (parseQualifiedRule_ends F h hr (by omega)) fun _ s1 a => again a

end

end Cssc
