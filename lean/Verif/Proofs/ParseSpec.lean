import Verif.Spec.Tree
import Verif.Proofs.Fuel
import Verif.Proofs.LexClass

/-!
# What the parser builds: values

Every function of the value parser builds well-formed values (`Spec/Tree.lean`), whatever the text.
-/

namespace Cssc

/-- `omega` after reducing projections. -/
macro "dom" : tactic => `(tactic| ((try dsimp only at *); omega))

/-! ### Spans in order -/

theorem Ordered.le : ∀ {l : List Span} {lo hi : Nat}, Ordered lo hi l → lo ≤ hi
  | [], _, _, h => h
  | sp :: l, lo, hi, ⟨h1, h2, h3⟩ => by have := Ordered.le h3; omega

theorem Ordered.mono : ∀ {l : List Span} {lo hi lo' hi' : Nat}, Ordered lo hi l → lo' ≤ lo → hi ≤ hi' →
    Ordered lo' hi' l
  | [], lo, hi, lo', hi', h, h1, h2 => by unfold Ordered at h ⊢; omega
  | sp :: l, lo, hi, lo', hi', ⟨h1, h2, h3⟩, g1, g2 => ⟨by omega, h2, h3.mono (Nat.le_refl _) g2⟩

theorem Ordered.snoc : ∀ {l : List Span} {lo mid hi : Nat} {sp : Span}, Ordered lo mid l → mid ≤ sp.start →
    sp.start ≤ sp.stop → sp.stop ≤ hi → Ordered lo hi (l ++ [sp])
  | [], _, _, _, _, h, h1, h2, h3 => ⟨Nat.le_trans h h1, h2, h3⟩
  | _ :: _, _, _, _, _, ⟨g1, g2, g3⟩, h1, h2, h3 => ⟨g1, g2, g3.snoc h1 h2 h3⟩

/-- The last span can serve as the upper bound. -/
theorem Ordered.last : ∀ {l : List Span} {lo hi : Nat} {sp : Span}, Ordered lo hi l → l.getLast? = some sp →
    Ordered lo sp.stop l ∧ sp.stop ≤ hi ∧ lo ≤ sp.start ∧ sp.start ≤ sp.stop
  | [], _, _, _, _, h => by cases h
  | [x], lo, hi, sp, ⟨h1, h2, h3⟩, h => by
    cases h
    exact ⟨⟨h1, h2, Nat.le_refl _⟩, h3, h1, h2⟩
  | x :: y :: l, lo, hi, sp, ⟨h1, h2, h3⟩, h => by
    rw [List.getLast?_cons_cons] at h
    obtain ⟨a, b, c, d⟩ := h3.last h
    exact ⟨⟨h1, h2, a⟩, b, by omega, d⟩

theorem Ordered.mem : ∀ {l : List Span} {lo hi : Nat} {sp : Span}, Ordered lo hi l → sp ∈ l → SpIn lo hi sp
  | x :: l, lo, hi, sp, ⟨h1, h2, h3⟩, h => by
    rw [List.mem_cons] at h
    rcases h with rfl | h
    · exact ⟨h1, h2, h3.le⟩
    · obtain ⟨a, b, c⟩ := h3.mem h
      exact ⟨by omega, b, c⟩

/-! ### The state of the parser -/

/-- What holds of the lexer whenever the parser looks at it. -/
structure PI (src : Bytes) (id : Nat) (s : St) : Prop where
  srcEq : s.src = src
  idEq : s.id = id
  inv : Inv s
  start_le : s.lex.start ≤ s.lex.lastPos
  ident : s.lex.cur = .ident → s.lex.str = sub src s.lex.start s.lex.lastPos
  delim : s.lex.cur = .delim → s.lex.str = sub src s.lex.start s.lex.lastPos
  number : s.lex.cur = .number → s.lex.num = sub src s.lex.start s.lex.lastPos
  dimension : s.lex.cur = .dimension → s.lex.num ++ s.lex.str = sub src s.lex.start s.lex.lastPos
  lit : isLit s.lex.cur = true → TextIn src ⟨s.lex.start, s.lex.lastPos⟩ s.lex.str
  pct : s.lex.cur = .percentage → TextIn src ⟨s.lex.start, s.lex.lastPos⟩ s.lex.num
  more : TokMore src s.lex.cur s.lex.start s.lex.lastPos s.lex.str s.lex.num

/-- The text contains a call of a math function. -/
def MathIn (src : Bytes) : Prop := ∃ t, isMathName t = true ∧ CallIn src t

/-- What holds when a parser function panics; `C` is what a run-time panic needs. -/
def PX (C : Prop) (src : Bytes) (id : Nat) : Exc where
  err e s' := s'.src = src ∧ s'.id = id ∧ SpOk src e.span
  crash s' := s'.src = src ∧ s'.id = id ∧ C
  timeout := True

theorem PI.end_le {src : Bytes} {id : Nat} {s : St} (h : PI src id s) : s.lex.lastPos ≤ src.length := by
  have := h.inv.le
  rwa [h.srcEq] at this

theorem PI.span {src : Bytes} {id : Nat} {s : St} (h : PI src id s) : SpOk src ⟨s.lex.start, s.lex.lastPos⟩ :=
  ⟨h.start_le, h.end_le⟩

section
variable {src : Bytes} {id : Nat} {s : St} (h : PI src id s)
include h

theorem PI.identLit (hc : s.lex.cur = .ident) : IdentLit s.lex.str := by
  have hk := h.more.cls
  rw [hc] at hk
  exact hk

theorem PI.funcLit (hc : s.lex.cur = .functionStart) : IdentLit s.lex.str := by
  have hk := h.more.cls
  rw [hc] at hk
  exact hk

theorem PI.hashLit (hc : s.lex.cur = .hash) : HashLit s.lex.str := by
  have hk := h.more.cls
  rw [hc] at hk
  exact hk

theorem PI.atLit (hc : s.lex.cur = .at) : WordLit s.lex.str := by
  have hk := h.more.cls
  rw [hc] at hk
  exact hk

theorem PI.strLit (hc : s.lex.cur = .string) : StrLit s.lex.str := by
  have hk := h.more.cls
  rw [hc] at hk
  exact hk

theorem PI.urlLit (hc : s.lex.cur = .url) : UrlLit s.lex.str := by
  have hk := h.more.cls
  rw [hc] at hk
  exact hk

theorem PI.delimLit (hc : s.lex.cur = .delim) : DelimLit s.lex.str := by
  have hk := h.more.cls
  rw [hc] at hk
  exact hk

theorem PI.pctLit (hc : s.lex.cur = .percentage) : NumLit s.lex.num := by
  have hk := h.more.cls
  rw [hc] at hk
  exact hk

end

theorem TextIn.self {src : Bytes} {sp : Span} (h : sp.start ≤ sp.stop) : TextIn src sp (sub src sp.start sp.stop) :=
  ⟨_, _, Nat.le_refl _, h, Nat.le_refl _, rfl⟩

theorem TextIn.nil {src : Bytes} {sp : Span} (h : sp.start ≤ sp.stop) : TextIn src sp [] :=
  ⟨sp.start, sp.start, Nat.le_refl _, Nat.le_refl _, h, by simp [sub]⟩

theorem TextIn.mono {src t : Bytes} {sp sp' : Span} (h : TextIn src sp t) (h1 : sp'.start ≤ sp.start)
    (h2 : sp.stop ≤ sp'.stop) : TextIn src sp' t := by
  obtain ⟨i, j, a, b, c, e⟩ := h
  exact ⟨i, j, by omega, b, by omega, e⟩

theorem TextIn.append {src t u : Bytes} {sp : Span} (h : TextIn src sp (t ++ u)) (hl : sp.stop ≤ src.length) :
    TextIn src sp t ∧ TextIn src sp u := by
  obtain ⟨i, j, a, b, c, e⟩ := h
  have hlen : t.length + u.length = j - i := by
    have := congrArg List.length e
    simp only [List.length_append, sub, List.length_take, List.length_drop] at this
    omega
  have e1 := sub_append src (a := i) (b := i + t.length) (c := j) (by omega) (by omega)
  have hl1 : (sub src i (i + t.length)).length = t.length := by
    simp only [sub, List.length_take, List.length_drop]; omega
  obtain ⟨h1, h2⟩ := List.append_inj (e.trans e1.symm) hl1.symm
  exact ⟨⟨i, i + t.length, a, by omega, by omega, h1⟩, ⟨i + t.length, j, by omega, by omega, c, h2⟩⟩

theorem TextIn.slice {src t : Bytes} {sp : Span} (h : TextIn src sp t) (hl : sp.stop ≤ src.length) : SliceOf src t := by
  obtain ⟨i, j, a, b, c, e⟩ := h
  exact ⟨i, j, b, by omega, e⟩

theorem TextIn.drop {src t : Bytes} {sp : Span} (h : TextIn src sp t) (hl : sp.stop ≤ src.length) (k : Nat) :
    TextIn src sp (t.drop k) := by
  rw [← List.take_append_drop k t] at h
  exact (h.append hl).2

theorem PI.of_tokd {src : Bytes} {id : Nat} {s s' : St} (h : PI src id s) (t : Tokd s s')
    (d : TokMore src s'.lex.cur s'.lex.start s'.lex.lastPos s'.lex.str s'.lex.num) : PI src id s' := by
  have hs : s'.src = src := t.adv.src.trans h.srcEq
  refine ⟨hs, t.adv.id.trans h.idEq, t.adv.inv, t.tok.start_le, ?_, ?_, ?_, ?_, ?_, ?_, d⟩
  · intro e; rw [t.tok.ident e, hs]
  · intro e; rw [t.tok.delim e, hs]
  · intro e; rw [t.tok.number e, hs]
  · intro e; rw [t.tok.dimension e, hs]
  · intro e; rw [← hs]; exact t.tok.lit e
  · intro e; rw [← hs]; exact t.tok.pct e

theorem next_pi {C : Prop} {src : Bytes} {id : Nat} {s : St} (h : PI src id s) :
    wp next (fun _ s' => PI src id s' ∧ s.lex.lastPos ≤ s'.lex.start) (PX C src id) s := by
  refine wp_conseq (next_full h.inv h.srcEq) (fun _ s' ⟨t, d⟩ => ⟨h.of_tokd t d, t.start⟩) (fun e s' ⟨a, h1, h2, h3⟩ => ?_)
    (fun _ x => x.elim) (fun x => x.elim)
  have hs : s'.src = src := a.src.trans h.srcEq
  refine ⟨hs, a.id.trans h.idEq, ?_⟩
  rw [h3]
  have := a.inv.le
  rw [hs] at this
  exact ⟨h2, this⟩

theorem errorf_pi {C : Prop} {src : Bytes} {id : Nat} {s : St} (h : PI src id s) (msg : String) {Q : α → St → Prop} :
    wp (errorf msg) Q (PX C src id) s := by
  rw [wp_errorf]
  exact ⟨h.srcEq, h.idEq, h.span⟩

theorem expect_pi {C : Prop} {src : Bytes} {id : Nat} {s : St} (h : PI src id s) (t : Tok) :
    wp (expect t) (fun _ s' => PI src id s' ∧ s.lex.lastPos ≤ s'.lex.start ∧ s.lex.cur = t) (PX C src id) s := by
  rw [expect]
  wpb
  refine wp_ite (fun _ => errorf_pi h _) fun hc => ?_
  refine wp_mono (next_pi h) fun _ s' ⟨a, b⟩ => ⟨a, b, Classical.not_not.1 hc⟩

theorem timeout_pi {C : Prop} {src : Bytes} {id : Nat} {s : St} {Q : α → St → Prop} :
    wp P.timeout Q (PX C src id) s := trivial

theorem locate_wp {v : Value} {Q : Span → St → Prop} {X : Exc} {s : St} (h : v ≠ .nil → Q v.sp s) (hc : v = .nil → X.crash s) :
    wp (locate v) Q X s := by
  cases v <;> first | exact h (by simp) | exact hc rfl

theorem withRetain_pi {C : Prop} {src : Bytes} {id : Nat} {s : St} {b : Bool} {m : P α} {Q : α → St → Prop} (h : PI src id s)
    (hm : ∀ s0, PI src id s0 → s0.lex.start = s.lex.start → s0.lex.lastPos = s.lex.lastPos → s0.lex.cur = s.lex.cur →
      s0.lex.str = s.lex.str → s0.lex.num = s.lex.num → wp m (fun a s' => PI src id s' ∧
      ∀ s'', PI src id s'' → s''.lex.start = s'.lex.start → s''.lex.lastPos = s'.lex.lastPos → Q a s'') (PX C src id) s0) :
    wp (withRetain b m) Q (PX C src id) s := by
  have hm := hm { s with lex := { s.lex with retainWS := b } }
    ⟨h.srcEq, h.idEq, ⟨h.inv.le, h.inv.ch, h.inv.pos⟩, h.start_le, h.ident, h.delim, h.number, h.dimension, h.lit, h.pct, h.more⟩
    rfl rfl rfl rfl rfl
  unfold wp withRetain at *
  cases hr : m { s with lex := { s.lex with retainWS := b } } with
  | ok a s' =>
    rw [hr] at hm
    obtain ⟨h', hq⟩ := hm
    exact hq _ ⟨h'.srcEq, h'.idEq, ⟨h'.inv.le, h'.inv.ch, h'.inv.pos⟩, h'.start_le, h'.ident, h'.delim, h'.number,
      h'.dimension, h'.lit, h'.pct, h'.more⟩ rfl rfl
  | err e s' => rw [hr] at hm; exact hm
  | crash s' => rw [hr] at hm; exact hm
  | timeout => trivial

/-! ### Values -/

theorem VsOk.snoc {src : Bytes} : ∀ {vs : List Value} {v : Value}, VsOk src vs → VOk src v → VsOk src (vs ++ [v])
  | [], _, _, h => ⟨h, trivial⟩
  | _ :: _, _, ⟨h1, h2⟩, h => ⟨h1, VsOk.snoc h2 h⟩

theorem VsOk.mem {src : Bytes} : ∀ {vs : List Value} {v : Value}, VsOk src vs → v ∈ vs → VOk src v
  | x :: vs, v, ⟨h1, h2⟩, h => by
    rw [List.mem_cons] at h
    rcases h with rfl | h
    · exact h1
    · exact VsOk.mem h2 h

theorem VOk.spOk {src : Bytes} {v : Value} (h : VOk src v) : SpOk src v.sp := by
  cases v <;> simp only [VOk] at h <;> first | exact absurd h id | exact h.1 | exact h

theorem VOk.ne {src : Bytes} {v : Value} (h : VOk src v) : v ≠ .nil := by
  rintro rfl; simp [VOk] at h

/-- The result of parsing a value that may be missing: nothing was read, or a well-formed value lies between
the old and the new position. -/
def Parsed (src : Bytes) (id : Nat) (s : St) (v : Value) (s' : St) : Prop :=
  PI src id s' ∧ ((v = .nil ∧ s' = s) ∨
    (VOk src v ∧ s.lex.start ≤ v.sp.start ∧ v.sp.stop ≤ s'.lex.start ∧ s.lex.lastPos ≤ s'.lex.start ∧ v.isTerm = true))

/-- All functions of the value parser. -/
structure ValueSpec (C : Prop) (src : Bytes) (id n : Nat) : Prop where
  value : ∀ {s}, PI src id s → wp (parseValue n) (fun v s' => Parsed src id s v s' ∧ (v = .nil ∨ v.isComp = true)) (PX C src id) s
  brackets : ∀ {s start vs}, PI src id s → VsOk src vs → (∀ v ∈ vs, v.isComp = true) → Ordered start s.lex.start (vs.map Value.sp) →
    wp (bracketsLoop n start vs) (fun v s' => PI src id s' ∧ VOk src v ∧ v.sp.start = start ∧
      v.sp.stop ≤ s'.lex.start ∧ s.lex.lastPos ≤ s'.lex.start ∧ v.isComp = true) (PX C src id) s
  args : ∀ {s sp name vs}, PI src id s → SpOk src sp → sp.stop ≤ s.lex.start → TextIn src sp name →
    (isMathName name = true → C) → IdentLit name → VsOk src vs → (∀ v ∈ vs, ArgOk name v) →
    Ordered sp.start s.lex.start (vs.map Value.sp) →
    wp (argsLoop n sp name vs) (fun v s' => PI src id s' ∧ VOk src v ∧ v.sp.start = sp.start ∧
      v.sp.stop ≤ s'.lex.start ∧ s.lex.start ≤ s'.lex.start ∧ v.isComp = true) (PX C src id) s
  sum : ∀ {s}, C → PI src id s → wp (parseMathSum n) (Parsed src id s) (PX C src id) s
  sumL : ∀ {s0 s v}, C → Parsed src id s0 v s → wp (sumLoop n v) (Parsed src id s0) (PX C src id) s
  prod : ∀ {s}, C → PI src id s → wp (parseMathProduct n) (fun v s' => Parsed src id s v s' ∧ v.isSum = false) (PX C src id) s
  prodL : ∀ {s0 s v}, C → Parsed src id s0 v s → v.isSum = false →
    wp (productLoop n v) (fun v s' => Parsed src id s0 v s' ∧ v.isSum = false) (PX C src id) s
  paren : ∀ {s}, C → PI src id s → wp (parseMathParen n) (fun v s' => Parsed src id s v s' ∧ v.isMath = false) (PX C src id) s

theorem isMathName_eq (name : Bytes) : mathNames.contains name = isMathName name := by
  simp only [mathNames, isMathName, List.contains_cons, List.contains_nil, Bool.or_false, Bool.or_assoc]

theorem isTerm_of_isComp {v : Value} (h : v.isComp = true) : v.isTerm = true := by
  cases v <;> simp [Value.isComp, Value.isTerm] at h ⊢

theorem isMath_of_isComp {v : Value} (h : v.isComp = true) : v.isMath = false := by
  cases v <;> simp [Value.isComp, Value.isMath] at h ⊢

theorem isMath_of_comp {v : Value} (h : v = .nil ∨ v.isComp = true) : v.isMath = false := by
  rcases h with rfl | h
  · rfl
  · exact isMath_of_isComp h

theorem ArgOk.of_comp {name : Bytes} {v : Value} (h : v.isComp = true) : ArgOk name v := by
  right
  split
  · exact isTerm_of_isComp h
  · exact h

/-- One more element of a list all of whose elements have a property. -/
theorem mem_snoc {α : Type} {l : List α} {a : α} {Q : α → Prop} (h : ∀ x ∈ l, Q x) (ha : Q a) :
    ∀ x ∈ l ++ [a], Q x := by
  intro x hx
  rw [List.mem_append, List.mem_singleton] at hx
  rcases hx with hx | rfl
  · exact h x hx
  · exact ha

theorem isSum_of_isMath {v : Value} (h : v.isMath = false) : v.isSum = false := by
  cases v <;> simp [Value.isMath, Value.isSum] at h ⊢

/-- A math function whose next argument is missing never returns. -/
theorem argsLoop_stuck {s : St} {N : Nat} {name : Bytes} (hn : isMathName name = true) (hN : parseMathSum N s = .ok .nil s)
    (h1 : s.lex.cur ≠ .rparen) (h2 : s.lex.cur ≠ .comma) : ∀ (n : Nat) (sp : Span) (vs : List Value),
    argsLoop n sp name vs s = .timeout
  | 0, _, _ => rfl
  | n + 1, sp, vs => by
    have hm : parseMathSum n s = .timeout ∨ parseMathSum n s = .ok .nil s := by
      rcases Nat.le_total n N with hle | hle
      · rcases fuel_le (fun n => (valueFuel n).sum) hle s with h | h
        · exact .inl h
        · exact .inr (h.trans hN)
      · rcases fuel_le (fun n => (valueFuel n).sum) hle s with h | h
        · rw [hN] at h; cases h
        · exact .inr (h.symm.trans hN)
    have ih := argsLoop_stuck hn hN h1 h2 n sp (vs ++ [.nil])
    have hw : wp (argsLoop (n + 1) sp name vs) (fun _ _ => False) ⟨fun _ _ => False, fun _ => False, True⟩ s := by
      rw [argsLoop]
      wpb
      split
      · show wp (P.bind (parseMathSum n) _) _ _ _
        unfold wp P.bind
        rcases hm with h | h <;> rw [h]
        · trivial
        · simp only
          rw [ih]
          trivial
      · exact absurd hn ‹_›
    unfold wp at hw
    cases hr : argsLoop (n + 1) sp name vs s <;> rw [hr] at hw <;> first | rfl | exact hw.elim

theorem valueSpec {C : Prop} (src : Bytes) (id : Nat) (hC : MathIn src → C) : ∀ n, ValueSpec C src id n
  | 0 => ⟨fun _ => trivial, fun _ _ _ _ => trivial, fun _ _ _ _ _ _ _ _ _ => trivial, fun _ _ => trivial, fun _ _ => trivial,
      fun _ _ => trivial, fun _ _ _ => trivial, fun _ _ => trivial⟩
  | n + 1 => by
    have ih := valueSpec src id hC n
    -- a value that is one token
    have one : ∀ {s : St} {v : Value}, PI src id s → VOk src v → v.sp = ⟨s.lex.start, s.lex.lastPos⟩ →
        v.isComp = true →
        wp (next >>= fun _ => pure v) (fun v s' => Parsed src id s v s' ∧ (v = .nil ∨ v.isComp = true)) (PX C src id) s := by
      intro s v h hv hsp hm
      refine wp_seq (next_pi h) fun _ s1 ⟨h1, h2⟩ => ?_
      wpb
      refine ⟨⟨h1, .inr ⟨hv, ?_, ?_, h2, isTerm_of_isComp hm⟩⟩, .inr hm⟩
      · rw [hsp]
      · rw [hsp]; exact h2
    refine ⟨?_, ?_, ?_, ?_, ?_, ?_, ?_, ?_⟩
    · intro s h
      rw [parseValue]
      wpb
      have hle := h.start_le
      split
      · rename_i hc
        have hd := h.dimension hc
        have hk := h.more.cls
        rw [hc] at hk
        exact one h ⟨h.span, (TextIn.append (by rw [hd]; exact .self hle) h.end_le).1, .inl hd, fun c => .inr (hk.1 c),
          fun c => .inr (.inr (hk.2 c))⟩ rfl rfl
      · refine wp_seq (next_pi h) fun _ s1 ⟨h1, h2⟩ => ?_
        refine wp_mono (ih.brackets h1 (by trivial) (by simp) (by show _ ≤ _; omega)) fun v s2 ⟨a, b, c, d, e, f⟩ => ?_
        have := h1.start_le
        exact ⟨⟨a, .inr ⟨b, by omega, d, by omega, isTerm_of_isComp f⟩⟩, .inr f⟩
      · rename_i hc
        have hk := h.more.cls
        rw [hc] at hk
        exact one h ⟨h.span, h.pct hc, .inr rfl, fun c => .inr (hk c), fun _ => .inr (.inl rfl)⟩ rfl rfl
      · rename_i hc
        have hd := h.number hc
        have hk := h.more.cls
        rw [hc] at hk
        exact one h ⟨h.span, by rw [hd]; exact .self hle, .inl (by rw [List.append_nil]; exact hd),
          fun c => (hk c).imp (fun e => ⟨e, rfl⟩) fun e => e, fun _ => .inl rfl⟩ rfl rfl
      · rename_i hc
        have hk := h.more.cls
        rw [hc] at hk
        exact one h ⟨h.span, h.ident hc, hk⟩ rfl rfl
      · rename_i hc
        have hk := h.more.cls
        rw [hc] at hk
        exact one h ⟨h.span, h.lit (by rw [hc]; rfl), hk⟩ rfl rfl
      · rename_i hc
        have hk := h.more.cls
        rw [hc] at hk
        exact one h ⟨h.span, h.lit (by rw [hc]; rfl), hk⟩ rfl rfl
      · rename_i hc
        have hk := h.more.cls
        rw [hc] at hk
        exact one h ⟨h.span, .inl ⟨rfl, _, rfl, h.lit (by rw [hc]; rfl), hk⟩⟩ rfl rfl
      · rename_i hc
        refine wp_seq (next_pi h) fun _ s1 ⟨h1, h2⟩ => ?_
        have hk := h.more.cls
        rw [hc] at hk
        refine wp_mono (ih.args h1 h.span h2 (h.lit (by rw [hc]; rfl)) (fun hm => hC ⟨_, hm, h.more.func hc⟩)
          hk (by trivial) (by simp) (by show _ ≤ _; dsimp only; omega))
          fun v s2 ⟨a, b, c, d, e, f⟩ => ?_
        have := h1.start_le
        exact ⟨⟨a, .inr ⟨b, by rw [c], d, by omega, isTerm_of_isComp f⟩⟩, .inr f⟩
      · exact ⟨⟨h, .inl ⟨rfl, rfl⟩⟩, .inl rfl⟩
    · intro s start vs h hvs hcs ho
      rw [bracketsLoop]
      wpb
      refine wp_ite (fun _ => ?_) fun _ => ?_
      · wpb
        refine wp_seq (next_pi h) fun _ s1 ⟨h1, h2⟩ => ?_
        wpb
        have hl := h.start_le
        have he := h.end_le
        have hol := ho.le
        refine ⟨h1, ⟨⟨by dsimp only; omega, he⟩, ho.mono (Nat.le_refl _) hl, hvs, hcs⟩, rfl, h2, h2, rfl⟩
      · refine wp_seq (ih.value h) fun v s1 ⟨⟨h1, hv⟩, hm⟩ => ?_
        rcases hv with ⟨rfl, rfl⟩ | ⟨hv, g1, g2, g3, g4⟩
        · exact errorf_pi h1 _
        · have hsp := hv.spOk
          have step := ih.brackets (start := start) h1 (hvs.snoc hv)
            (mem_snoc hcs (hm.resolve_left hv.ne)) (by
            rw [List.map_append]
            exact ho.snoc g1 hsp.1 g2)
          have hl := h1.start_le
          have fin := wp_mono (Q' := fun v s' => PI src id s' ∧ VOk src v ∧ v.sp.start = start ∧
            v.sp.stop ≤ s'.lex.start ∧ s.lex.lastPos ≤ s'.lex.start ∧ v.isComp = true) step
            fun v s2 ⟨a, b, c, d, e, f⟩ => ⟨a, b, c, d, by omega, f⟩
          cases v <;> first | exact absurd rfl hv.ne | exact fin
    · intro s sp name vs h hsp hsl hname hmath hlit hvs has ho
      rw [argsLoop]
      wpb
      have hl := h.start_le
      have he := h.end_le
      have hol := ho.le
      split
      · wpb
        refine wp_seq (next_pi h) fun _ s1 ⟨h1, h2⟩ => ?_
        wpb
        refine ⟨h1, ⟨⟨by dsimp only; omega, he⟩, .inr ⟨hname.mono (Nat.le_refl _) (by dsimp only; omega), ⟨_, he, ho.mono (Nat.le_refl _) hl⟩,
          hvs, hlit, has⟩⟩, rfl, h2, by omega, rfl⟩
      · wpb
        refine wp_seq (next_pi h) fun _ s1 ⟨h1, h2⟩ => ?_
        refine wp_mono (ih.args h1 hsp (by omega) hname hmath hlit (hvs.snoc (v := .comma ⟨s.lex.start, s.lex.lastPos⟩) h.span)
          (mem_snoc has (.inl rfl)) ?_)
          fun v s2 ⟨a, b, c, d, e, f⟩ => ⟨a, b, c, d, by omega, f⟩
        rw [List.map_append]
        exact ho.snoc (Nat.le_refl _) hl h2
      · rename_i hc1 hc2
        refine wp_ite (fun hm => ?_) fun _ => ?_
        · have hsum := ih.sum (hmath hm) h
          cases hr : parseMathSum n s with
          | ok v s1 =>
            obtain ⟨h1, hv⟩ := wp_ok hsum hr
            rcases hv with ⟨rfl, rfl⟩ | ⟨hv, g1, g2, g3, g4⟩
            · have := argsLoop_stuck hm hr hc1 hc2 n sp (vs ++ [.nil])
              show wp (P.bind (parseMathSum n) _) _ _ _
              unfold wp P.bind
              rw [hr]
              simp only
              rw [this]
              trivial
            · have hvsp := hv.spOk
              have hl1 := h1.start_le
              have := ih.args (s := s1) h1 hsp (by omega) hname hmath hlit (hvs.snoc hv)
                (mem_snoc has (.inr (by rw [isMathName_eq, if_pos hm]; exact g4))) (by
                rw [List.map_append]
                exact ho.snoc g1 hvsp.1 g2)
              refine wp_seq (wp_of_eq (Q := fun a s' => a = v ∧ s' = s1) hr ⟨rfl, rfl⟩) fun a s' ⟨ha, hs'⟩ => ?_
              subst ha hs'
              exact wp_mono this fun v s2 ⟨a, b, c, d, e, f⟩ => ⟨a, b, c, d, by omega, f⟩
          | err e s1 =>
            have := wp_err hsum hr
            show wp (P.bind (parseMathSum n) _) _ _ _
            unfold wp P.bind
            rw [hr]
            exact this
          | crash s1 =>
            have : (PX C src id).crash s1 := by unfold wp at hsum; rw [hr] at hsum; exact hsum
            show wp (P.bind (parseMathSum n) _) _ _ _
            unfold wp P.bind
            rw [hr]
            exact this
          | timeout =>
            show wp (P.bind (parseMathSum n) _) _ _ _
            unfold wp P.bind
            rw [hr]
            trivial
        · refine wp_seq (ih.value h) fun v s1 ⟨⟨h1, hv⟩, hm⟩ => ?_
          rcases hv with ⟨rfl, rfl⟩ | ⟨hv, g1, g2, g3, g4⟩
          · exact ⟨h1, ⟨hsp, .inr ⟨hname, ⟨_, by omega, ho⟩, hvs, hlit, has⟩⟩, rfl, hsl, by omega, rfl⟩
          · have hvsp := hv.spOk
            have step := ih.args h1 hsp (by omega) hname hmath hlit (hvs.snoc hv)
              (mem_snoc has (.of_comp (hm.resolve_left hv.ne))) (by
              rw [List.map_append]
              exact ho.snoc g1 hvsp.1 g2)
            have hl1 := h1.start_le
            have fin := wp_mono (Q' := fun v s' => PI src id s' ∧ VOk src v ∧ v.sp.start = sp.start ∧
              v.sp.stop ≤ s'.lex.start ∧ s.lex.start ≤ s'.lex.start ∧ v.isComp = true) step
              fun v s2 ⟨a, b, c, d, e, f⟩ => ⟨a, b, c, d, by omega, f⟩
            cases v <;> first | exact absurd rfl hv.ne | exact fin
    · intro s hM h
      rw [parseMathSum]
      refine wp_seq (ih.prod hM h) fun v s1 ⟨p, _⟩ => ih.sumL hM p
    · intro s0 s v hM p
      rw [sumLoop]
      wpb
      refine wp_ite (fun hc => ?_) fun _ => p
      refine wp_seq (expect_pi p.1 _) fun _ s1 ⟨h1, h2, _⟩ => ?_
      refine wp_seq (ih.prod hM h1) fun r s2 ⟨⟨h3, hr⟩, hrs⟩ => ?_
      refine wp_seq (locate_wp (Q := fun sp s => sp = v.sp ∧ s = s2 ∧ v ≠ .nil) (fun h => ⟨rfl, rfl, h⟩) fun _ => ⟨h3.srcEq, h3.idEq, hM⟩)
        fun lsp s' ⟨e1, e2, e3⟩ => ?_
      subst e1 e2
      refine wp_seq (locate_wp (Q := fun sp s => sp = r.sp ∧ s = s' ∧ r ≠ .nil) (fun h => ⟨rfl, rfl, h⟩) fun _ => ⟨h3.srcEq, h3.idEq, hM⟩)
        fun rsp s'' ⟨e1, e2, e4⟩ => ?_
      subst e1 e2
      rcases p.2 with ⟨e, _⟩ | ⟨pv, a1, a2, a3, a4⟩
      · exact absurd e e3
      rcases hr with ⟨e, _⟩ | ⟨rv, b1, b2, b3, b4⟩
      · exact absurd e e4
      have hv := pv.spOk
      have hrsp := rv.spOk
      have hls := p.1.start_le
      have hl1 := h1.start_le
      refine ih.sumL hM ⟨h3, .inr ⟨⟨⟨?_, hrsp.2⟩, ⟨Nat.le_refl _, hv.1, by omega, hrsp.1, Nat.le_refl _⟩, pv, rv,
        .inl ⟨hc.2, hrs⟩, a4, b4⟩, a1, b2, by omega, rfl⟩⟩
      have := hv.1
      have := hrsp.1
      dsimp only
      omega
    · intro s hM h
      rw [parseMathProduct]
      refine wp_seq (ih.paren hM h) fun v s1 ⟨p, hm⟩ => ih.prodL hM p (isSum_of_isMath hm)
    · intro s0 s v hM p hvs
      rw [productLoop]
      wpb
      refine wp_ite (fun hc => ?_) fun _ => ⟨p, hvs⟩
      refine wp_seq (expect_pi p.1 _) fun _ s1 ⟨h1, h2, _⟩ => ?_
      refine wp_seq (ih.paren hM h1) fun r s2 ⟨⟨h3, hr⟩, hrs⟩ => ?_
      refine wp_seq (locate_wp (Q := fun sp s => sp = v.sp ∧ s = s2 ∧ v ≠ .nil) (fun h => ⟨rfl, rfl, h⟩) fun _ => ⟨h3.srcEq, h3.idEq, hM⟩)
        fun lsp s' ⟨e1, e2, e3⟩ => ?_
      subst e1 e2
      refine wp_seq (locate_wp (Q := fun sp s => sp = r.sp ∧ s = s' ∧ r ≠ .nil) (fun h => ⟨rfl, rfl, h⟩) fun _ => ⟨h3.srcEq, h3.idEq, hM⟩)
        fun rsp s'' ⟨e1, e2, e4⟩ => ?_
      subst e1 e2
      rcases p.2 with ⟨e, _⟩ | ⟨pv, a1, a2, a3, a4⟩
      · exact absurd e e3
      rcases hr with ⟨e, _⟩ | ⟨rv, b1, b2, b3, b4⟩
      · exact absurd e e4
      have hv := pv.spOk
      have hrsp := rv.spOk
      have hls := p.1.start_le
      have hl1 := h1.start_le
      refine ih.prodL hM ⟨h3, .inr ⟨⟨⟨?_, hrsp.2⟩, ⟨Nat.le_refl _, hv.1, by omega, hrsp.1, Nat.le_refl _⟩, pv, rv,
        .inr ⟨hc.2, hvs, hrs⟩, a4, b4⟩, a1, b2, by omega, rfl⟩⟩ ?_
      · have := hv.1
        have := hrsp.1
        dsimp only
        omega
      · have := hc.2
        simp only [Value.isSum]
        rcases this with h | h <;> rw [h] <;> rfl
    · intro s hM h
      rw [parseMathParen]
      wpb
      refine wp_ite (fun _ => wp_mono (ih.value h) fun v s' ⟨a, b⟩ => ⟨a, isMath_of_comp b⟩) fun _ => ?_
      wpb
      refine wp_seq (expect_pi h _) fun _ s1 ⟨h1, h2, _⟩ => ?_
      refine wp_seq (ih.sum hM h1) fun v s2 ⟨h3, hv⟩ => ?_
      wpb
      refine wp_seq (expect_pi h3 _) fun _ s3 ⟨h4, h5, _⟩ => ?_
      wpb
      have hs := h.start_le
      have hs1 := h1.start_le
      have hs3 := h3.start_le
      have he := h3.end_le
      rcases hv with ⟨rfl, rfl⟩ | ⟨hv, a1, a2, a3, a4⟩
      · exact ⟨⟨h4, .inr ⟨⟨⟨by dsimp only; omega, he⟩, .inl rfl⟩, Nat.le_refl _, h5, by omega, rfl⟩⟩, rfl⟩
      · have := hv.spOk.1
        exact ⟨⟨h4, .inr ⟨⟨⟨by dsimp only; omega, he⟩, .inr ⟨hv, ⟨by dsimp only; omega, this, by dsimp only; omega⟩, a4⟩⟩,
          Nat.le_refl _, h5, by omega, rfl⟩⟩, rfl⟩

theorem parseValue_ident {C : Prop} {src : Bytes} {id : Nat} {s : St} (h : PI src id s) (hc : s.lex.cur = .ident) :
    ∀ n, wp (parseValue n) (fun v s' => Parsed src id s v s' ∧ ∃ sp t, v = .ident sp t) (PX C src id) s
  | 0 => trivial
  | n + 1 => by
    rw [parseValue]
    wpb
    rw [hc]
    refine wp_seq (next_pi h) fun _ s1 ⟨h1, h2⟩ => ?_
    wpb
    have hk := h.more.cls
    rw [hc] at hk
    exact ⟨⟨h1, .inr ⟨⟨h.span, h.ident hc, hk⟩, Nat.le_refl _, h2, h2, rfl⟩⟩, _, _, rfl⟩

end Cssc
