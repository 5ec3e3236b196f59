import Verif.Proofs.TwinsSel

/-!
# The parser on two texts with the same tokens: rules and stylesheets
-/

namespace Cssc

theorem Both.state {R : Bool → St → St → Prop} {b : Bool} {s t : St} {f₁ : St → P α} {f₂ : St → P β} {V : α → β → Prop}
    {G : α → Prop} (h : Both R b (f₁ s) (f₂ t) s t V G) : Both R b (fun s0 => f₁ s0 s0) (fun s0 => f₂ s0 s0) s t V G := h

/-! ### Keyframe selectors -/

theorem ksLoop_twin {R : Bool → St → St → Prop} (H : Twins R) : ∀ (n : Nat) {b : Bool} {s t : St} {xs ys : List KSel},
    R b s t → xs.map KSel.bare = ys.map KSel.bare →
    Both R b (ksLoop n xs) (ksLoop n ys) s t fun x y => x.map KSel.bare = y.map KSel.bare
  | 0, _, _, _, _, _, _, _ => by unfold ksLoop; exact .timeout
  | n + 1, b, s, t, xs, ys, hr, hx => by
    have ih := @ksLoop_twin R H n
    unfold ksLoop
    refine .span fun _ _ => .str <| .num <| .cur H hr ?_
    have hstr := H.str hr
    have hnum := H.num hr
    cases hc : s.lex.cur <;> rw [hc] at hstr hnum
    case percentage =>
      rw [hnum (by decide)]
      refine .next H hr fun s1 t1 hr1 => .cur H hr1 <| .ite Iff.rfl (fun _ => .next H hr1 fun _ _ hr2 => ?_) fun _ => ?_
      · exact ih hr2 (map_snoc hx rfl)
      · exact .pure hr1 (map_snoc hx rfl)
    case ident =>
      rw [hstr (by decide)]
      refine .ite Iff.rfl (fun _ => .errorf) fun _ => ?_
      refine .next H hr fun s1 t1 hr1 => .cur H hr1 <| .ite Iff.rfl (fun _ => .next H hr1 fun _ _ hr2 => ?_) fun _ => ?_
      · exact ih hr2 (map_snoc hx rfl)
      · exact .pure hr1 (map_snoc hx rfl)
    all_goals exact .errorf

theorem parseKeyframeSelectorList_twin {R : Bool → St → St → Prop} (H : Twins R) {n : Nat} {b : Bool} {s t : St} (hr : R b s t) :
    Both R b (parseKeyframeSelectorList n) (parseKeyframeSelectorList n) s t fun x y => x.bare = y.bare := by
  unfold parseKeyframeSelectorList
  refine .span fun _ _ => (ksLoop_twin H n hr rfl).bind fun x y _ _ hxy hr1 => ?_
  rcases getLast_map hxy with ⟨e1, e2⟩ | ⟨v, w, e1, e2, e⟩
  · rw [e1, e2]; exact .errorf
  · rw [e1, e2]; exact .pure hr1 (by simp only [Prelude.bare, hxy])

/-! ### Media queries -/

theorem parseMediaRangeOperator_twin {R : Bool → St → St → Prop} (H : Twins R) {b : Bool} {s t : St} (hr : R b s t)
    (hd : s.lex.cur = .delim) : Both R b parseMediaRangeOperator parseMediaRangeOperator s t Eq := by
  unfold parseMediaRangeOperator
  refine .str ?_
  rw [H.str hr (hasStr_of hd (by decide))]
  refine .next H hr fun s1 t1 hr1 => .cur H hr1 <| .ite Iff.rfl (fun hc => .str ?_) fun _ => ?_
  · rw [H.str hr1 (hasStr_of hc (by decide))]
    refine .ite Iff.rfl (fun _ => .errorf) fun _ => .next H hr1 fun _ _ hr2 => ?_
    exact .ite Iff.rfl (fun _ => .pure hr2 rfl) fun _ => .ite Iff.rfl (fun _ => .pure hr2 rfl) fun _ => .errorf
  · exact .ite Iff.rfl (fun _ => .pure hr1 rfl) fun _ => .ite Iff.rfl (fun _ => .pure hr1 rfl) fun _ => .errorf

/-- Parts of media queries equal up to positions. -/
def MEq (x y : MQPart) : Prop := x.bare = y.bare

/-- Equal values are both identifiers, with the same name, or neither. -/
theorem VEq.ident {v w : Value} (h : VEq v w) :
    (∃ sp sp' x, v = .ident sp x ∧ w = .ident sp' x) ∨ (∀ sp x, v ≠ .ident sp x) ∧ ∀ sp x, w ≠ .ident sp x := by
  unfold VEq at h
  cases v <;> cases w <;> first | (simp only [Value.bare] at h; cases h; done) | (right; constructor <;> (intro sp x e; cases e); done) | skip
  simp only [Value.bare, Value.ident.injEq, true_and] at h
  subst h
  exact .inl ⟨_, _, _, rfl, rfl⟩

theorem onIdent {v : Value} {f : Span → Bytes → P α} {g : P α} (h : ∀ sp x, v ≠ .ident sp x) :
    (match v with | .ident sp x => f sp x | _ => g) = g := by
  cases v <;> first | rfl | exact absurd rfl (h _ _)

theorem mediaRange_twin {R : Bool → St → St → Prop} (H : Twins R) {n : Nat} {b : Bool} {s t : St} (hr : R b s t)
    (hd : s.lex.cur = .delim) {st st' : Nat} {v w : Value} (hv : VEq v w) :
    Both R b (mediaRange n st v) (mediaRange n st' w) s t MEq := by
  unfold mediaRange
  refine (parseMediaRangeOperator_twin H hr hd).bind ?_
  rintro op _ s1 t1 rfl hr1
  refine ((valTwin H n).value hr1).bind fun x y s2 t2 hxy hr2 => ?_
  rcases hxy.ident with ⟨sp, sp', x, rfl, rfl⟩ | ⟨hx, hy⟩
  · refine Both.bind (V := VEq) (b := b) ?_ fun p q s3 t3 hpq hr3 => ?_
    · refine .cur H hr2 <| .ite Iff.rfl (fun hc => ?_) fun _ => .pure hr2 rfl
      refine (parseMediaRangeOperator_twin H hr2 hc).bind ?_
      rintro op2 _ s3 t3 rfl hr3
      exact .ite Iff.rfl (fun _ => .errorf) fun _ => (valTwin H n).value hr3
    · refine .tend fun _ _ => .expect H hr3 fun _ _ _ hr4 => .pure hr4 ?_
      unfold MEq; unfold VEq at hv hpq
      simp only [MQPart.bare, hv, hpq]
  · have e1 := hv.ident
    cases x <;> cases y <;> first | exact absurd rfl (hx _ _) | exact absurd rfl (hy _ _) | skip
    all_goals
      rcases e1 with ⟨sp, sp', z, rfl, rfl⟩ | ⟨h1, h2⟩
      · refine .tend fun _ _ => .expect H hr2 fun _ _ _ hr4 => .pure hr4 ?_
        unfold MEq; unfold VEq at hxy
        simp only [MQPart.bare, hxy]
      · intro a s' e
        cases v <;> first | exact absurd rfl (h1 _ _) | cases e

theorem parseMediaFeature_twin {R : Bool → St → St → Prop} (H : Twins R) {n : Nat} {b : Bool} {s t : St} (hr : R b s t) :
    Both R b (parseMediaFeature n) (parseMediaFeature n) s t MEq := by
  unfold parseMediaFeature
  refine .span fun _ _ => .expect H hr fun _ s1 t1 hr1 => ((valTwin H n).value hr1).bind fun v w s2 t2 hvw hr2 => .cur H hr2 ?_
  have hm := @mediaRange_twin R H n b s2 t2 hr2
  cases hc : s2.lex.cur <;> rw [hc] at hm
  case rparen =>
    refine .tend fun _ _ => .next H hr2 fun _ _ hr3 => ?_
    rcases hvw.ident with ⟨sp, sp', x, rfl, rfl⟩ | ⟨h1, h2⟩
    · exact .pure hr3 rfl
    · intro a s' e
      cases v <;> first | exact absurd rfl (h1 _ _) | cases e
  case colon =>
    refine .next H hr2 fun s3 t3 hr3 => ?_
    rcases hvw.ident with ⟨sp, sp', x, rfl, rfl⟩ | ⟨h1, h2⟩
    · refine ((valTwin H n).value hr3).bind fun p q s4 t4 hpq hr4 => .tend fun _ _ => .expect H hr4 fun _ _ _ hr5 => .pure hr5 ?_
      unfold MEq; unfold VEq at hpq
      simp only [MQPart.bare, hpq]
    · intro a s' e
      cases v <;> first | exact absurd rfl (h1 _ _) | cases e
  case delim => exact hm rfl hvw
  all_goals exact .errorf

/-- Media queries, or their absence, equal up to positions. -/
def QEq (x y : Option MQ) : Prop := x.map MQ.bare = y.map MQ.bare

theorem mqLoop_twin {R : Bool → St → St → Prop} (H : Twins R) : ∀ (n : Nat) {b : Bool} {s t : St} {sp sp' : Span}
    {xs ys : List MQPart}, R b s t → xs.map MQPart.bare = ys.map MQPart.bare → Both R b (mqLoop n sp xs) (mqLoop n sp' ys) s t QEq
  | 0, _, _, _, _, _, _, _, _, _ => by unfold mqLoop; exact .timeout
  | n + 1, b, s, t, sp, sp', xs, ys, hr, hx => by
    have ih := @mqLoop_twin R H n
    unfold mqLoop
    refine .cur H hr ?_
    cases hc : s.lex.cur
    case eof => exact .errorf
    case lparen => exact (parseMediaFeature_twin H hr).bind fun p q _ _ hpq hr1 => ih hr1 (map_snoc hx hpq)
    case ident =>
      refine ((valTwin H n).value hr).bind fun v w s1 t1 hvw hr1 => ?_
      rcases hvw.ident with ⟨sp, sp', x, rfl, rfl⟩ | ⟨h1, h2⟩
      · exact ih hr1 (map_snoc hx rfl)
      · intro a s' e
        cases v <;> first | exact absurd rfl (h1 _ _) | cases e
    all_goals
      dsimp only
      rcases getLast_map hx with ⟨e1, e2⟩ | ⟨v, w, e1, e2, e⟩
      · rw [e1, e2]; exact .pure hr rfl
      · rw [e1, e2]
        exact .pure hr (by unfold QEq; simp only [Option.map_some, MQ.bare, hx])

theorem mqlLoop_twin {R : Bool → St → St → Prop} (H : Twins R) : ∀ (n : Nat) {b : Bool} {s t : St} {xs ys : List MQ},
    R b s t → xs.map MQ.bare = ys.map MQ.bare →
    Both R b (mqlLoop n xs) (mqlLoop n ys) s t fun x y => x.map MQ.bare = y.map MQ.bare
  | 0, _, _, _, _, _, _, _ => by unfold mqlLoop; exact .timeout
  | n + 1, b, s, t, xs, ys, hr, hx => by
    have ih := @mqlLoop_twin R H n
    unfold mqlLoop
    refine .cur H hr <| .ite Iff.rfl (fun _ => .errorf) fun _ => ?_
    unfold parseMediaQuery
    refine Both.bind (V := QEq) (b := b) (.span fun _ _ => mqLoop_twin H n hr rfl) fun p q s1 t1 hpq hr1 => ?_
    have hq : (xs ++ p.toList).map MQ.bare = (ys ++ q.toList).map MQ.bare := by
      rw [List.map_append, List.map_append, hx]
      unfold QEq at hpq
      cases p <;> cases q <;> first | rfl | cases hpq | (simp only [Option.toList, List.map_cons]; rw [Option.some.inj hpq])
    refine .cur H hr1 <| .ite Iff.rfl (fun _ => .next H hr1 fun _ _ hr2 => ih hr2 hq) fun _ => .pure hr1 hq

theorem parseMediaQueryList_twin {R : Bool → St → St → Prop} (H : Twins R) {n : Nat} {b : Bool} {s t : St} (hr : R b s t) :
    Both R b (parseMediaQueryList n) (parseMediaQueryList n) s t fun x y => x.map MQList.bare = y.map MQList.bare := by
  unfold parseMediaQueryList
  refine .span fun _ _ => (mqlLoop_twin H n hr rfl).bind fun x y _ _ hxy hr1 => ?_
  rcases getLast_map hxy with ⟨e1, e2⟩ | ⟨v, w, e1, e2, e⟩
  · rw [e1, e2]; exact .pure hr1 rfl
  · rw [e1, e2]; exact .pure hr1 (by simp only [Option.map_some, MQList.bare, hxy])

/-! ### Blocks -/

theorem fallback_twin {R : Bool → St → St → Prop} (H : Twins R) {n : Nat} {s t : St} (hr : R false s t) :
    Both R false (parseDeclarationOrFallback n) (parseDeclarationOrFallback n) s t DEq fun d => d.asText = false := by
  intro d s' e hd
  unfold parseDeclarationOrFallback at e
  have raw : ∀ {s : St}, parseRaw n s = .ok d s' → False := by
    intro s e
    unfold parseRaw at e
    obtain ⟨_, _, _, e⟩ := bind_inv e
    obtain ⟨_, _, _, e⟩ := bind_inv e
    obtain ⟨_, _, _, e⟩ := bind_inv e
    obtain ⟨_, _, _, e⟩ := bind_inv e
    obtain ⟨_, _, _, e⟩ := bind_inv e
    cases e
    cases hd
  split at e
  · rename_i d' s1 e1
    cases e
    obtain ⟨c, t', g, h⟩ := parseDeclaration_twin H hr _ _ e1 trivial
    refine ⟨c, t', ?_, h⟩
    unfold parseDeclarationOrFallback
    rw [g]
  · exact (raw e).elim
  · exact (raw e).elim
  · cases e

theorem declsLoop_prefix : ∀ (n : Nat) {ds r : List Decl} {s s' : St}, declsLoop n ds s = .ok r s' → ∃ l, r = ds ++ l
  | 0, _, _, _, _, e => by cases e
  | n + 1, ds, r, s, s', e => by
    unfold declsLoop at e
    obtain ⟨_, s1, _, e⟩ := bind_inv e
    split at e
    · cases e
      exact ⟨[], by simp⟩
    · obtain ⟨d, s2, _, e⟩ := bind_inv e
      obtain ⟨_, s3, _, e⟩ := bind_inv e
      obtain ⟨_, s4, _, e⟩ := bind_inv e
      obtain ⟨l, rfl⟩ := declsLoop_prefix n e
      exact ⟨d :: l, by simp⟩

theorem declsLoop_twin {R : Bool → St → St → Prop} (H : Twins R) : ∀ (n : Nat) {s t : St} {xs ys : List Decl},
    R false s t → xs.map Decl.bare = ys.map Decl.bare →
    Both R false (declsLoop n xs) (declsLoop n ys) s t (fun x y => x.map Decl.bare = y.map Decl.bare)
      fun x => ∀ d ∈ x, d.asText = false
  | 0, _, _, _, _, _, _ => by unfold declsLoop; exact .timeout
  | n + 1, s, t, xs, ys, hr, hx => by
    have ih := @declsLoop_twin R H n
    unfold declsLoop
    refine .cur H hr <| .ite Iff.rfl (fun _ => .pure hr hx) fun _ => ?_
    refine (fallback_twin H hr).bindG (fun d s1 r s' e hr => ?_) fun d c s1 t1 hdc hr1 => ?_
    · obtain ⟨_, _, _, e⟩ := bind_inv e
      obtain ⟨_, _, _, e⟩ := bind_inv e
      obtain ⟨l, rfl⟩ := declsLoop_prefix n e
      exact hr d (by simp)
    · exact .cur H hr1 <| .whenNext H hr1 Iff.rfl fun _ _ hr2 _ => ih hr2 (map_snoc hx hdc)

theorem parseDeclarationBlock_twin {R : Bool → St → St → Prop} (H : Twins R) {n : Nat} {s t : St} (hr : R false s t) :
    Both R false (parseDeclarationBlock n) (parseDeclarationBlock n) s t (fun x y => x.bare = y.bare) DeclBlock.clean := by
  unfold parseDeclarationBlock
  refine .span fun _ _ => .next H hr fun s1 t1 hr1 => ?_
  refine (declsLoop_twin H n hr1 rfl).bindG (fun ds s1 r s' e hr => ?_) fun x y s2 t2 hxy hr2 => ?_
  · obtain ⟨_, _, _, e⟩ := bind_inv e
    obtain ⟨_, _, _, e⟩ := bind_inv e
    cases e
    exact hr
  · exact .tend fun _ _ => .next H hr2 fun _ _ hr3 => .pure hr3 (by simp only [DeclBlock.bare, hxy])

theorem ruleLoop_twin {R : Bool → St → St → Prop} (H : Twins R) {k : Bool} : ∀ (n : Nat) {s t : St} {sp sp' : Span}
    {p q : Prelude}, R false s t → p.bare = q.bare →
    Both R false (ruleLoop k n sp p) (ruleLoop k n sp' q) s t (fun x y => x.bare = y.bare) QRule.clean
  | 0, _, _, _, _, _, _, _, _ => by unfold ruleLoop; exact .timeout
  | n + 1, s, t, sp, sp', p, q, hr, hp => by
    have ih := @ruleLoop_twin R H k n
    unfold ruleLoop
    refine .cur H hr ?_
    cases hc : s.lex.cur
    case eof => exact .errorf
    case lcurly =>
      refine (parseDeclarationBlock_twin H hr).bindG (fun ds s1 r s' e hr => ?_) fun x y s2 t2 hxy hr2 => ?_
      · cases e
        exact hr _ rfl
      · exact .pure hr2 (by simp only [QRule.bare, hp, Option.map_some, hxy])
    all_goals
      refine .ite Iff.rfl (fun _ => ?_) fun _ => ?_
      · exact (parseKeyframeSelectorList_twin H hr).bind fun _ _ _ _ h hr1 => ih hr1 h
      · exact ((selTwin H n).list hr).bind fun _ _ _ _ h hr1 => ih hr1 (by simp only [Prelude.bare, bareSels_map, h])

theorem parseQualifiedRule_twin {R : Bool → St → St → Prop} (H : Twins R) {k : Bool} {n : Nat} {s t : St} (hr : R false s t) :
    Both R false (parseQualifiedRule k n) (parseQualifiedRule k n) s t (fun x y => x.bare = y.bare) QRule.clean := by
  unfold parseQualifiedRule
  exact .span fun _ _ => ruleLoop_twin H n hr rfl

theorem rulesLoop_prefix {k : Bool} : ∀ (n : Nat) {ds : List QRule} {r : List QRule × Nat} {s s' : St},
    rulesLoop k n ds s = .ok r s' → ∃ l, r.1 = ds ++ l
  | 0, _, _, _, _, e => by cases e
  | n + 1, ds, r, s, s', e => by
    unfold rulesLoop at e
    obtain ⟨c, s1, _, e⟩ := bind_inv e
    have key : (parseQualifiedRule k n >>= fun r => rulesLoop k n (ds ++ [r])) s1 = .ok r s' → ∃ l, r.1 = ds ++ l := by
      intro e
      obtain ⟨x, _, _, e⟩ := bind_inv e
      obtain ⟨l, e⟩ := rulesLoop_prefix n e
      exact ⟨x :: l, by rw [e]; simp⟩
    cases c
    case eof => cases e
    case rcurly =>
      obtain ⟨_, _, _, e⟩ := bind_inv e
      obtain ⟨_, _, _, e⟩ := bind_inv e
      cases e
      exact ⟨[], by simp⟩
    all_goals exact key e

theorem rulesLoop_twin {R : Bool → St → St → Prop} (H : Twins R) {k : Bool} : ∀ (n : Nat) {s t : St} {xs ys : List QRule},
    R false s t → xs.map QRule.bare = ys.map QRule.bare →
    Both R false (rulesLoop k n xs) (rulesLoop k n ys) s t (fun x y => x.1.map QRule.bare = y.1.map QRule.bare)
      fun x => ∀ r ∈ x.1, r.clean
  | 0, _, _, _, _, _, _ => by unfold rulesLoop; exact .timeout
  | n + 1, s, t, xs, ys, hr, hx => by
    have ih := @rulesLoop_twin R H k n
    unfold rulesLoop
    refine .cur H hr ?_
    cases hc : s.lex.cur
    case eof => exact .errorf
    case rcurly => exact .tend fun _ _ => .next H hr fun _ _ hr1 => .pure hr1 hx
    all_goals
      refine (parseQualifiedRule_twin H hr).bindG (fun d s1 r s' e hr => ?_) fun d c s1 t1 hdc hr1 => ih hr1 (map_snoc hx hdc)
      obtain ⟨l, e⟩ := rulesLoop_prefix n e
      exact hr d (by rw [e]; simp)

/-! ### At-rules -/

/-- What an at-rule adds to the stylesheet, equal up to positions. -/
def NEq (x y : Node × List ImportSpec) : Prop :=
  x.1.bare = y.1.bare ∧ x.2.map ImportSpec.value = y.2.map ImportSpec.value

theorem parseImportAtRule_twin {R : Bool → St → St → Prop} (H : Twins R) {n : Nat} {s t : St} (hr : R false s t)
    (hc : s.lex.cur = .at) : Both R false (parseImportAtRule n) (parseImportAtRule n) s t NEq := by
  unfold parseImportAtRule
  refine .state <| .span fun _ _ => .str <| .next H hr fun s1 t1 hr1 => .span fun psp psp' => .str ?_
  rw [H.str hr (hasStr_of hc (by decide))]
  refine Both.bind (V := fun x y => x.2 = y.2) (b := false) ?_ ?_
  · refine .cur H hr1 ?_
    have hstr := H.str hr1
    cases hc1 : s1.lex.cur <;> rw [hc1] at hstr
    case url =>
      rw [hstr (by decide)]
      exact .next H hr1 fun _ _ hr2 => .pure hr2 rfl
    case functionStart =>
      rw [hstr (by decide)]
      refine .ite Iff.rfl (fun _ => .errorf) fun _ => .next H hr1 fun s2 t2 hr2 => .str ?_
      refine .expect H hr2 fun hs s3 t3 hr3 => .tend fun _ _ => .expect H hr3 fun _ s4 t4 hr4 => .pure hr4 ?_
      rw [H.str hr2 (hasStr_of hs (by decide))]
    case string =>
      rw [hstr (by decide)]
      exact .expect H hr1 fun _ _ _ hr2 => .pure hr2 rfl
    all_goals exact .errorf
  · rintro ⟨p1, v1⟩ ⟨p2, v2⟩ s2 t2 h hr2
    dsimp only at h
    subst h
    refine (parseMediaQueryList_twin H hr2).bind fun x y s3 t3 hxy hr3 => .pure hr3 ⟨?_, rfl⟩
    cases x <;> cases y <;> first | rfl | cases hxy | skip
    have := Option.some.inj hxy
    simp only [Node.bare, AtRule.bare, Option.toList, List.map_cons, List.map_nil, AtPrelude.bare, Option.map_some, this]

theorem parseKeyframes_twin {R : Bool → St → St → Prop} (H : Twins R) {n : Nat} {s t : St} (hr : R false s t)
    (hc : s.lex.cur = .at) : Both R false (parseKeyframes n) (parseKeyframes n) s t NEq fun x => x.1.clean := by
  unfold parseKeyframes
  refine .state <| .span fun _ _ => .str <| .next H hr fun s1 t1 hr1 => .span fun psp psp' => .str ?_
  rw [H.str hr (hasStr_of hc (by decide))]
  refine Both.bind (V := fun x y => x.bare = y.bare) (b := false) ?_ ?_
  · refine .cur H hr1 ?_
    have hstr := H.str hr1
    cases hc1 : s1.lex.cur <;> rw [hc1] at hstr
    case string => rw [hstr (by decide)]; exact .pure hr1 rfl
    case ident => rw [hstr (by decide)]; exact .pure hr1 rfl
    all_goals exact .errorf
  · intro p q s2 t2 hpq hr2
    refine .next H hr2 fun s3 t3 hr3 => .span fun _ _ => .expect H hr3 fun _ s4 t4 hr4 => ?_
    refine (rulesLoop_twin H n hr4 rfl).bindG (fun d s1 r s' e hr => ?_) fun x y s5 t5 hxy hr5 => .pure hr5 ⟨?_, rfl⟩
    · cases e
      exact hr
    · simp only [Node.bare, AtRule.bare, List.map_cons, List.map_nil, hpq, Block.bare, hxy]

theorem parseMediaAtRule_twin {R : Bool → St → St → Prop} (H : Twins R) {n : Nat} {s t : St} (hr : R false s t)
    (hc : s.lex.cur = .at) : Both R false (parseMediaAtRule n) (parseMediaAtRule n) s t NEq fun x => x.1.clean := by
  unfold parseMediaAtRule
  refine .state <| .span fun _ _ => .str <| .next H hr fun s1 t1 hr1 => ?_
  rw [H.str hr (hasStr_of hc (by decide))]
  refine (parseMediaQueryList_twin H hr1).bind fun p q s2 t2 hpq hr2 => ?_
  refine .span fun _ _ => .expect H hr2 fun _ s4 t4 hr4 => ?_
  refine (rulesLoop_twin H n hr4 rfl).bindG (fun d s1 r s' e hr => ?_) fun x y s5 t5 hxy hr5 => .pure hr5 ⟨?_, rfl⟩
  · cases e
    exact hr
  · simp only [Node.bare, AtRule.bare, List.map_cons, List.map_nil, AtPrelude.bare, hpq, Block.bare, hxy]

theorem parseCustomMediaAtRule_twin {R : Bool → St → St → Prop} (H : Twins R) {n : Nat} {s t : St} (hr : R false s t)
    (hc : s.lex.cur = .at) : Both R false (parseCustomMediaAtRule n) (parseCustomMediaAtRule n) s t NEq := by
  unfold parseCustomMediaAtRule
  refine .state <| .span fun _ _ => .str <| .next H hr fun s1 t1 hr1 => ?_
  rw [H.str hr (hasStr_of hc (by decide))]
  refine ((valTwin H n).value hr1).bind fun v w s2 t2 hvw hr2 => ?_
  rcases hvw.ident with ⟨sp, sp', x, rfl, rfl⟩ | ⟨h1, h2⟩
  · refine (parseMediaQueryList_twin H hr2).bind fun p q s3 t3 hpq hr3 => ?_
    cases p with
    | none => exact .crash
    | some p =>
      cases q with
      | none => cases hpq
      | some q =>
        have hq : p.queries.map MQ.bare = q.queries.map MQ.bare := by
          have := congrArg MQList.queries (Option.some.inj hpq)
          exact this
        obtain ⟨psp, pl⟩ := p
        obtain ⟨qsp, ql⟩ := q
        dsimp only at hq
        match pl, ql, hq with
        | [], [], _ => exact .errorf
        | [a], [c], hq =>
          refine .pure hr3 ⟨?_, rfl⟩
          simp only [List.map_cons, List.map_nil, List.cons.injEq, and_true] at hq
          simp only [Node.bare, AtRule.bare, List.map_cons, List.map_nil, AtPrelude.bare, hq]
        | _ :: _ :: _, _, _ => exact .errorf
        | [], _ :: _, hq => cases hq
        | [_], [], hq => cases hq
        | [_], _ :: _ :: _, hq => simp at hq
  · intro a s' e
    cases v <;> first | exact absurd rfl (h1 _ _) | cases e

theorem parseGenericAtRule_twin {R : Bool → St → St → Prop} (H : Twins R) {n : Nat} {s t : St} (hr : R false s t)
    (hc : s.lex.cur = .at) : Both R false (parseGenericAtRule n) (parseGenericAtRule n) s t NEq fun x => x.1.clean := by
  unfold parseGenericAtRule
  refine .state <| .span fun _ _ => .str <| .next H hr fun s1 t1 hr1 => ?_
  rw [H.str hr (hasStr_of hc (by decide))]
  refine (parseDeclarationBlock_twin H hr1).bindG (fun d s1 r s' e hr => ?_) fun x y s5 t5 hxy hr5 => .pure hr5 ⟨?_, rfl⟩
  · cases e
    exact hr
  · simp only [Node.bare, AtRule.bare, List.map_nil, Block.bare, hxy]

theorem parseAtRule_twin {R : Bool → St → St → Prop} (H : Twins R) {n : Nat} {s t : St} (hr : R false s t)
    (hc : s.lex.cur = .at) : Both R false (parseAtRule n) (parseAtRule n) s t NEq fun x => x.1.clean := by
  unfold parseAtRule
  refine .str ?_
  rw [H.str hr (hasStr_of hc (by decide))]
  refine .ite Iff.rfl (fun _ a s' e _ => parseImportAtRule_twin H hr hc a s' e trivial) fun _ => ?_
  refine .ite Iff.rfl (fun _ => parseMediaAtRule_twin H hr hc) fun _ => ?_
  refine .ite Iff.rfl (fun _ => parseKeyframes_twin H hr hc) fun _ => ?_
  exact .ite Iff.rfl (fun _ a s' e _ => parseCustomMediaAtRule_twin H hr hc a s' e trivial) fun _ => parseGenericAtRule_twin H hr hc

theorem topLoop_prefix : ∀ (n : Nat) {ss r : Stylesheet} {s s' : St}, topLoop n ss s = .ok r s' → ∃ l, r.nodes = ss.nodes ++ l
  | 0, _, _, _, _, e => by cases e
  | n + 1, ss, r, s, s', e => by
    unfold topLoop at e
    obtain ⟨c, s1, _, e⟩ := bind_inv e
    have key : (parseQualifiedRule false n >>= fun r => topLoop n ⟨ss.nodes ++ [.rule r], ss.imports⟩) s1 = .ok r s' →
        ∃ l, r.nodes = ss.nodes ++ l := by
      intro e
      obtain ⟨x, _, _, e⟩ := bind_inv e
      obtain ⟨l, e⟩ := topLoop_prefix n e
      exact ⟨.rule x :: l, by rw [e]; simp⟩
    cases c
    case eof =>
      cases e
      exact ⟨[], by simp⟩
    case «at» =>
      obtain ⟨x, _, _, e⟩ := bind_inv e
      obtain ⟨l, e⟩ := topLoop_prefix n e
      exact ⟨x.1 :: l, by rw [e]; simp⟩
    case semicolon =>
      obtain ⟨x, _, _, e⟩ := bind_inv e
      exact topLoop_prefix n e
    case cdo =>
      obtain ⟨x, _, _, e⟩ := bind_inv e
      exact topLoop_prefix n e
    case cdc =>
      obtain ⟨x, _, _, e⟩ := bind_inv e
      exact topLoop_prefix n e
    all_goals exact key e

theorem topLoop_twin {R : Bool → St → St → Prop} (H : Twins R) : ∀ (n : Nat) {s t : St} {x y : Stylesheet},
    R false s t → x.Same y → Both R false (topLoop n x) (topLoop n y) s t Stylesheet.Same fun x => ∀ n ∈ x.nodes, n.clean
  | 0, _, _, _, _, _, _ => by unfold topLoop; exact .timeout
  | n + 1, s, t, x, y, hr, hx => by
    have ih := @topLoop_twin R H n
    unfold topLoop
    refine .cur H hr ?_
    have hat := @parseAtRule_twin R H n s t hr
    cases hc : s.lex.cur <;> rw [hc] at hat
    case eof => exact .pure hr hx
    case «at» =>
      refine (hat rfl).bindG (fun d s1 r s' e hr => ?_) ?_
      · obtain ⟨l, e⟩ := topLoop_prefix n e
        exact hr d.1 (by rw [e]; simp)
      · rintro ⟨n1, i1⟩ ⟨n2, i2⟩ s1 t1 ⟨h1, h2⟩ hr1
        refine ih hr1 ⟨map_snoc hx.nodes h1, ?_⟩
        show (x.imports ++ i1).map _ = (y.imports ++ i2).map _
        rw [List.map_append, List.map_append, hx.imports]
        exact congrArg _ h2
    case semicolon => exact .next H hr fun _ _ hr1 => ih hr1 hx
    case cdo => exact .next H hr fun _ _ hr1 => ih hr1 hx
    case cdc => exact .next H hr fun _ _ hr1 => ih hr1 hx
    all_goals
      refine (parseQualifiedRule_twin H hr).bindG (fun d s1 r s' e hr => ?_) fun p q s1 t1 hpq hr1 => ?_
      · obtain ⟨l, e⟩ := topLoop_prefix n e
        exact hr (.rule d) (by rw [e]; simp)
      · exact ih hr1 ⟨map_snoc hx.nodes (by simp only [Node.bare, hpq]), hx.imports⟩

end Cssc
