import Verif.Proofs.Twins

/-!
# The parser on two texts with the same tokens: declarations and selectors
-/

namespace Cssc

/-! ### Declarations -/

theorem bareVals_map : ∀ (xs : List Value), bareVals xs = xs.map Value.bare
  | [] => rfl
  | x :: xs => by simp only [bareVals, List.map_cons, bareVals_map xs]

/-- The last elements of lists that are equal after mapping. -/
theorem getLast_map {f : α → β} {xs ys : List α} (h : xs.map f = ys.map f) :
    xs.getLast? = none ∧ ys.getLast? = none ∨ ∃ v w, xs.getLast? = some v ∧ ys.getLast? = some w ∧ f v = f w := by
  have h' : xs.getLast?.map f = ys.getLast?.map f := by rw [← List.getLast?_map, ← List.getLast?_map, h]
  cases hx : xs.getLast? <;> cases hy : ys.getLast? <;> rw [hx, hy] at h'
  · exact .inl ⟨rfl, rfl⟩
  · cases h'
  · cases h'
  · exact .inr ⟨_, _, rfl, rfl, by simpa using h'⟩

/-- Declarations equal up to positions. -/
def DEq (d e : Decl) : Prop := d.bare = e.bare

/-- The last case of `declLoop`. -/
def declElse (n : Nat) (prop : Bytes) (sp : Span) (vals : List Value) (imp : Bool) : P Decl := do
  match ← parseValue n with
  | .nil =>
    match vals.getLast? with
    | none => errorf "declaration must have a value"
    | some last =>
      let lsp ← locate last
      pure (.decl ⟨sp.start, if sp.stop < lsp.stop then lsp.stop else sp.stop⟩ prop vals imp)
  | v => declLoop n prop sp (vals ++ [v]) imp

theorem declLoop_twin {R : Bool → St → St → Prop} (H : Twins R) : ∀ (n : Nat) {s t : St} {prop : Bytes} {sp sp' : Span}
    {vs ws : List Value} {imp : Bool}, R false s t → bareVals vs = bareVals ws →
    Both R false (declLoop n prop sp vs imp) (declLoop n prop sp' ws imp) s t DEq
  | 0, _, _, _, _, _, _, _, _, _, _ => by unfold declLoop; exact .timeout
  | n + 1, s, t, prop, sp, sp', vs, ws, imp, hr, hv => by
    have ih := @declLoop_twin R H n
    have key : Both R false (declElse n prop sp vs imp) (declElse n prop sp' ws imp) s t DEq := by
      unfold declElse
      refine ((valTwin H n).value hr).bind fun v w s' t' hvw hr' => ?_
      have := hvw
      unfold VEq at this
      cases v <;> cases w <;> first | (simp only [Value.bare] at this; cases this; done) | exact ih hr' (bareVals_snoc hv hvw) | skip
      rw [bareVals_map, bareVals_map] at hv
      rcases getLast_map hv with ⟨e1, e2⟩ | ⟨v, w, e1, e2, e⟩
      · rw [e1, e2]; exact .errorf
      · rw [e1, e2]
        refine .locate hr' e fun _ _ => .pure hr' ?_
        unfold DEq
        simp only [Decl.bare, bareVals_map, hv]
    unfold declLoop
    refine .str <| .span fun tsp tsp' => .cur H hr ?_
    have hstr := H.str hr
    have hbang := @Twins.bang R H s t
    cases hc : s.lex.cur <;> rw [hc] at hstr hbang
    case eof => exact .errorf
    case comma => exact .next H hr fun s' t' hr' => ih hr' (bareVals_snoc hv rfl)
    case delim =>
      rw [hstr (by decide)]
      dsimp only
      refine .ite Iff.rfl (fun _ => ?_) fun hb => ?_
      · exact .next H hr fun s' t' hr' => ih hr' (bareVals_snoc hv rfl)
      · refine .next' H hr fun s1 t1 e1 g1 hr1 => .str ?_
        by_cases hi : isImportantString s1.lex.str = true
        · have hi' := hbang hr rfl (Decidable.not_not.1 hb) e1 g1 hi
          rw [if_neg (by simp [hi]), if_neg (by simp [hi'])]
          exact .tend fun _ _ => .next H hr1 fun s2 t2 hr2 => ih hr2 hv
        · rw [if_pos hi]
          exact .errorf
    all_goals exact key

theorem parseDeclaration_twin {R : Bool → St → St → Prop} (H : Twins R) {n : Nat} {s t : St} (hr : R false s t) :
    Both R false (parseDeclaration n) (parseDeclaration n) s t DEq := by
  unfold parseDeclaration
  refine .str <| .cur H hr ?_
  have hstr := H.str hr
  by_cases hd : s.lex.cur = .delim
  · rw [hstr (hasStr_of hd (by decide))]
    refine .whenNext H hr Iff.rfl fun s1 t1 hr1 _ => .str <| .span fun _ _ => .expect H hr1 fun hi s2 t2 hr2 => ?_
    rw [H.str hr1 (hasStr_of hi (by decide))]
    exact .expect H hr2 fun _ s3 t3 hr3 => declLoop_twin H n hr3 rfl
  · have h1 : ∀ x : Bytes, decide (s.lex.cur = .delim ∧ x = b!"*") = false := fun x => by simp [hd]
    rw [h1, h1]
    refine .whenNext H hr Iff.rfl fun s1 t1 hr1 _ => .str <| .span fun _ _ => .expect H hr1 fun hi s2 t2 hr2 => ?_
    rw [H.str hr1 (hasStr_of hi (by decide))]
    exact .expect H hr2 fun _ s3 t3 hr3 => declLoop_twin H n hr3 rfl

/-! ### An+B -/

theorem anbFirst_twin {R : Bool → St → St → Prop} (H : Twins R) {b : Bool} {s t : St} (hr : R b s t) :
    Both R b anbFirst anbFirst s t fun x y => x.1 = y.1 ∧ x.2.1 = y.2.1 ∧ x.2.2.1 = y.2.2.1 := by
  unfold anbFirst
  refine .span fun _ _ => .cur H hr <| .str <| .num ?_
  have hstr := H.str hr
  have hnum := H.num hr
  have hcs : s.lex.cur = .dimension ∨ s.lex.cur = .ident ∨ s.lex.cur = .number ∨
    (s.lex.cur ≠ .dimension ∧ s.lex.cur ≠ .ident ∧ s.lex.cur ≠ .number) := by
    cases s.lex.cur <;> decide
  rcases hcs with h | h | h | ⟨h1, h2, h3⟩
  · rw [hstr (hasStr_of h (by decide)), hnum (hasNum_of h (by decide))]
    refine .ite Iff.rfl (fun _ => .next H hr fun _ _ hr1 => .pure hr1 ⟨rfl, rfl, rfl⟩) fun _ => ?_
    refine .ite Iff.rfl (fun _ => ?_) fun hn => ?_
    · refine .ite Iff.rfl (fun _ => ?_) fun _ => ?_
      · exact .ite Iff.rfl (fun _ => .errorf) fun _ => .next H hr fun _ _ hr1 => .pure hr1 ⟨rfl, rfl, rfl⟩
      · refine .ite Iff.rfl (fun _ => ?_) fun _ => .errorf
        exact .ite Iff.rfl (fun _ => .errorf) fun _ => .next H hr fun _ _ hr1 => .pure hr1 ⟨rfl, rfl, rfl⟩
    · rw [h]
      refine .ite Iff.rfl (fun h => absurd h.1 (by decide)) fun _ => ?_
      refine .ite Iff.rfl (fun h => absurd h.1 (by decide)) fun _ => ?_
      refine .ite Iff.rfl (fun h => absurd h (by decide)) fun _ => ?_
      exact .pure hr ⟨rfl, rfl, rfl⟩
  · rw [hstr (hasStr_of h (by decide)), h]
    refine .ite Iff.rfl (fun h => absurd h.1 (by decide)) fun _ => ?_
    refine .ite Iff.rfl (fun h => absurd h.1 (by decide)) fun _ => ?_
    refine .ite Iff.rfl (fun _ => .expect H hr fun _ _ _ hr1 => .pure hr1 ⟨rfl, rfl, rfl⟩) fun _ => ?_
    refine .ite Iff.rfl (fun _ => .expect H hr fun _ _ _ hr1 => .pure hr1 ⟨rfl, rfl, rfl⟩) fun _ => ?_
    refine .ite Iff.rfl (fun h => absurd h (by decide)) fun _ => ?_
    exact .pure hr ⟨rfl, rfl, rfl⟩
  · rw [hnum (hasNum_of h (by decide)), h]
    refine .ite ⟨fun h => absurd h.1 (by decide), fun h => absurd h.1 (by decide)⟩ (fun h => absurd h.1 (by decide)) fun _ => ?_
    refine .ite ⟨fun h => absurd h.1 (by decide), fun h => absurd h.1 (by decide)⟩ (fun h => absurd h.1 (by decide)) fun _ => ?_
    refine .ite ⟨fun h => absurd h.1 (by decide), fun h => absurd h.1 (by decide)⟩ (fun h => absurd h.1 (by decide)) fun _ => ?_
    refine .ite ⟨fun h => absurd h.1 (by decide), fun h => absurd h.1 (by decide)⟩ (fun h => absurd h.1 (by decide)) fun _ => ?_
    refine .ite Iff.rfl (fun _ => .expect H hr fun _ _ _ hr1 => ?_) fun _ => .pure hr ⟨rfl, rfl, rfl⟩
    refine .ite Iff.rfl (fun _ => .pure hr1 ⟨rfl, rfl, rfl⟩) fun _ => ?_
    exact .ite Iff.rfl (fun _ => .pure hr1 ⟨rfl, rfl, rfl⟩) fun _ => .pure hr1 ⟨rfl, rfl, rfl⟩
  · refine .ite ⟨fun h => absurd h.1 h1, fun h => absurd h.1 h1⟩ (fun h => absurd h.1 h1) fun _ => ?_
    refine .ite ⟨fun h => absurd h.1 h1, fun h => absurd h.1 h1⟩ (fun h => absurd h.1 h1) fun _ => ?_
    refine .ite ⟨fun h => absurd h.1 h2, fun h => absurd h.1 h2⟩ (fun h => absurd h.1 h2) fun _ => ?_
    refine .ite ⟨fun h => absurd h.1 h2, fun h => absurd h.1 h2⟩ (fun h => absurd h.1 h2) fun _ => ?_
    exact .ite Iff.rfl (fun h => absurd h h3) fun _ => .pure hr ⟨rfl, rfl, rfl⟩

/-- Arguments of pseudo classes equal up to positions. -/
def AEq (x y : PArgs) : Prop := x.bare = y.bare

theorem anbSecond_twin {R : Bool → St → St → Prop} (H : Twins R) {b : Bool} {s t : St} (hr : R b s t) {st st' : Nat}
    {x y : Bytes × Bytes × Bytes × Nat} (h : x.1 = y.1 ∧ x.2.1 = y.2.1 ∧ x.2.2.1 = y.2.2.1) :
    Both R b (anbSecond st x) (anbSecond st' y) s t AEq := by
  obtain ⟨a, op, c, e⟩ := x
  obtain ⟨a', op', c', e'⟩ := y
  dsimp only at h
  obtain ⟨rfl, rfl, rfl⟩ := h
  unfold anbSecond
  refine .cur H hr <| .str <| .num <| .tend fun _ _ => ?_
  refine .ite Iff.rfl (fun hc => ?_) fun hc => ?_
  · rw [H.num hr (hasNum_of hc (by decide))]
    refine .ite Iff.rfl (fun _ => .expect H hr fun _ _ _ hr1 => .pure hr1 rfl) fun _ => ?_
    exact .ite Iff.rfl (fun _ => .expect H hr fun _ _ _ hr1 => .pure hr1 rfl) fun _ => .errorf
  · by_cases hd : s.lex.cur = .delim
    · rw [H.str hr (hasStr_of hd (by decide))]
      refine .ite Iff.rfl (fun _ => ?_) fun _ => .pure hr rfl
      refine .next H hr fun s1 t1 hr1 => .num <| .tend fun _ _ => .expect H hr1 fun hn s2 t2 hr2 => .pure hr2 ?_
      rw [H.num hr1 (hasNum_of hn (by decide))]
      rfl
    · exact .ite ⟨fun h => absurd h.1 hd, fun h => absurd h.1 hd⟩ (fun h => absurd h.1 hd) fun _ => .pure hr rfl

theorem parseANPlusB_twin {R : Bool → St → St → Prop} (H : Twins R) {b : Bool} {s t : St} (hr : R b s t) :
    Both R b parseANPlusB parseANPlusB s t AEq := by
  unfold parseANPlusB
  exact .retain H hr <| .span fun _ _ => (anbFirst_twin H (H.retain false hr)).bind fun _ _ _ _ h hr1 => anbSecond_twin H hr1 h

theorem parseNthArgs_twin {R : Bool → St → St → Prop} (H : Twins R) {b : Bool} {s t : St} (hr : R b s t) :
    Both R b parseNthArgs parseNthArgs s t AEq := by
  unfold parseNthArgs
  refine .str <| .span fun _ _ => .cur H hr ?_
  have hstr := H.str hr
  cases hc : s.lex.cur <;> rw [hc] at hstr
  case number => exact parseANPlusB_twin H hr
  case dimension => exact parseANPlusB_twin H hr
  case ident =>
    rw [hstr (by decide)]
    refine .ite Iff.rfl (fun _ => parseANPlusB_twin H hr) fun _ => ?_
    exact .ite Iff.rfl (fun _ => .errorf) fun _ => .next H hr fun _ _ hr1 => .pure hr1 rfl
  all_goals exact .pure hr rfl

/-! ### Attribute selectors -/

/-- Parts of selectors equal up to positions. -/
def PEq (p q : SelPart) : Prop := p.bare = q.bare

/-- The end of `parseAttributeSelector`. -/
def attrEnd (fuel : Nat) (start : Nat) (prop preOp : Bytes) : P SelPart := do
  match ← parseValue fuel with
  | .nil => errorf "value must be specified"
  | value =>
    let e ← tokenEnd
    let str ← getStr
    if (← getCur) = .ident ∧ (str = b!"s" ∨ str = b!"i") then
      next
      expect .rbracket
      pure (.attr ⟨start, e⟩ prop preOp value str)
    else
      expect .rbracket
      pure (.attr ⟨start, e⟩ prop preOp value [])

theorem attrEnd_twin {R : Bool → St → St → Prop} (H : Twins R) {b : Bool} {s t : St} (hr : R b s t) {n : Nat} {st st' : Nat}
    {prop preOp : Bytes} : Both R b (attrEnd n st prop preOp) (attrEnd n st' prop preOp) s t PEq := by
  have key : ∀ {s t : St} {v w : Value}, R b s t → VEq v w → ∀ {a a' : Nat},
      Both R b (getStr >>= fun str => getCur >>= fun c => if c = .ident ∧ (str = b!"s" ∨ str = b!"i") then
          Cssc.next >>= fun _ => expect .rbracket >>= fun _ => Pure.pure (SelPart.attr ⟨st, a⟩ prop preOp v str)
        else expect .rbracket >>= fun _ => Pure.pure (.attr ⟨st, a⟩ prop preOp v []))
        (getStr >>= fun str => getCur >>= fun c => if c = .ident ∧ (str = b!"s" ∨ str = b!"i") then
          Cssc.next >>= fun _ => expect .rbracket >>= fun _ => Pure.pure (SelPart.attr ⟨st', a'⟩ prop preOp w str)
        else expect .rbracket >>= fun _ => Pure.pure (.attr ⟨st', a'⟩ prop preOp w [])) s t PEq := by
    intro s t v w hr hvw a a'
    refine .str <| .cur H hr ?_
    by_cases hi : s.lex.cur = .ident
    · rw [H.str hr (hasStr_of hi (by decide))]
      refine .ite Iff.rfl (fun _ => .next H hr fun _ _ hr1 => .expect H hr1 fun _ _ _ hr2 => .pure hr2 ?_) fun _ =>
        .expect H hr fun _ _ _ hr2 => .pure hr2 ?_
      all_goals
        unfold PEq; unfold VEq at hvw
        simp only [SelPart.bare, hvw]
    · refine .ite ⟨fun h => absurd h.1 hi, fun h => absurd h.1 hi⟩ (fun h => absurd h.1 hi) fun _ =>
        .expect H hr fun _ _ _ hr2 => .pure hr2 ?_
      unfold PEq; unfold VEq at hvw
      simp only [SelPart.bare, hvw]
  unfold attrEnd
  refine ((valTwin H n).value hr).bind fun v w s' t' hvw hr' => ?_
  have := hvw
  unfold VEq at this
  cases v <;> cases w <;> first | (simp only [Value.bare] at this; cases this; done) | exact .errorf | exact .tend fun _ _ => key hr' hvw

theorem parseAttributeSelector_twin {R : Bool → St → St → Prop} (H : Twins R) {b : Bool} {s t : St} (hr : R b s t) {n : Nat}
    (hc : s.lex.cur = .lbracket) : Both R b (parseAttributeSelector n) (parseAttributeSelector n) s t PEq := by
  unfold parseAttributeSelector
  refine .retain H hr ?_
  have hr0 := H.retain false hr
  have hattr := @Twins.attr R H
  refine .span fun sp sp' => .next' H hr0 fun s1 t1 e1 g1 hr1 => .str <| .expect' H hr1 fun hi s2 t2 e2 g2 hr2 => .cur H hr2 ?_
  rw [H.str hr1 (hasStr_of hi (by decide))]
  refine .ite Iff.rfl (fun _ => .tend fun _ _ => .next H hr2 fun _ _ hr3 => .pure hr3 rfl) fun hb => .str ?_
  have hop := hattr hr0 hc e1 g1 hi e2 g2 hb
  refine Both.bind (V := fun x y => x = y) (b := false) ?_ ?_
  · by_cases hp : isPreOp s2.lex.str
    · rw [hop hp]
      refine .ite Iff.rfl (fun _ => ?_) fun hn => absurd hp hn
      refine .next H hr2 fun s3 t3 hr3 => .str ?_
      by_cases hd : s3.lex.cur = .delim
      · rw [H.str hr3 (hasStr_of hd (by decide))]
        exact .ite Iff.rfl (fun _ => .errorf) fun _ => .expect H hr3 fun _ _ _ hr4 => .pure hr4 rfl
      · intro x s' e
        split at e
        · cases e
        · exact absurd e (by
            intro e
            obtain ⟨_, _, e, _⟩ := bind_inv e
            unfold expect at e
            rw [bind_run (show getCur s3 = .ok s3.lex.cur s3 from rfl), if_pos hd] at e
            cases e)
    · by_cases hd : s2.lex.cur = .delim
      · rw [H.str hr2 (hasStr_of hd (by decide))]
        exact .ite Iff.rfl (fun h => absurd h hp) fun _ => .expect H hr2 fun _ _ _ hr4 => .pure hr4 rfl
      · intro x s' e
        unfold isPreOp at hp
        rw [if_neg hp] at e
        obtain ⟨_, _, e, _⟩ := bind_inv e
        unfold expect at e
        rw [bind_run (show getCur s2 = .ok s2.lex.cur s2 from rfl), if_pos hd] at e
        cases e
  · rintro p _ s3 t3 rfl hr3
    exact attrEnd_twin H hr3

/-! ### Selectors -/

/-- Selectors equal up to positions. -/
def SEq (x y : Sel) : Prop := x.bare = y.bare

theorem bareSels_map : ∀ (xs : List Sel), bareSels xs = xs.map Sel.bare
  | [] => rfl
  | x :: xs => by simp only [bareSels, List.map_cons, bareSels_map xs]

theorem SelPart.isWs_bare (p : SelPart) : p.bare.isWs = p.isWs := by
  cases p <;> simp only [SelPart.bare, SelPart.isWs]

theorem bareParts_map : ∀ {xs ys : List SelPart}, xs.map SelPart.bare = ys.map SelPart.bare → bareParts xs = bareParts ys
  | [], [], _ => rfl
  | [], _ :: _, h => by cases h
  | _ :: _, [], h => by cases h
  | x :: xs, y :: ys, h => by
    simp only [List.map_cons, List.cons.injEq] at h
    have hw : x.isWs = y.isWs := by rw [← x.isWs_bare, ← y.isWs_bare, h.1]
    have he : xs.isEmpty = ys.isEmpty := by
      have := h.2
      cases xs <;> cases ys <;> first | rfl | cases this
    simp only [bareParts, hw, he, h.1, bareParts_map h.2]

theorem map_snoc {f : α → β} {xs ys : List α} {x y : α} (h : xs.map f = ys.map f) (hx : f x = f y) :
    (xs ++ [x]).map f = (ys ++ [y]).map f := by
  rw [List.map_append, List.map_append, h, List.map_cons, List.map_cons, hx]

/-- The functions of the selector parser, for one amount of fuel. -/
structure SelTwin (R : Bool → St → St → Prop) (n : Nat) : Prop where
  loop {b s t} {xs ys : List Sel} : R b s t → xs.map Sel.bare = ys.map Sel.bare →
    Both R b (selListLoop n xs) (selListLoop n ys) s t fun x y => x.map Sel.bare = y.map Sel.bare
  list {b s t} : R b s t → Both R b (parseSelectorList n) (parseSelectorList n) s t fun x y => x.sels.map Sel.bare = y.sels.map Sel.bare
  sel {b s t} : R b s t → Both R b (parseSelector n) (parseSelector n) s t SEq
  parts {b s t} {sp sp' : Span} {xs ys : List SelPart} : R b s t → xs.map SelPart.bare = ys.map SelPart.bare →
    Both R b (selLoop n sp xs) (selLoop n sp' ys) s t SEq
  pseudo {b s t} {sp sp' : Span} : R b s t → Both R b (parsePseudo n sp) (parsePseudo n sp') s t PEq
  name {b s t} {sp sp' : Span} : R b s t → Both R b (parsePseudoName n sp) (parsePseudoName n sp') s t
    fun x y => x.2.1 = y.2.1 ∧ AEq x.2.2 y.2.2

theorem selTwin {R : Bool → St → St → Prop} (H : Twins R) : ∀ n, SelTwin R n
  | 0 => by
    constructor <;> intros <;>
      first | unfold selListLoop | unfold parseSelectorList | unfold parseSelector | unfold selLoop | unfold parsePseudo
            | unfold parsePseudoName
    all_goals exact Both.timeout
  | n + 1 => by
    have ih := selTwin H n
    constructor
    · intro b s t xs ys hr hx
      unfold selListLoop
      refine .cur H hr <| .ite Iff.rfl (fun _ => .errorf) fun _ => (ih.sel hr).bind fun x y s1 t1 hxy hr1 => ?_
      refine .cur H hr1 <| .ite Iff.rfl (fun _ => .next H hr1 fun _ _ hr2 => ih.loop hr2 (map_snoc hx hxy)) fun _ => ?_
      exact .pure hr1 (map_snoc hx hxy)
    · intro b s t hr
      unfold parseSelectorList
      refine .span fun _ _ => (ih.loop hr rfl).bind fun x y s1 t1 hxy hr1 => ?_
      rcases getLast_map hxy with ⟨e1, e2⟩ | ⟨v, w, e1, e2, e⟩
      · rw [e1, e2]; exact .crash
      · rw [e1, e2]; exact .pure hr1 hxy
    · intro b s t hr
      unfold parseSelector
      exact .span fun _ _ => .retain H hr (ih.parts (H.retain true hr) rfl)
    · intro b s t sp sp' xs ys hr hx
      unfold selLoop
      refine .span fun _ _ => .str <| .cur H hr ?_
      have hstr := H.str hr
      have hatt := @parseAttributeSelector_twin R H b s t hr n
      cases hc : s.lex.cur <;> rw [hc] at hstr hatt
      case eof => exact .errorf
      case whitespace => exact .next H hr fun _ _ hr1 => ih.parts hr1 (map_snoc hx rfl)
      case ident =>
        rw [hstr (by decide)]
        exact .next H hr fun _ _ hr1 => ih.parts hr1 (map_snoc hx rfl)
      case hash =>
        rw [hstr (by decide)]
        exact .next H hr fun _ _ hr1 => ih.parts hr1 (map_snoc hx rfl)
      case delim =>
        rw [hstr (by decide)]
        refine .ite Iff.rfl (fun _ => ?_) fun _ => ?_
        · refine .next H hr fun s1 t1 hr1 => .str <| .tend fun _ _ => .expect H hr1 fun hi _ _ hr2 => ?_
          rw [H.str hr1 (hasStr_of hi (by decide))]
          exact ih.parts hr2 (map_snoc hx rfl)
        · refine .ite Iff.rfl (fun _ => .next H hr fun _ _ hr1 => ih.parts hr1 (map_snoc hx rfl)) fun _ => ?_
          exact .ite Iff.rfl (fun _ => .next H hr fun _ _ hr1 => ih.parts hr1 (map_snoc hx rfl)) fun _ => .errorf
      case colon =>
        exact .next H hr fun _ _ hr1 => (ih.pseudo hr1).bind fun p q _ _ hpq hr2 => ih.parts hr2 (map_snoc hx hpq)
      case lbracket =>
        exact (hatt rfl).bind fun p q _ _ hpq hr2 => ih.parts hr2 (map_snoc hx hpq)
      all_goals
        dsimp only
        rcases getLast_map hx with ⟨e1, e2⟩ | ⟨v, w, e1, e2, e⟩
        · rw [e1, e2]; exact .errorf
        · rw [e1, e2]
          exact .pure hr (by unfold SEq; simp only [Sel.bare, bareParts_map hx])
    · intro b s t sp sp' hr
      unfold parsePseudo
      refine .cur H hr <| .ite Iff.rfl (fun _ => ?_) fun _ => ?_
      · refine .span fun _ _ => .next H hr fun _ _ hr1 => (ih.name hr1).bind ?_
        rintro ⟨a1, a2, a3⟩ ⟨c1, c2, c3⟩ s2 t2 ⟨h1, h2⟩ hr2
        dsimp only at h1 h2
        refine .pure hr2 ?_
        unfold AEq at h2
        unfold PEq
        simp only [SelPart.bare, h1, h2]
      · refine (ih.name hr).bind ?_
        rintro ⟨a1, a2, a3⟩ ⟨c1, c2, c3⟩ s2 t2 ⟨h1, h2⟩ hr2
        dsimp only at h1 h2
        refine .pure hr2 ?_
        unfold AEq at h2
        unfold PEq
        simp only [SelPart.bare, h1, h2]
    · intro b s t sp sp' hr
      unfold parsePseudoName
      refine .str <| .cur H hr ?_
      have hstr := H.str hr
      cases hc : s.lex.cur <;> rw [hc] at hstr
      case ident =>
        rw [hstr (by decide)]
        exact .tend fun _ _ => .next H hr fun _ _ hr1 => .pure hr1 ⟨rfl, rfl⟩
      case functionStart =>
        rw [hstr (by decide)]
        refine .next H hr fun s1 t1 hr1 => Both.bind (V := AEq) (b := b) ?_ fun x y s2 t2 hxy hr2 => ?_
        · refine .ite Iff.rfl (fun _ => parseNthArgs_twin H hr1) fun _ => ?_
          refine (ih.list hr1).bind fun x y _ _ hxy hr2 => .pure hr2 ?_
          unfold AEq
          simp only [PArgs.bare, bareSels_map, hxy]
        · exact .tend fun _ _ => .expect H hr2 fun _ _ _ hr3 => .pure hr3 ⟨rfl, hxy⟩
      all_goals exact .errorf

end Cssc
