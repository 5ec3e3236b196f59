import Verif.Spec.Printable
import Verif.Props.Transform
import Verif.Printer

/-!
# C61: type errors in `calc()` are reported
-/

namespace Cssc

/-- The type of a `calc()` expression, as far as numbers and dimensions go. -/
inductive CalcKind where
  | number
  | dimension
deriving DecidableEq

/-- The type of an arithmetic expression (CSS Values, "Type Checking", units of any kind taken together): terms
of a sum have one type, one factor of a product is a number, a divisor is a number.  `none` is a type error. -/
def calcKind : Value → Option CalcKind
  | .dim _ _ unit => some (if unit = [] then .number else .dimension)
  | .paren _ v => calcKind v
  | .math _ op l r =>
    match calcKind l, calcKind r with
    | some a, some b =>
      if op = b!"+" ∨ op = b!"-" then (if a = b then some a else none)
      else if op = b!"*" then
        (if a = .number then some b else if b = .number then some a else none)
      else if op = b!"/" then (if b = .number then some a else none)
      else none
    | _, _ => none
  | _ => none

/-- The type of a result with this unit. -/
def unitKind (u : Bytes) : CalcKind := if u = [] then .number else .dimension

theorem calcKind_denotes {fo : FloatOps} {D : Option (List (Bytes × List Value))} {v : Value} (ha : Arith v) :
    ∀ {f : fo.F} {u : Bytes}, Denotes fo D v f u → calcKind v = some (unitKind u) := by
  induction ha with
  | dim => intro f u h; cases h; rfl
  | math hl hr ihl ihr =>
    intro f u h
    cases h with
    | add h k => simp [calcKind, ihl h, ihr k]
    | sub h k => simp [calcKind, ihl h, ihr k]
    | mulNum h k => simp [calcKind, ihl h, ihr k, unitKind]
    | numMul h k => simp [calcKind, ihl h, ihr k, unitKind]
    | div h k z => simp [calcKind, ihl h, ihr k, unitKind]

/-- The four operators. -/
def IsOp (op : Bytes) : Prop := op = b!"+" ∨ op = b!"-" ∨ op = b!"*" ∨ op = b!"/"

/-- A type error of an operator on operands with these units. -/
def UnitClash (op lu ru : Bytes) : Prop :=
  ((op = b!"+" ∨ op = b!"-") ∧ ((lu = [] ∧ ru ≠ []) ∨ (lu ≠ [] ∧ ru = []))) ∨
  (op = b!"*" ∧ lu ≠ [] ∧ ru ≠ []) ∨ (op = b!"/" ∧ ru ≠ [])

theorem calcKind_clash {l r : Value} {lu ru op : Bytes} {sp : Span} (hl : calcKind l = some (unitKind lu))
    (hr : calcKind r = some (unitKind ru)) (ho : IsOp op) :
    calcKind (.math sp op l r) = none ↔ UnitClash op lu ru := by
  unfold calcKind UnitClash
  rw [hl, hr]
  unfold unitKind
  rcases ho with rfl | rfl | rfl | rfl <;> by_cases h1 : lu = [] <;> by_cases h2 : ru = [] <;> simp [h1, h2]

/-- The one report of an operator on two dimensions. -/
structure OneReport (lsp : Span) (bad : Prop) (kept : Prop) (reps : List Report) : Prop where
  most : reps.length ≤ 1
  error : ∀ rep ∈ reps, rep.warning = false ∧ rep.span = some lsp
  exact : reps ≠ [] ↔ bad
  stays : reps ≠ [] → kept

theorem OneReport.none {lsp : Span} {bad kept : Prop} (h : ¬ bad) : OneReport lsp bad kept [] :=
  ⟨by simp, by simp, by simp [h], by simp⟩

theorem OneReport.one {lsp : Span} {bad kept : Prop} (m : String) (h : bad) (hk : kept) :
    OneReport lsp bad kept [⟨false, some lsp, m⟩] :=
  ⟨by simp, by simp, by simp [h], fun _ => hk⟩

theorem applyOp_report {fo : FloatOps} {op : Bytes} {lsp rsp : Span} {ln lu rn ru : Bytes} {fl fr : fo.F}
    (hl : fo.parse ln = some fl) (hr : fo.parse rn = some fr) (ho : IsOp op) (s : TSt) :
    ∃ v reps, applyOp fo op (.dim lsp ln lu) (.dim rsp rn ru) s = .ok v { s with log := s.log ++ reps } ∧
      (v = .nil ∨ ∃ num u, v = .dim ⟨0, 0⟩ num u) ∧
      OneReport lsp (UnitClash op lu ru ∨ (op = b!"/" ∧ fo.isZero fr = true)) (v = .nil) reps := by
  have nolog : s = { s with log := s.log ++ [] } := by simp
  have res : ∀ {l : Value} {a b u : Bytes} {f : fo.F}, doMath fo a b op = some f →
      mathResult fo l a b op u s = .ok (.dim ⟨0, 0⟩ (fo.fmt f) u) { s with log := s.log ++ [] } := by
    intro l a b u f h
    rw [← nolog]
    exact mathResult_eq h
  rcases ho with rfl | rfl | rfl | rfl
  · unfold applyOp
    rw [if_pos (.inl rfl)]
    dsimp only
    by_cases he : lu = ru
    · rw [if_neg (by simp [he])]
      refine ⟨_, [], res (f := fo.add fl fr) (by simp [doMath, hl, hr]), .inr ⟨_, _, rfl⟩, .none ?_⟩
      subst he
      simp [UnitClash]
    · rw [if_pos he]
      by_cases h1 : lu = []
      · subst h1
        have h2 : ru ≠ [] := fun h => he h.symm
        exact ⟨.nil, [⟨false, some lsp, "cannot add number type and %s type together"⟩],
          by simp [whenT, h2, bind, T.bind, report, pure, T.pure], .inl rfl, .one _ (.inl (.inl ⟨.inl rfl, .inl ⟨rfl, h2⟩⟩)) rfl⟩
      · by_cases h2 : ru = []
        · subst h2
          exact ⟨.nil, [⟨false, some lsp, "cannot add number type and %s type together"⟩],
            by simp [whenT, h1, bind, T.bind, report, pure, T.pure], .inl rfl,
            .one _ (.inl (.inl ⟨.inl rfl, .inr ⟨h1, rfl⟩⟩)) rfl⟩
        · exact ⟨.nil, [], by simp [whenT, h1, h2, bind, T.bind, pure, T.pure], .inl rfl, .none (by simp [UnitClash, h1, h2])⟩
  · unfold applyOp
    rw [if_pos (.inr rfl)]
    dsimp only
    by_cases he : lu = ru
    · rw [if_neg (by simp [he])]
      refine ⟨_, [], res (f := fo.sub fl fr) (by simp [doMath, hl, hr]), .inr ⟨_, _, rfl⟩, .none ?_⟩
      subst he
      simp [UnitClash]
    · rw [if_pos he]
      by_cases h1 : lu = []
      · subst h1
        have h2 : ru ≠ [] := fun h => he h.symm
        exact ⟨.nil, [⟨false, some lsp, "cannot add number type and %s type together"⟩],
          by simp [whenT, h2, bind, T.bind, report, pure, T.pure], .inl rfl, .one _ (.inl (.inl ⟨.inr rfl, .inl ⟨rfl, h2⟩⟩)) rfl⟩
      · by_cases h2 : ru = []
        · subst h2
          exact ⟨.nil, [⟨false, some lsp, "cannot add number type and %s type together"⟩],
            by simp [whenT, h1, bind, T.bind, report, pure, T.pure], .inl rfl,
            .one _ (.inl (.inl ⟨.inr rfl, .inr ⟨h1, rfl⟩⟩)) rfl⟩
        · exact ⟨.nil, [], by simp [whenT, h1, h2, bind, T.bind, pure, T.pure], .inl rfl, .none (by simp [UnitClash, h1, h2])⟩
  · unfold applyOp
    rw [if_neg (by decide), if_pos rfl]
    dsimp only
    by_cases hb : lu ≠ [] ∧ ru ≠ []
    · rw [if_pos hb]
      exact ⟨.nil, [⟨false, some lsp, "one side of multiplication must be a number (non-percentage/dimension)"⟩],
        by simp [bind, T.bind, addErrorV, Value.loc?, report, pure, T.pure], .inl rfl,
        .one _ (.inl (.inr (.inl ⟨rfl, hb⟩))) rfl⟩
    · rw [if_neg hb]
      by_cases h1 : lu = []
      · rw [if_pos h1]
        exact ⟨_, [], res (f := fo.mul fr fl) (by simp [doMath, hl, hr]), .inr ⟨_, _, rfl⟩,
          .none (by simp [UnitClash, h1])⟩
      · rw [if_neg h1]
        have h2 : ru = [] := Classical.byContradiction fun h2 => hb ⟨h1, h2⟩
        exact ⟨_, [], res (f := fo.mul fl fr) (by simp [doMath, hl, hr]), .inr ⟨_, _, rfl⟩,
          .none (by simp [UnitClash, h2])⟩
  · unfold applyOp
    rw [if_neg (by decide), if_neg (by decide), if_pos rfl]
    cases ru with
    | nil =>
      dsimp only
      cases hz : fo.isZero fr with
      | true =>
        exact ⟨.nil, [⟨false, some lsp, "%s"⟩],
          by simp [mathResult, doMath, hl, hr, hz, bind, T.bind, addErrorV, Value.loc?, report, pure, T.pure], .inl rfl,
          .one _ (.inr ⟨rfl, rfl⟩) rfl⟩
      | false =>
        exact ⟨_, [], res (f := fo.div fl fr) (by simp [doMath, hl, hr, hz]), .inr ⟨_, _, rfl⟩,
          .none (by simp [UnitClash])⟩
    | cons c cs =>
      exact ⟨.nil, [⟨false, some lsp, "right side of division must be a number (non-percentage/dimension)"⟩],
        by simp [bind, T.bind, addErrorV, Value.loc?, report, pure, T.pure], .inl rfl,
        .one _ (.inl (.inr (.inr ⟨rfl, by simp⟩))) rfl⟩

/-- What was reported. -/
def TRes.log? : TRes α → Option (List Report)
  | .ok _ s => some s.log
  | _ => none

/-- What is reported for a text, with `calc()` reduction: for each report, is it a warning? -/
def calcReports (src : Bytes) : Option (Option (List Bool)) :=
  (parse 80 src).sheet?.map fun x =>
    (transform unaryOps { TOpts.default with calcReduction := true } (some []) 30 x.1).log?.map fun l =>
      l.map Report.warning

/-- The types of the arguments of the `calc()`s of a text. -/
def calcTypes (src : Bytes) : Option (List (Option CalcKind)) :=
  (parse 80 src).sheet?.map fun x => x.1.items.filterMap fun
    | .value (.func _ _ [v]) => some (calcKind v)
    | _ => none

/-- **C61** as stated is false, both ways: a sum of three lengths in different units has a type and is reported as an
error; a product of lengths has none and is not reported if a factor stands in parentheses. -/
theorem calc_reports_refuted :
    (calcTypes b!"a{b:calc(1px + 1em + 1px)}" = some [some .dimension] ∧
      calcReports b!"a{b:calc(1px + 1em + 1px)}" = some (some [false])) ∧
    (calcTypes b!"a{b:calc((1px) * 1px)}" = some [none] ∧
      calcReports b!"a{b:calc((1px) * 1px)}" = some (some [])) :=
  ⟨⟨by decide +kernel, by decide +kernel⟩, by decide +kernel, by decide +kernel⟩

/-- **C61** for a `calc()` of an operator on two operands that have values (arithmetic on dimensions, or a `var()`
replaced by such): there is at most one report, it is an error at the left operand, it is there exactly if the
expression has no type or divides by zero, and in that case the `calc()` stays as it was. -/
theorem calc_reports_partial {fo : FloatOps} (rt : RoundTrip fo) (hc : ∀ a b, fo.mul a b = fo.mul b a) {o : TOpts}
    (ho : o.calcReduction = true) {sp msp : Span} {op : Bytes} {l r l' r' : Value} {s : TSt} (hl : Stands s l l')
    (hr : Stands s r r') (al : Arith l') (ar : Arith r') {fl fr : fo.F} {ul ur : Bytes} (dl : Denotes fo none l' fl ul)
    (dr : Denotes fo none r' fr ur) (hop : IsOp op) (n : Nat) :
    ∃ vs reps lsp, transformValue fo o (n + 2) (.func sp b!"calc" [.math msp op l r]) s =
        .ok vs { s with log := s.log ++ reps } ∧
      OneReport lsp (calcKind (.math msp op l' r') = none ∨ (op = b!"/" ∧ fo.isZero fr = true))
        (vs = [.func sp b!"calc" [.math msp op l r]]) reps ∧
      (∀ dsp num u, l' = .dim dsp num u → lsp = dsp) := by
  obtain ⟨lsp, ln, pl, el⟩ := evalOperand_complete rt hc al dl s
  obtain ⟨rsp, rn, pr, er⟩ := evalOperand_complete rt hc ar dr s
  have h1 : substVar (.func sp b!"calc" [.math msp op l r]) b!"calc" [.math msp op l r] s =
      .ok [.func sp b!"calc" [.math msp op l r]] s := rfl
  have h2 : transformValues fo o (n + 1) [.math msp op l r] s = .ok [.math msp op l r] s := rfl
  obtain ⟨v, reps, ha, hv, hrep⟩ := applyOp_report (lsp := lsp) (rsp := rsp) (lu := ul) (ru := ur) pl pr hop s
  have h3 : evaluateMathExpression fo l' r' op s = .ok v { s with log := s.log ++ reps } := by
    unfold evaluateMathExpression
    rw [tbind_eq_ok el, tbind_eq_ok er]
    exact ha
  have hck := calcKind_clash (sp := msp) (calcKind_denotes al dl) (calcKind_denotes ar dr) hop
  have hspan : ∀ dsp num u, l' = .dim dsp num u → lsp = dsp := by
    rintro dsp num u rfl
    have el : TRes.ok (Value.dim dsp num u) s = TRes.ok (Value.dim lsp ln ul) s := el
    cases el
    rfl
  have run : ∀ vs, (match v with | .nil => [.func sp b!"calc" [.math msp op l r]] | nv => [nv]) = vs →
      transformValue fo o (n + 2) (.func sp b!"calc" [.math msp op l r]) s =
        .ok vs { s with log := s.log ++ reps } := by
    intro vs hvs
    rw [transformValue, tbind_eq_ok h1]
    unfold reduceCalc
    rw [if_neg (by simp), if_neg (by simp [ho])]
    dsimp only
    refine (tbind_eq_ok h2).trans ?_
    dsimp only
    refine (tbind_eq_ok (transformValues_arith al hl n)).trans ?_
    refine (tbind_eq_ok (transformValues_arith ar hr n)).trans ?_
    dsimp only
    rw [tbind_eq_ok h3, ← hvs]
    rcases hv with rfl | ⟨num, u, rfl⟩ <;> rfl
  refine ⟨_, reps, lsp, run _ rfl, ⟨hrep.most, hrep.error, by rw [hrep.exact, hck], fun h => ?_⟩, hspan⟩
  have := hrep.stays h
  subst this
  rfl

/-- `calc(1 + 1px)` is reported, `calc(1px + 1em)` and `calc(1px * 1)` are not, `calc(1px / 1px)` is. -/
example : ["a{b:calc(1 + 1px)}", "a{b:calc(1px + 1em)}", "a{b:calc(1px * 1)}", "a{b:calc(1px / 1px)}"].map
    (fun t : String => calcReports t.toUTF8.toList) =
    [some (some [false]), some (some []), some (some []), some (some [false])] := by decide +kernel

/-! ### Any arithmetic without parentheses -/

/-- All numerals are numbers that `ParseFloat` accepts. -/
def Readable (fo : FloatOps) : Value → Prop
  | .dim _ num _ => ∃ f, fo.parse num = some f
  | .math _ _ l r => Readable fo l ∧ Readable fo r
  | _ => True

/-- The expression has a value. -/
def HasValue (fo : FloatOps) (v : Value) : Prop := ∃ f u, Denotes fo none v f u

/-- A sum or difference of two values with different units. -/
def Mixed (fo : FloatOps) (v : Value) : Prop :=
  ∃ sp op l r fl ul fr ur, v = .math sp op l r ∧ (op = b!"+" ∨ op = b!"-") ∧ Denotes fo none l fl ul ∧
    Denotes fo none r fr ur ∧ ul ≠ ur ∧ ul ≠ [] ∧ ur ≠ []

/-- The reports are errors. -/
def Errors (reps : List Report) : Prop := ∀ rep ∈ reps, rep.warning = false

theorem Errors.append {a b : List Report} (ha : Errors a) (hb : Errors b) : Errors (a ++ b) := by
  intro rep h
  rcases List.mem_append.1 h with h | h
  · exact ha _ h
  · exact hb _ h

/-- An operator on something that is not two dimensions. -/
theorem applyOp_other {fo : FloatOps} {op : Bytes} {l r : Value} (ho : IsOp op) (al : Arith l) (ar : Arith r)
    (h : (∃ sp o x y, l = .math sp o x y) ∨ ∃ sp o x y, r = .math sp o x y) (s : TSt) :
    ∃ reps, applyOp fo op l r s = .ok .nil { s with log := s.log ++ reps } ∧ Errors reps ∧
      ((op = b!"+" ∨ op = b!"-") → (∃ sp o x y, l = .math sp o x y) → reps ≠ []) := by
  have nolog : (.ok Value.nil s : TRes Value) = .ok .nil { s with log := s.log ++ [] } := by simp
  have some_ : ∀ (sp : Span) (m : String), ∃ reps : List Report, (.ok Value.nil { s with log := s.log ++ [⟨false, some sp, m⟩] } : TRes Value) =
      .ok .nil { s with log := s.log ++ reps } ∧ Errors reps ∧ ((op = b!"+" ∨ op = b!"-") → (∃ sp o x y, l = .math sp o x y) → reps ≠ []) :=
    fun sp m => ⟨_, rfl, by simp [Errors], by simp⟩
  have none_ : ((op = b!"+" ∨ op = b!"-") → ¬ (∃ sp o x y, l = .math sp o x y)) → ∃ reps : List Report, (.ok Value.nil s : TRes Value) =
      .ok .nil { s with log := s.log ++ reps } ∧ Errors reps ∧ ((op = b!"+" ∨ op = b!"-") → (∃ sp o x y, l = .math sp o x y) → reps ≠ []) :=
    fun hn => ⟨[], nolog, by simp [Errors], fun h1 h2 => absurd h2 (hn h1)⟩
  cases al with
  | math h1 h2 =>
    rcases ho with rfl | rfl | rfl | rfl
    · exact some_ _ _
    · exact some_ _ _
    · exact none_ (by rintro (h | h) <;> cases h)
    · cases ar with
      | dim =>
        rename_i u
        cases u with
        | nil => exact some_ _ _
        | cons => exact some_ _ _
      | math => exact some_ _ _
  | dim =>
    rcases h with ⟨_, _, _, _, h⟩ | ⟨_, _, _, _, rfl⟩
    · cases h
    · rcases ho with rfl | rfl | rfl | rfl
      · exact none_ (by simp)
      · exact none_ (by simp)
      · exact none_ (by simp)
      · exact some_ _ _

/-- What becomes of an operand. -/
def Outcome (fo : FloatOps) (v : Value) (s : TSt) : Prop :=
  ∃ v' reps, evalOperand fo v s = .ok v' { s with log := s.log ++ reps } ∧ Errors reps ∧
    ((reps = [] ∧ ∃ sp num u f, v' = .dim sp num u ∧ fo.parse num = some f ∧ Denotes fo none v f u) ∨
     (Arith v' ∧ (∃ sp o x y, v' = .math sp o x y) ∧ (reps ≠ [] ∨ Mixed fo v)))

/-- What becomes of an operator. -/
def Result (fo : FloatOps) (sp : Span) (op : Bytes) (l r : Value) (s : TSt) : Prop :=
  ∃ v' reps, evaluateMathExpression fo l r op s = .ok v' { s with log := s.log ++ reps } ∧ Errors reps ∧
    ((reps = [] ∧ ∃ dsp num u f, v' = .dim dsp num u ∧ fo.parse num = some f ∧ Denotes fo none (.math sp op l r) f u) ∨
     (v' = .nil ∧ (reps ≠ [] ∨ Mixed fo (.math sp op l r))))

theorem result_of {fo : FloatOps} (rt : RoundTrip fo) (hc : ∀ a b, fo.mul a b = fo.mul b a) {sp : Span} {op : Bytes} {l r : Value}
    (ho : IsOp op) (hl : ∀ s, Outcome fo l s) (hr : ∀ s, Outcome fo r s) (mr : ¬ Mixed fo r)
    (ml : op = b!"*" ∨ op = b!"/" → ¬ Mixed fo l) (s : TSt) : Result fo sp op l r s := by
  obtain ⟨l', rl, el, xl, cl⟩ := hl s
  obtain ⟨r', rr, er, xr, cr⟩ := hr { s with log := s.log ++ rl }
  have run : ∀ {v reps}, applyOp fo op l' r' { s with log := s.log ++ rl ++ rr } = .ok v { s with log := s.log ++ rl ++ rr ++ reps } →
      evaluateMathExpression fo l r op s = .ok v { s with log := s.log ++ (rl ++ (rr ++ reps)) } := by
    intro v reps h
    unfold evaluateMathExpression
    rw [tbind_eq_ok el, tbind_eq_ok er, h]
    simp [List.append_assoc]
  have other : (Arith l') → (Arith r') → ((∃ sp o x y, l' = .math sp o x y) ∨ ∃ sp o x y, r' = .math sp o x y) →
      (rl ≠ [] ∨ rr ≠ [] ∨ ((op = b!"+" ∨ op = b!"-") ∧ ∃ sp o x y, l' = .math sp o x y)) → Result fo sp op l r s := by
    intro al ar h hn
    obtain ⟨reps, e, x, k⟩ := applyOp_other ho al ar h { s with log := s.log ++ rl ++ rr }
    refine ⟨.nil, _, run e, xl.append (xr.append x), .inr ⟨rfl, .inl ?_⟩⟩
    rcases hn with h | h | ⟨h1, h2⟩
    · simp [h]
    · simp [h]
    · simp [k h1 h2]
  rcases cl with ⟨rfl, lsp, ln, lu, fl, rfl, pl, dl⟩ | ⟨al, kl, cl⟩
  · rcases cr with ⟨rfl, rsp, rn, ru, fr, rfl, pr, dr⟩ | ⟨ar, kr, cr⟩
    · obtain ⟨v, reps, ha, hv, hrep⟩ := applyOp_report (lsp := lsp) (rsp := rsp) (lu := lu) (ru := ru) pl pr ho
        { s with log := s.log ++ [] ++ [] }
      refine ⟨v, _, run ha, fun rep h => (hrep.error rep (by simpa using h)).1, ?_⟩
      by_cases hn : reps = []
      · subst hn
        have hb : ¬ (UnitClash op lu ru ∨ (op = b!"/" ∧ fo.isZero fr = true)) := fun h => (hrep.exact.mpr h) rfl
        rw [not_or] at hb
        by_cases hm : (op = b!"+" ∨ op = b!"-") ∧ lu ≠ ru
        · have h1 : lu ≠ [] := by
            rintro rfl
            exact hb.1 (.inl ⟨hm.1, .inl ⟨rfl, fun h => hm.2 h.symm⟩⟩)
          have h2 : ru ≠ [] := by
            rintro rfl
            exact hb.1 (.inl ⟨hm.1, .inr ⟨hm.2, rfl⟩⟩)
          refine .inr ⟨?_, .inr ⟨sp, op, l, r, fl, lu, fr, ru, rfl, hm.1, dl, dr, hm.2, h1, h2⟩⟩
          have e : applyOp fo op (.dim lsp ln lu) (.dim rsp rn ru) { s with log := s.log ++ [] ++ [] } = .ok .nil { s with log := s.log ++ [] ++ [] } := by
            unfold applyOp
            rw [if_pos hm.1]
            dsimp only
            rw [if_pos hm.2]
            simp [whenT, h1, h2, bind, T.bind, pure, T.pure]
          rw [e] at ha
          exact (TRes.ok.inj ha).1.symm
        · have hd : ∃ f u, Denotes fo none (.math sp op l r) f u ∧
              ∀ lsp ln rsp rn, fo.parse ln = some fl → fo.parse rn = some fr → Denotes fo none (.math sp op (.dim lsp ln lu) (.dim rsp rn ru)) f u := by
            have hu : op = b!"+" ∨ op = b!"-" → lu = ru := fun h => Classical.byContradiction fun h' => hm ⟨h, h'⟩
            rcases ho with rfl | rfl | rfl | rfl
            · obtain rfl := hu (.inl rfl)
              exact ⟨_, _, .add dl dr, fun _ _ _ _ h k => .add (.dim h) (.dim k)⟩
            · obtain rfl := hu (.inr rfl)
              exact ⟨_, _, .sub dl dr, fun _ _ _ _ h k => .sub (.dim h) (.dim k)⟩
            · by_cases h : lu = []
              · subst h
                exact ⟨_, _, .numMul dl dr, fun _ _ _ _ h k => .numMul (.dim h) (.dim k)⟩
              · have h2 : ru = [] := Classical.byContradiction fun h2 => hb.1 (.inr (.inl ⟨rfl, h, h2⟩))
                subst h2
                exact ⟨_, _, .mulNum dl dr, fun _ _ _ _ h k => .mulNum (.dim h) (.dim k)⟩
            · have h2 : ru = [] := Classical.byContradiction fun h2 => hb.1 (.inr (.inr ⟨rfl, h2⟩))
              subst h2
              have hz : fo.isZero fr = false := by
                cases hz : fo.isZero fr with
                | false => rfl
                | true => exact absurd ⟨rfl, hz⟩ hb.2
              exact ⟨_, _, .div dl dr hz, fun _ _ _ _ h k => .div (.dim h) (.dim k) hz⟩
          obtain ⟨f, u, hd, hk⟩ := hd
          have e := applyOp_complete hc (hk lsp ln rsp rn pl pr) { s with log := s.log ++ [] ++ [] }
          rw [e] at ha
          obtain ⟨rfl, _⟩ := TRes.ok.inj ha
          exact .inl ⟨rfl, _, _, _, _, rfl, rt f, hd⟩
      · exact .inr ⟨hrep.stays hn, .inl (by simpa using hn)⟩
    · refine other .dim ar (.inr kr) (.inr (.inl ?_))
      rcases cr with h | h
      · exact h
      · exact absurd h mr
  · have ar : Arith r' := by
      rcases cr with ⟨_, _, _, _, _, rfl, _⟩ | ⟨ar, _⟩
      · exact .dim
      · exact ar
    refine other al ar (.inl kl) ?_
    rcases cl with h | h
    · exact .inl h
    · by_cases hp : op = b!"+" ∨ op = b!"-"
      · exact .inr (.inr ⟨hp, kl⟩)
      · refine absurd h (ml ?_)
        rcases ho with rfl | rfl | rfl | rfl
        · exact absurd (.inl rfl) hp
        · exact absurd (.inr rfl) hp
        · exact .inl rfl
        · exact .inr rfl

theorem outcome_of {fo : FloatOps} {sp : Span} {op : Bytes} {l r : Value} (al : Arith l) (ar : Arith r) {s : TSt} (h : Result fo sp op l r s) :
    Outcome fo (.math sp op l r) s := by
  obtain ⟨v', reps, e, x, c⟩ := h
  have e' : evalOperand fo (.math sp op l r) s =
      (match v' with | .nil => .ok (.math sp op l r) { s with log := s.log ++ reps } | v => .ok v { s with log := s.log ++ reps }) := by
    unfold evaluateMathExpression at e
    obtain ⟨l', s1, h1, e⟩ := tbind_ok e
    obtain ⟨r', s2, h2, e⟩ := tbind_ok e
    rw [evalOperand, tbind_eq_ok h1, tbind_eq_ok h2, tbind_eq_ok e]
    cases v' <;> rfl
  rcases c with ⟨rfl, dsp, num, u, f, rfl, p, d⟩ | ⟨rfl, c⟩
  · exact ⟨_, _, e', x, .inl ⟨rfl, _, _, _, _, rfl, p, d⟩⟩
  · exact ⟨_, _, e', x, .inr ⟨.math al ar, ⟨_, _, _, _, rfl⟩, c⟩⟩

theorem outcome_dim {fo : FloatOps} {sp : Span} {num u : Bytes} (h : Readable fo (.dim sp num u)) (s : TSt) :
    Outcome fo (.dim sp num u) s := by
  obtain ⟨f, h⟩ := h
  exact ⟨.dim sp num u, [], by simp [evalOperand, pure, T.pure], by simp [Errors], .inl ⟨rfl, _, _, _, f, rfl, h, .dim h⟩⟩

theorem not_mixed_dim {fo : FloatOps} {sp : Span} {num u : Bytes} : ¬ Mixed fo (.dim sp num u) := by
  rintro ⟨_, _, _, _, _, _, _, _, h, _⟩
  cases h

theorem not_mixed_mul {fo : FloatOps} {sp : Span} {op : Bytes} {l r : Value} (h : op = b!"*" ∨ op = b!"/") : ¬ Mixed fo (.math sp op l r) := by
  rintro ⟨_, _, _, _, _, _, _, _, e, h', _⟩
  cases e
  rcases h with rfl | rfl <;> rcases h' with h' | h' <;> cases h'

/-- A factor is a dimension. -/
theorem shape_atom {v : Value} (h : v.Shape .atom) (ha : Arith v) : ∃ sp num u, v = .dim sp num u := by
  cases ha with
  | dim => exact ⟨_, _, _, rfl⟩
  | math => cases h with | atom h => cases h

/-- A product. -/
theorem outcome_prod {fo : FloatOps} (rt : RoundTrip fo) (hc : ∀ a b, fo.mul a b = fo.mul b a) : ∀ {v : Value}, Arith v → v.Shape .prod →
    Readable fo v → (∀ s, Outcome fo v s) ∧ ¬ Mixed fo v := by
  intro v ha
  induction ha with
  | dim => intro _ h; exact ⟨outcome_dim h, not_mixed_dim⟩
  | math al ar ihl ihr =>
    intro hs hn
    cases hs with
    | prod hs => obtain ⟨_, _, _, h⟩ := shape_atom hs (.math al ar); cases h
    | mul ho hl hr =>
      obtain ⟨rsp, rn, ru, rfl⟩ := shape_atom hr ar
      obtain ⟨ol, ml⟩ := ihl hl hn.1
      exact ⟨fun s => outcome_of al ar (result_of rt hc (ho.elim (fun h => .inr (.inr (.inl h))) (fun h => .inr (.inr (.inr h)))) ol
        (outcome_dim hn.2) not_mixed_dim (fun _ => ml) s), not_mixed_mul ho⟩

theorem outcome_sum {fo : FloatOps} (rt : RoundTrip fo) (hc : ∀ a b, fo.mul a b = fo.mul b a) : ∀ {v : Value}, Arith v → v.Shape .sum →
    Readable fo v → ∀ s, Outcome fo v s := by
  intro v ha
  induction ha with
  | dim => intro _ h; exact outcome_dim h
  | math al ar ihl ihr =>
    intro hs hn
    cases hs with
    | sum hs => exact (outcome_prod rt hc (.math al ar) hs hn).1
    | add ho hl hr =>
      obtain ⟨or, mr⟩ := outcome_prod rt hc ar hr hn.2
      exact fun s => outcome_of al ar (result_of rt hc (ho.elim .inl (fun h => .inr (.inl h))) (ihl hl hn.1) or mr
        (fun h => by rcases h with rfl | rfl <;> rcases ho with h | h <;> cases h) s)

/-- The result of a sum or product. -/
theorem result_shape {fo : FloatOps} (rt : RoundTrip fo) (hc : ∀ a b, fo.mul a b = fo.mul b a) {sp : Span} {op : Bytes} {l r : Value}
    (al : Arith l) (ar : Arith r) (hs : (Value.math sp op l r).Shape .sum) (hn : Readable fo (.math sp op l r)) (s : TSt) : Result fo sp op l r s := by
  cases hs with
  | sum hs =>
    cases hs with
    | prod hs => obtain ⟨_, _, _, h⟩ := shape_atom hs (.math al ar); cases h
    | mul ho hl hr =>
      obtain ⟨rsp, rn, ru, rfl⟩ := shape_atom hr ar
      obtain ⟨ol, ml⟩ := outcome_prod rt hc al hl hn.1
      exact result_of rt hc (ho.elim (fun h => .inr (.inr (.inl h))) (fun h => .inr (.inr (.inr h)))) ol
        (outcome_dim hn.2) not_mixed_dim (fun _ => ml) s
  | add ho hl hr =>
    obtain ⟨or, mr⟩ := outcome_prod rt hc ar hr hn.2
    exact result_of rt hc (ho.elim .inl (fun h => .inr (.inl h))) (outcome_sum rt hc al hl hn.1) or mr
      (fun h => by rcases h with rfl | rfl <;> rcases ho with h | h <;> cases h) s

/-- A value has one unit and is not a sum of different units. -/
theorem hasValue_kind {fo : FloatOps} {v : Value} (ha : Arith v) (h : HasValue fo v ∨ Mixed fo v) : calcKind v ≠ none := by
  rcases h with ⟨f, u, h⟩ | ⟨sp, op, l, r, fl, ul, fr, ur, rfl, ho, dl, dr, hu, h1, h2⟩
  · rw [calcKind_denotes ha h]; simp
  · cases ha with
    | math al ar =>
      rw [calcKind, calcKind_denotes al dl, calcKind_denotes ar dr]
      simp [ho, unitKind, h1, h2]

/-- **C61**, for any arithmetic without parentheses: all reports are errors; there is none exactly if the expression has a
value, or is a sum or difference of two values that have different units; if there is one the `calc()` stays as it was.  So
an expression that has no type is always reported, and those that have a type but are reported all the same divide by zero,
or have a sum of different units in a longer sum. -/
theorem calc_silent_partial {fo : FloatOps} (rt : RoundTrip fo) (hc : ∀ a b, fo.mul a b = fo.mul b a) {o : TOpts}
    (ho : o.calcReduction = true) {sp msp : Span} {op : Bytes} {l r l' r' : Value} {s : TSt} (hl : Stands s l l')
    (hr : Stands s r r') (al : Arith l') (ar : Arith r') (hs : (Value.math msp op l' r').Shape .sum)
    (hn : Readable fo (.math msp op l' r')) (n : Nat) :
    ∃ vs reps, transformValue fo o (n + 2) (.func sp b!"calc" [.math msp op l r]) s = .ok vs { s with log := s.log ++ reps } ∧
      Errors reps ∧ (reps = [] ↔ HasValue fo (.math msp op l' r') ∨ Mixed fo (.math msp op l' r')) ∧
      (reps ≠ [] → vs = [.func sp b!"calc" [.math msp op l r]]) ∧
      (calcKind (.math msp op l' r') = none → reps ≠ []) := by
  obtain ⟨v, reps, h3, hx, hres⟩ := result_shape rt hc al ar hs hn s
  have h1 : substVar (.func sp b!"calc" [.math msp op l r]) b!"calc" [.math msp op l r] s =
      .ok [.func sp b!"calc" [.math msp op l r]] s := rfl
  have h2 : transformValues fo o (n + 1) [.math msp op l r] s = .ok [.math msp op l r] s := rfl
  have run : transformValue fo o (n + 2) (.func sp b!"calc" [.math msp op l r]) s =
        .ok (match v with | .nil => [.func sp b!"calc" [.math msp op l r]] | nv => [nv]) { s with log := s.log ++ reps } := by
    rw [transformValue, tbind_eq_ok h1]
    unfold reduceCalc
    rw [if_neg (by simp), if_neg (by simp [ho])]
    dsimp only
    refine (tbind_eq_ok h2).trans ?_
    dsimp only
    refine (tbind_eq_ok (transformValues_arith al hl n)).trans ?_
    refine (tbind_eq_ok (transformValues_arith ar hr n)).trans ?_
    dsimp only
    rw [tbind_eq_ok h3]
    rcases hres with ⟨_, _, _, _, _, rfl, _⟩ | ⟨rfl, _⟩ <;> rfl
  have nil_of : ∀ {w : Value} {x : List Report}, evaluateMathExpression fo l' r' op s = .ok w { s with log := s.log ++ x } → x = [] → reps = [] := by
    intro w x e hx
    rw [e] at h3
    have := congrArg TSt.log (TRes.ok.inj h3).2
    dsimp only at this
    rw [hx] at this
    simpa using this
  have hiff : reps = [] ↔ HasValue fo (.math msp op l' r') ∨ Mixed fo (.math msp op l' r') := by
    constructor
    · intro h
      rcases hres with ⟨_, _, _, u, f, _, _, d⟩ | ⟨_, h' | h'⟩
      · exact .inl ⟨f, u, d⟩
      · exact absurd h h'
      · exact .inr h'
    · rintro (⟨f, u, d⟩ | ⟨_, _, _, _, fl, ul, fr, ur, e, hop, dl, dr, hu, k1, k2⟩)
      · have ops : ∃ fl ul fr ur, Denotes fo none l' fl ul ∧ Denotes fo none r' fr ur ∧
            ∀ lsp ln rsp rn, fo.parse ln = some fl → fo.parse rn = some fr →
              Denotes fo none (.math msp op (.dim lsp ln ul) (.dim rsp rn ur)) f u := by
          cases d with
          | add h k => exact ⟨_, _, _, _, h, k, fun _ _ _ _ h k => .add (.dim h) (.dim k)⟩
          | sub h k => exact ⟨_, _, _, _, h, k, fun _ _ _ _ h k => .sub (.dim h) (.dim k)⟩
          | mulNum h k => exact ⟨_, _, _, _, h, k, fun _ _ _ _ h k => .mulNum (.dim h) (.dim k)⟩
          | numMul h k => exact ⟨_, _, _, _, h, k, fun _ _ _ _ h k => .numMul (.dim h) (.dim k)⟩
          | div h k z => exact ⟨_, _, _, _, h, k, fun _ _ _ _ h k => .div (.dim h) (.dim k) z⟩
        obtain ⟨fl, ul, fr, ur, dl, dr, hop⟩ := ops
        obtain ⟨lsp, ln, pl, el⟩ := evalOperand_complete rt hc al dl s
        obtain ⟨rsp, rn, pr, er⟩ := evalOperand_complete rt hc ar dr s
        have e := applyOp_complete hc (hop lsp ln rsp rn pl pr) s
        refine nil_of (w := .dim ⟨0, 0⟩ (fo.fmt f) u) (x := []) ?_ rfl
        unfold evaluateMathExpression
        rw [tbind_eq_ok el, tbind_eq_ok er, e]
        simp
      · cases e
        obtain ⟨lsp, ln, pl, el⟩ := evalOperand_complete rt hc al dl s
        obtain ⟨rsp, rn, pr, er⟩ := evalOperand_complete rt hc ar dr s
        refine nil_of (w := .nil) (x := []) ?_ rfl
        unfold evaluateMathExpression
        rw [tbind_eq_ok el, tbind_eq_ok er]
        unfold applyOp
        rw [if_pos hop]
        dsimp only
        rw [if_pos hu]
        simp [whenT, k1, k2, bind, T.bind, pure, T.pure]
  refine ⟨_, reps, run, hx, hiff, fun h => ?_, fun h h' => hasValue_kind (.math al ar) (hiff.mp h') h⟩
  rcases hres with ⟨h', _⟩ | ⟨rfl, _⟩
  · exact absurd h' h
  · rfl

/-- `1px+11em+1*1px`, with the operators to the left. -/
def mixedSum : Value × Value :=
  (.math ⟨0, 0⟩ b!"+" (.dim ⟨0, 0⟩ b!"1" b!"px") (.dim ⟨0, 0⟩ b!"11" b!"em"),
    .math ⟨0, 0⟩ b!"*" (.dim ⟨0, 0⟩ b!"1" []) (.dim ⟨0, 0⟩ b!"1" b!"px"))

/-- The hypotheses for `calc(1px + 11em + 1 * 1px)`, which has a type but is reported. -/
example : Arith mixedSum.1 ∧ Arith mixedSum.2 ∧ (Value.math ⟨0, 0⟩ b!"+" mixedSum.1 mixedSum.2).Shape .sum ∧
    Readable unaryOps (.math ⟨0, 0⟩ b!"+" mixedSum.1 mixedSum.2) ∧ calcKind (.math ⟨0, 0⟩ b!"+" mixedSum.1 mixedSum.2) = some .dimension ∧
    calcReports b!"a{b:calc(1px + 11em + 1 * 1px)}" = some (some [false]) := by
  refine ⟨.math .dim .dim, .math .dim .dim, ?_, ⟨⟨⟨(1 : Nat), rfl⟩, ⟨(2 : Nat), rfl⟩⟩, ⟨(1 : Nat), rfl⟩, ⟨(1 : Nat), rfl⟩⟩, by decide, by decide +kernel⟩
  exact .add (.inl rfl) (.add (.inl rfl) (.sum (.prod (.atom .dim))) (.prod (.atom .dim))) (.mul (.inl rfl) (.prod (.atom .dim)) (.atom .dim))

/-! ### Any values -/

/-- The state, with these reports added. -/
def TSt.plus (s : TSt) (reps : List Report) : TSt := { s with log := s.log ++ reps }

theorem TSt.plus_nil (s : TSt) : s.plus [] = s := by simp [TSt.plus]

theorem TSt.plus_plus (s : TSt) (a b : List Report) : (s.plus a).plus b = s.plus (a ++ b) := by
  simp [TSt.plus, List.append_assoc]

/-- If it returns, it has added reports, and if it has added any the result is `v`. -/
def Wary (m : T α) (v : α) : Prop :=
  ∀ s a s', m s = .ok a s' → ∃ reps, s' = s.plus reps ∧ (reps ≠ [] → a = v)

theorem wary_pure (a v : α) : Wary (pure a) v := by
  intro s a' s' h
  cases h
  exact ⟨[], (TSt.plus_nil s).symm, by simp⟩

theorem wary_then {m : T Unit} {v : α} (h : Wary m ()) : Wary (do m; pure v) v := by
  intro s a s' e
  obtain ⟨_, s1, e1, e2⟩ := tbind_ok e
  obtain ⟨reps, h1, _⟩ := h _ _ _ e1
  cases e2
  exact ⟨reps, h1, fun _ => rfl⟩

theorem wary_report (w : Bool) (sp : Option Span) (m : String) : Wary (report w sp m) () := by
  intro s a s' e
  cases e
  exact ⟨_, rfl, fun _ => rfl⟩

theorem wary_crash (v : α) : Wary (T.crash : T α) v := by
  intro s a s' e
  cases e

theorem wary_error (v : Value) (m : String) : Wary (addErrorV v m) () := by
  unfold addErrorV
  split
  · exact wary_crash ()
  · exact wary_report _ _ _

theorem wary_warn (v : Value) (m : String) : Wary (addWarnV v m) () := by
  unfold addWarnV
  split
  · exact wary_crash ()
  · exact wary_report _ _ _

theorem wary_when {c : Prop} [Decidable c] {m : T Unit} (h : Wary m ()) : Wary (whenT c m) () := by
  unfold whenT
  split
  · exact h
  · exact wary_pure () ()

theorem wary_seq {m n : T Unit} (h1 : Wary m ()) (h2 : Wary n ()) : Wary (do m; n) () := by
  intro s a s' e
  obtain ⟨_, s1, e1, e2⟩ := tbind_ok e
  obtain ⟨r1, h1, _⟩ := h1 _ _ _ e1
  obtain ⟨r2, h2, _⟩ := h2 _ _ _ e2
  exact ⟨r1 ++ r2, by rw [h2, h1, TSt.plus_plus], fun _ => rfl⟩

theorem wary_mathResult {fo : FloatOps} {l : Value} {a b op u : Bytes} : Wary (mathResult fo l a b op u) .nil := by
  unfold mathResult
  split
  · exact wary_then (wary_error _ _)
  · exact wary_pure _ _

theorem wary_applyOp {fo : FloatOps} {op : Bytes} {l r : Value} : Wary (applyOp fo op l r) .nil := by
  unfold applyOp
  split
  · split
    · split
      · split
        · intro s a s' e
          obtain ⟨_, s1, e1, e⟩ := tbind_ok e
          obtain ⟨_, s2, e2, e⟩ := tbind_ok e
          obtain ⟨r1, h1, _⟩ := wary_when (wary_report _ _ _) _ _ _ e1
          obtain ⟨r2, h2, _⟩ := wary_when (wary_report _ _ _) _ _ _ e2
          cases e
          exact ⟨r1 ++ r2, by rw [h2, h1, TSt.plus_plus], fun _ => rfl⟩
        · exact wary_mathResult
      · exact wary_pure _ _
    · exact wary_then (wary_error _ _)
  split
  · split
    · split
      · exact wary_then (wary_error _ _)
      split
      · exact wary_mathResult
      · exact wary_mathResult
    · exact wary_pure _ _
  split
  · split
    · split
      · exact wary_mathResult
      · exact wary_then (wary_error _ _)
    · exact wary_then (wary_error _ _)
  · exact wary_then (wary_error _ _)

/-- A dimension. -/
def Value.isDim : Value → Bool
  | .dim .. => true
  | _ => false

/-- An operator on anything but two dimensions has no result. -/
theorem applyOp_not_dim {fo : FloatOps} {op : Bytes} {l r : Value} (h : l.isDim = false ∨ r.isDim = false) {s s' : TSt} {v : Value}
    (e : applyOp fo op l r s = .ok v s') : v = .nil := by
  have skip : ∀ {m : T Unit} {s s' : TSt} {v : Value}, (do m; pure Value.nil : T Value) s = .ok v s' → v = .nil := by
    intro m s s' v e
    obtain ⟨_, s1, _, e2⟩ := tbind_ok e
    cases e2; rfl
  unfold applyOp at e
  split at e
  · split at e
    · split at e
      · exact absurd h (by simp [Value.isDim])
      · cases e; rfl
    · exact skip e
  split at e
  · split at e
    · exact absurd h (by simp [Value.isDim])
    · cases e; rfl
  split at e
  · split at e
    · split at e
      · exact absurd h (by simp [Value.isDim])
      · exact skip e
    · exact skip e
  · exact skip e

theorem evalOperand_reports {fo : FloatOps} : ∀ (v : Value) {s s' : TSt} {a : Value}, evalOperand fo v s = .ok a s' →
    ∃ reps, s' = s.plus reps ∧ (reps ≠ [] → a = v ∧ v.isDim = false)
  | .math sp op l r, s, s', a, e => by
    rw [evalOperand] at e
    obtain ⟨l', s1, el, e⟩ := tbind_ok e
    obtain ⟨r', s2, er, e⟩ := tbind_ok e
    obtain ⟨v, s3, ea, e⟩ := tbind_ok e
    obtain ⟨rl, h1, k1⟩ := evalOperand_reports l el
    obtain ⟨rr, h2, k2⟩ := evalOperand_reports r er
    obtain ⟨ra, h3, k3⟩ := wary_applyOp _ _ _ ea
    have hs : s3 = s.plus (rl ++ (rr ++ ra)) := by rw [h3, h2, h1, TSt.plus_plus, TSt.plus_plus]
    have hn : rl ++ (rr ++ ra) ≠ [] → v = .nil := by
      intro hn
      by_cases n1 : rl = []
      · by_cases n2 : rr = []
        · exact k3 (by simpa [n1, n2] using hn)
        · have := k2 n2
          exact applyOp_not_dim (.inr (by rw [this.1, this.2])) ea
      · have := k1 n1
        exact applyOp_not_dim (.inl (by rw [this.1, this.2])) ea
    refine ⟨rl ++ (rr ++ ra), ?_, fun h => ?_⟩
    · rw [← hs]
      split at e <;> cases e <;> rfl
    · rw [hn h] at e
      cases e
      exact ⟨rfl, rfl⟩
  | .nil, s, s', a, e => by cases e; exact ⟨[], (TSt.plus_nil s).symm, by simp⟩
  | .comma _, s, s', a, e => by cases e; exact ⟨[], (TSt.plus_nil s).symm, by simp⟩
  | .dim .., s, s', a, e => by cases e; exact ⟨[], (TSt.plus_nil s).symm, by simp⟩
  | .str .., s, s', a, e => by cases e; exact ⟨[], (TSt.plus_nil s).symm, by simp⟩
  | .ident .., s, s', a, e => by cases e; exact ⟨[], (TSt.plus_nil s).symm, by simp⟩
  | .func .., s, s', a, e => by cases e; exact ⟨[], (TSt.plus_nil s).symm, by simp⟩
  | .brackets .., s, s', a, e => by cases e; exact ⟨[], (TSt.plus_nil s).symm, by simp⟩
  | .paren .., s, s', a, e => by cases e; exact ⟨[], (TSt.plus_nil s).symm, by simp⟩
  | .hex .., s, s', a, e => by cases e; exact ⟨[], (TSt.plus_nil s).symm, by simp⟩
  | .raw .., s, s', a, e => by cases e; exact ⟨[], (TSt.plus_nil s).symm, by simp⟩

/-- A function. -/
def Value.isFunc : Value → Bool
  | .func .. => true
  | _ => false

theorem evalOperand_func {fo : FloatOps} {v : Value} (h : v.isFunc = true) {s s' : TSt} {a : Value}
    (e : evalOperand fo v s = .ok a s') : a.isDim = false := by
  cases v with
  | func => cases e; rfl
  | _ => cases h

theorem evaluate_reports {fo : FloatOps} {l r : Value} {op : Bytes} {s s' : TSt} {a : Value}
    (e : evaluateMathExpression fo l r op s = .ok a s') :
    ∃ reps, s' = s.plus reps ∧ (reps ≠ [] → a = .nil) ∧ (l.isFunc = true ∨ r.isFunc = true → a = .nil) := by
  unfold evaluateMathExpression at e
  obtain ⟨l', s1, el, e⟩ := tbind_ok e
  obtain ⟨r', s2, er, ea⟩ := tbind_ok e
  obtain ⟨rl, h1, k1⟩ := evalOperand_reports l el
  obtain ⟨rr, h2, k2⟩ := evalOperand_reports r er
  obtain ⟨ra, h3, k3⟩ := wary_applyOp _ _ _ ea
  refine ⟨rl ++ (rr ++ ra), by rw [h3, h2, h1, TSt.plus_plus, TSt.plus_plus], fun hn => ?_, fun hf => ?_⟩
  · by_cases n1 : rl = []
    · by_cases n2 : rr = []
      · exact k3 (by simpa [n1, n2] using hn)
      · have := k2 n2
        exact applyOp_not_dim (.inr (by rw [this.1, this.2])) ea
    · have := k1 n1
      exact applyOp_not_dim (.inl (by rw [this.1, this.2])) ea
  · rcases hf with hf | hf
    · exact applyOp_not_dim (.inl (evalOperand_func hf el)) ea
    · exact applyOp_not_dim (.inr (evalOperand_func hf er)) ea

theorem substVar_reports {v : Value} {name : Bytes} {args : List Value} : Wary (substVar v name args) [v] := by
  unfold substVar
  split
  · exact wary_pure _ _
  intro s a s' e
  obtain ⟨s0, s1, e0, e1⟩ := tbind_ok e
  clear e
  obtain ⟨rfl, rfl⟩ : s0 = s ∧ s1 = s := by cases e0; exact ⟨rfl, rfl⟩
  clear e0
  revert e1
  cases s1.vars with
  | none => exact wary_pure _ _ _ _ _
  | some vars =>
  dsimp only
  split
  · exact wary_then (wary_error _ _) _ _ _
  · rename_i varName rest
    cases assoc vars varName with
    | some vals => exact wary_pure _ _ _ _ _
    | none =>
      dsimp only
      split
      · exact wary_pure _ _ _ _ _
      · exact wary_then (wary_warn _ _) _ _ _
  · exact wary_then (wary_error _ _) _ _ _

theorem mapConcat_one {f : α → T (List β)} {x : α} {s s' : TSt} {a : List β} (e : mapConcat f [x] s = .ok a s') :
    f x s = .ok a s' := by
  unfold mapConcat at e
  obtain ⟨xs, s1, e1, e⟩ := tbind_ok e
  obtain ⟨ys, s2, e2, e⟩ := tbind_ok e
  cases e2
  cases e
  simpa using e1

/-- **C61**, the second half, for all values, options and states: if a problem is reported for a value (or for a value
inside it), the value stays as it was. -/
theorem value_reported_stays {fo : FloatOps} {o : TOpts} : ∀ (n : Nat) (v : Value) {s s' : TSt} {vs : List Value},
    transformValue fo o n v s = .ok vs s' → ∃ reps, s' = s.plus reps ∧ (reps ≠ [] → vs = [v] ∧ v.isFunc = true)
  | 0, v, s, s', vs, e => by cases e
  | n + 1, v, s, s', vs, e => by
    have nofunc : ∀ {v : Value}, (pure [v] : T (List Value)) s = .ok vs s' →
        ∃ reps, s' = s.plus reps ∧ (reps ≠ [] → vs = [v] ∧ v.isFunc = true) := by
      intro v e
      cases e
      exact ⟨[], (TSt.plus_nil s).symm, by simp⟩
    cases v with
    | func sp name args =>
      rw [transformValue] at e
      obtain ⟨cur, s1, ec, e'⟩ := tbind_ok e
      clear e
      have e := e'
      clear e'
      obtain ⟨rc, h1, k1⟩ := substVar_reports _ _ _ ec
      suffices h : ∃ reps, s' = s1.plus reps ∧ (reps ≠ [] → vs = [.func sp name args]) ∧ (rc ≠ [] → vs = [.func sp name args]) by
        obtain ⟨reps, h2, k2, k3⟩ := h
        refine ⟨rc ++ reps, by rw [h2, h1, TSt.plus_plus], fun hn => ⟨?_, rfl⟩⟩
        by_cases hr : rc = []
        · exact k2 (by simpa [hr] using hn)
        · exact k3 hr
      unfold reduceCalc at e
      by_cases hname : name ≠ b!"calc"
      · rw [if_pos hname] at e
        cases e
        exact ⟨[], (TSt.plus_nil _).symm, by simp, k1⟩
      rw [if_neg hname] at e
      have hname : name = b!"calc" := Classical.not_not.1 hname
      subst hname
      have hcur : cur = [.func sp b!"calc" args] ∧ s1 = s := by
        cases ec; exact ⟨rfl, rfl⟩
      obtain ⟨rfl, rfl⟩ := hcur
      have hrc : rc = [] := by
        have := congrArg TSt.log h1
        simpa [TSt.plus] using this
      suffices h : ∃ reps, s' = s1.plus reps ∧ (reps ≠ [] → vs = [.func sp b!"calc" args]) by
        obtain ⟨reps, h2, k2⟩ := h
        exact ⟨reps, h2, k2, fun h => absurd hrc h⟩
      have fin : ∀ {s0 : TSt} {r0 : List Report}, s0 = s1.plus r0 →
          (pure [.func sp b!"calc" args] : T (List Value)) s0 = .ok vs s' →
          ∃ reps, s' = s1.plus reps ∧ (reps ≠ [] → vs = [.func sp b!"calc" args]) := by
        intro s0 r0 h e
        cases e
        exact ⟨r0, h, fun _ => rfl⟩
      have warned : ∀ {s0 : TSt} {r0 : List Report} {w : Value} {m : String}, s0 = s1.plus r0 →
          (do addWarnV w m; pure [.func sp b!"calc" args] : T (List Value)) s0 = .ok vs s' →
          ∃ reps, s' = s1.plus reps ∧ (reps ≠ [] → vs = [.func sp b!"calc" args]) := by
        intro s0 r0 w m h e
        obtain ⟨_, s2, e1, e2⟩ := tbind_ok e
        obtain ⟨r1, h1, _⟩ := wary_warn _ _ _ _ _ e1
        exact fin (r0 := r0 ++ r1) (by rw [h1, h, TSt.plus_plus]) e2
      split at e
      · exact fin (TSt.plus_nil s1).symm e
      split at e
      · rename_i a0
        obtain ⟨xs, s2, e1, e'⟩ := tbind_ok e
        clear e
        have e := e'
        clear e'
        obtain ⟨r1, h1, k1⟩ := value_reported_stays n a0 (mapConcat_one e1)
        split at e
        · rename_i xs0 msp op left right
          have hr1 : r1 = [] := Classical.byContradiction fun hn => by
            obtain ⟨h, hf⟩ := k1 hn
            cases h
            cases hf
          subst hr1
          rw [TSt.plus_nil] at h1
          subst h1
          obtain ⟨l, s3, e2, e⟩ := tbind_ok e
          obtain ⟨r, s4, e3, e⟩ := tbind_ok e
          obtain ⟨r2, h2, k2⟩ := value_reported_stays n left (mapConcat_one e2)
          obtain ⟨r3, h3, k3⟩ := value_reported_stays n right (mapConcat_one e3)
          have h4 : s4 = s2.plus (r2 ++ r3) := by rw [h3, h2, TSt.plus_plus]
          split at e
          · rename_i l0
            split at e
            · rename_i r0
              obtain ⟨v, s5, e4, e⟩ := tbind_ok e
              obtain ⟨r4, h5, k4, k5⟩ := evaluate_reports e4
              have h5 : s5 = s2.plus (r2 ++ r3 ++ r4) := by rw [h5, h4, TSt.plus_plus]
              have hn : r2 ++ r3 ++ r4 ≠ [] → v = .nil := by
                intro hn
                by_cases n2 : r2 = []
                · by_cases n3 : r3 = []
                  · exact k4 (by simpa [n2, n3] using hn)
                  · obtain ⟨h, hf⟩ := k3 n3
                    cases h
                    exact k5 (.inr hf)
                · obtain ⟨h, hf⟩ := k2 n2
                  cases h
                  exact k5 (.inl hf)
              refine ⟨r2 ++ r3 ++ r4, ?_, fun h => ?_⟩
              · rw [← h5]
                split at e <;> cases e <;> rfl
              · rw [hn h] at e
                cases e
                rfl
            · exact warned h4 e
          · exact warned h4 e
        · exact fin h1 e
        · exact warned h1 e
      · exact warned (TSt.plus_nil s1).symm e
    | _ => exact nofunc e

/-- One error inside parentheses of a function, and one around it. -/
example : calcReports b!"a{b:calc(calc(1 + 1px) + 1px)}" = some (some [false, false]) ∧
    ((parse 80 b!"a{b:calc(calc(1 + 1px) + 1px)}").sheet?.map fun x =>
      match transform unaryOps { TOpts.default with calcReduction := true } (some []) 30 x.1 with
      | .ok ss _ => print none ss
      | _ => PrintRes.error) = some (PrintRes.ok b!"a{b:calc(calc(1+1px)+1px)}") := by decide +kernel

end Cssc
