import Verif.Spec.Transform
import Verif.Proofs.TransformLog

/-!
# The transformer meets the specification of `Spec.Transform`
-/

namespace Cssc

theorem lastDef_eq (defs : List (Bytes × α)) (k : Bytes) : lastDef defs k = assoc defs.reverse k := by
  unfold lastDef
  induction defs.reverse with
  | nil => rfl
  | cons d ds ih =>
    obtain ⟨k', v⟩ := d
    rw [List.find?_cons, assoc]
    by_cases h : k' = k
    · subst h
      simp
    · rw [if_neg h, ← ih, beq_eq_false_iff_ne.2 h]

theorem replacement_eq (m : List (AtId × Stylesheet)) (a : AtRule) : replacement m a = lookupImport m a.id := by
  unfold replacement
  induction m with
  | nil => rfl
  | cons d ds ih =>
    obtain ⟨k', v⟩ := d
    rw [List.find?_cons, lookupImport]
    by_cases h : k' = a.id
    · rw [if_pos h, h, beq_self_eq_true]
      rfl
    · rw [if_neg h, ← ih, beq_eq_false_iff_ne.2 h]

theorem hasPrefix_take (s p : Bytes) : hasPrefix s p = true ↔ s.take p.length = p := by
  induction p generalizing s with
  | nil => simp [hasPrefix]
  | cons y p ih =>
    cases s with
    | nil => simp [hasPrefix]
    | cons x s => simp [hasPrefix, ih]

theorem customPrefix (s : Bytes) : hasPrefix s b!"--" = true ↔ s.take 2 = b!"--" := hasPrefix_take s b!"--"

/-- Piece by piece. -/
theorem mapConcat_pieces {f : α → T (List β)} {R : α → List β → Prop} {I : TSt → Prop} : ∀ {xs : List α} {s s' : TSt}
    {out : List β}, I s → (∀ x ∈ xs, ∀ s s' out, I s → f x s = .ok out s' → R x out ∧ I s') →
    mapConcat f xs s = .ok out s' → Pieces R xs out ∧ I s'
  | [], s, s', out, hi, _, h => by
    obtain ⟨rfl, rfl⟩ := tpure_ok h
    exact ⟨.nil, hi⟩
  | x :: xs, s, s', out, hi, hf, h => by
    obtain ⟨o1, s1, o2, h1, h2, rfl⟩ := mapConcat_cons_ok h
    obtain ⟨r1, i1⟩ := hf x (List.mem_cons_self ..) _ _ _ hi h1
    obtain ⟨r2, i2⟩ := mapConcat_pieces i1 (fun y hy => hf y (List.mem_cons_of_mem _ hy)) h2
    exact ⟨.cons r1 r2, i2⟩

/-! ### Values -/

theorem mathResult_ok {fo : FloatOps} {l v : Value} {a b op u : Bytes} {s s' : TSt}
    (h : mathResult fo l a b op u s = .ok v s') :
    (v = .nil ∧ doMath fo a b op = none) ∨ ∃ f, doMath fo a b op = some f ∧ v = .dim ⟨0, 0⟩ (fo.fmt f) u := by
  unfold mathResult at h
  rcases hd : doMath fo a b op with _ | f <;> rw [hd] at h <;> dsimp only at h
  · obtain ⟨_, _, _, h⟩ := tbind_ok h
    exact .inl ⟨(tpure_ok h).1.symm, rfl⟩
  · exact .inr ⟨f, rfl, (tpure_ok h).1.symm⟩

theorem doMath_some {fo : FloatOps} {a b op : Bytes} {f : fo.F} (h : doMath fo a b op = some f) :
    ∃ x y, fo.parse a = some x ∧ fo.parse b = some y ∧
      (op = b!"+" → f = fo.add x y) ∧ (op = b!"-" → f = fo.sub x y) ∧ (op = b!"*" → f = fo.mul x y) ∧
      (op = b!"/" → fo.isZero y = false ∧ f = fo.div x y) := by
  unfold doMath at h
  split at h
  · cases h
  · rename_i x hx
    split at h
    · cases h
    · rename_i y hy
      refine ⟨x, y, hx, hy, ?_⟩
      split at h
      · rename_i hop
        subst hop
        cases h
        exact ⟨fun _ => rfl, (fun h => by cases h), (fun h => by cases h), (fun h => by cases h)⟩
      · split at h
        · rename_i hop
          subst hop
          cases h
          exact ⟨(fun h => by cases h), fun _ => rfl, (fun h => by cases h), (fun h => by cases h)⟩
        · split at h
          · rename_i hop
            subst hop
            cases h
            exact ⟨(fun h => by cases h), (fun h => by cases h), fun _ => rfl, (fun h => by cases h)⟩
          · split at h
            · rename_i hop
              subst hop
              split at h
              · cases h
              · rename_i hz
                cases h
                exact ⟨(fun h => by cases h), (fun h => by cases h), (fun h => by cases h), fun _ => ⟨by simpa using hz, rfl⟩⟩
            · cases h

/-- An operator that gives a result gives the value of the expression. -/
theorem applyOp_denotes {fo : FloatOps} {D : Option (List (Bytes × List Value))} {op : Bytes} {l r v : Value}
    {s s' : TSt} (h : applyOp fo op l r s = .ok v s') (hv : v ≠ .nil) :
    ∃ f u, v = .dim ⟨0, 0⟩ (fo.fmt f) u ∧ ∀ sp, Denotes fo D (.math sp op l r) f u := by
  unfold applyOp at h
  split at h
  · rename_i hop
    cases l with
    | dim lsp lv lu =>
      cases r with
      | dim rsp rv ru =>
        dsimp only at h
        split at h
        · obtain ⟨_, _, _, h⟩ := tbind_ok h
          obtain ⟨_, _, _, h⟩ := tbind_ok h
          exact absurd (tpure_ok h).1.symm hv
        · rename_i hu
          simp only [ne_eq, Decidable.not_not] at hu
          subst hu
          rcases mathResult_ok h with ⟨h, _⟩ | ⟨f, hd, rfl⟩
          · exact absurd h hv
          · obtain ⟨x, y, hx, hy, h1, h2, _⟩ := doMath_some hd
            refine ⟨f, lu, rfl, fun sp => ?_⟩
            rcases hop with rfl | rfl
            · rw [h1 rfl]
              exact .add (.dim hx) (.dim hy)
            · rw [h2 rfl]
              exact .sub (.dim hx) (.dim hy)
      | _ => exact absurd (tpure_ok h).1.symm hv
    | _ =>
      obtain ⟨_, _, _, h⟩ := tbind_ok h
      exact absurd (tpure_ok h).1.symm hv
  · split at h
    · rename_i hop
      subst hop
      split at h
      · rename_i lsp lv lu rsp rv ru
        split at h
        · obtain ⟨_, _, _, h⟩ := tbind_ok h
          exact absurd (tpure_ok h).1.symm hv
        · rename_i hu
          split at h
          · rename_i hlu
            subst hlu
            rcases mathResult_ok h with ⟨h, _⟩ | ⟨f, hd, rfl⟩
            · exact absurd h hv
            · obtain ⟨x, y, hx, hy, _, _, h3, _⟩ := doMath_some hd
              refine ⟨f, ru, rfl, fun sp => ?_⟩
              rw [h3 rfl]
              exact .numMul (.dim hy) (.dim hx)
          · rename_i hlu
            have hru : ru = [] := Classical.byContradiction fun hc => hu ⟨hlu, hc⟩
            subst hru
            rcases mathResult_ok h with ⟨h, _⟩ | ⟨f, hd, rfl⟩
            · exact absurd h hv
            · obtain ⟨x, y, hx, hy, _, _, h3, _⟩ := doMath_some hd
              refine ⟨f, lu, rfl, fun sp => ?_⟩
              rw [h3 rfl]
              exact .mulNum (.dim hx) (.dim hy)
      · exact absurd (tpure_ok h).1.symm hv
    · split at h
      · rename_i hop
        subst hop
        split at h
        · rename_i rsp rv
          cases l with
          | dim lsp lv lu =>
            rcases mathResult_ok h with ⟨h, _⟩ | ⟨f, hd, rfl⟩
            · exact absurd h hv
            · obtain ⟨x, y, hx, hy, _, _, _, h4⟩ := doMath_some hd
              refine ⟨f, lu, rfl, fun sp => ?_⟩
              rw [(h4 rfl).2]
              exact .div (.dim hx) (.dim hy) (h4 rfl).1
          | _ =>
            obtain ⟨_, _, _, h⟩ := tbind_ok h
            exact absurd (tpure_ok h).1.symm hv
        · obtain ⟨_, _, _, h⟩ := tbind_ok h
          exact absurd (tpure_ok h).1.symm hv
      · obtain ⟨_, _, _, h⟩ := tbind_ok h
        exact absurd (tpure_ok h).1.symm hv

theorem denotes_fmt {fo : FloatOps} {D : Option (List (Bytes × List Value))} (rt : RoundTrip fo) {sp : Span} {f g : fo.F}
    {u w : Bytes} (h : Denotes fo D (.dim sp (fo.fmt f) u) g w) : g = f ∧ w = u := by
  cases h with
  | dim h =>
    rw [rt f] at h
    cases h
    exact ⟨rfl, rfl⟩

/-- Replacing the operands of an expression by operands with the same value. -/
theorem denotes_math {fo : FloatOps} {D : Option (List (Bytes × List Value))} {sp : Span} {op : Bytes} {l r l' r' : Value}
    {f : fo.F} {u : Bytes} (hl : ∀ f u, Denotes fo D l' f u → Denotes fo D l f u)
    (hr : ∀ f u, Denotes fo D r' f u → Denotes fo D r f u) (h : Denotes fo D (.math sp op l' r') f u) :
    Denotes fo D (.math sp op l r) f u := by
  cases h with
  | add h k => exact .add (hl _ _ h) (hr _ _ k)
  | sub h k => exact .sub (hl _ _ h) (hr _ _ k)
  | mulNum h k => exact .mulNum (hl _ _ h) (hr _ _ k)
  | numMul h k => exact .numMul (hl _ _ h) (hr _ _ k)
  | div h k z => exact .div (hl _ _ h) (hr _ _ k) z

/-- Evaluating the operands keeps the value. -/
theorem evalOperand_denotes {fo : FloatOps} {D : Option (List (Bytes × List Value))} (rt : RoundTrip fo) : ∀ {v v' : Value}
    {s s' : TSt}, evalOperand fo v s = .ok v' s' → ∀ f u, Denotes fo D v' f u → Denotes fo D v f u := by
  intro v
  induction v using evalOperand.induct with
  | case1 sp op l r ihl ihr =>
    intro v' s s' h f u hd
    rw [evalOperand] at h
    obtain ⟨l', s1, h1, h⟩ := tbind_ok h
    obtain ⟨r', s2, h2, h⟩ := tbind_ok h
    obtain ⟨x, s3, h3, h⟩ := tbind_ok h
    by_cases hx : x = .nil
    · subst hx
      obtain ⟨rfl, _⟩ := tpure_ok h
      exact hd
    · have hx' : v' = x := by
        cases x
        · exact absurd rfl hx
        all_goals exact (tpure_ok h).1.symm
      subst hx'
      obtain ⟨g, w, rfl, k⟩ := applyOp_denotes (D := D) h3 hx
      obtain ⟨rfl, rfl⟩ := denotes_fmt rt hd
      exact denotes_math (fun f u => ihl h1 f u) (fun f u => ihr h2 f u) (k sp)
  | case2 v hv =>
    intro v' s s' h f u hd
    have : evalOperand fo v = pure v := by
      cases v
      case math => exact absurd rfl (hv _ _ _ _)
      all_goals rfl
    rw [this] at h
    obtain ⟨rfl, _⟩ := tpure_ok h
    exact hd

/-- The definitions that `var()` sees. -/
def knownVars (o : TOpts) (defs : List (Bytes × List Value)) : Option (List (Bytes × List Value)) :=
  if o.customProperties then some defs else none

/-- A value that became a single value. -/
theorem ValuePiece.denotes {fo : FloatOps} {o : TOpts} {defs : List (Bytes × List Value)} (rt : RoundTrip fo) {v w : Value}
    (h : ValuePiece fo o defs v [w]) (f : fo.F) (u : Bytes) (hd : Denotes fo (knownVars o defs) w f u) :
    Denotes fo (knownVars o defs) v f u := by
  unfold knownVars at *
  cases h with
  | other => exact hd
  | varOff => exact hd
  | varDefined ho hl =>
    rw [if_pos ho] at hd ⊢
    exact .var rfl hl hd
  | varFallback ho hl =>
    rw [if_pos ho] at hd ⊢
    exact .fallback rfl hl hd
  | varUndefined => exact hd
  | varBad => exact hd
  | calcKept => exact hd
  | calcReduced _ hr =>
    obtain ⟨g, rfl, hg⟩ := hr rt
    obtain ⟨rfl, rfl⟩ := denotes_fmt rt hd
    exact hg

theorem Pieces.single {R : α → List β → Prop} {x : α} {out : List β} (h : Pieces R [x] out) : R x out := by
  cases h with
  | cons h k =>
    cases k
    rwa [List.append_nil]

/-- `var()`. -/
theorem substVar_piece {fo : FloatOps} {o : TOpts} {defs : List (Bytes × List Value)} {sp : Span}
    {args out : List Value} {s s' : TSt} (hs : s.vars = (knownVars o defs).map List.reverse)
    (h : substVar (.func sp b!"var" args) b!"var" args s = .ok out s') :
    ValuePiece fo o defs (.func sp b!"var" args) out := by
  unfold substVar at h
  rw [if_neg (by simp), tbind_eq_ok (show T.get s = .ok s s from rfl), hs] at h
  unfold knownVars at h
  by_cases ho : o.customProperties = true
  · rw [if_pos ho] at h
    dsimp only [Option.map_some] at h
    split at h
    · obtain ⟨_, _, _, h⟩ := tbind_ok h
      obtain ⟨rfl, _⟩ := tpure_ok h
      exact .varBad (by simp)
    · rename_i isp x rest
      rcases ha : assoc defs.reverse x with _ | vals <;> rw [ha] at h <;> dsimp only at h <;>
        rw [← lastDef_eq] at ha
      · split at h
        · obtain ⟨rfl, _⟩ := tpure_ok h
          exact .varFallback ho ha
        · rename_i hrest
          obtain ⟨_, _, _, h⟩ := tbind_ok h
          obtain ⟨rfl, _⟩ := tpure_ok h
          refine .varUndefined ho ha ?_
          rcases rest with _ | ⟨_, _ | ⟨_, _⟩⟩
          · simp
          · simp
          · exact absurd rfl (hrest _ _ _)
      · obtain ⟨rfl, _⟩ := tpure_ok h
        exact .varDefined ho ha
    · rename_i hbad
      obtain ⟨_, _, _, h⟩ := tbind_ok h
      obtain ⟨rfl, _⟩ := tpure_ok h
      refine .varBad fun isp x rest e => ?_
      cases e
      exact hbad _ _ rfl
  · rw [if_neg ho] at h
    obtain ⟨rfl, _⟩ := tpure_ok h
    exact .varOff (by simpa using ho)

/-- `calc()`. -/
theorem reduceCalc_piece {fo : FloatOps} {o : TOpts} {defs : List (Bytes × List Value)} {rec : List Value → T (List Value)}
    {sp : Span} {args out : List Value} {s s' : TSt}
    (hrec : ∀ v s s' out, s.vars = (knownVars o defs).map List.reverse → rec [v] s = .ok out s' →
      ValuePiece fo o defs v out ∧ s'.vars = (knownVars o defs).map List.reverse)
    (hs : s.vars = (knownVars o defs).map List.reverse)
    (h : reduceCalc fo o rec (.func sp b!"calc" args) b!"calc" args [.func sp b!"calc" args] s = .ok out s') :
    ValuePiece fo o defs (.func sp b!"calc" args) out := by
  unfold reduceCalc at h
  rw [if_neg (by simp)] at h
  split at h
  · obtain ⟨rfl, _⟩ := tpure_ok h
    exact .calcKept
  · rename_i ho
    split at h
    · rename_i a0
      obtain ⟨xs, s1, h1, h⟩ := tbind_ok h
      obtain ⟨p1, v1⟩ := hrec _ _ _ _ hs h1
      split at h
      · rename_i msp op left right
        obtain ⟨ls, s2, h2, h⟩ := tbind_ok h
        obtain ⟨p2, v2⟩ := hrec _ _ _ _ v1 h2
        obtain ⟨rs, s3, h3, h⟩ := tbind_ok h
        obtain ⟨p3, v3⟩ := hrec _ _ _ _ v2 h3
        split at h
        · rename_i l0
          split at h
          · rename_i r0
            obtain ⟨x, s4, h4, h⟩ := tbind_ok h
            by_cases hx : x = .nil
            · subst hx
              obtain ⟨rfl, _⟩ := tpure_ok h
              exact .calcKept
            · have hx' : out = [x] := by
                cases x
                · exact absurd rfl hx
                all_goals exact (tpure_ok h).1.symm
              subst hx'
              unfold evaluateMathExpression at h4
              obtain ⟨l1, t1, k1, h4⟩ := tbind_ok h4
              obtain ⟨r1, t2, k2, h4⟩ := tbind_ok h4
              obtain ⟨f, u, rfl, hd⟩ := applyOp_denotes (D := knownVars o defs) h4 hx
              refine .calcReduced (by simpa using ho) fun rt => ⟨f, rfl, .calc ?_⟩
              refine p1.denotes rt f u ?_
              exact denotes_math (fun f u h => p2.denotes rt f u (evalOperand_denotes rt k1 f u h))
                (fun f u h => p3.denotes rt f u (evalOperand_denotes rt k2 f u h)) (hd msp)
          · obtain ⟨_, _, _, h⟩ := tbind_ok h
            obtain ⟨rfl, _⟩ := tpure_ok h
            exact .calcKept
        · obtain ⟨_, _, _, h⟩ := tbind_ok h
          obtain ⟨rfl, _⟩ := tpure_ok h
          exact .calcKept
      · obtain ⟨rfl, _⟩ := tpure_ok h
        exact .calcKept
      · obtain ⟨_, _, _, h⟩ := tbind_ok h
        obtain ⟨rfl, _⟩ := tpure_ok h
        exact .calcKept
    · obtain ⟨_, _, _, h⟩ := tbind_ok h
      obtain ⟨rfl, _⟩ := tpure_ok h
      exact .calcKept

/-- One value. -/
theorem transformValue_piece {fo : FloatOps} {o : TOpts} {defs : List (Bytes × List Value)} : ∀ {n : Nat} {v : Value}
    {out : List Value} {s s' : TSt}, s.vars = (knownVars o defs).map List.reverse → transformValue fo o n v s = .ok out s' →
    ValuePiece fo o defs v out
  | 0, _, _, _, _, _, h => by cases h
  | n + 1, v, out, s, s', hs, h => by
    have other : (∀ sp name args, v ≠ .func sp name args) → ValuePiece fo o defs v out := by
      intro hv
      have : transformValue fo o (n + 1) v = pure [v] := by
        cases v
        case func => exact absurd rfl (hv _ _ _)
        all_goals rfl
      rw [this] at h
      obtain ⟨rfl, _⟩ := tpure_ok h
      exact .other (fun _ _ => hv _ _ _) fun _ _ => hv _ _ _
    cases v with
    | func sp name args =>
      rw [transformValue] at h
      obtain ⟨cur, s1, h1, h⟩ := tbind_ok h
      by_cases hv : name = b!"var"
      · subst hv
        unfold reduceCalc at h
        rw [if_pos (by simp)] at h
        obtain ⟨rfl, _⟩ := tpure_ok h
        exact substVar_piece hs h1
      · unfold substVar at h1
        rw [if_pos hv] at h1
        obtain ⟨rfl, rfl⟩ := tpure_ok h1
        by_cases hc : name = b!"calc"
        · subst hc
          refine reduceCalc_piece (fun v s s' out hs h => ?_) hs h
          have hv := (LogOnly.mapConcat fun x (_ : x ∈ [v]) => LogOnly.transformValue fo o n x).ok h
          refine ⟨?_, hv.vars.trans hs⟩
          have hp := mapConcat_pieces (R := ValuePiece fo o defs)
            (I := fun s => s.vars = (knownVars o defs).map List.reverse) hs (fun x _ s s' out hs h =>
              ⟨transformValue_piece hs h, ((LogOnly.transformValue fo o n x).ok h).vars.trans hs⟩) h
          exact hp.1.single
        · unfold reduceCalc at h
          rw [if_pos hc] at h
          obtain ⟨rfl, _⟩ := tpure_ok h
          refine .other (fun _ _ e => ?_) fun _ _ e => ?_
          · cases e
            exact hv rfl
          · cases e
            exact hc rfl
    | _ => exact other (by simp)

theorem transformDeclarations_pieces {fo : FloatOps} {o : TOpts} {defs : List (Bytes × List Value)} {n : Nat}
    {ds ds' : List Decl} {s s' : TSt} (hs : s.vars = (knownVars o defs).map List.reverse)
    (h : transformDeclarations fo o n ds s = .ok ds' s') : Pieces (DeclPiece fo o defs) ds ds' := by
  refine (mapConcat_pieces (I := fun s => s.vars = (knownVars o defs).map List.reverse) hs (fun d _ s s' out hs h => ?_) h).1
  cases d with
  | raw sp v =>
    obtain ⟨rfl, rfl⟩ := tpure_ok h
    exact ⟨.raw, hs⟩
  | decl sp prop vals imp =>
    obtain ⟨vals', s1, h1, h⟩ := tbind_ok h
    obtain ⟨rfl, rfl⟩ := tpure_ok h
    refine ⟨.decl ?_, ((LogOnly.transformValues fo o n vals).ok h1).vars.trans hs⟩
    exact (mapConcat_pieces (f := transformValue fo o n) (R := ValuePiece fo o defs)
      (I := fun s => s.vars = (knownVars o defs).map List.reverse) hs (fun x _ s s' out hs h =>
      ⟨transformValue_piece hs h, ((LogOnly.transformValue fo o n x).ok h).vars.trans hs⟩) h1).1

/-! ### Selectors -/

theorem transformSelectors_pieces (o : TOpts) : ∀ (l : List Sel), Pieces (SelPiece o) l (transformSelectors o l)
  | [] => .nil
  | s :: l => by
    have ih := transformSelectors_pieces o l
    unfold transformSelectors at ih ⊢
    rw [List.flatMap_cons]
    refine .cons ?_ ih
    obtain ⟨sp, parts⟩ := s
    have hany : ∀ p, isAnyLink o p = (p.anyLink && o.anyLink) := by
      intro p
      cases p <;> simp [isAnyLink, SelPart.anyLink]
    by_cases h : o.anyLink = true ∧ ∃ p ∈ parts, p.anyLink = true
    · have key : ∀ name : Bytes, Sel.mk sp (parts.map (replaceAnyLink o name)) = (Sel.mk sp parts).linkAs name := by
        intro name
        unfold Sel.linkAs
        congr 1
        refine List.map_congr_left fun p _ => ?_
        unfold replaceAnyLink SelPart.linkAs
        rw [hany, h.1, Bool.and_true]
      have hc : 0 < parts.countP (isAnyLink o) := by
        obtain ⟨p, hp, hq⟩ := h.2
        exact List.countP_pos_iff.2 ⟨p, hp, by rw [hany, hq, h.1]; rfl⟩
      unfold transformSelector
      dsimp only
      rw [key, key]
      refine .split h.1 h.2 (fun t ht => ?_) (by simp) ?_
      · rw [List.mem_append] at ht
        rcases ht with ht | ht
        · exact .inr (List.eq_of_mem_replicate ht)
        · exact .inl (List.mem_singleton.1 ht)
      · rw [List.mem_append, List.mem_replicate]
        exact .inl ⟨by omega, rfl⟩
    · have h0 : ∀ p ∈ parts, isAnyLink o p = false := by
        intro p hp
        rw [hany, ← Bool.not_eq_true, Bool.and_eq_true]
        exact fun hc => h ⟨hc.2, p, hp, hc.1⟩
      have e1 : parts.countP (isAnyLink o) = 0 := by
        rw [List.countP_eq_zero]
        intro p hp
        rw [h0 p hp]
        decide
      have e2 : ∀ name, parts.map (replaceAnyLink o name) = parts := by
        intro name
        conv => rhs; rw [← List.map_id parts]
        apply List.map_congr_left
        intro p hp
        unfold replaceAnyLink
        rw [if_neg (by rw [h0 p hp]; decide)]
        rfl
      have : transformSelector o (.mk sp parts) = [.mk sp parts] := by
        unfold transformSelector
        dsimp only
        rw [e1, e2, e2]
        rfl
      rw [this]
      refine .same fun ho p hp => ?_
      have := h0 p hp
      rw [hany, ho, Bool.and_true] at this
      exact this

/-! ### Media queries -/

theorem addToValue_moved {fo : FloatOps} {v v' : Value} {d : fo.F} {s s' : TSt} (h : addToValue fo v (some d) s = .ok v' s') :
    Moved fo d v v' := by
  unfold addToValue at h
  dsimp only at h
  cases v with
  | dim sp num unit =>
    dsimp only at h
    rcases hp : fo.parse num with _ | f <;> rw [hp] at h <;> dsimp only at h
    · obtain ⟨_, _, _, h⟩ := tbind_ok h
      obtain ⟨rfl, _⟩ := tpure_ok h
      refine .notNum fun sp' num' unit' f e => ?_
      cases e
      rw [hp]
      simp
    · obtain ⟨rfl, _⟩ := tpure_ok h
      exact .num hp
  | _ =>
    obtain ⟨_, _, _, h⟩ := tbind_ok h
    obtain ⟨rfl, _⟩ := tpure_ok h
    exact .notNum (by simp)

theorem rangePart_left {fo : FloatOps} {prop op : Bytes} {v : Value} {p : MQPart} {s s' : TSt}
    (h : rangePart fo (leftDir fo op) prop v s = .ok p s') : BoundPart fo prop v op p := by
  unfold rangePart at h
  obtain ⟨v', s1, h1, h⟩ := tbind_ok h
  obtain ⟨rfl, _⟩ := tpure_ok h
  unfold leftDir at h1 ⊢
  by_cases e1 : op = b!">"
  · subst e1
    exact .gt (addToValue_moved h1) rfl
  · by_cases e2 : op = b!">="
    · subst e2
      obtain ⟨rfl, _⟩ := tpure_ok h1
      exact .ge rfl
    · by_cases e3 : op = b!"<"
      · subst e3
        exact .lt (addToValue_moved h1) rfl
      · by_cases e4 : op = b!"<="
        · subst e4
          obtain ⟨rfl, _⟩ := tpure_ok h1
          exact .le rfl
        · exact .bad (by simp [e1, e2, e3, e4])

theorem rangePart_right {fo : FloatOps} {prop op : Bytes} {v : Value} {p : MQPart} {s s' : TSt}
    (h : rangePart fo (rightDir fo op) prop v s = .ok p s') : BoundPart fo prop v (flipOp op) p := by
  unfold rangePart at h
  obtain ⟨v', s1, h1, h⟩ := tbind_ok h
  obtain ⟨rfl, _⟩ := tpure_ok h
  unfold rightDir at h1 ⊢
  by_cases e1 : op = b!">"
  · subst e1
    exact .lt (addToValue_moved h1) rfl
  · by_cases e2 : op = b!">="
    · subst e2
      obtain ⟨rfl, _⟩ := tpure_ok h1
      exact .le rfl
    · by_cases e3 : op = b!"<"
      · subst e3
        exact .gt (addToValue_moved h1) rfl
      · by_cases e4 : op = b!"<="
        · subst e4
          obtain ⟨rfl, _⟩ := tpure_ok h1
          exact .ge rfl
        · have : flipOp op = op := by
            unfold flipOp
            rw [if_neg e3, if_neg e4, if_neg e1, if_neg e2]
          rw [this]
          exact .bad (by simp [e1, e2, e3, e4])

theorem isNil_iff (v : Value) : v.isNil = true ↔ v = .nil := by cases v <;> simp [Value.isNil]

/-- A range, when ranges are transformed. -/
theorem range_piece {fo : FloatOps} {o : TOpts} (ho : o.mediaFeatureRanges = true) {part : MQPart} {prop op : Bytes}
    {left right : Value} {out : List MQPart} {s s' : TSt}
    (h : transformMediaFeatureRange fo o part prop left op right s = .ok out s') : RangePiece fo prop op left right out := by
  unfold transformMediaFeatureRange at h
  rw [if_neg (by simp [ho])] at h
  obtain ⟨l, s1, h1, h⟩ := tbind_ok h
  obtain ⟨r, s2, h2, h⟩ := tbind_ok h
  obtain ⟨rfl, _⟩ := tpure_ok h
  have hl : (left = .nil ∧ l = []) ∨ (left ≠ .nil ∧ ∃ p, l = [p] ∧ BoundPart fo prop left op p) := by
    split at h1
    · rename_i hn
      obtain ⟨rfl, _⟩ := tpure_ok h1
      exact .inl ⟨(isNil_iff _).1 hn, rfl⟩
    · rename_i hn
      obtain ⟨p, _, h3, h1⟩ := tbind_ok h1
      obtain ⟨rfl, _⟩ := tpure_ok h1
      exact .inr ⟨fun e => hn ((isNil_iff _).2 e), p, rfl, rangePart_left h3⟩
  have hr : (right = .nil ∧ r = []) ∨ (right ≠ .nil ∧ ∃ p, r = [p] ∧ BoundPart fo prop right (flipOp op) p) := by
    split at h2
    · rename_i hn
      obtain ⟨rfl, _⟩ := tpure_ok h2
      exact .inl ⟨(isNil_iff _).1 hn, rfl⟩
    · rename_i hn
      obtain ⟨p, _, h3, h2⟩ := tbind_ok h2
      obtain ⟨rfl, _⟩ := tpure_ok h2
      exact .inr ⟨fun e => hn ((isNil_iff _).2 e), p, rfl, rangePart_right h3⟩
  rcases hl with ⟨rfl, rfl⟩ | ⟨hl, p, rfl, hp⟩ <;> rcases hr with ⟨rfl, rfl⟩ | ⟨hr, q, rfl, hq⟩
  · exact .neither
  · have e1 : (right.isNil || Value.nil.isNil) = true := by simp [Value.isNil]
    rw [e1]
    exact .right hr hq
  · have e1 : (Value.nil.isNil || left.isNil) = true := rfl
    rw [e1]
    exact .left hl hp
  · have e1 : (right.isNil || left.isNil) = false := by
      cases left <;> cases right <;> simp_all [Value.isNil]
    rw [e1]
    exact .both hl hr hp hq

theorem MQPart.custom?_plain {sp psp : Span} {prop : Bytes} {value : Value} :
    (MQPart.plain sp psp prop value).custom? = if value.isNil ∧ hasPrefix prop b!"--" = true then some prop else none := by
  cases value <;> simp [MQPart.custom?, Value.isNil, customPrefix]

/-- The custom media queries that are knownVars. -/
def knownMedia (o : TOpts) (defs : List (Bytes × MQ)) : Option (List (Bytes × MQ)) :=
  if o.customMediaQueries then some defs else none

theorem transformMQPart_piece {fo : FloatOps} {o : TOpts} {defs : List (Bytes × MQ)} {p : MQPart} {out : List MQPart}
    {s s' : TSt} (hs : s.media = (knownMedia o defs).map List.reverse) (h : transformMQPart fo o p s = .ok out s') :
    MQPartPiece fo o defs p out := by
  unfold transformMQPart at h
  cases p with
  | plain sp psp prop value =>
    dsimp only at h
    split at h
    · rename_i hc
      obtain ⟨rfl, _⟩ := tpure_ok h
      refine .same (fun _ name e => ?_) fun _ => rfl
      rw [MQPart.custom?_plain] at e
      split at e
      · rename_i hc'
        rw [hc'.1, hc'.2] at hc
        cases hc
      · cases e
    · rename_i hc
      have hcustom : (MQPart.plain sp psp prop value).custom? = some prop := by
        rw [MQPart.custom?_plain, if_pos]
        simpa using hc
      rw [tbind_eq_ok (show T.get s = .ok s s from rfl), hs] at h
      unfold knownMedia at h
      by_cases ho : o.customMediaQueries = true
      · rw [if_pos ho] at h
        dsimp only [Option.map_some] at h
        rcases ha : assoc defs.reverse prop with _ | q <;> rw [ha] at h <;> dsimp only at h <;>
          rw [← lastDef_eq] at ha
        · obtain ⟨rfl, _⟩ := tpure_ok h
          refine .same (fun _ name e => ?_) fun _ => rfl
          rw [hcustom] at e
          cases e
          exact ha
        · obtain ⟨rfl, _⟩ := tpure_ok h
          exact .custom ho hcustom ha
      · rw [if_neg ho] at h
        obtain ⟨rfl, _⟩ := tpure_ok h
        exact .same (fun h => absurd h ho) fun _ => rfl
  | range sp psp prop l op r =>
    dsimp only at h
    by_cases ho : o.mediaFeatureRanges = true
    · exact .range ho (range_piece ho h)
    · unfold transformMediaFeatureRange at h
      rw [if_pos (by simpa using ho)] at h
      obtain ⟨rfl, _⟩ := tpure_ok h
      exact .same (fun _ name e => by cases e) fun h => absurd h ho
  | ident =>
    obtain ⟨rfl, _⟩ := tpure_ok h
    exact .same (fun _ name e => by cases e) fun _ => rfl
  | inParens =>
    obtain ⟨rfl, _⟩ := tpure_ok h
    exact .same (fun _ name e => by cases e) fun _ => rfl

theorem transformMediaQueries_pieces {fo : FloatOps} {o : TOpts} {defs : List (Bytes × MQ)} {qs qs' : List MQ}
    {s s' : TSt} (hs : s.media = (knownMedia o defs).map List.reverse) (h : transformMediaQueries fo o qs s = .ok qs' s') :
    Pieces (MQPiece fo o defs) qs qs' := by
  refine (mapConcat_pieces (I := fun s => s.media = (knownMedia o defs).map List.reverse) hs
    (fun q _ s s' out hs h => ?_) h).1
  obtain ⟨parts', s1, h1, h⟩ := tbind_ok h
  obtain ⟨rfl, rfl⟩ := tpure_ok h
  have := mapConcat_pieces (R := MQPartPiece fo o defs) (I := fun s => s.media = (knownMedia o defs).map List.reverse) hs
    (fun p _ s s' out hs h =>
      ⟨transformMQPart_piece hs h, ((LogOnly.transformMQPart fo o p).ok h).media.trans hs⟩) h1
  exact ⟨.mk this.1, this.2⟩

/-! ### Nodes -/

theorem collectVars_some : ∀ {ds : List Decl} {s : TSt} {vs : List (Bytes × List Value)}, s.vars = some vs →
    collectVars ds s = .ok (ds.filter fun d => d.custom?.isNone)
      { s with vars := some ((ds.filterMap Decl.custom?).reverse ++ vs) }
  | [], s, vs, h => by
    obtain ⟨_, _, _⟩ := s
    cases h
    rfl
  | .raw sp v :: ds, s, vs, h => by
    rw [collectVars, tbind_eq_ok (collectVars_some h)]
    rfl
  | .decl sp prop vals imp :: ds, s, vs, h => by
    rw [collectVars]
    by_cases hp : hasPrefix prop b!"--" = true
    · dsimp only
      rw [if_pos hp, h]
      dsimp only
      rw [collectVars_some (vs := (prop, vals) :: vs) rfl]
      have hc : (Decl.decl sp prop vals imp).custom? = some (prop, vals) := by
        unfold Decl.custom?
        dsimp only
        rw [if_pos ((customPrefix prop).1 hp)]
      rw [List.filter_cons_of_neg (by rw [hc]; simp), List.filterMap_cons_some hc]
      simp
    · dsimp only
      rw [if_neg hp, tbind_eq_ok (collectVars_some h)]
      have hc : (Decl.decl sp prop vals imp).custom? = none := by
        unfold Decl.custom?
        dsimp only
        rw [if_neg fun e => hp ((customPrefix prop).2 e)]
      rw [List.filter_cons_of_pos (by rw [hc]; rfl), List.filterMap_cons_none hc]
      rfl

theorem collectVars_off : ∀ {ds : List Decl} {s : TSt}, s.vars = none → collectVars ds s = .ok ds s
  | [], s, _ => rfl
  | .raw sp v :: ds, s, h => by
    rw [collectVars, tbind_eq_ok (collectVars_off h)]
    rfl
  | .decl sp prop vals imp :: ds, s, h => by
    rw [collectVars]
    split
    · dsimp only
      rw [h]
      dsimp only
      rw [tbind_eq_ok (collectVars_off h)]
      rfl
    · dsimp only
      rw [tbind_eq_ok (collectVars_off h)]
      rfl

theorem takes_iff {r : QRule} {l : SelList} {b : Bool} (hp : r.prelude = .sels l) (h : collectsRoot l.sels = some b) :
    r.takes ↔ b = true := by
  unfold collectsRoot at h
  unfold QRule.takes
  split at h
  · rename_i hany
    rw [List.any_eq_true] at hany
    obtain ⟨t, ht, hlen⟩ := hany
    rcases hl : l.sels with _ | ⟨s, rest⟩ <;> rw [hl] at h <;> dsimp only at h
    · cases h
    · split at h
      · cases h
      · rename_i sp name args more hparts
        cases h
        constructor
        · rintro ⟨l', s', rest', sp', args', more', h1, h2, h3, _⟩
          rw [hp] at h1
          cases h1
          rw [hl] at h2
          cases h2
          rw [hparts] at h3
          cases h3
          decide
        · intro hn
          rw [beq_iff_eq] at hn
          subst hn
          exact ⟨l, s, rest, _, _, _, hp, hl, hparts, t, ht, by simpa using hlen⟩
      · rename_i x more hx hparts
        cases h
        constructor
        · rintro ⟨l', s', rest', sp', args', more', h1, h2, h3, _⟩
          rw [hp] at h1
          cases h1
          rw [hl] at h2
          cases h2
          rw [hparts] at h3
          cases h3
          exact absurd rfl (hx _ _ _)
        · intro h
          cases h
  · rename_i hany
    cases h
    constructor
    · rintro ⟨l', s', rest', sp', args', more', h1, h2, h3, t, ht, hlen⟩
      rw [hp] at h1
      cases h1
      exact absurd (List.any_eq_true.2 ⟨t, ht, by simpa using hlen⟩) hany
    · intro h
      cases h

/-- The state after the nodes `pre`. -/
structure After (o : TOpts) (pre : List Node) (s : TSt) : Prop where
  vars : ∃ defs, VarDefs pre defs ∧ s.vars = (knownVars o defs).map List.reverse
  media : s.media = (knownMedia o (mediaDefs pre)).map List.reverse

theorem mediaDefs_snoc_none {pre : List Node} {n : Node} (h : n.customMedia? = none) :
    mediaDefs (pre ++ [n]) = mediaDefs pre := by
  unfold mediaDefs
  rw [List.filterMap_append, List.filterMap_cons_none h]
  simp

theorem mediaDefs_snoc_some {pre : List Node} {a : AtRule} {d : Bytes × MQ} (h : a.customMedia? = some d) :
    mediaDefs (pre ++ [.at a]) = mediaDefs pre ++ [d] := by
  unfold mediaDefs
  rw [List.filterMap_append, List.filterMap_cons_some (show (Node.at a).customMedia? = some d from h)]
  simp

theorem collectMedia_after {o : TOpts} {pre : List Node} {a : AtRule} {s s' : TSt} {x : Unit} (ha : a.name = b!"custom-media")
    (hi : After o pre s) (h : collectMedia a.preludes s = .ok x s') : After o (pre ++ [.at a]) s' := by
  obtain ⟨⟨defs, hd, hv⟩, hm⟩ := hi
  have hc1 : ∀ {sp name q}, a.preludes = [.ident sp name, .mq q] → a.customMedia? = some (name, q) := by
    intro sp name q e
    unfold AtRule.customMedia?
    rw [if_pos ha, e]
  have hc2 : (∀ sp name q, a.preludes ≠ [.ident sp name, .mq q]) → a.customMedia? = none := by
    intro e
    unfold AtRule.customMedia?
    rw [if_pos ha]
    split
    · rename_i h'
      exact absurd h' (e _ _ _)
    · rfl
  unfold collectMedia at h
  by_cases ho : o.customMediaQueries = true
  · have hm' : s.media = some (mediaDefs pre).reverse := by
      rw [hm]
      unfold knownMedia
      rw [if_pos ho]
      rfl
    rw [hm'] at h
    dsimp only at h
    split at h
    · rename_i sp name q hps
      cases h
      refine ⟨⟨defs, .at hd, hv⟩, ?_⟩
      unfold knownMedia
      rw [if_pos ho, mediaDefs_snoc_some (hc1 hps)]
      simp
    · rename_i hps
      cases h
      refine ⟨⟨defs, .at hd, hv⟩, ?_⟩
      rw [mediaDefs_snoc_none (show (Node.at a).customMedia? = none from hc2 hps)]
      exact hm
  · have hm' : s.media = none := by
      rw [hm]
      unfold knownMedia
      rw [if_neg ho]
      rfl
    rw [hm'] at h
    cases h
    refine ⟨⟨defs, .at hd, hv⟩, ?_⟩
    show s.media = _
    rw [hm']
    unfold knownMedia
    rw [if_neg ho]
    rfl

theorem After.same {o : TOpts} {pre : List Node} {a : AtRule} {s s' : TSt} (hi : After o pre s) (hc : a.customMedia? = none)
    (hf : Framed s s') : After o (pre ++ [.at a]) s' := by
  obtain ⟨⟨defs, hd, hv⟩, hm⟩ := hi
  refine ⟨⟨defs, .at hd, hf.vars.trans hv⟩, ?_⟩
  rw [mediaDefs_snoc_none (show (Node.at a).customMedia? = none from hc)]
  exact hf.media.trans hm

theorem transformRule_piece {fo : FloatOps} {o : TOpts} {n : Nat} {pre : List Node} {r : QRule} {out : List Node} {s s' : TSt}
    (hi : After o pre s) (h : transformRule fo o n r s = .ok out s') :
    NodePiece fo o pre (.rule r) out ∧ After o (pre ++ [.rule r]) s' := by
  unfold transformRule at h
  obtain ⟨sp, prelude, block⟩ := r
  rcases prelude with _ | l | ⟨ksp, ks⟩ <;> dsimp only at h
  · cases h
  · obtain ⟨lsp, sels⟩ := l
    rcases hroot : collectsRoot sels with _ | root <;> rw [hroot] at h <;> dsimp only at h
    · cases h
    · rcases block with _ | b <;> dsimp only at h
      · cases h
      · obtain ⟨bsp, decls⟩ := b
        have htakes := takes_iff (r := ⟨sp, .sels ⟨lsp, sels⟩, some ⟨bsp, decls⟩⟩) rfl hroot
        obtain ⟨⟨defs, hd, hv⟩, hm⟩ := hi
        have hm2 : mediaDefs (pre ++ [.rule ⟨sp, .sels ⟨lsp, sels⟩, some ⟨bsp, decls⟩⟩]) = mediaDefs pre :=
          mediaDefs_snoc_none rfl
        -- the state and the declarations after collecting
        have key : ∃ defs' ds s1, VarDefs (pre ++ [.rule ⟨sp, .sels ⟨lsp, sels⟩, some ⟨bsp, decls⟩⟩]) defs' ∧
            RuleKept o ⟨sp, .sels ⟨lsp, sels⟩, some ⟨bsp, decls⟩⟩ ⟨bsp, decls⟩ ds ∧
            s1.vars = (knownVars o defs').map List.reverse ∧ s1.media = s.media ∧
            (if root = true then collectVars decls else pure decls : T (List Decl)) s = .ok ds s1 := by
          by_cases hr : root = true
          · have ht := htakes.2 hr
            by_cases ho : o.customProperties = true
            · have hv' : s.vars = some defs.reverse := by
                rw [hv]
                unfold knownVars
                rw [if_pos ho]
                rfl
              refine ⟨_, _, { s with vars := some ((decls.filterMap Decl.custom?).reverse ++ defs.reverse) },
                .rule hd ⟨_, rfl, .inl ⟨ht, rfl⟩⟩, .inl ⟨ho, ht, rfl⟩, ?_, ?_, ?_⟩
              · unfold knownVars
                rw [if_pos ho]
                simp
              · rfl
              · rw [if_pos hr]
                exact collectVars_some hv'
            · have hv' : s.vars = none := by
                rw [hv]
                unfold knownVars
                rw [if_neg ho]
                rfl
              refine ⟨_, _, s, .rule hd ⟨_, rfl, .inl ⟨ht, rfl⟩⟩, .inr ⟨fun h => ho h.1, rfl⟩, ?_, rfl, ?_⟩
              · rw [hv']
                unfold knownVars
                rw [if_neg ho]
                rfl
              · rw [if_pos hr]
                exact collectVars_off hv'
          · have ht : ¬ _ := fun h => hr (htakes.1 h)
            refine ⟨_, _, s, .rule hd ⟨_, rfl, .inr ⟨ht, rfl⟩⟩, .inr ⟨fun h => ht h.2, rfl⟩, ?_, rfl, ?_⟩
            · rw [List.append_nil]
              exact hv
            · rw [if_neg hr]
              rfl
        obtain ⟨defs', ds, s1, hd', hk, hv1, hm1, hc⟩ := key
        rw [tbind_eq_ok hc] at h
        obtain ⟨ds', s2, h2, h⟩ := tbind_ok h
        have hp := transformDeclarations_pieces hv1 h2
        have hf := (LogOnly.transformDeclarations fo o n ds).ok h2
        have hafter : After o (pre ++ [.rule ⟨sp, .sels ⟨lsp, sels⟩, some ⟨bsp, decls⟩⟩]) s2 :=
          ⟨⟨defs', hd', hf.vars.trans hv1⟩, by rw [hf.media, hm1, hm2, hm]⟩
        have hempty : ds = [] ↔ ds' = [] := by
          constructor
          · rintro rfl
            cases hp
            rfl
          · rintro rfl
            generalize hx : ([] : List Decl) = x at hp
            cases hp with
            | nil => rfl
            | cons hd _ => cases hd <;> cases hx
        split at h
        · rename_i he
          obtain ⟨rfl, rfl⟩ := tpure_ok h
          rw [List.isEmpty_iff] at he
          rw [hempty.2 he] at hk
          exact ⟨.emptyRule rfl hk, hafter⟩
        · rename_i he
          obtain ⟨rfl, rfl⟩ := tpure_ok h
          rw [List.isEmpty_iff] at he
          exact ⟨.rule hd' hk hp (transformSelectors_pieces o sels) (fun e => he (hempty.1 e)), hafter⟩
  · obtain ⟨_, _, _, h⟩ := tbind_ok h
    cases h

theorem transformNode_piece {fo : FloatOps} {o : TOpts} {n : Nat} {pre : List Node} {x : Node} {out : List Node} {s s' : TSt}
    (hi : After o pre s) (h : transformNode fo o (some []) n x s = .ok out s') :
    NodePiece fo o pre x out ∧ After o (pre ++ [x]) s' := by
  cases n with
  | zero => cases h
  | succ n =>
    cases x with
    | rule r =>
      rw [transformNode] at h
      exact transformRule_piece hi h
    | «at» a =>
      rw [transformNode] at h
      unfold transformAt at h
      split at h
      · rename_i hname
        obtain ⟨rfl, rfl⟩ := tpure_ok h
        refine ⟨.other (by rw [hname]; decide) (by rw [hname]; decide), hi.same ?_ (Framed.refl _)⟩
        unfold AtRule.customMedia?
        rw [if_neg (by rw [hname]; decide)]
      · split at h
        · rename_i hname
          obtain ⟨_, s1, h1, h⟩ := tbind_ok h
          obtain ⟨rfl, rfl⟩ := tpure_ok h
          exact ⟨.customMedia hname, collectMedia_after hname hi h1⟩
        · rename_i hcm
          have hnone : a.customMedia? = none := by
            unfold AtRule.customMedia?
            rw [if_neg hcm]
          split at h
          · rename_i hname
            obtain ⟨src, sp, name, preludes, block⟩ := a
            dsimp only at hname h
            subst hname
            rcases preludes with _ | ⟨_ | _ | (_ | l) | _, rest⟩ <;> try cases h
            obtain ⟨lsp, qs⟩ := l
            obtain ⟨qs', s1, h1, h⟩ := tbind_ok h
            obtain ⟨rfl, rfl⟩ := tpure_ok h
            exact ⟨.media (transformMediaQueries_pieces hi.media h1),
              hi.same hnone ((LogOnly.transformMediaQueries fo o qs).ok h1)⟩
          · rename_i hname
            obtain ⟨rfl, rfl⟩ := tpure_ok h
            exact ⟨.other hcm hname, hi.same hnone (Framed.refl _)⟩

theorem transformNodes_pieces {fo : FloatOps} {o : TOpts} {n : Nat} : ∀ {ns pre out : List Node} {s s' : TSt},
    After o pre s → transformNodes fo o (some []) n ns s = .ok out s' →
    NodePieces fo o pre ns out ∧ After o (pre ++ ns) s'
  | [], pre, out, s, s', hi, h => by
    obtain ⟨rfl, rfl⟩ := tpure_ok h
    rw [List.append_nil]
    exact ⟨.nil, hi⟩
  | x :: ns, pre, out, s, s', hi, h => by
    obtain ⟨o1, s1, o2, h1, h2, rfl⟩ := mapConcat_cons_ok h
    obtain ⟨p1, i1⟩ := transformNode_piece hi h1
    obtain ⟨p2, i2⟩ := transformNodes_pieces i1 h2
    rw [List.append_assoc] at i2
    exact ⟨.cons p1 p2, i2⟩

theorem After.init (o : TOpts) (repl : Replacements) : After o [] (TSt.init o repl) := by
  refine ⟨⟨[], .nil, ?_⟩, ?_⟩
  · unfold TSt.init knownVars
    dsimp only
    split <;> rfl
  · unfold TSt.init knownMedia
    dsimp only
    split <;> rfl

end Cssc
