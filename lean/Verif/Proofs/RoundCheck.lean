import Verif.Spec.Printable
import Verif.Printer

/-!
# Checking that a stylesheet is printable

Executable tests that imply the conditions of `Spec/Printable.lean`, to apply theorems about printable
stylesheets to concrete ones.
-/

namespace Cssc

/-! ### Tokens -/

def isIdentB (w : Bytes) : Bool :=
  w.all isNameByte && (match w with
    | b :: t => isLetter b || (decide (0x80 ≤ b.toNat) && !isDigit (decodeRune (b :: t)).1) ||
        (b == 45 && match t with
          | c :: u => isLetter c || (decide (0x80 ≤ c.toNat) && !isDigit (decodeRune (c :: u)).1) || (c == 45 && !u.isEmpty)
          | [] => false)
    | [] => false)

theorem isIdentB_sound {w : Bytes} (h : isIdentB w = true) : IsIdent w := by
  unfold isIdentB at h
  rw [Bool.and_eq_true, List.all_eq_true] at h
  refine ⟨h.1, ?_⟩
  replace h := h.2
  cases w with
  | nil => simp at h
  | cons b t =>
    simp only [Bool.or_eq_true, Bool.and_eq_true, decide_eq_true_eq, Bool.not_eq_true', beq_iff_eq] at h
    rcases h with (h | h) | h
    · exact .inl ⟨b, t, rfl, h⟩
    · exact .inr (.inl ⟨b, t, rfl, h.1, h.2⟩)
    · obtain ⟨rfl, h⟩ := h
      cases t with
      | nil => simp at h
      | cons c u =>
        simp only [Bool.or_eq_true, Bool.and_eq_true, decide_eq_true_eq, Bool.not_eq_true', beq_iff_eq] at h
        rcases h with (h | h) | ⟨rfl, h⟩
        · exact .inr (.inr (.inl ⟨c, u, rfl, h⟩))
        · exact .inr (.inr (.inr (.inl ⟨c, u, rfl, h.1, h.2⟩)))
        · cases u with
          | nil => simp at h
          | cons d u =>
            exact .inr (.inr (.inr (.inr ⟨d, u, rfl⟩)))

def isWordB (w : Bytes) : Bool := !w.isEmpty && decide (w ≠ [45]) && w.all isNameByte

theorem isWordB_sound {w : Bytes} (h : isWordB w = true) : IsWord w := by
  simp only [isWordB, Bool.and_eq_true, Bool.not_eq_true', List.isEmpty_eq_false_iff, decide_eq_true_eq, List.all_eq_true] at h
  exact ⟨h.1.1, h.1.2, h.2⟩

/-- Sign, integer digits, fraction and exponent of a text. -/
def numSplit (n : Bytes) : Bytes × Bytes × Bytes × Bytes :=
  let (sgn, r) : Bytes × Bytes := match n with
    | 43 :: t => ([43], t)
    | 45 :: t => ([45], t)
    | t => ([], t)
  let ds := r.takeWhile isAD
  let r := r.dropWhile isAD
  let (fr, r) : Bytes × Bytes := match r with
    | 46 :: t => (46 :: t.takeWhile isAD, t.dropWhile isAD)
    | t => ([], t)
  (sgn, ds, fr, r)

def exOkB : Bytes → Bool
  | [] => true
  | e :: t => (e == 101 || e == 69) && (match t with
    | [] => false
    | c :: f => if c = 43 ∨ c = 45 then !f.isEmpty && f.all isAD else isAD c && f.all isAD)

theorem exOkB_sound {ex : Bytes} (h : exOkB ex = true) : ex = [] ∨ ∃ e sg f, ex = e :: (sg ++ f) ∧ (e = 101 ∨ e = 69) ∧ IsSign sg ∧ f ≠ [] ∧
    ∀ b ∈ f, isAD b = true := by
  cases ex with
  | nil => exact .inl rfl
  | cons e t =>
    simp only [exOkB, Bool.and_eq_true, Bool.or_eq_true, beq_iff_eq] at h
    obtain ⟨he, h⟩ := h
    cases t with
    | nil => simp at h
    | cons c f =>
      simp only at h
      split at h
      · rename_i hc
        simp only [Bool.and_eq_true, Bool.not_eq_true', List.isEmpty_eq_false_iff, List.all_eq_true] at h
        exact .inr ⟨e, [c], f, rfl, he, hc.elim (fun h => .inr (.inl (by rw [h]))) (fun h => .inr (.inr (by rw [h]))), h.1, h.2⟩
      · simp only [Bool.and_eq_true, List.all_eq_true] at h
        exact .inr ⟨e, [], c :: f, rfl, he, .inl rfl, by simp, by simpa using h⟩

def isNumeralB (n sgn ds fr ex : Bytes) : Bool :=
  decide (n = sgn ++ (ds ++ (fr ++ ex))) && (sgn == [] || sgn == [43] || sgn == [45]) && ds.all isAD &&
    (fr.isEmpty || (fr.head? == some 46 && !fr.tail.isEmpty && fr.tail.all isAD)) && exOkB ex && (!ds.isEmpty || !fr.isEmpty)

def isNumB (n : Bytes) : Bool :=
  isNumeralB n (numSplit n).1 (numSplit n).2.1 (numSplit n).2.2.1 (numSplit n).2.2.2

theorem isNumeralB_sound {n sgn ds fr ex : Bytes} (h : isNumeralB n sgn ds fr ex = true) : IsNum n := by
  unfold isNumeralB at h
  simp only [Bool.and_eq_true, Bool.or_eq_true, beq_iff_eq, decide_eq_true_eq, List.all_eq_true, List.isEmpty_iff,
    Bool.not_eq_true', List.isEmpty_eq_false_iff] at h
  obtain ⟨⟨⟨⟨⟨h1, h2⟩, h3⟩, h4⟩, h5⟩, h6⟩ := h
  refine ⟨sgn, ds, fr, ex, ⟨by unfold IsSign; rcases h2 with (h | h) | h <;> simp [h], h3, ?_, exOkB_sound h5, h6⟩, h1⟩
  rcases h4 with h | ⟨⟨h, h'⟩, h''⟩
  · exact .inl h
  · cases fr with
    | nil => simp at h
    | cons x f =>
      simp only [List.head?_cons, Option.some.injEq] at h
      exact .inr ⟨f, by rw [h], h', h''⟩

theorem isNumB_sound {n : Bytes} (h : isNumB n = true) : IsNum n := isNumeralB_sound h

instance : DecidablePred IsUrlWord := fun w => by unfold IsUrlWord; infer_instance

def PTok.wfB : PTok → Bool
  | .punct b => (punctTok b).isSome
  | .delim b => isLoneDelim b || b == 43 || b == 45 || b == 46 || b == 47 || b == 60 || b == 35 || b == 64
  | .ident w => isIdentB w
  | .func w => isIdentB w
  | .at w => isWordB w
  | .hash w => !w.isEmpty && w.all isNameByte
  | .number n => isNumB n
  | .percentage n => isNumB n
  | .dimension n u => isNumB n && isWordB u
  | .string m body => (m == 34 || m == 39) && isStringBody m body
  | .ws w => !w.isEmpty && w.all isWsByte
  | .url w v => decide (IsUrlWord w) && isUrlBody v

theorem PTok.wfB_sound {t : PTok} (h : t.wfB = true) : t.Wf := by
  cases t <;> simp only [PTok.wfB, PTok.Wf, Bool.and_eq_true, Bool.or_eq_true, beq_iff_eq, decide_eq_true_eq, List.all_eq_true,
    Bool.not_eq_true', List.isEmpty_eq_false_iff] at h ⊢
  · exact h
  · simpa [or_assoc] using h
  · exact isIdentB_sound h
  · exact isIdentB_sound h
  · exact isWordB_sound h
  · exact h
  · exact isNumB_sound h
  · exact isNumB_sound h
  · exact ⟨isNumB_sound h.1, isWordB_sound h.2⟩
  · exact h
  · exact h
  · exact h

def wordStopB : Bytes → Bool
  | [] => true
  | b :: _ => decide (b.toNat < 0x80) && b != 13 && !isNameByte b && b != 92

theorem wordStopB_sound {r : Bytes} (h : wordStopB r = true) : WordStop r := by
  cases r with
  | nil => exact .inl rfl
  | cons b t =>
    simp only [wordStopB, Bool.and_eq_true, decide_eq_true_eq, bne_iff_ne, Bool.not_eq_true'] at h
    exact .inr ⟨b, t, rfl, h.1.1.1, h.1.1.2, h.1.2, h.2⟩

def numStopB : Bytes → Bool
  | [] => true
  | b :: t => decide (b.toNat < 0x80) && b != 13 && !isAD b && (b != 46 || !isDigit (headRune t)) &&
      ((b != 101 && b != 69) || !(isDigit (headRune t) ||
      ((headRune t == r!"+" || headRune t == r!"-") && isDigit (headRune (t.drop 1)))))

theorem numStopB_sound {r : Bytes} (h : numStopB r = true) : NumStop r := by
  cases r with
  | nil => exact .inl rfl
  | cons b t =>
    simp only [numStopB, Bool.and_eq_true, decide_eq_true_eq, bne_iff_ne, Bool.not_eq_true', Bool.or_eq_true] at h
    obtain ⟨⟨⟨⟨h1, h2⟩, h3⟩, h4⟩, h5⟩ := h
    refine .inr ⟨b, t, rfl, h1, h2, h3, fun e => h4.resolve_left (by simpa using e), fun e => ?_⟩
    have h5 := h5.resolve_left (by rintro ⟨h, h'⟩; exact e.elim h h')
    intro hh
    have : (isDigit (headRune t) || ((headRune t == r!"+" || headRune t == r!"-") && isDigit (headRune (t.drop 1)))) = true := by
      simpa using hh
    rw [h5] at this
    cases this

def PTok.followB : PTok → Bytes → Bool
  | .punct _, _ => true
  | .delim b, rest =>
    isLoneDelim b || (b == 43 && !decide (StartsUnsigned rest)) ||
    (b == 45 && (match rest with
      | [] => true
      | c :: _ => decide (c.toNat < 0x80) && !isNameByte c && c != 46 && c != 92)) ||
    (b == 46 && !decide (StartsNum rest)) ||
    (b == 47 && rest.head? != some 42) ||
    (b == 60 && rest.take 3 != b!"!--") ||
    ((b == 35 || b == 64) && (match rest with
      | [] => true
      | c :: _ => decide (c.toNat < 0x80) && !isNameByte c && c != 92))
  | .ident _, rest => wordStopB rest && rest.head? != some 40
  | .func w, rest => !decide (IsUrlWord w) || rest.head? == some 34 || rest.head? == some 39
  | .at _, rest => wordStopB rest
  | .hash _, rest => wordStopB rest
  | .number _, rest => numStopB rest && wordStopB rest && rest.head? != some 37
  | .percentage _, _ => true
  | .dimension _ u, rest => numStopB (u ++ rest) && wordStopB rest
  | .string _ _, _ => true
  | .ws _, rest => match rest with
    | [] => true
    | b :: _ => !isWsByte b && b != 13
  | .url _ _, _ => true

theorem head_ne {r : Bytes} {x : UInt8} (h : r.head? ≠ some x) : ∀ t, r ≠ x :: t := by
  rintro t rfl
  exact h rfl

theorem head_eq {r : Bytes} {x : UInt8} (h : r.head? = some x) : ∃ t, r = x :: t := by
  cases r with
  | nil => cases h
  | cons y t => cases h; exact ⟨t, rfl⟩

theorem PTok.followB_sound {t : PTok} {rest : Bytes} (h : t.followB rest = true) : t.Follow rest := by
  cases t with
  | punct => trivial
  | percentage => trivial
  | string => trivial
  | url => trivial
  | ident w =>
    simp only [PTok.followB, Bool.and_eq_true, bne_iff_ne] at h
    exact ⟨wordStopB_sound h.1, head_ne h.2⟩
  | func w =>
    simp only [PTok.followB, Bool.or_eq_true, Bool.not_eq_true', decide_eq_false_iff_not, beq_iff_eq] at h
    intro hu
    rcases h with (h | h) | h
    · exact absurd hu h
    · obtain ⟨t, e⟩ := head_eq h
      exact ⟨34, t, e, .inl rfl⟩
    · obtain ⟨t, e⟩ := head_eq h
      exact ⟨39, t, e, .inr rfl⟩
  | «at» w => exact wordStopB_sound h
  | hash w => exact wordStopB_sound h
  | number n =>
    simp only [PTok.followB, Bool.and_eq_true, bne_iff_ne] at h
    exact ⟨numStopB_sound h.1.1, wordStopB_sound h.1.2, head_ne h.2⟩
  | dimension n u =>
    simp only [PTok.followB, Bool.and_eq_true] at h
    exact ⟨numStopB_sound h.1, wordStopB_sound h.2⟩
  | ws w =>
    cases rest with
    | nil => exact .inl rfl
    | cons b t =>
      simp only [PTok.followB, Bool.and_eq_true, Bool.not_eq_true', bne_iff_ne] at h
      exact .inr ⟨b, t, rfl, h.1, h.2⟩
  | delim b =>
    simp only [PTok.followB, Bool.or_eq_true, Bool.and_eq_true, beq_iff_eq, bne_iff_ne, Bool.not_eq_true',
      decide_eq_false_iff_not] at h
    rcases h with (((((h | h) | h) | h) | h) | h) | h
    · exact .inl h
    · exact .inr (.inl h)
    · refine .inr (.inr (.inl ⟨h.1, ?_⟩))
      replace h := h.2
      cases rest with
      | nil => exact .inl rfl
      | cons c t =>
        simp only [Bool.and_eq_true, decide_eq_true_eq, Bool.not_eq_true', bne_iff_ne] at h
        exact .inr ⟨c, t, rfl, h.1.1.1, h.1.1.2, h.1.2, h.2⟩
    · exact .inr (.inr (.inr (.inl h)))
    · exact .inr (.inr (.inr (.inr (.inl ⟨h.1, head_ne h.2⟩))))
    · exact .inr (.inr (.inr (.inr (.inr (.inl ⟨h.1, fun t e => h.2 (by rw [e]; rfl)⟩)))))
    · refine .inr (.inr (.inr (.inr (.inr (.inr ⟨h.1, ?_⟩)))))
      replace h := h.2
      cases rest with
      | nil => exact .inl rfl
      | cons c t =>
        simp only [Bool.and_eq_true, decide_eq_true_eq, Bool.not_eq_true', bne_iff_ne] at h
        exact .inr ⟨c, t, rfl, h.1.1, h.1.2, h.2⟩

def layB : List PTok → Bool
  | [] => true
  | t :: ts => t.wfB && t.followB (texts ts) && layB ts

theorem layB_sound : ∀ {ts : List PTok}, layB ts = true → Lay ts
  | [], _ => trivial
  | t :: ts, h => by
    simp only [layB, Bool.and_eq_true] at h
    exact ⟨PTok.wfB_sound h.1.1, PTok.followB_sound h.1.2, layB_sound h.2⟩

/-! ### Values -/

def VMode.isProd : VMode → Bool
  | .prod | .sum => true
  | _ => false

def VMode.isSum : VMode → Bool
  | .sum => true
  | _ => false

def VMode.isVal : VMode → Bool
  | .val => true
  | _ => false

mutual

def Value.shapeB : Value → VMode → Bool
  | .str _ _, _ => true
  | .dim _ _ _, _ => true
  | .ident _ _, _ => true
  | .hex _ _, _ => true
  | .brackets _ vs, _ => shapesB vs .val false
  | .func _ name args, _ =>
    if isMathName name then shapesB args .sum true
    else if isUrlCall name args then true
    else shapesB args .val true
  | .paren _ v, m => !m.isVal && v.shapeB .sum
  | .math _ op l r, m =>
    (m.isProd && (op == b!"*" || op == b!"/") && l.shapeB .prod && r.shapeB .atom) ||
    (m.isSum && (op == b!"+" || op == b!"-") && l.shapeB .sum && r.shapeB .prod)
  | .nil, _ => false
  | .comma _, _ => false
  | .raw _ _, _ => false

def shapesB : List Value → VMode → Bool → Bool
  | [], _, _ => true
  | v :: vs, m, c => ((c && v.isComma) || v.shapeB m) && shapesB vs m c

end

theorem Value.Shape.lift {v : Value} (h : v.Shape .val) : ∀ m, v.Shape m
  | .val => h
  | .atom => .atom h
  | .prod => .prod (.atom h)
  | .sum => .sum (.prod (.atom h))

theorem isUrlCall_eq {name : Bytes} {args : List Value} (h : isUrlCall name args = true) :
    ∃ isp v, name = b!"url" ∧ args = [.ident isp v] := by
  unfold isUrlCall at h
  split at h
  · exact ⟨_, _, rfl, rfl⟩
  · cases h

theorem Value.isComma_eq {v : Value} (h : v.isComma = true) : ∃ sp, v = .comma sp := by
  cases v <;> simp [Value.isComma] at h
  exact ⟨_, rfl⟩

mutual

theorem Value.shapeB_sound : ∀ {v : Value} {m : VMode}, v.shapeB m = true → v.Shape m
  | .str _ _, m, _ => Value.Shape.lift .str m
  | .dim _ _ _, m, _ => Value.Shape.lift .dim m
  | .ident _ _, m, _ => Value.Shape.lift .ident m
  | .hex _ _, m, _ => Value.Shape.lift .hex m
  | .brackets _ vs, m, h => by
    rw [Value.shapeB] at h
    refine Value.Shape.lift (.brackets fun v hv => ?_) m
    rcases shapesB_sound h v hv with ⟨h, _⟩ | h
    · cases h
    · exact h
  | .func _ name args, m, h => by
    rw [Value.shapeB] at h
    refine Value.Shape.lift ?_ m
    split at h
    · exact .mathFunc ‹_› fun v hv hc => (shapesB_sound h v hv).resolve_left fun ⟨_, sp, e⟩ => hc sp e
    · rename_i hm
      split at h
      · rename_i hu
        obtain ⟨isp, v, rfl, rfl⟩ := isUrlCall_eq hu
        exact .url
      · rename_i hu
        exact .func (by simpa using hm) (by simpa using hu) fun v hv hc =>
          (shapesB_sound h v hv).resolve_left fun ⟨_, sp, e⟩ => hc sp e
  | .paren sp v, m, h => by
    rw [Value.shapeB, Bool.and_eq_true] at h
    have hp : (Value.paren sp v).Shape .atom := .paren (Value.shapeB_sound h.2)
    cases m with
    | val => simp [VMode.isVal] at h
    | atom => exact hp
    | prod => exact .prod hp
    | sum => exact .sum (.prod hp)
  | .math sp op l r, m, h => by
    rw [Value.shapeB] at h
    simp only [Bool.or_eq_true, Bool.and_eq_true, beq_iff_eq] at h
    rcases h with ⟨⟨⟨h1, h2⟩, h3⟩, h4⟩ | ⟨⟨⟨h1, h2⟩, h3⟩, h4⟩
    · have hp : (Value.math sp op l r).Shape .prod := .mul h2 (Value.shapeB_sound h3) (Value.shapeB_sound h4)
      cases m with
      | val => cases h1
      | atom => cases h1
      | prod => exact hp
      | sum => exact .sum hp
    · cases m with
      | val => cases h1
      | atom => cases h1
      | prod => cases h1
      | sum => exact .add h2 (Value.shapeB_sound h3) (Value.shapeB_sound h4)
  | .nil, _, h => by rw [Value.shapeB] at h; cases h
  | .comma _, _, h => by rw [Value.shapeB] at h; cases h
  | .raw _ _, _, h => by rw [Value.shapeB] at h; cases h

theorem shapesB_sound : ∀ {vs : List Value} {m : VMode} {c : Bool}, shapesB vs m c = true →
    ∀ v ∈ vs, (c = true ∧ ∃ sp, v = .comma sp) ∨ v.Shape m
  | [], _, _, _, v, hv => by cases hv
  | w :: vs, m, c, h, v, hv => by
    rw [shapesB, Bool.and_eq_true, Bool.or_eq_true, Bool.and_eq_true] at h
    rcases List.mem_cons.1 hv with e | hv
    · rw [e]
      rcases h.1 with h | h
      · exact .inl ⟨h.1, Value.isComma_eq h.2⟩
      · exact .inr (Value.shapeB_sound h)
    · exact shapesB_sound h.2 v hv

end

/-! ### Declarations -/

def Value.inDeclB : Value → Bool
  | .comma _ => true
  | .raw _ v => v.length == 1 && v != [33]
  | v => v.shapeB .val

theorem Value.inDeclB_sound {v : Value} (h : v.inDeclB = true) : v.InDecl := by
  unfold Value.inDeclB at h
  split at h
  · trivial
  · rename_i sp v
    simp only [Bool.and_eq_true, beq_iff_eq, bne_iff_ne] at h
    match v, h with
    | [b], h => exact ⟨b, rfl, fun e => h.2 (by rw [e])⟩
  · have := Value.shapeB_sound h
    unfold Value.InDecl
    split <;> first | exact absurd rfl (by assumption) | simp_all

def Decl.shapeB : Decl → Bool
  | .decl _ _ vals _ => !vals.isEmpty && vals.all Value.inDeclB
  | .raw _ _ => false

theorem Decl.shapeB_sound {d : Decl} (h : d.shapeB = true) : d.Shape := by
  cases d with
  | raw => cases h
  | decl _ _ vals _ =>
    simp only [Decl.shapeB, Bool.and_eq_true, Bool.not_eq_true', List.isEmpty_eq_false_iff, List.all_eq_true] at h
    exact ⟨h.1, fun v hv => Value.inDeclB_sound (h.2 v hv)⟩

def DeclBlock.shapeB (b : DeclBlock) : Bool := b.decls.all Decl.shapeB

theorem DeclBlock.shapeB_sound {b : DeclBlock} (h : b.shapeB = true) : b.Shape := by
  rw [DeclBlock.shapeB, List.all_eq_true] at h
  exact fun d hd => Decl.shapeB_sound (h d hd)

/-! ### Selectors -/

def anbShapeB (a op b : Bytes) : Bool :=
  let bOk := !b.isEmpty && b != b!"0"
  let aOk := !a.isEmpty && a != b!"0" && a != b!"1" && a != b!"-1" && a.head? != some 43
  if op = [] then
    if b = [] then a == [] || a == b!"-1" || aOk
    else a == b!"0" && bOk && b.head? != some 43 && b.head? != some 45
  else if op = b!"+" then bOk && (a == [] || a == b!"-1" || aOk)
  else op == b!"-" && bOk && aOk

theorem anbShapeB_sound {a op b : Bytes} (h : anbShapeB a op b = true) : AnbShape a op b := by
  unfold anbShapeB at h
  simp only at h
  split at h
  · subst_vars
    split at h
    · subst_vars
      simp only [Bool.or_eq_true, beq_iff_eq, Bool.and_eq_true, Bool.not_eq_true', List.isEmpty_eq_false_iff, bne_iff_ne] at h
      rcases h with (rfl | rfl) | h
      · exact .n
      · exact .neg
      · exact .an h.1.1.1.1 h.1.1.1.2 h.1.1.2 h.1.2 h.2
    · simp only [beq_iff_eq, Bool.and_eq_true, Bool.not_eq_true', List.isEmpty_eq_false_iff, bne_iff_ne] at h
      obtain ⟨⟨⟨rfl, h1⟩, h2⟩, h3⟩ := h
      exact .b h1.1 h1.2 h2 h3
  · split at h
    · subst_vars
      simp only [Bool.or_eq_true, beq_iff_eq, Bool.and_eq_true, Bool.not_eq_true', List.isEmpty_eq_false_iff, bne_iff_ne] at h
      obtain ⟨h1, (rfl | rfl) | h⟩ := h
      · exact .nPlus h1.1 h1.2
      · exact .negPlus h1.1 h1.2
      · exact .anPlus h.1.1.1.1 h.1.1.1.2 h.1.1.2 h.1.2 h.2 h1.1 h1.2
    · simp only [beq_iff_eq, Bool.and_eq_true, Bool.not_eq_true', List.isEmpty_eq_false_iff, bne_iff_ne] at h
      obtain ⟨⟨rfl, h1⟩, h⟩ := h
      exact .anMinus h.1.1.1.1 h.1.1.1.2 h.1.1.2 h.1.2 h.2 h1.1 h1.2

def spacingB : List SelPart → Bool
  | [] => true
  | [_] => true
  | p :: q :: ps => (!(p.isWs || p.isAttr) || !q.isWs) && spacingB (q :: ps)

theorem spacingB_sound : ∀ {ps : List SelPart}, spacingB ps = true → Spacing ps
  | [], _ => trivial
  | [p], _ => ⟨fun _ q hq => by simp at hq, trivial⟩
  | p :: q :: ps, h => by
    rw [spacingB, Bool.and_eq_true, Bool.or_eq_true] at h
    refine ⟨fun hp q' hq => ?_, spacingB_sound h.2⟩
    cases hq
    rcases h.1 with h | h
    · rcases hp with hp | hp <;> simp [hp] at h
    · simpa using h

instance (name : Bytes) : Decidable (isNthName name) := by unfold isNthName; infer_instance
instance (name : Bytes) : Decidable (isKeyframesName name) := by unfold isKeyframesName; infer_instance
instance (op : Bytes) : Decidable (isRangeOp op) := by unfold isRangeOp; infer_instance

mutual

def SelPart.shapeB : SelPart → Bool
  | .ws _ => true
  | .type _ _ => true
  | .cls _ _ => true
  | .id _ _ => true
  | .comb _ op => op == b!"+" || op == b!">" || op == b!"~" || op == b!"|"
  | .pclass _ name args => args.shapeB name
  | .pelem _ _ name args => args.shapeB name
  | .attr _ _ preOp value modifier => preOp == [] && modifier == [] && (value.isNil || value.shapeB .val)

def PArgs.shapeB (name : Bytes) : PArgs → Bool
  | .nil => true
  | .sels _ l => !decide (isNthName name) && !l.isEmpty && selsShapeB l
  | .ident _ v => decide (isNthName name) && (v == b!"even" || v == b!"odd")
  | .anb _ a op b => decide (isNthName name) && anbShapeB a op b

def Sel.shapeB : Sel → Bool
  | .mk _ parts => partsShapeB parts && spacingB parts && parts.any fun p => !p.isWs

def partsShapeB : List SelPart → Bool
  | [] => true
  | p :: ps => p.shapeB && partsShapeB ps

def selsShapeB : List Sel → Bool
  | [] => true
  | s :: ss => s.shapeB && selsShapeB ss

end

theorem Value.isNil_eq {v : Value} (h : v.isNil = true) : v = .nil := by
  cases v <;> simp [Value.isNil] at h ⊢

mutual

theorem SelPart.shapeB_sound : ∀ {p : SelPart}, p.shapeB = true → p.Shape
  | .ws _, _ => by rw [SelPart.Shape]; trivial
  | .type _ _, _ => by rw [SelPart.Shape]; trivial
  | .cls _ _, _ => by rw [SelPart.Shape]; trivial
  | .id _ _, _ => by rw [SelPart.Shape]; trivial
  | .comb _ op, h => by
    rw [SelPart.shapeB] at h; rw [SelPart.Shape]
    simpa [or_assoc] using h
  | .pclass _ name args, h => by
    rw [SelPart.shapeB] at h; rw [SelPart.Shape]
    exact PArgs.shapeB_sound h
  | .pelem _ _ name args, h => by
    rw [SelPart.shapeB] at h; rw [SelPart.Shape]
    exact PArgs.shapeB_sound h
  | .attr _ _ preOp value modifier, h => by
    rw [SelPart.shapeB] at h; rw [SelPart.Shape]
    simp only [Bool.and_eq_true, beq_iff_eq, Bool.or_eq_true] at h
    exact ⟨h.1.1, h.1.2, h.2.imp Value.isNil_eq Value.shapeB_sound⟩

theorem PArgs.shapeB_sound {name : Bytes} : ∀ {a : PArgs}, a.shapeB name = true → a.Shape name
  | .nil, _ => by rw [PArgs.Shape]; trivial
  | .sels _ l, h => by
    rw [PArgs.shapeB] at h; rw [PArgs.Shape]
    simp only [Bool.and_eq_true, Bool.not_eq_true', decide_eq_false_iff_not, List.isEmpty_eq_false_iff] at h
    exact ⟨h.1.1, h.1.2, selsShapeB_sound h.2⟩
  | .ident _ v, h => by
    rw [PArgs.shapeB] at h; rw [PArgs.Shape]
    simpa using h
  | .anb _ a op b, h => by
    rw [PArgs.shapeB] at h; rw [PArgs.Shape]
    simp only [Bool.and_eq_true, decide_eq_true_eq] at h
    exact ⟨h.1, anbShapeB_sound h.2⟩

theorem Sel.shapeB_sound : ∀ {s : Sel}, s.shapeB = true → s.Shape
  | .mk _ parts, h => by
    rw [Sel.shapeB] at h; rw [Sel.Shape]
    simp only [Bool.and_eq_true, List.any_eq_true, Bool.not_eq_true'] at h
    exact ⟨partsShapeB_sound h.1.1, spacingB_sound h.1.2, h.2⟩

theorem partsShapeB_sound : ∀ {ps : List SelPart}, partsShapeB ps = true → partsShape ps
  | [], _ => by rw [partsShape]; trivial
  | p :: ps, h => by
    rw [partsShapeB, Bool.and_eq_true] at h; rw [partsShape]
    exact ⟨SelPart.shapeB_sound h.1, partsShapeB_sound h.2⟩

theorem selsShapeB_sound : ∀ {ss : List Sel}, selsShapeB ss = true → selsShape ss
  | [], _ => by rw [selsShape]; trivial
  | s :: ss, h => by
    rw [selsShapeB, Bool.and_eq_true] at h; rw [selsShape]
    exact ⟨Sel.shapeB_sound h.1, selsShapeB_sound h.2⟩

end

/-! ### Rules -/

def Sel.noLeadB : Sel → Bool
  | .mk _ parts => parts.head?.all fun p => !p.isWs

theorem Sel.noLeadB_sound {s : Sel} (h : s.noLeadB = true) : s.NoLead := by
  cases s with
  | mk sp parts =>
    intro p hp
    simp only [Sel.noLeadB, hp, Option.all_some, Bool.not_eq_true'] at h
    exact h

def QRule.shapeB (r : QRule) : Bool :=
  (match r.prelude with
    | .sels l => !l.sels.isEmpty && selsShapeB l.sels && l.sels.all Sel.noLeadB
    | _ => false) && r.block.any DeclBlock.shapeB

theorem QRule.shapeB_sound {r : QRule} (h : r.shapeB = true) : r.Shape := by
  rw [QRule.shapeB, Bool.and_eq_true] at h
  obtain ⟨sp, pr, b⟩ := r
  obtain ⟨h1, h2⟩ := h
  cases b with
  | none => cases h2
  | some b =>
    cases pr with
    | nil => cases h1
    | keyframes => cases h1
    | sels l =>
      simp only [Bool.and_eq_true, Bool.not_eq_true', List.isEmpty_eq_false_iff, List.all_eq_true] at h1
      exact ⟨⟨l, rfl, h1.1.1, selsShapeB_sound h1.1.2, fun s hs => Sel.noLeadB_sound (h1.2 s hs)⟩, b, rfl,
        DeclBlock.shapeB_sound (by simpa using h2)⟩

def QRule.frameShapeB (r : QRule) : Bool :=
  (match r.prelude with
    | .keyframes _ [.pct _ _] => true
    | .keyframes _ [.ident _ v] => v == b!"from" || v == b!"to"
    | _ => false) && r.block.any DeclBlock.shapeB

theorem QRule.frameShapeB_sound {r : QRule} (h : r.frameShapeB = true) : r.FrameShape := by
  rw [QRule.frameShapeB, Bool.and_eq_true] at h
  obtain ⟨sp, pr, b⟩ := r
  obtain ⟨h1, h2⟩ := h
  cases b with
  | none => cases h2
  | some b =>
    refine ⟨?_, b, rfl, DeclBlock.shapeB_sound (by simpa using h2)⟩
    simp only at h1 ⊢
    split at h1
    · exact ⟨_, _, rfl, fun _ _ e => by cases e⟩
    · exact ⟨_, _, rfl, fun _ _ e => by cases e; simpa using h1⟩
    · cases h1

/-! ### Media queries and at-rules -/

def Value.isIdent : Value → Bool
  | .ident _ _ => true
  | _ => false

def MQPart.shapeB : MQPart → Bool
  | .ident _ _ => true
  | .plain _ _ _ value => value.isNil || value.shapeB .val
  | .range _ _ _ left op right =>
    decide (isRangeOp op) &&
    ((left.shapeB .val && (right.isNil || right.shapeB .val)) || (left.isNil && right.shapeB .val && !right.isIdent))
  | .inParens _ _ => false

theorem MQPart.shapeB_sound {p : MQPart} (h : p.shapeB = true) : p.Shape := by
  cases p with
  | ident => trivial
  | inParens => cases h
  | plain _ _ _ value =>
    simp only [MQPart.shapeB, Bool.or_eq_true] at h
    exact h.imp Value.isNil_eq Value.shapeB_sound
  | range _ _ _ left op right =>
    simp only [MQPart.shapeB, Bool.or_eq_true, Bool.and_eq_true, decide_eq_true_eq, Bool.not_eq_true'] at h
    refine ⟨h.1, h.2.imp (fun h => ⟨Value.shapeB_sound h.1, h.2.imp Value.isNil_eq Value.shapeB_sound⟩)
      fun h => ⟨Value.isNil_eq h.1.1, Value.shapeB_sound h.1.2, ?_⟩⟩
    rintro sp v rfl
    simp [Value.isIdent] at h

def MQ.shapeB (q : MQ) : Bool := !q.parts.isEmpty && q.parts.all MQPart.shapeB

theorem MQ.shapeB_sound {q : MQ} (h : q.shapeB = true) : q.Shape := by
  simp only [MQ.shapeB, Bool.and_eq_true, Bool.not_eq_true', List.isEmpty_eq_false_iff, List.all_eq_true] at h
  exact ⟨h.1, fun p hp => MQPart.shapeB_sound (h.2 p hp)⟩

def MQList.shapeB (l : MQList) : Bool := !l.queries.isEmpty && l.queries.all MQ.shapeB

theorem MQList.shapeB_sound {l : MQList} (h : l.shapeB = true) : l.Shape := by
  simp only [MQList.shapeB, Bool.and_eq_true, Bool.not_eq_true', List.isEmpty_eq_false_iff, List.all_eq_true] at h
  exact ⟨h.1, fun p hp => MQ.shapeB_sound (h.2 p hp)⟩

def AtRule.shapeB (a : AtRule) : Bool :=
  if a.name = b!"import" then
    match a.preludes, a.block with
    | [.str _ _], .none => true
    | [.str _ _, .mql (some l)], .none => l.shapeB
    | _, _ => false
  else if a.name = b!"media" then
    match a.preludes, a.block with
    | [.mql (some l)], .rules _ rs => l.shapeB && rs.all QRule.shapeB
    | _, _ => false
  else if isKeyframesName a.name then
    match a.preludes, a.block with
    | [.ident _ _], .rules _ rs => rs.all QRule.frameShapeB
    | [.str _ _], .rules _ rs => rs.all QRule.frameShapeB
    | _, _ => false
  else if a.name = b!"custom-media" then
    match a.preludes, a.block with
    | [.ident _ _, .mq q], .none => q.shapeB
    | _, _ => false
  else
    match a.preludes, a.block with
    | [], .decls b => b.shapeB
    | _, _ => false

theorem AtRule.shapeB_sound {a : AtRule} (h : a.shapeB = true) : a.Shape := by
  obtain ⟨src, sp, name, prs, blk⟩ := a
  unfold AtRule.shapeB at h
  simp only at h
  split at h
  · subst_vars
    split at h
    · exact .import
    · exact .importMedia (MQList.shapeB_sound h)
    · cases h
  rename_i n1
  split at h
  · subst_vars
    split at h
    · rw [Bool.and_eq_true, List.all_eq_true] at h
      exact .media (MQList.shapeB_sound h.1) fun r hr => QRule.shapeB_sound (h.2 r hr)
    · cases h
  rename_i n2
  split at h
  · rename_i n3
    split at h
    · rw [List.all_eq_true] at h
      exact .keyframes n3 fun r hr => QRule.frameShapeB_sound (h r hr)
    · rw [List.all_eq_true] at h
      exact .keyframesStr n3 fun r hr => QRule.frameShapeB_sound (h r hr)
    · cases h
  rename_i n3
  split at h
  · subst_vars
    split at h
    · exact .customMedia (MQ.shapeB_sound h)
    · cases h
  rename_i n4
  split at h
  · exact .generic n1 n2 n3 n4 (DeclBlock.shapeB_sound h)
  · cases h

def Node.shapeB : Node → Bool
  | .rule r => r.shapeB
  | .at a => a.shapeB

theorem Node.shapeB_sound {n : Node} (h : n.shapeB = true) : n.Shape := by
  cases n with
  | rule r => exact QRule.shapeB_sound h
  | «at» a => exact AtRule.shapeB_sound h

def Stylesheet.printableB (ss : Stylesheet) : Bool :=
  ss.nodes.all Node.shapeB && layB (nodesToks ss.nodes) && decide (ss.imports.map ImportSpec.value = importValues ss.nodes)

theorem Stylesheet.printableB_sound {ss : Stylesheet} (h : ss.printableB = true) : ss.Printable := by
  rw [Stylesheet.printableB, Bool.and_eq_true, Bool.and_eq_true, List.all_eq_true, decide_eq_true_eq] at h
  exact ⟨fun n hn => Node.shapeB_sound (h.1.1 n hn), layB_sound h.1.2, h.2⟩

end Cssc
