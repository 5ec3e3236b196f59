import Verif.Proofs.KeepsRule
import Verif.Proofs.RoundCheck

/-!
# A check of the conditions of `Spec/Keeps.lean`

Used only for concrete stylesheets.
-/

namespace Cssc

instance (v : Bytes) : Decidable (Quotable v) := by unfold Quotable; infer_instance

def touchingB : List Value → Bool
  | [] => true
  | [_] => true
  | v :: w :: vs => (v.closed || w.opener) && touchingB (w :: vs)

theorem touchingB_sound : ∀ {vs : List Value}, touchingB vs = true → Touching vs
  | [], _ => trivial
  | [_], _ => trivial
  | v :: w :: vs, h => by
    simp only [touchingB, Bool.and_eq_true, Bool.or_eq_true] at h
    exact ⟨h.1, touchingB_sound h.2⟩

def Value.isStr : Value → Bool
  | .str _ _ => true
  | _ => false

def keepArgsB (name : Bytes) (args : List Value) : Bool :=
  isUrlCall name args || touchingB args && (!decide (IsUrlWord name) || match args with | .str _ _ :: _ => true | _ => false)

theorem keepArgsB_sound {name : Bytes} {args : List Value} (h : keepArgsB name args = true) : KeepArgs name args := by
  unfold keepArgsB at h
  unfold KeepArgs
  rw [Bool.or_eq_true] at h
  rcases h with hu | h
  · exact .inl hu
  · simp only [Bool.and_eq_true, Bool.or_eq_true, Bool.not_eq_true', decide_eq_false_iff_not] at h
    right
    refine ⟨touchingB_sound h.1, fun hw => ?_⟩
    have := h.2.resolve_left (fun e => e hw)
    split at this
    · exact ⟨_, _, _, rfl⟩
    · cases this

def SelPart.isWord : SelPart → Bool
  | .type _ n => n != b!"*"
  | _ => false

def apartB : List SelPart → Bool
  | [] => true
  | p :: ps => (!p.wordy || match ps with | q :: _ => !q.isWord | [] => true) && apartB ps

theorem apartB_sound : ∀ {ps : List SelPart}, apartB ps = true → Apart ps
  | [], _ => trivial
  | p :: ps, h => by
    simp only [apartB, Bool.and_eq_true] at h
    refine ⟨fun hw sp n e => ?_, apartB_sound h.2⟩
    have h1 := h.1
    rw [hw] at h1
    cases ps with
    | nil => cases e
    | cons q ps =>
      cases e
      simpa [SelPart.isWord] using h1

def Item.keepsB : Item → Bool
  | .value (.str _ v) => decide (Quotable v)
  | .value (.dim _ num unit) => decide (num ≠ []) && decide (Clean num) && decide (Clean unit) && !expLike unit
  | .value (.ident _ v) => decide (NoEsc v)
  | .value (.hex _ v) => decide (NoEsc v)
  | .value (.func _ name vs) => decide (NoEsc name) && keepArgsB name vs
  | .value (.math _ op l r) => (decide (op ≠ b!"-") || l.closed && r.fenced) && (decide (op ≠ b!"+") || !r.unsigned)
  | .value (.paren _ v) => !v.isNil
  | .value (.raw _ v) => decide (Clean v)
  | .part (.type _ name) => decide (NoEsc name)
  | .part (.cls _ name) => decide (NoEsc name)
  | .part (.id _ name) => decide (NoEsc name)
  | .part (.pclass _ name _) => decide (NoEsc name)
  | .part (.pelem _ _ name _) => decide (NoEsc name)
  | .part (.attr _ prop preOp _ modifier) => decide (NoEsc prop) && decide (preOp = []) && decide (modifier = [])
  | .args name (.anb _ a op b) => !decide (IsUrlWord name) && anbShapeB a op b && (anbToks a op b).all PTok.wfB
  | .args _ .nil => true
  | .args name (.sels _ _) => !decide (IsUrlWord name)
  | .args name (.ident _ _) => !decide (IsUrlWord name)
  | .sel s => spacingB s.parts && apartB s.parts && s.parts.any fun p => !p.isWs
  | .ksel (.pct _ v) => decide (Clean v)
  | .decl (.decl _ prop _ _) => decide (NoEsc prop)
  | .decl (.raw _ _) => false
  | .rule r => match r.prelude with
    | .sels l => l.sels.all Sel.noLeadB
    | .keyframes _ [_] => true
    | _ => false
  | .mqpart (.ident _ v) => decide (NoEsc v)
  | .mqpart (.plain _ _ prop _) => decide (NoEsc prop)
  | .mqpart (.range _ _ prop left _ right) => decide (NoEsc prop) && (!left.isNil || !right.isNil && !right.isIdent)
  | .at a => decide (NoEsc a.name) && (match a.preludes with | [.mql none] => false | _ => true) &&
      a.preludes.all fun p => match p with | .str _ v => decide (Quotable v) | .ident _ v => decide (NoEsc v) | _ => true
  | _ => true

theorem Item.keepsB_sound {it : Item} (h : it.keepsB = true) : it.Keeps := by
  cases it with
  | value v =>
    cases v with
    | math sp op l r =>
      simp only [Item.keepsB, Bool.and_eq_true, Bool.or_eq_true, decide_eq_true_eq, Bool.not_eq_true'] at h
      exact ⟨fun e => h.1.resolve_left (fun h => h e), fun e => h.2.resolve_left (fun h => h e)⟩
    | paren sp v =>
      simp only [Item.keepsB, Bool.not_eq_true'] at h
      show v ≠ .nil
      rintro rfl
      cases h
    | func sp name vs =>
      simp only [Item.keepsB, Bool.and_eq_true, decide_eq_true_eq] at h
      exact ⟨h.1, keepArgsB_sound h.2⟩
    | nil => trivial
    | comma sp => trivial
    | brackets sp vs => trivial
    | dim sp num unit =>
      simp only [Item.keepsB, Bool.and_eq_true, decide_eq_true_eq, Bool.not_eq_true'] at h
      exact ⟨h.1.1.1, h.1.1.2, h.1.2, h.2⟩
    | _ => simpa [Item.keepsB, Item.Keeps] using h
  | part p =>
    cases p with
    | attr sp prop preOp v m =>
      simp only [Item.keepsB, Bool.and_eq_true, decide_eq_true_eq] at h
      exact ⟨h.1.1, h.1.2, h.2⟩
    | ws sp => trivial
    | comb sp op => trivial
    | _ => simpa [Item.keepsB, Item.Keeps] using h
  | args name a =>
    cases a with
    | nil => trivial
    | anb sp a op b =>
      simp only [Item.keepsB, Bool.and_eq_true, Bool.not_eq_true', decide_eq_false_iff_not, List.all_eq_true] at h
      exact ⟨h.1.1, anbShapeB_sound h.1.2, fun t ht => PTok.wfB_sound (h.2 t ht)⟩
    | sels sp l => simpa [Item.keepsB, Item.Keeps] using h
    | ident sp v => simpa [Item.keepsB, Item.Keeps] using h
  | sel s =>
    simp only [Item.keepsB, Bool.and_eq_true, List.any_eq_true, Bool.not_eq_true'] at h
    exact ⟨spacingB_sound h.1.1, apartB_sound h.1.2, h.2⟩
  | ksel k =>
    cases k with
    | pct sp v => simpa [Item.keepsB, Item.Keeps] using h
    | ident sp v => trivial
  | decl d =>
    cases d with
    | raw sp v => cases h
    | decl sp prop vals important =>
      simp only [Item.keepsB, decide_eq_true_eq] at h
      exact h
  | rule r =>
    simp only [Item.keepsB] at h
    split at h
    · rename_i l e
      rw [List.all_eq_true] at h
      exact .inl ⟨l, e, fun s hs => Sel.noLeadB_sound (h s hs)⟩
    · rename_i e
      exact .inr ⟨_, _, e⟩
    · cases h
  | mqpart p =>
    cases p with
    | ident sp v => simpa [Item.keepsB, Item.Keeps] using h
    | plain sp psp prop v => simpa [Item.keepsB, Item.Keeps] using h
    | inParens sp ps => trivial
    | range sp psp prop left op right =>
      simp only [Item.keepsB, Bool.and_eq_true, decide_eq_true_eq, Bool.or_eq_true, Bool.not_eq_true'] at h
      refine ⟨h.1, ?_⟩
      rintro rfl
      have := h.2.resolve_left (by simp [Value.isNil])
      exact ⟨by rintro rfl; simp [Value.isNil] at this, by rintro sp v rfl; simp [Value.isIdent] at this⟩
  | «at» a =>
    simp only [Item.keepsB, Bool.and_eq_true, decide_eq_true_eq, List.all_eq_true] at h
    refine ⟨h.1.1, fun e => ?_, fun sp v hv => ?_, fun sp v hv => ?_⟩
    · have := h.1.2
      rw [e] at this
      cases this
    · exact of_decide_eq_true (h.2 _ hv)
    · exact of_decide_eq_true (h.2 _ hv)
  | _ => trivial

def Stylesheet.keepsB (ss : Stylesheet) : Bool := ss.items.all Item.keepsB

theorem Stylesheet.keepsB_sound {ss : Stylesheet} (h : ss.keepsB = true) : ss.Keeps := fun it hi =>
  Item.keepsB_sound (List.all_eq_true.mp h it hi)

end Cssc
