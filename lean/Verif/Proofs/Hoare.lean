import Verif.Parser
import Mathlib.Tactic.Linarith
import Mathlib.Tactic.SplitIfs
import Mathlib.Data.List.Basic

/-!
# Weakest preconditions for the parser monad

`wp m Q X s`: running `m` from `s` ends in a normal return satisfying `Q`, or in one of the other
outcomes satisfying the matching component of `X`.
-/

namespace Cssc

/-- What is required of the abnormal outcomes. -/
structure Exc where
  err : LexErr → St → Prop
  crash : St → Prop
  timeout : Prop

/-- Weakest precondition. -/
def wp (m : P α) (Q : α → St → Prop) (X : Exc) (s : St) : Prop :=
  match m s with
  | .ok a s' => Q a s'
  | .err e s' => X.err e s'
  | .crash s' => X.crash s'
  | .timeout => X.timeout

theorem wp_def {m : P α} {Q : α → St → Prop} {X : Exc} {s : St} :
    wp m Q X s = (match m s with
      | .ok a s' => Q a s'
      | .err e s' => X.err e s'
      | .crash s' => X.crash s'
      | .timeout => X.timeout) := rfl

@[simp] theorem wp_pure {a : α} {Q : α → St → Prop} {X : Exc} {s : St} :
    wp (pure a) Q X s = Q a s := rfl

@[simp] theorem wp_bind {m : P α} {f : α → P β} {Q : β → St → Prop} {X : Exc} {s : St} :
    wp (m >>= f) Q X s = wp m (fun a s' => wp (f a) Q X s') X s := by
  show wp (P.bind m f) Q X s = _
  unfold wp P.bind
  cases m s <;> rfl

@[simp] theorem wp_get {Q : St → St → Prop} {X : Exc} {s : St} :
    wp P.get Q X s = Q s s := rfl
@[simp] theorem wp_timeout {Q : α → St → Prop} {X : Exc} {s : St} :
    wp P.timeout Q X s = X.timeout := rfl
@[simp] theorem wp_crash {Q : α → St → Prop} {X : Exc} {s : St} :
    wp P.crash Q X s = X.crash s := rfl
@[simp] theorem wp_modLex {f : Lex → Lex} {Q : Unit → St → Prop} {X : Exc} {s : St} :
    wp (P.modLex f) Q X s = Q () { s with lex := f s.lex } := rfl
@[simp] theorem wp_tokenSpan {Q : Span → St → Prop} {X : Exc} {s : St} :
    wp tokenSpan Q X s = Q ⟨s.lex.start, s.lex.lastPos⟩ s := rfl
@[simp] theorem wp_tokenEnd {Q : Nat → St → Prop} {X : Exc} {s : St} :
    wp tokenEnd Q X s = Q s.lex.lastPos s := rfl
@[simp] theorem wp_errorf {Q : α → St → Prop} {X : Exc} {s : St} {msg : String} :
    wp (errorf msg) Q X s = X.err ⟨msg, ⟨s.lex.start, s.lex.lastPos⟩⟩ s := rfl
@[simp] theorem wp_getCh {Q : Int → St → Prop} {X : Exc} {s : St} :
    wp getCh Q X s = Q s.lex.ch s := rfl
@[simp] theorem wp_getLastPos {Q : Nat → St → Prop} {X : Exc} {s : St} :
    wp getLastPos Q X s = Q s.lex.lastPos s := rfl
@[simp] theorem wp_getCur {Q : Tok → St → Prop} {X : Exc} {s : St} :
    wp getCur Q X s = Q s.lex.cur s := rfl
@[simp] theorem wp_getStr {Q : Bytes → St → Prop} {X : Exc} {s : St} :
    wp getStr Q X s = Q s.lex.str s := rfl
@[simp] theorem wp_getNum {Q : Bytes → St → Prop} {X : Exc} {s : St} :
    wp getNum Q X s = Q s.lex.num s := rfl
@[simp] theorem wp_setCur {Q : Unit → St → Prop} {X : Exc} {s : St} {t : Tok} :
    wp (setCur t) Q X s = Q () { s with lex := { s.lex with cur := t } } := rfl
@[simp] theorem wp_setStr {Q : Unit → St → Prop} {X : Exc} {s : St} {b : Bytes} :
    wp (setStr b) Q X s = Q () { s with lex := { s.lex with str := b } } := rfl
@[simp] theorem wp_setNum {Q : Unit → St → Prop} {X : Exc} {s : St} {b : Bytes} :
    wp (setNum b) Q X s = Q () { s with lex := { s.lex with num := b } } := rfl
@[simp] theorem wp_peek {Q : Int → St → Prop} {X : Exc} {s : St} {i : Nat} :
    wp (peek i) Q X s = Q (s.peek i) s := rfl
@[simp] theorem wp_lexFuel {Q : Nat → St → Prop} {X : Exc} {s : St} :
    wp lexFuel Q X s = Q (s.src.length + 2) s := rfl

theorem wp_slice {Q : Bytes → St → Prop} {X : Exc} {s : St} {a b : Nat}
    (h : a ≤ b) (h' : b ≤ s.src.length) :
    wp (slice a b) Q X s = Q (sub s.src a b) s := by
  unfold wp slice
  simp only [h, h', and_self, if_true]

theorem wp_ite {c : Prop} [Decidable c] {m₁ m₂ : P α} {Q : α → St → Prop} {X : Exc} {s : St}
    (h₁ : c → wp m₁ Q X s) (h₂ : ¬ c → wp m₂ Q X s) : wp (if c then m₁ else m₂) Q X s := by
  by_cases h : c <;> simp only [h, if_true, if_false]
  · exact h₁ h
  · exact h₂ h

theorem wp_whenP {c : Prop} [Decidable c] {m : P Unit} {Q : Unit → St → Prop} {X : Exc} {s : St}
    (h₁ : c → wp m Q X s) (h₂ : ¬ c → Q () s) : wp (whenP c m) Q X s :=
  wp_ite h₁ h₂

/-- Consequence: weaken the postcondition and the requirements on the other outcomes. -/
theorem wp_conseq {m : P α} {Q Q' : α → St → Prop} {X X' : Exc} {s : St}
    (h : wp m Q X s) (hq : ∀ a s', Q a s' → Q' a s') (he : ∀ e s', X.err e s' → X'.err e s')
    (hc : ∀ s', X.crash s' → X'.crash s') (ht : X.timeout → X'.timeout) : wp m Q' X' s := by
  unfold wp at *
  cases hm : m s <;> rw [hm] at h <;> simp only at h ⊢
  · exact hq _ _ h
  · exact he _ _ h
  · exact hc _ h
  · exact ht h

theorem wp_mono {m : P α} {Q Q' : α → St → Prop} {X : Exc} {s : St}
    (h : wp m Q X s) (hq : ∀ a s', Q a s' → Q' a s') : wp m Q' X s :=
  wp_conseq h hq (fun _ _ h => h) (fun _ h => h) id

theorem wp_ok {m : P α} {Q : α → St → Prop} {X : Exc} {s s' : St} {a : α}
    (h : wp m Q X s) (hm : m s = .ok a s') : Q a s' := by
  unfold wp at h; rw [hm] at h; exact h

theorem wp_err {m : P α} {Q : α → St → Prop} {X : Exc} {s s' : St} {e : LexErr}
    (h : wp m Q X s) (hm : m s = .err e s') : X.err e s' := by
  unfold wp at h; rw [hm] at h; exact h

theorem wpb_getCh {f : Int → P α} {Q : α → St → Prop} {X : Exc} {s : St} :
    wp (getCh >>= f) Q X s = wp (f s.lex.ch) Q X s := wp_bind

theorem wpb_getLastPos {f : Nat → P α} {Q : α → St → Prop} {X : Exc} {s : St} :
    wp (getLastPos >>= f) Q X s = wp (f s.lex.lastPos) Q X s := wp_bind

theorem wpb_getCur {f : Tok → P α} {Q : α → St → Prop} {X : Exc} {s : St} :
    wp (getCur >>= f) Q X s = wp (f s.lex.cur) Q X s := wp_bind

theorem wpb_getStr {f : Bytes → P α} {Q : α → St → Prop} {X : Exc} {s : St} :
    wp (getStr >>= f) Q X s = wp (f s.lex.str) Q X s := wp_bind

theorem wpb_getNum {f : Bytes → P α} {Q : α → St → Prop} {X : Exc} {s : St} :
    wp (getNum >>= f) Q X s = wp (f s.lex.num) Q X s := wp_bind

theorem wpb_get {f : St → P α} {Q : α → St → Prop} {X : Exc} {s : St} :
    wp (P.get >>= f) Q X s = wp (f s) Q X s := wp_bind

theorem wpb_tokenSpan {f : Span → P α} {Q : α → St → Prop} {X : Exc} {s : St} :
    wp (tokenSpan >>= f) Q X s = wp (f ⟨s.lex.start, s.lex.lastPos⟩) Q X s := wp_bind

theorem wpb_tokenEnd {f : Nat → P α} {Q : α → St → Prop} {X : Exc} {s : St} :
    wp (tokenEnd >>= f) Q X s = wp (f s.lex.lastPos) Q X s := wp_bind

theorem wpb_lexFuel {f : Nat → P α} {Q : α → St → Prop} {X : Exc} {s : St} :
    wp (lexFuel >>= f) Q X s = wp (f (s.src.length + 2)) Q X s := wp_bind

theorem wpb_peek {i : Nat} {f : Int → P α} {Q : α → St → Prop} {X : Exc} {s : St} :
    wp (peek i >>= f) Q X s = wp (f (s.peek i)) Q X s := wp_bind
theorem wpb_pure {a : β} {f : β → P α} {Q : α → St → Prop} {X : Exc} {s : St} :
    wp (pure a >>= f) Q X s = wp (f a) Q X s := wp_bind
theorem wpb_setCur {t : Tok} {f : Unit → P α} {Q : α → St → Prop} {X : Exc} {s : St} :
    wp (setCur t >>= f) Q X s = wp (f ()) Q X { s with lex := { s.lex with cur := t } } := wp_bind
theorem wpb_setStr {t : Bytes} {f : Unit → P α} {Q : α → St → Prop} {X : Exc} {s : St} :
    wp (setStr t >>= f) Q X s = wp (f ()) Q X { s with lex := { s.lex with str := t } } := wp_bind
theorem wpb_setNum {t : Bytes} {f : Unit → P α} {Q : α → St → Prop} {X : Exc} {s : St} :
    wp (setNum t >>= f) Q X s = wp (f ()) Q X { s with lex := { s.lex with num := t } } := wp_bind
theorem wpb_modLex {g : Lex → Lex} {f : Unit → P α} {Q : α → St → Prop} {X : Exc} {s : St} :
    wp (P.modLex g >>= f) Q X s = wp (f ()) Q X { s with lex := g s.lex } := wp_bind
theorem wpb_slice {Q : α → St → Prop} {X : Exc} {s : St} {a b : Nat} {f : Bytes → P α}
    (h : a ≤ b) (h' : b ≤ s.src.length) :
    wp (slice a b >>= f) Q X s = wp (f (sub s.src a b)) Q X s := by
  rw [wp_bind, wp_slice h h']
theorem wpb_assoc {m : P α} {g : α → P β} {f : β → P γ} {Q : γ → St → Prop} {X : Exc} {s : St} :
    wp ((m >>= g) >>= f) Q X s = wp (m >>= fun a => g a >>= f) Q X s := by
  simp only [wp_bind]

/-- Rewrite with primitive operations at the head of a computation, leaving the rest alone. -/
macro "wpb" : tactic => `(tactic| simp only [wpb_getCh, wpb_getLastPos, wpb_getCur, wpb_getStr,
  wpb_getNum, wpb_get, wpb_tokenSpan, wpb_tokenEnd, wpb_lexFuel, wpb_peek, wpb_pure, wpb_setCur,
  wpb_setStr, wpb_setNum, wpb_modLex, wp_pure, wp_errorf, wp_setCur, wp_setStr, wp_setNum,
  wp_timeout, wp_crash])

end Cssc
