import Verif.Proofs.Rel
import Verif.Parser
import Verif.Spec.Printable

/-!
# The parser on two texts with the same tokens

`Twins R`: lexers related by `R` are at the same token, and stay related.  Then the parser returns the same for
both, up to positions, as long as nothing is kept as raw text.
-/

namespace Cssc

/-- The state with another setting of `RetainWhitespace`. -/
def St.retain (s : St) (b : Bool) : St := { s with lex := { s.lex with retainWS := b } }

/-- The characters that may stand before `=` in an attribute selector. -/
def isPreOp (x : Bytes) : Prop := x = b!"^" ∨ x = b!"~" ∨ x = b!"$" ∨ x = b!"*" ∨ x = b!"|"

instance (x : Bytes) : Decidable (isPreOp x) := by unfold isPreOp; infer_instance

/-- Lexers related by `R b` are at the same token and stay related.  `RetainWhitespace` is `b` in both. -/
structure Twins (R : Bool → St → St → Prop) : Prop where
  cur {b s t} : R b s t → t.lex.cur = s.lex.cur
  str {b s t} : R b s t → hasStr s.lex.cur → t.lex.str = s.lex.str
  num {b s t} : R b s t → hasNum s.lex.cur → t.lex.num = s.lex.num
  flag {b s t} : R b s t → s.lex.retainWS = b ∧ t.lex.retainWS = b
  retain {b s t} (b' : Bool) : R b s t → R b' (s.retain b') (t.retain b')
  next {b s t s'} : R b s t → next s = .ok () s' → ∃ t', next t = .ok () t' ∧ R b s' t'
  bang {s t s' t'} : R false s t → s.lex.cur = .delim → s.lex.str = b!"!" → Cssc.next s = .ok () s' →
    Cssc.next t = .ok () t' → isImportantString s'.lex.str = true → isImportantString t'.lex.str = true
  attr {s t s1 t1 s2 t2} : R false s t → s.lex.cur = .lbracket → Cssc.next s = .ok () s1 → Cssc.next t = .ok () t1 →
    s1.lex.cur = .ident → Cssc.next s1 = .ok () s2 → Cssc.next t1 = .ok () t2 → s2.lex.cur ≠ .rbracket →
    isPreOp s2.lex.str → t2.lex.str = s2.lex.str

/-- If the first computation returns (a value with `G`), so does the second, with a related value and state. -/
def Both (R : Bool → St → St → Prop) (b : Bool) (m₁ : P α) (m₂ : P β) (s t : St) (V : α → β → Prop)
    (G : α → Prop := fun _ => True) : Prop :=
  ∀ a s', m₁ s = .ok a s' → G a → ∃ c t', m₂ t = .ok c t' ∧ V a c ∧ R b s' t'

section
variable {R : Bool → St → St → Prop} {b : Bool} {s t : St}

theorem bind_inv {m : P α} {f : α → P β} {s s' : St} {x : β} (h : (m >>= f) s = .ok x s') :
    ∃ a s1, m s = .ok a s1 ∧ f a s1 = .ok x s' := by
  change P.bind m f s = .ok x s' at h
  unfold P.bind at h
  cases e : m s with
  | ok a s1 => rw [e] at h; exact ⟨a, s1, rfl, h⟩
  | _ => rw [e] at h; cases h

theorem bind_run {m : P α} {f : α → P β} {s s1 : St} {a : α} (h : m s = .ok a s1) : (m >>= f) s = f a s1 := by
  show P.bind m f s = _
  unfold P.bind
  rw [h]

theorem Both.bind {m₁ : P α} {m₂ : P β} {f₁ : α → P γ} {f₂ : β → P δ} {V : α → β → Prop} {W : γ → δ → Prop} {G : γ → Prop}
    {b' : Bool} (h : Both R b m₁ m₂ s t V) (hf : ∀ a c s' t', V a c → R b s' t' → Both R b' (f₁ a) (f₂ c) s' t' W G) :
    Both R b' (m₁ >>= f₁) (m₂ >>= f₂) s t W G := by
  intro x s' e hg
  obtain ⟨a, s1, e1, e2⟩ := bind_inv e
  obtain ⟨c, t1, g1, hv, hr⟩ := h _ _ e1 trivial
  rw [bind_run g1]
  exact hf _ _ _ _ hv hr _ _ e2 hg

/-- The same when something has to be known of the first value. -/
theorem Both.bindG {m₁ : P α} {m₂ : P β} {f₁ : α → P γ} {f₂ : β → P δ} {V : α → β → Prop} {W : γ → δ → Prop}
    {b' : Bool} {F : α → Prop} {G : γ → Prop} (h : Both R b m₁ m₂ s t V F)
    (hg : ∀ a s1 x s', f₁ a s1 = .ok x s' → G x → F a)
    (hf : ∀ a c s' t', V a c → R b s' t' → Both R b' (f₁ a) (f₂ c) s' t' W G) :
    Both R b' (m₁ >>= f₁) (m₂ >>= f₂) s t W G := by
  intro x s' e hx
  obtain ⟨a, s1, e1, e2⟩ := bind_inv e
  obtain ⟨c, t1, g1, hv, hr⟩ := h _ _ e1 (hg _ _ _ _ e2 hx)
  rw [bind_run g1]
  exact hf _ _ _ _ hv hr _ _ e2 hx

theorem Both.pure {a : α} {c : β} {V : α → β → Prop} {G : α → Prop} (hr : R b s t) (h : V a c) :
    Both R b (Pure.pure a) (Pure.pure c) s t V G := by
  intro x s' e _
  cases e
  exact ⟨c, t, rfl, h, hr⟩

theorem Both.errorf {m : P β} {V : α → β → Prop} {G : α → Prop} {msg : String} : Both R b (Cssc.errorf msg) m s t V G := by
  intro x s' e; cases e

theorem Both.crash {m : P β} {V : α → β → Prop} {G : α → Prop} : Both R b P.crash m s t V G := by
  intro x s' e; cases e

theorem Both.timeout {m : P β} {V : α → β → Prop} {G : α → Prop} : Both R b P.timeout m s t V G := by
  intro x s' e; cases e

theorem Both.mono {m₁ : P α} {m₂ : P β} {V W : α → β → Prop} {G : α → Prop} (h : Both R b m₁ m₂ s t V G) (hw : ∀ a c, V a c → W a c) :
    Both R b m₁ m₂ s t W G := by
  intro x s' e hg
  obtain ⟨c, t1, g1, hv, hr⟩ := h _ _ e hg
  exact ⟨c, t1, g1, hw _ _ hv, hr⟩

theorem Both.ite {c d : Prop} [Decidable c] [Decidable d] {m₁ n₁ : P α} {m₂ n₂ : P β} {V : α → β → Prop} {G : α → Prop} (hcd : c ↔ d)
    (h1 : c → Both R b m₁ m₂ s t V G) (h2 : ¬ c → Both R b n₁ n₂ s t V G) :
    Both R b (if c then m₁ else n₁) (if d then m₂ else n₂) s t V G := by
  by_cases h : c
  · rw [if_pos h, if_pos (hcd.1 h)]; exact h1 h
  · rw [if_neg h, if_neg (fun hd => h (hcd.2 hd))]; exact h2 h

/-! ### Reading fields -/

theorem Both.cur (H : Twins R) (hr : R b s t) {f₁ : Tok → P γ} {f₂ : Tok → P δ} {W : γ → δ → Prop} {G : γ → Prop} {b' : Bool}
    (h : Both R b' (f₁ s.lex.cur) (f₂ s.lex.cur) s t W G) : Both R b' (getCur >>= f₁) (getCur >>= f₂) s t W G := by
  intro x s' e hg
  obtain ⟨c, t1, g1, hv⟩ := h x s' e hg
  refine ⟨c, t1, ?_, hv⟩
  rw [← H.cur hr] at g1
  exact g1

theorem Both.str {f₁ : Bytes → P γ} {f₂ : Bytes → P δ} {W : γ → δ → Prop} {G : γ → Prop} {b' : Bool}
    (h : Both R b' (f₁ s.lex.str) (f₂ t.lex.str) s t W G) : Both R b' (getStr >>= f₁) (getStr >>= f₂) s t W G := h

theorem Both.num {f₁ : Bytes → P γ} {f₂ : Bytes → P δ} {W : γ → δ → Prop} {G : γ → Prop} {b' : Bool}
    (h : Both R b' (f₁ s.lex.num) (f₂ t.lex.num) s t W G) : Both R b' (getNum >>= f₁) (getNum >>= f₂) s t W G := h

theorem Both.span {f₁ : Span → P γ} {f₂ : Span → P δ} {W : γ → δ → Prop} {G : γ → Prop} {b' : Bool}
    (h : ∀ x y, Both R b' (f₁ x) (f₂ y) s t W G) : Both R b' (tokenSpan >>= f₁) (tokenSpan >>= f₂) s t W G := h _ _

theorem Both.tend {f₁ : Nat → P γ} {f₂ : Nat → P δ} {W : γ → δ → Prop} {G : γ → Prop} {b' : Bool}
    (h : ∀ x y, Both R b' (f₁ x) (f₂ y) s t W G) : Both R b' (tokenEnd >>= f₁) (tokenEnd >>= f₂) s t W G := h _ _

/-! ### Moving -/

theorem Both.next1 (H : Twins R) (hr : R b s t) : Both R b next next s t fun _ _ => True := by
  intro x s' e _
  obtain ⟨t', g, hr'⟩ := H.next hr e
  exact ⟨(), t', g, trivial, hr'⟩

theorem Both.next (H : Twins R) (hr : R b s t) {f₁ : Unit → P γ} {f₂ : Unit → P δ} {W : γ → δ → Prop} {G : γ → Prop} {b' : Bool}
    (h : ∀ s' t', R b s' t' → Both R b' (f₁ ()) (f₂ ()) s' t' W G) : Both R b' (Cssc.next >>= f₁) (Cssc.next >>= f₂) s t W G :=
  (Both.next1 H hr).bind fun _ _ s' t' _ hr => h s' t' hr

/-- The same, with the steps. -/
theorem Both.next' (H : Twins R) (hr : R b s t) {f₁ : Unit → P γ} {f₂ : Unit → P δ} {W : γ → δ → Prop} {G : γ → Prop} {b' : Bool}
    (h : ∀ s' t', Cssc.next s = .ok () s' → Cssc.next t = .ok () t' → R b s' t' → Both R b' (f₁ ()) (f₂ ()) s' t' W G) :
    Both R b' (Cssc.next >>= f₁) (Cssc.next >>= f₂) s t W G := by
  intro x s' e hg
  obtain ⟨_, s1, e1, e2⟩ := bind_inv e
  obtain ⟨t1, g1, hr1⟩ := H.next hr e1
  rw [bind_run g1]
  exact h _ _ e1 g1 hr1 _ _ e2 hg

theorem Both.expect' (H : Twins R) (hr : R b s t) {c : Tok} {f₁ : Unit → P γ} {f₂ : Unit → P δ} {W : γ → δ → Prop} {G : γ → Prop} {b' : Bool}
    (h : s.lex.cur = c → ∀ s' t', Cssc.next s = .ok () s' → Cssc.next t = .ok () t' → R b s' t' → Both R b' (f₁ ()) (f₂ ()) s' t' W G) :
    Both R b' (Cssc.expect c >>= f₁) (Cssc.expect c >>= f₂) s t W G := by
  by_cases hc : s.lex.cur = c
  · have e1 : Cssc.expect c s = Cssc.next s := by
      unfold Cssc.expect
      rw [bind_run (show getCur s = .ok s.lex.cur s from rfl), if_neg (by simp [hc])]
    have e2 : Cssc.expect c t = Cssc.next t := by
      unfold Cssc.expect
      rw [bind_run (show getCur t = .ok t.lex.cur t from rfl), if_neg (by simp [hc, H.cur hr])]
    intro x s' e hg
    have e' : (Cssc.next >>= f₁) s = .ok x s' := by
      change P.bind _ _ _ = _ at e ⊢
      unfold P.bind at e ⊢
      rw [← e1]; exact e
    obtain ⟨y, t', g, hv⟩ := Both.next' H hr (h hc) x s' e' hg
    refine ⟨y, t', ?_, hv⟩
    change P.bind _ _ _ = _ at g ⊢
    unfold P.bind at g ⊢
    rw [e2]; exact g
  · intro x s' e
    obtain ⟨a, s1, e1, _⟩ := bind_inv e
    unfold Cssc.expect at e1
    rw [bind_run (show getCur s = .ok s.lex.cur s from rfl), if_pos (by simp [hc])] at e1
    cases e1

theorem Both.expect (H : Twins R) (hr : R b s t) {c : Tok} {f₁ : Unit → P γ} {f₂ : Unit → P δ} {W : γ → δ → Prop} {G : γ → Prop} {b' : Bool}
    (h : s.lex.cur = c → ∀ s' t', R b s' t' → Both R b' (f₁ ()) (f₂ ()) s' t' W G) :
    Both R b' (Cssc.expect c >>= f₁) (Cssc.expect c >>= f₂) s t W G :=
  Both.expect' H hr fun hc s' t' _ _ => h hc s' t'

theorem Both.whenNext (H : Twins R) (hr : R b s t) {c d : Prop} [Decidable c] [Decidable d] {f₁ : Unit → P γ} {f₂ : Unit → P δ}
    {W : γ → δ → Prop} {G : γ → Prop} {b' : Bool} (hcd : c ↔ d) (h : ∀ s' t', R b s' t' → (¬ c → s' = s ∧ t' = t) → Both R b' (f₁ ()) (f₂ ()) s' t' W G) :
    Both R b' (whenP c Cssc.next >>= f₁) (whenP d Cssc.next >>= f₂) s t W G := by
  unfold whenP
  by_cases hc : c
  · rw [if_pos hc, if_pos (hcd.1 hc)]
    exact Both.next H hr fun s' t' hr' => h s' t' hr' fun hn => absurd hc hn
  · rw [if_neg hc, if_neg fun hd => hc (hcd.2 hd)]
    exact h s t hr fun _ => ⟨rfl, rfl⟩

theorem Both.retain (H : Twins R) (hr : R b s t) {b' : Bool} {m₁ : P α} {m₂ : P β} {V : α → β → Prop} {G : α → Prop}
    (h : Both R b' m₁ m₂ (s.retain b') (t.retain b') V G) : Both R b (withRetain b' m₁) (withRetain b' m₂) s t V G := by
  intro x s' e hg
  unfold withRetain at e
  dsimp only at e
  split at e
  · rename_i a s1 e1
    cases e
    obtain ⟨c, t1, g1, hv, hr1⟩ := h _ _ e1 hg
    refine ⟨c, t1.retain t.lex.retainWS, ?_, hv, ?_⟩
    · unfold withRetain
      dsimp only
      change m₂ { t with lex := { t.lex with retainWS := b' } } = _ at g1
      rw [g1]
      rfl
    · rw [(H.flag hr).2]
      show R b (s1.retain s.lex.retainWS) _
      rw [(H.flag hr).1]
      exact H.retain b hr1
  all_goals cases e

end

/-! ### Values -/

theorem bareVals_app : ∀ (xs ys : List Value), bareVals (xs ++ ys) = bareVals xs ++ bareVals ys
  | [], _ => rfl
  | x :: xs, ys => by simp only [List.cons_append, bareVals, bareVals_app xs ys]

/-- Values equal up to positions. -/
def VEq (v w : Value) : Prop := v.bare = w.bare

theorem VEq.nil_iff {v w : Value} (h : VEq v w) : v = .nil ↔ w = .nil := by
  unfold VEq at h
  cases v <;> cases w <;> simp_all [Value.bare]

theorem bareVals_snoc {xs ys : List Value} {v w : Value} (h : bareVals xs = bareVals ys) (hv : VEq v w) :
    bareVals (xs ++ [v]) = bareVals (ys ++ [w]) := by
  rw [bareVals_app, bareVals_app, h]
  simp only [bareVals]
  rw [hv]

theorem Both.locate {R : Bool → St → St → Prop} {b : Bool} {s t : St} (hr : R b s t) {v w : Value} (h : VEq v w)
    {f₁ : Span → P γ} {f₂ : Span → P δ} {W : γ → δ → Prop} {G : γ → Prop} {b' : Bool}
    (hf : ∀ x y, Both R b' (f₁ x) (f₂ y) s t W G) : Both R b' (Cssc.locate v >>= f₁) (Cssc.locate w >>= f₂) s t W G := by
  unfold VEq at h
  unfold Cssc.locate
  cases v <;> cases w <;> first | (simp only [Value.bare] at h; cases h; done) | skip
  all_goals first | exact hf _ _ | (intro x s' e; cases e; done)

/-- The functions of the value parser, for one amount of fuel. -/
structure ValTwin (R : Bool → St → St → Prop) (n : Nat) : Prop where
  value {b s t} : R b s t → Both R b (parseValue n) (parseValue n) s t VEq
  brackets {b s t} {a a' : Nat} {vs ws : List Value} : R b s t → bareVals vs = bareVals ws →
    Both R b (bracketsLoop n a vs) (bracketsLoop n a' ws) s t VEq
  args {b s t} {sp sp' : Span} {name : Bytes} {vs ws : List Value} : R b s t → bareVals vs = bareVals ws →
    Both R b (argsLoop n sp name vs) (argsLoop n sp' name ws) s t VEq
  sum {b s t} : R b s t → Both R b (parseMathSum n) (parseMathSum n) s t VEq
  sumL {b s t} {l r : Value} : R b s t → VEq l r → Both R b (sumLoop n l) (sumLoop n r) s t VEq
  prod {b s t} : R b s t → Both R b (parseMathProduct n) (parseMathProduct n) s t VEq
  prodL {b s t} {l r : Value} : R b s t → VEq l r → Both R b (productLoop n l) (productLoop n r) s t VEq
  paren {b s t} : R b s t → Both R b (parseMathParen n) (parseMathParen n) s t VEq

/-- The last case of `argsLoop`. -/
def argsElse (n : Nat) (sp : Span) (name : Bytes) (args : List Value) : P Value := do
  if isMathName name then
    let v ← parseMathSum n
    argsLoop n sp name (args ++ [v])
  else
    match ← parseValue n with
    | .nil => pure (.func sp name args)
    | v => argsLoop n sp name (args ++ [v])

theorem hasStr_of {c d : Tok} (h : c = d) (hd : hasStr d) : hasStr c := h ▸ hd
theorem hasNum_of {c d : Tok} (h : c = d) (hd : hasNum d) : hasNum c := h ▸ hd

theorem valTwin {R : Bool → St → St → Prop} (H : Twins R) : ∀ n, ValTwin R n
  | 0 => by
    constructor <;> intros <;>
      first | unfold parseValue | unfold bracketsLoop | unfold argsLoop | unfold parseMathSum | unfold sumLoop
            | unfold parseMathProduct | unfold productLoop | unfold parseMathParen
    all_goals exact Both.timeout
  | n + 1 => by
    have ih := valTwin H n
    constructor
    · intro b s t hr
      unfold parseValue
      refine .span fun sp sp' => .str <| .num <| .cur H hr ?_
      have hstr := H.str hr
      have hnum := H.num hr
      cases hc : s.lex.cur <;> rw [hc] at hstr hnum <;> dsimp only
      all_goals first | refine .next H hr fun s' t' hr' => ?_ | exact .pure hr rfl
      all_goals first
        | exact .pure hr' (by unfold VEq; simp only [Value.bare, bareVals]; first | rfl | rw [hnum (by decide), hstr (by decide)] | rw [hnum (by decide)] | rw [hstr (by decide)])
        | exact ih.brackets hr' rfl
        | (rw [hstr (by decide)]; exact ih.args hr' rfl)
    · intro b s t a a' vs ws hr hv
      unfold bracketsLoop
      refine .cur H hr ?_
      refine .ite Iff.rfl (fun _ => ?_) fun _ => ?_
      · exact .tend fun _ _ => .next H hr fun s' t' hr' => .pure hr' (by unfold VEq; simp only [Value.bare]; rw [hv])
      · refine (ih.value hr).bind fun v w s' t' hvw hr' => ?_
        have := hvw
        unfold VEq at this
        cases v <;> cases w <;>
          first
            | (simp only [Value.bare] at this; cases this; done)
            | exact .errorf
            | exact ih.brackets hr' (bareVals_snoc hv hvw)
    · intro b s t sp sp' name vs ws hr hv
      unfold argsLoop
      refine .cur H hr ?_
      have key : Both R b (argsElse n sp name vs) (argsElse n sp' name ws) s t VEq := by
        unfold argsElse
        refine .ite Iff.rfl (fun _ => ?_) fun _ => ?_
        · exact (ih.sum hr).bind fun v w s' t' hvw hr' => ih.args hr' (bareVals_snoc hv hvw)
        · refine (ih.value hr).bind fun v w s' t' hvw hr' => ?_
          have := hvw
          unfold VEq at this
          cases v <;> cases w <;>
            first
              | (simp only [Value.bare] at this; cases this; done)
              | exact ih.args hr' (bareVals_snoc hv hvw)
              | exact .pure hr' (by unfold VEq; simp only [Value.bare]; rw [hv])
      cases hc : s.lex.cur
      case rparen =>
        exact .tend fun _ _ => .next H hr fun s' t' hr' => .pure hr' (by unfold VEq; simp only [Value.bare]; rw [hv])
      case comma =>
        exact .span fun _ _ => .next H hr fun s' t' hr' => ih.args hr' (bareVals_snoc hv rfl)
      all_goals exact key
    · intro b s t hr
      unfold parseMathSum
      exact (ih.prod hr).bind fun l r s' t' hv hr' => ih.sumL hr' hv
    · intro b s t l r hr hv
      unfold sumLoop
      refine .str <| .cur H hr ?_
      refine .ite ⟨fun h => ⟨h.1, ?_⟩, fun h => ⟨h.1, ?_⟩⟩ (fun hc => ?_) fun _ => .pure hr hv
      · rw [H.str hr (hasStr_of h.1 (by decide))]; exact h.2
      · rw [← H.str hr (hasStr_of h.1 (by decide))]; exact h.2
      · refine .expect H hr fun _ s1 t1 hr1 => (ih.prod hr1).bind fun v w s2 t2 hvw hr2 => ?_
        refine .locate hr2 hv fun _ _ => .locate hr2 hvw fun _ _ => ih.sumL hr2 ?_
        rw [H.str hr (hasStr_of hc.1 (by decide))]
        unfold VEq at *
        simp only [Value.bare, hv, hvw]
    · intro b s t hr
      unfold parseMathProduct
      exact (ih.paren hr).bind fun l r s' t' hv hr' => ih.prodL hr' hv
    · intro b s t l r hr hv
      unfold productLoop
      refine .str <| .cur H hr ?_
      refine .ite ⟨fun h => ⟨h.1, ?_⟩, fun h => ⟨h.1, ?_⟩⟩ (fun hc => ?_) fun _ => .pure hr hv
      · rw [H.str hr (hasStr_of h.1 (by decide))]; exact h.2
      · rw [← H.str hr (hasStr_of h.1 (by decide))]; exact h.2
      · refine .expect H hr fun _ s1 t1 hr1 => (ih.paren hr1).bind fun v w s2 t2 hvw hr2 => ?_
        refine .locate hr2 hv fun _ _ => .locate hr2 hvw fun _ _ => ih.prodL hr2 ?_
        rw [H.str hr (hasStr_of hc.1 (by decide))]
        unfold VEq at *
        simp only [Value.bare, hv, hvw]
    · intro b s t hr
      unfold parseMathParen
      refine .cur H hr <| .ite Iff.rfl (fun _ => ih.value hr) fun _ => ?_
      refine .span fun _ _ => .expect H hr fun _ s1 t1 hr1 => (ih.sum hr1).bind fun v w s2 t2 hvw hr2 => ?_
      refine .span fun _ _ => .expect H hr2 fun _ s3 t3 hr3 => .pure hr3 ?_
      unfold VEq at *
      simp only [Value.bare, hvw]

end Cssc
