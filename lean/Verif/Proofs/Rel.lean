import Verif.Proofs.LexSpec

/-!
# Running two computations side by side

`Rel S V r₁ r₂`: two outcomes agree, up to a relation `S` between the states, `V` between the values
and `E` between the errors, unless one of them ran out of fuel.
-/

namespace Cssc

/-- Agreement of two outcomes. -/
def Rel (S : St → St → Prop) (V : α → β → St → St → Prop) (E : LexErr → LexErr → Prop) :
    Res α → Res β → Prop
  | .timeout, _ => True
  | _, .timeout => True
  | .ok a s, .ok b t => V a b s t
  | .err e s, .err f t => E e f ∧ S s t
  | .crash s, .crash t => S s t
  | _, _ => False

theorem Rel.timeout_right {S : St → St → Prop} {V : α → β → St → St → Prop} {E : LexErr → LexErr → Prop}
    (r : Res α) : Rel S V E r .timeout := by cases r <;> trivial

theorem Rel.bind {S : St → St → Prop} {V : α → β → St → St → Prop} {W : γ → δ → St → St → Prop}
    {E : LexErr → LexErr → Prop} {m₁ : P α} {m₂ : P β} {f₁ : α → P γ} {f₂ : β → P δ} {s t : St}
    (h : Rel S V E (m₁ s) (m₂ t)) (hf : ∀ a b s' t', V a b s' t' → Rel S W E (f₁ a s') (f₂ b t')) :
    Rel S W E ((m₁ >>= f₁) s) ((m₂ >>= f₂) t) := by
  show Rel S W E (P.bind m₁ f₁ s) (P.bind m₂ f₂ t)
  unfold P.bind
  cases h1 : m₁ s <;> cases h2 : m₂ t <;> rw [h1, h2] at h <;>
    first
      | trivial
      | exact hf _ _ _ _ h
      | exact h
      | exact Rel.timeout_right _

theorem Rel.ite {S : St → St → Prop} {V : α → β → St → St → Prop} {E : LexErr → LexErr → Prop}
    {c d : Prop} [Decidable c] [Decidable d] {m₁ n₁ : P α} {m₂ n₂ : P β} {s t : St} (hcd : c ↔ d)
    (h1 : c → Rel S V E (m₁ s) (m₂ t)) (h2 : ¬ c → Rel S V E (n₁ s) (n₂ t)) :
    Rel S V E ((if c then m₁ else n₁) s) ((if d then m₂ else n₂) t) := by
  by_cases h : c
  · rw [if_pos h, if_pos (hcd.1 h)]; exact h1 h
  · rw [if_neg h, if_neg (fun hd => h (hcd.2 hd))]; exact h2 h

theorem Rel.mono {S : St → St → Prop} {V W : α → β → St → St → Prop} {E : LexErr → LexErr → Prop}
    {r₁ : Res α} {r₂ : Res β} (h : Rel S V E r₁ r₂) (hv : ∀ a b s t, V a b s t → W a b s t) :
    Rel S W E r₁ r₂ := by
  cases r₁ <;> cases r₂ <;> first | exact hv _ _ _ _ h | exact h

/-! ### Shifted lexers -/

/-- `s` is a lexer on a text that ends with the text of `t`, at the place of `t`'s cursor: all offsets are
`k` larger.  `ft`, `fs` and `fn` say whether the token's start and payload fields agree as well, `fc` is
the token's kind if it has been set. -/
structure Sim (k : Nat) (ft : Prop) (fc : Option Tok) (fs fn : Prop) (s t : St) : Prop where
  src : s.src.drop k = t.src
  le : k ≤ s.src.length
  ch : s.lex.ch = t.lex.ch
  pos : s.lex.pos = t.lex.pos + k
  lastPos : s.lex.lastPos = t.lex.lastPos + k
  retainWS : s.lex.retainWS = t.lex.retainWS
  retainComments : s.lex.retainComments = t.lex.retainComments
  start : ft → s.lex.start = t.lex.start + k
  cur : ∀ c, fc = some c → s.lex.cur = c ∧ t.lex.cur = c
  str : fs → s.lex.str = t.lex.str
  num : fn → s.lex.num = t.lex.num

/-- Errors at shifted places. -/
def EShift (k : Nat) (e f : LexErr) : Prop :=
  e.msg = f.msg ∧ e.span.start = f.span.start + k ∧ e.span.stop = f.span.stop + k

/-- Agreement of two lexer calls on shifted texts. -/
abbrev SimR (k : Nat) (V : α → α → St → St → Prop) (r₁ r₂ : Res α) : Prop :=
  Rel (fun _ _ => True) V (EShift k) r₁ r₂

/-- The usual conclusion for a method without a result. -/
abbrev SimV (k : Nat) (ft : Prop) (fc : Option Tok) (fs fn : Prop) : Unit → Unit → St → St → Prop :=
  fun _ _ s t => Sim k ft fc fs fn s t

section
variable {k : Nat} {ft fs fn : Prop} {fc : Option Tok} {s t : St}

theorem Sim.drop (h : Sim k ft fc fs fn s t) (i : Nat) : s.src.drop (i + k) = t.src.drop i := by
  rw [← h.src, List.drop_drop, Nat.add_comm]

theorem Sim.len (h : Sim k ft fc fs fn s t) : s.src.length = t.src.length + k := by
  rw [← h.src, List.length_drop]; have := h.le; omega

theorem Sim.sub (h : Sim k ft fc fs fn s t) (a b : Nat) : sub s.src (a + k) (b + k) = sub t.src a b := by
  unfold Cssc.sub
  rw [h.drop, show b + k - (a + k) = b - a by omega]

theorem Sim.peek (h : Sim k ft fc fs fn s t) (i : Nat) : s.peek i = t.peek i := by
  unfold St.peek
  have h1 := h.len
  have h2 := h.pos
  rw [show s.lex.pos + i = (t.lex.pos + i) + k by omega, h.drop]
  by_cases hc : t.src.length < t.lex.pos + i
  · rw [if_pos hc, if_pos (by omega)]
  · rw [if_neg hc, if_neg (by omega)]

theorem sim_step (h : Sim k ft fc fs fn s t) : SimR k (SimV k ft fc fs fn) (step s) (step t) := by
  unfold step
  have hl := h.len
  have hp := h.pos
  by_cases hc : t.src.length < t.lex.pos
  · simp only [hc, if_true, show s.src.length < s.lex.pos by omega]; trivial
  have hc' : ¬ s.src.length < s.lex.pos := by omega
  simp only [hc, hc', if_false]
  have e1 : s.src.drop s.lex.pos = t.src.drop t.lex.pos := by rw [hp, h.drop]
  rw [e1]
  by_cases hz : (decodeRune (t.src.drop t.lex.pos)).2 = 0
  · simp only [hz, if_true]
    exact ⟨h.src, h.le, rfl, hp, hp, h.retainWS, h.retainComments, h.start, h.cur, h.str, h.num⟩
  simp only [hz, if_false]
  by_cases hcr : (decodeRune (t.src.drop t.lex.pos)).1 = 13
  · simp only [hcr, if_true]
    have e2 : s.src.drop (s.lex.pos + (decodeRune (t.src.drop t.lex.pos)).2) =
        t.src.drop (t.lex.pos + (decodeRune (t.src.drop t.lex.pos)).2) := by
      rw [hp, Nat.add_right_comm, h.drop]
    rw [e2]
    exact ⟨h.src, h.le, rfl, by simp only; omega, hp, h.retainWS, h.retainComments, h.start, h.cur, h.str, h.num⟩
  · simp only [hcr, if_false]
    exact ⟨h.src, h.le, rfl, by simp only; omega, hp, h.retainWS, h.retainComments, h.start, h.cur, h.str, h.num⟩

/-- Sequencing. -/
theorem sim_bind {m₁ m₂ : P α} {f₁ f₂ : α → P β} {V : α → α → St → St → Prop} {W : β → β → St → St → Prop}
    (h : SimR k V (m₁ s) (m₂ t)) (hf : ∀ a b s' t', V a b s' t' → SimR k W (f₁ a s') (f₂ b t')) :
    SimR k W ((m₁ >>= f₁) s) ((m₂ >>= f₂) t) := Rel.bind h hf

theorem sim_pure {a b : α} {V : α → α → St → St → Prop} (h : V a b s t) :
    SimR k V ((pure a : P α) s) ((pure b : P α) t) := h

theorem sim_getCh {f₁ f₂ : Int → P α} {V : α → α → St → St → Prop} (h : Sim k ft fc fs fn s t)
    (hf : SimR k V (f₁ s.lex.ch s) (f₂ s.lex.ch t)) : SimR k V ((getCh >>= f₁) s) ((getCh >>= f₂) t) := by
  rw [h.ch] at hf
  show SimR k V (f₁ s.lex.ch s) (f₂ t.lex.ch t)
  rw [h.ch]; exact hf

theorem sim_peek {f₁ f₂ : Int → P α} {V : α → α → St → St → Prop} {i : Nat} (h : Sim k ft fc fs fn s t)
    (hf : SimR k V (f₁ (s.peek i) s) (f₂ (s.peek i) t)) :
    SimR k V ((peek i >>= f₁) s) ((peek i >>= f₂) t) := by
  show SimR k V (f₁ (s.peek i) s) (f₂ (t.peek i) t)
  rw [← h.peek]; exact hf

theorem sim_get {f₁ f₂ : St → P α} {V : α → α → St → St → Prop} (hf : SimR k V (f₁ s s) (f₂ t t)) :
    SimR k V ((P.get >>= f₁) s) ((P.get >>= f₂) t) := hf

theorem sim_fuel {f₁ f₂ : Nat → P α} {V : α → α → St → St → Prop}
    (hf : ∀ n m, SimR k V (f₁ n s) (f₂ m t)) : SimR k V ((lexFuel >>= f₁) s) ((lexFuel >>= f₂) t) := hf _ _

theorem sim_lastPos {f₁ f₂ : Nat → P α} {V : α → α → St → St → Prop} (h : Sim k ft fc fs fn s t)
    (hf : SimR k V (f₁ (t.lex.lastPos + k) s) (f₂ t.lex.lastPos t)) :
    SimR k V ((getLastPos >>= f₁) s) ((getLastPos >>= f₂) t) := by
  show SimR k V (f₁ s.lex.lastPos s) (f₂ t.lex.lastPos t)
  rw [h.lastPos]; exact hf

theorem sim_slice {f₁ f₂ : Bytes → P α} {V : α → α → St → St → Prop} (h : Sim k ft fc fs fn s t) {a b : Nat}
    (hf : ∀ x, SimR k V (f₁ x s) (f₂ x t)) :
    SimR k V ((slice (a + k) (b + k) >>= f₁) s) ((slice a b >>= f₂) t) := by
  refine sim_bind (V := fun x y s' t' => x = y ∧ s' = s ∧ t' = t) ?_ ?_
  · unfold slice
    have hl := h.len
    by_cases hc : a ≤ b ∧ b ≤ t.src.length
    · rw [if_pos hc, if_pos (by omega)]
      exact ⟨h.sub a b, rfl, rfl⟩
    · rw [if_neg hc, if_neg (by omega)]; trivial
  · rintro x y s' t' ⟨rfl, rfl, rfl⟩; exact hf x

theorem sim_errorf {V : α → α → St → St → Prop} {m : String} (h : Sim k True fc fs fn s t) :
    SimR k V (errorf m s) (errorf m t) := ⟨⟨rfl, h.start trivial, h.lastPos⟩, trivial⟩

theorem Sim.setCur (h : Sim k ft fc fs fn s t) (c : Tok) :
    Sim k ft (some c) fs fn { s with lex := { s.lex with cur := c } } { t with lex := { t.lex with cur := c } } :=
  ⟨h.src, h.le, h.ch, h.pos, h.lastPos, h.retainWS, h.retainComments, h.start,
    fun _ e => by cases e; exact ⟨rfl, rfl⟩, h.str, h.num⟩

theorem Sim.setStr (h : Sim k ft fc fs fn s t) (x : Bytes) :
    Sim k ft fc True fn { s with lex := { s.lex with str := x } } { t with lex := { t.lex with str := x } } :=
  ⟨h.src, h.le, h.ch, h.pos, h.lastPos, h.retainWS, h.retainComments, h.start, h.cur, fun _ => rfl, h.num⟩

theorem Sim.setNum (h : Sim k ft fc fs fn s t) (x : Bytes) :
    Sim k ft fc fs True { s with lex := { s.lex with num := x } } { t with lex := { t.lex with num := x } } :=
  ⟨h.src, h.le, h.ch, h.pos, h.lastPos, h.retainWS, h.retainComments, h.start, h.cur, h.str, fun _ => rfl⟩

theorem Sim.setStart (h : Sim k ft fc fs fn s t) :
    Sim k True fc fs fn { s with lex := { s.lex with start := s.lex.lastPos } }
      { t with lex := { t.lex with start := t.lex.lastPos } } :=
  ⟨h.src, h.le, h.ch, h.pos, h.lastPos, h.retainWS, h.retainComments, fun _ => h.lastPos, h.cur, h.str, h.num⟩

theorem sim_whenP {c : Prop} [Decidable c] {m₁ m₂ : P Unit} (h : Sim k ft fc fs fn s t)
    (hm : SimR k (SimV k ft fc fs fn) (m₁ s) (m₂ t)) :
    SimR k (SimV k ft fc fs fn) (whenP c m₁ s) (whenP c m₂ t) :=
  Rel.ite Iff.rfl (fun _ => hm) (fun _ => h)

theorem sim_digits : ∀ (n m : Nat) {s t : St}, Sim k ft fc fs fn s t →
    SimR k (SimV k ft fc fs fn) (digitsLoop n s) (digitsLoop m t)
  | 0, _, _, _, _ => trivial
  | _ + 1, 0, _, _, _ => Rel.timeout_right _
  | n + 1, m + 1, s, t, h => by
    simp only [digitsLoop]
    refine sim_getCh h (Rel.ite Iff.rfl (fun _ => ?_) fun _ => h)
    exact sim_bind (sim_step h) fun _ _ s' t' h' => sim_digits n m h'

theorem sim_wsLoop : ∀ (n m : Nat) {s t : St}, Sim k ft fc fs fn s t →
    SimR k (SimV k ft fc fs fn) (wsLoop n s) (wsLoop m t)
  | 0, _, _, _, _ => trivial
  | _ + 1, 0, _, _, _ => Rel.timeout_right _
  | n + 1, m + 1, s, t, h => by
    simp only [wsLoop]
    refine sim_getCh h (Rel.ite Iff.rfl (fun _ => ?_) fun _ => h)
    exact sim_bind (sim_step h) fun _ _ s' t' h' => sim_wsLoop n m h'

theorem sim_urlWsLoop : ∀ (n : Nat) {s t : St}, Sim k ft fc fs fn s t →
    SimR k (SimV k ft fc fs fn) (urlWsLoop n s) (urlWsLoop n t)
  | 0, _, _, h => h
  | n + 1, s, t, h => by
    simp only [urlWsLoop]
    refine sim_getCh h (Rel.ite Iff.rfl (fun _ => ?_) fun _ => h)
    exact sim_bind (sim_step h) fun _ _ s' t' h' => sim_urlWsLoop n h'

theorem sim_escapedLoop : ∀ (n : Nat) {s t : St}, Sim k ft fc fs fn s t →
    SimR k (SimV k ft fc fs fn) (escapedLoop n s) (escapedLoop n t)
  | 0, _, _, h => h
  | n + 1, s, t, h => by
    simp only [escapedLoop]
    refine sim_getCh h (Rel.ite Iff.rfl (fun _ => ?_) fun _ => h)
    refine sim_bind (sim_step h) fun _ _ s' t' h' => ?_
    refine sim_getCh h' ?_
    refine sim_bind (sim_whenP h' (sim_step h')) fun _ _ s' t' h' => ?_
    exact sim_escapedLoop n h'

theorem sim_escaped (h : Sim k ft fc fs fn s t) :
    SimR k (SimV k ft fc fs fn) (nextEscaped s) (nextEscaped t) :=
  sim_bind (sim_step h) fun _ _ _ _ h' => sim_escapedLoop 5 h'

theorem sim_nameLoop : ∀ (n m : Nat) {s t : St}, Sim k ft fc fs fn s t →
    SimR k (SimV k ft fc fs fn) (nameLoop n s) (nameLoop m t)
  | 0, _, _, _, _ => trivial
  | _ + 1, 0, _, _, _ => Rel.timeout_right _
  | n + 1, m + 1, s, t, h => by
    simp only [nameLoop]
    refine sim_getCh h (Rel.ite Iff.rfl (fun _ => ?_) fun _ => ?_)
    · exact sim_bind (sim_step h) fun _ _ s' t' h' => sim_nameLoop n m h'
    · refine sim_peek h (Rel.ite Iff.rfl (fun _ => ?_) fun _ => h)
      exact sim_bind (sim_escaped h) fun _ _ s' t' h' => sim_nameLoop n m h'

theorem sim_name (h : Sim k ft fc fs fn s t) : SimR k (SimV k ft fc fs fn) (nextName s) (nextName t) :=
  sim_fuel fun n m => sim_nameLoop n m h

theorem sim_number (h : Sim k ft fc fs fn s t) :
    SimR k (SimV k ft fc fs fn) (nextNumber s) (nextNumber t) := by
  rw [nextNumber]
  refine sim_fuel fun n m => sim_getCh h ?_
  refine sim_bind (sim_whenP h (sim_step h)) fun _ _ s t h => ?_
  refine sim_bind (sim_digits n m h) fun _ _ s t h => ?_
  refine sim_getCh h (sim_peek h ?_)
  refine sim_bind (sim_whenP h ?_) fun _ _ s t h => ?_
  · refine sim_bind (sim_step h) fun _ _ s t h => ?_
    refine sim_bind (sim_step h) fun _ _ s t h => ?_
    exact sim_digits n m h
  refine sim_peek h (sim_peek h (sim_getCh h (sim_whenP h ?_)))
  refine sim_bind (sim_step h) fun _ _ s t h => ?_
  refine sim_getCh h ?_
  refine sim_bind (sim_whenP h (sim_step h)) fun _ _ s t h => ?_
  exact sim_digits n m h

/-- Kinds of token that carry text. -/
def hasStr (c : Tok) : Prop :=
  c = .ident ∨ c = .delim ∨ c = .string ∨ c = .url ∨ c = .functionStart ∨ c = .at ∨ c = .hash ∨
    c = .dimension ∨ c = .comment

/-- Kinds of token that carry a number. -/
def hasNum (c : Tok) : Prop := c = .number ∨ c = .percentage ∨ c = .dimension

instance (c : Tok) : Decidable (hasStr c) := by unfold hasStr; infer_instance
instance (c : Tok) : Decidable (hasNum c) := by unfold hasNum; infer_instance

theorem Sim.weaken {ft' fs' fn' : Prop} {fc' : Option Tok} (h : Sim k ft fc fs fn s t) (h1 : ft' → ft)
    (h2 : fc' = none ∨ fc' = fc) (h3 : fs' → fs) (h4 : fn' → fn) : Sim k ft' fc' fs' fn' s t :=
  ⟨h.src, h.le, h.ch, h.pos, h.lastPos, h.retainWS, h.retainComments, fun x => h.start (h1 x),
    fun c x => by rcases h2 with rfl | rfl; cases x; exact h.cur c x, fun x => h.str (h3 x), fun x => h.num (h4 x)⟩

theorem Sim.cursor (h : Sim k ft fc fs fn s t) : Sim k False none False False s t :=
  h.weaken False.elim (.inl rfl) False.elim False.elim

/-- What two related lexers report after a token: the same kind and payload, at shifted places. -/
def SameTok (k : Nat) (s t : St) : Prop := ∃ c, Sim k True (some c) (hasStr c) (hasNum c) s t

/-- Method outcome: the same token. -/
abbrev TokV (k : Nat) : Unit → Unit → St → St → Prop := fun _ _ s t => SameTok k s t

theorem Sim.tok {c : Tok} (h : Sim k True (some c) fs fn s t) (hs : hasStr c → fs) (hn : hasNum c → fn) :
    SameTok k s t := ⟨c, h.weaken id (.inr rfl) hs hn⟩

theorem sim_setCur {f₁ f₂ : P α} {V : α → α → St → St → Prop} {c : Tok} (h : Sim k ft fc fs fn s t)
    (hf : ∀ s' t', Sim k ft (some c) fs fn s' t' → SimR k V (f₁ s') (f₂ t')) :
    SimR k V ((setCur c >>= fun _ => f₁) s) ((setCur c >>= fun _ => f₂) t) := hf _ _ (h.setCur c)

theorem sim_setStr {f₁ f₂ : P α} {V : α → α → St → St → Prop} {x : Bytes} (h : Sim k ft fc fs fn s t)
    (hf : ∀ s' t', Sim k ft fc True fn s' t' → SimR k V (f₁ s') (f₂ t')) :
    SimR k V ((setStr x >>= fun _ => f₁) s) ((setStr x >>= fun _ => f₂) t) := hf _ _ (h.setStr x)

theorem sim_setNum {f₁ f₂ : P α} {V : α → α → St → St → Prop} {x : Bytes} (h : Sim k ft fc fs fn s t)
    (hf : ∀ s' t', Sim k ft fc fs True s' t' → SimR k V (f₁ s') (f₂ t')) :
    SimR k V ((setNum x >>= fun _ => f₁) s) ((setNum x >>= fun _ => f₂) t) := hf _ _ (h.setNum x)

theorem sim_getStr {f₁ f₂ : Bytes → P α} {V : α → α → St → St → Prop} (h : Sim k ft fc True fn s t)
    (hf : ∀ x, SimR k V (f₁ x s) (f₂ x t)) : SimR k V ((getStr >>= f₁) s) ((getStr >>= f₂) t) := by
  have := hf s.lex.str
  show SimR k V (f₁ s.lex.str s) (f₂ t.lex.str t)
  rw [← h.str trivial]; exact this

theorem sim_step_tok {c : Tok} (h : Sim k True (some c) fs fn s t) (hs : hasStr c → fs)
    (hn : hasNum c → fn) : SimR k (TokV k) (step s) (step t) :=
  Rel.mono (sim_step h) fun _ _ _ _ h' => h'.tok hs hn

theorem sim_delim (h : Sim k True fc fs fn s t) : SimR k (TokV k) (nextDelimToken s) (nextDelimToken t) := by
  rw [nextDelimToken]
  refine sim_lastPos h (sim_bind (sim_step h) fun _ _ s' t' h' => ?_)
  refine sim_setCur h' fun _ _ h => ?_
  refine sim_lastPos h (sim_slice h fun x => ?_)
  exact (h.setStr x).tok (fun _ => trivial) (fun x => absurd x (by decide))

theorem sim_numeric (h : Sim k True fc fs fn s t) :
    SimR k (TokV k) (nextNumericToken s) (nextNumericToken t) := by
  rw [nextNumericToken]
  refine sim_lastPos h (sim_bind (sim_number h) fun _ _ s' t' h => ?_)
  refine sim_lastPos h (sim_slice h fun x => sim_setNum h fun _ _ h => ?_)
  refine sim_getCh h (sim_peek h (sim_peek h (Rel.ite Iff.rfl (fun _ => ?_) fun _ => Rel.ite Iff.rfl (fun _ => ?_) fun _ => ?_)))
  · refine sim_lastPos h (sim_bind (sim_name h) fun _ _ s' t' h => ?_)
    refine sim_lastPos h (sim_slice h fun x => sim_setStr h fun _ _ h => ?_)
    exact (h.setCur .dimension).tok (fun _ => trivial) (fun _ => trivial)
  · exact sim_setCur h fun _ _ h => sim_step_tok h (fun x => absurd x (by decide)) (fun _ => trivial)
  · exact (h.setCur .number).tok (fun x => absurd x (by decide)) (fun _ => trivial)

theorem sim_urlLoop {a : Nat} : ∀ (n m : Nat) {s t : St}, Sim k True (some .url) fs fn s t →
    SimR k (TokV k) (urlLoop (a + k) n s) (urlLoop a m t)
  | 0, _, _, _, _ => trivial
  | _ + 1, 0, _, _, _ => Rel.timeout_right _
  | n + 1, m + 1, s, t, h => by
    simp only [urlLoop]
    refine sim_getCh h ?_
    refine Rel.ite Iff.rfl (fun _ => ?_) fun _ => ?_
    · refine sim_lastPos h (sim_slice h fun x => sim_setStr h fun _ _ h => ?_)
      exact sim_step_tok h (fun _ => trivial) (fun x => absurd x (by decide))
    refine Rel.ite Iff.rfl (fun _ => sim_errorf h) fun _ => ?_
    refine Rel.ite Iff.rfl (fun _ => sim_errorf h) fun _ => ?_
    refine Rel.ite Iff.rfl (fun _ => ?_) fun _ => ?_
    · refine sim_peek h (Rel.ite Iff.rfl (fun _ => ?_) fun _ => sim_errorf h)
      exact sim_bind (sim_escaped h) fun _ _ s' t' h' => sim_urlLoop n m h'
    refine Rel.ite Iff.rfl (fun _ => ?_) fun _ => ?_
    · exact sim_bind (sim_step h) fun _ _ s' t' h' => sim_urlLoop n m h'
    refine Rel.ite Iff.rfl (fun _ => sim_errorf h) fun _ => ?_
    exact sim_bind (sim_step h) fun _ _ s' t' h' => sim_urlLoop n m h'

theorem sim_identLike (h : Sim k True fc fs fn s t) :
    SimR k (TokV k) (nextIdentLikeToken s) (nextIdentLikeToken t) := by
  rw [nextIdentLikeToken]
  refine sim_lastPos h (sim_bind (sim_name h) fun _ _ s' t' h => ?_)
  refine sim_lastPos h (sim_slice h fun x => sim_setStr h fun _ _ h => ?_)
  refine sim_getStr h fun x => sim_getCh h ?_
  refine Rel.ite Iff.rfl (fun _ => ?_) fun _ => ?_
  · refine sim_bind (sim_step h) fun _ _ s' t' h => ?_
    refine sim_get ?_
    have e : s'.src.length - s'.lex.lastPos = t'.src.length - t'.lex.lastPos := by
      have := h.len
      have := h.lastPos
      omega
    rw [e]
    refine sim_bind (sim_urlWsLoop _ h) fun _ _ s' t' h => ?_
    refine sim_getCh h (Rel.ite Iff.rfl (fun _ => ?_) fun _ => ?_)
    · exact (h.setCur .functionStart).tok (fun _ => trivial) (fun x => absurd x (by decide))
    · refine sim_setCur h fun _ _ h => ?_
      refine sim_lastPos h (sim_fuel fun n m => ?_)
      exact sim_urlLoop n m h
  refine Rel.ite Iff.rfl (fun _ => ?_) fun _ => ?_
  · refine sim_bind (sim_step h) fun _ _ s' t' h => ?_
    exact (h.setCur .functionStart).tok (fun _ => trivial) (fun x => absurd x (by decide))
  · exact (h.setCur .ident).tok (fun _ => trivial) (fun x => absurd x (by decide))

theorem sim_commentLoop : ∀ (n m : Nat) {s t : St}, Sim k True fc fs fn s t →
    SimR k (fun e f s t => e = f + k ∧ Sim k True fc fs fn s t) (commentLoop n s) (commentLoop m t)
  | 0, _, _, _, _ => trivial
  | _ + 1, 0, _, _, _ => Rel.timeout_right _
  | n + 1, m + 1, s, t, h => by
    simp only [commentLoop]
    refine sim_getCh h ?_
    refine Rel.ite Iff.rfl (fun _ => ?_) fun _ => ?_
    · refine sim_lastPos h (sim_bind (sim_step h) fun _ _ s' t' h' => ?_)
      refine sim_getCh h' (Rel.ite Iff.rfl (fun _ => ?_) fun _ => ?_)
      · exact sim_bind (sim_step h') fun _ _ s' t' h' => ⟨rfl, h'⟩
      · exact sim_commentLoop n m h'
    refine Rel.ite Iff.rfl (fun _ => sim_errorf h) fun _ => ?_
    exact sim_bind (sim_step h) fun _ _ s' t' h' => sim_commentLoop n m h'

theorem sim_stringLoop {mark : Int} : ∀ (n m : Nat) {s t : St}, Sim k True fc fs fn s t →
    SimR k (fun e f s t => e = f + k ∧ Sim k True fc fs fn s t) (stringLoop mark n s) (stringLoop mark m t)
  | 0, _, _, _, _ => trivial
  | _ + 1, 0, _, _, _ => Rel.timeout_right _
  | n + 1, m + 1, s, t, h => by
    simp only [stringLoop]
    refine sim_getCh h ?_
    refine Rel.ite Iff.rfl (fun _ => ?_) fun _ => ?_
    · exact sim_lastPos h (sim_bind (sim_step h) fun _ _ s' t' h' => ⟨rfl, h'⟩)
    refine Rel.ite Iff.rfl (fun _ => sim_errorf h) fun _ => ?_
    refine Rel.ite Iff.rfl (fun _ => ?_) fun _ => ?_
    · refine sim_bind (sim_step h) fun _ _ s' t' h => ?_
      refine sim_getCh h ?_
      refine Rel.ite Iff.rfl (fun _ => ?_) fun _ => ?_
      · exact sim_bind (sim_step h) fun _ _ s' t' h' => sim_stringLoop n m h'
      refine Rel.ite Iff.rfl (fun _ => sim_errorf h) fun _ => ?_
      refine sim_peek h (Rel.ite Iff.rfl (fun _ => ?_) fun _ => ?_)
      · exact sim_bind (sim_escaped h) fun _ _ s' t' h' => sim_stringLoop n m h'
      · exact sim_stringLoop n m h
    refine Rel.ite Iff.rfl (fun _ => sim_errorf h) fun _ => ?_
    exact sim_bind (sim_step h) fun _ _ s' t' h' => sim_stringLoop n m h'

theorem sim_nextLoop : ∀ (n m : Nat) {s t : St}, Sim k False none False False s t →
    SimR k (TokV k) (nextLoop n s) (nextLoop m t)
  | 0, _, _, _, _ => trivial
  | _ + 1, 0, _, _, _ => Rel.timeout_right _
  | n + 1, m + 1, s, t, h => by
    simp only [nextLoop]
    refine sim_bind (V := SimV k True none False False) h.setStart fun _ _ s t h => ?_
    refine sim_getCh h (sim_peek h (sim_peek h (sim_peek h ?_)))
    have punct : ∀ c : Tok, ¬ hasStr c → ¬ hasNum c →
        SimR k (TokV k) ((do setCur c; step : P Unit) s) ((do setCur c; step : P Unit) t) := by
      intro c h1 h2
      exact sim_setCur h fun _ _ h => sim_step_tok h (fun x => absurd x h1) (fun x => absurd x h2)
    refine Rel.ite Iff.rfl (fun _ => (h.setCur .eof).tok (fun x => absurd x (by decide)) (fun x => absurd x (by decide))) fun _ => ?_
    refine Rel.ite Iff.rfl (fun _ => punct _ (by decide) (by decide)) fun _ => ?_
    refine Rel.ite Iff.rfl (fun _ => punct _ (by decide) (by decide)) fun _ => ?_
    -- +
    refine Rel.ite Iff.rfl (fun _ => Rel.ite Iff.rfl (fun _ => sim_numeric h) fun _ => sim_delim h) fun _ => ?_
    -- -
    refine Rel.ite Iff.rfl (fun _ => Rel.ite Iff.rfl (fun _ => sim_numeric h) fun _ => Rel.ite Iff.rfl (fun _ => ?_)
      fun _ => Rel.ite Iff.rfl (fun _ => sim_identLike h) fun _ => sim_delim h) fun _ => ?_
    · exact (h.setCur .cdc).tok (fun x => absurd x (by decide)) (fun x => absurd x (by decide))
    -- <
    refine Rel.ite Iff.rfl (fun _ => Rel.ite Iff.rfl (fun _ => ?_) fun _ => sim_delim h) fun _ => ?_
    · exact (h.setCur .cdo).tok (fun x => absurd x (by decide)) (fun x => absurd x (by decide))
    -- @
    refine Rel.ite Iff.rfl (fun _ => Rel.ite Iff.rfl (fun _ => ?_) fun _ => sim_delim h) fun _ => ?_
    · refine sim_bind (sim_step h) fun _ _ s t h => sim_setCur h fun s t h => ?_
      refine sim_lastPos h (sim_bind (sim_name h) fun _ _ s' t' h => ?_)
      refine sim_lastPos h (sim_slice h fun x => ?_)
      exact (h.setStr x).tok (fun _ => trivial) (fun x => absurd x (by decide))
    -- #
    refine Rel.ite Iff.rfl (fun _ => Rel.ite Iff.rfl (fun _ => ?_) fun _ => sim_delim h) fun _ => ?_
    · refine sim_setCur h fun s t h => sim_bind (sim_step h) fun _ _ s t h => ?_
      refine sim_lastPos h (sim_bind (sim_name h) fun _ _ s' t' h => ?_)
      refine sim_lastPos h (sim_slice h fun x => ?_)
      exact (h.setStr x).tok (fun _ => trivial) (fun x => absurd x (by decide))
    refine Rel.ite Iff.rfl (fun _ => punct _ (by decide) (by decide)) fun _ => ?_
    refine Rel.ite Iff.rfl (fun _ => punct _ (by decide) (by decide)) fun _ => ?_
    refine Rel.ite Iff.rfl (fun _ => punct _ (by decide) (by decide)) fun _ => ?_
    refine Rel.ite Iff.rfl (fun _ => punct _ (by decide) (by decide)) fun _ => ?_
    refine Rel.ite Iff.rfl (fun _ => punct _ (by decide) (by decide)) fun _ => ?_
    refine Rel.ite Iff.rfl (fun _ => punct _ (by decide) (by decide)) fun _ => ?_
    refine Rel.ite Iff.rfl (fun _ => punct _ (by decide) (by decide)) fun _ => ?_
    -- .
    refine Rel.ite Iff.rfl (fun _ => Rel.ite Iff.rfl (fun _ => sim_numeric h) fun _ => sim_delim h) fun _ => ?_
    -- \
    refine Rel.ite Iff.rfl (fun _ => Rel.ite Iff.rfl (fun _ => sim_identLike h) fun _ => sim_errorf h) fun _ => ?_
    -- /
    refine Rel.ite Iff.rfl (fun _ => Rel.ite Iff.rfl (fun _ => sim_delim h) fun _ => ?_) fun _ => ?_
    · refine sim_bind (sim_step h) fun _ _ s t h => sim_bind (sim_step h) fun _ _ s t h => ?_
      refine sim_lastPos h (sim_fuel fun a b => ?_)
      refine sim_bind (sim_commentLoop a b h) fun e f s t ⟨he, h⟩ => ?_
      subst he
      refine sim_setCur h fun s t h => sim_slice h fun x => sim_setStr h fun s t h => ?_
      refine sim_get ?_
      refine Rel.ite (by rw [h.retainComments]) (fun _ => ?_) fun _ => ?_
      · exact h.tok (fun _ => trivial) (fun x => absurd x (by decide))
      · exact sim_nextLoop n m h.cursor
    refine Rel.ite Iff.rfl (fun _ => ?_) fun _ => ?_
    · refine sim_bind (sim_step h) fun _ _ s t h => ?_
      refine sim_lastPos h (sim_fuel fun a b => ?_)
      refine sim_bind (sim_stringLoop a b h) fun e f s t ⟨he, h⟩ => ?_
      subst he
      refine sim_setCur h fun s t h => sim_slice h fun x => ?_
      exact (h.setStr x).tok (fun _ => trivial) (fun x => absurd x (by decide))
    refine Rel.ite Iff.rfl (fun _ => ?_) fun _ => ?_
    · refine sim_get ?_
      refine Rel.ite (by rw [h.retainWS]) (fun _ => ?_) fun _ => ?_
      · refine sim_fuel fun a b => sim_bind (sim_wsLoop a b h) fun _ _ s t h => ?_
        exact (h.setCur .whitespace).tok (fun x => absurd x (by decide)) (fun x => absurd x (by decide))
      · exact sim_bind (sim_step h) fun _ _ s t h => sim_nextLoop n m h.cursor
    refine Rel.ite Iff.rfl (fun _ => sim_numeric h) fun _ => ?_
    exact Rel.ite Iff.rfl (fun _ => sim_identLike h) fun _ => sim_delim h

theorem sim_next (h : Sim k ft fc fs fn s t) : SimR k (TokV k) (next s) (next t) :=
  sim_fuel fun n m => sim_nextLoop n m h.cursor

end

end Cssc
