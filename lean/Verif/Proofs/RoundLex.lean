import Verif.Proofs.RoundPrint
import Verif.Proofs.Skip
import Verif.Parser

/-!
# The lexer on the text of a sequence of tokens

`At b s ts`: the lexer, retaining white space or not according to `b`, stands on the first token of `ts`, and
the text behind it is the text of the others, up to white space that has no meaning.
-/

namespace Cssc

/-- The tokens as seen from a lexer that retains white space (`true`) or skips it. -/
def skipWs (b : Bool) : List PTok → List PTok
  | .ws w :: ts => if b then .ws w :: ts else skipWs b ts
  | ts => ts

@[simp] theorem skipWs_true (ts : List PTok) : skipWs true ts = ts := by
  cases ts with
  | nil => rfl
  | cons t ts => cases t <;> rfl

theorem Lay.laid : ∀ {ts : List PTok}, Lay ts → Laid ts (texts ts)
  | [], _ => .nil
  | _ :: _, h => .tok h.1 h.2.1 (Lay.laid h.2.2)

/-! ### White space without meaning -/

theorem inSelector_cons {t : PTok} (h : t.isBound = false) (ts : List PTok) : InSelector (t :: ts) = InSelector ts := by
  unfold InSelector
  rw [List.dropWhile_cons, h]
  rfl

theorem inSelector_append {us : List PTok} (h : ∀ t ∈ us, t.isBound = false) (ts : List PTok) :
    InSelector (us ++ ts) = InSelector ts := by
  induction us with
  | nil => rfl
  | cons u us ih =>
    rw [List.cons_append, inSelector_cons (h u (by simp)), ih fun t ht => h t (by simp [ht])]

theorem inSelector_bound {t : PTok} {ts : List PTok} (h : InSelector (t :: ts) = true) (hne : t ≠ .punct 123) :
    t.isBound = false := by
  cases hb : t.isBound with
  | false => rfl
  | true =>
    exfalso
    unfold InSelector at h
    rw [List.dropWhile_cons, hb] at h
    simp only [Bool.not_true, Bool.false_eq_true, if_false] at h
    split at h
    · rename_i e
      cases e
      exact hne rfl
    · cases h

theorem inSelector_skipWs {ts : List PTok} : InSelector (skipWs false ts) = InSelector ts := by
  induction ts with
  | nil => rfl
  | cons t ts ih =>
    cases t with
    | ws w => exact ih.trans (inSelector_cons rfl ts).symm
    | _ => rfl

/-- What is seen by a lexer that skips white space. -/
theorem Spaced.skip {t : PTok} {ts us : List PTok} (h : Spaced t ts us) :
    (skipWs false us = [] → skipWs false ts = []) ∧
    ∀ u us', skipWs false us = u :: us' → ∃ ts', skipWs false ts = u :: ts' ∧ Spaced u ts' us' := by
  induction h with
  | nil => exact ⟨id, fun u us' e => by cases e⟩
  | @tok t u ts us h ih =>
    cases hw : u.isWs with
    | true =>
      cases u <;> cases hw
      exact ih
    | false =>
      have e : ∀ l, skipWs false (u :: l) = u :: l := fun l => by cases u <;> first | rfl | simp [PTok.isWs] at hw
      rw [e, e]
      refine ⟨fun h => (by cases h), fun v us' e => ?_⟩
      cases e
      exact ⟨_, rfl, h⟩
  | blank _ ih => exact ih
  | add _ _ ih => exact ih
  | drop _ _ ih => exact ih

/-- What is seen by a lexer that retains white space. -/
theorem Spaced.tight {t : PTok} {ts us : List PTok} (h : Spaced t ts us) (ht : t.isBound = false) (hs : InSelector ts = true) :
    ∃ u v ts' us', ts = u :: ts' ∧ us = v :: us' ∧ (u = v ∨ u.isWs = true ∧ v.isWs = true) ∧ Spaced u ts' us' := by
  have nl : ∀ {ts}, InSelector ts = true → ¬ Loose t ts := fun h l => by
    rcases l with l | l
    · rw [ht] at l; cases l
    · rw [h] at l; cases l
  cases h with
  | nil => cases hs
  | tok h => exact ⟨_, _, _, _, rfl, rfl, .inl rfl, h⟩
  | blank h => exact ⟨_, _, _, _, rfl, rfl, .inr ⟨rfl, rfl⟩, h⟩
  | add l h => exact absurd l (nl hs)
  | drop l h => exact absurd l (nl (by rwa [inSelector_cons rfl] at hs))

theorem Spaced.refl (t : PTok) (ts : List PTok) : Spaced t ts ts := by
  induction ts generalizing t with
  | nil => exact .nil
  | cons u ts ih => exact .tok (ih u)

/-- The lexer stands on the first of the tokens; if it retains white space, they are in a selector. -/
structure At (b : Bool) (s : St) (ts : List PTok) : Prop where
  ws : s.lex.retainWS = b
  rc : s.lex.retainComments = false
  sel : b = true → InSelector ts = true
  here : match ts with
    | [] => s.lex.cur = .eof ∧ On s []
    | t :: ts' => (s.lex.cur = t.tok ∧ (∀ x, t.str = some x → s.lex.str = x) ∧ ∀ x, t.num = some x → s.lex.num = x) ∧
        (t.isWs = true ∨ t.Wf) ∧ ∃ us r, Spaced t ts' us ∧ Laid us r ∧ On s r

theorem At.cur {b : Bool} {s : St} {t : PTok} {ts : List PTok} (h : At b s (t :: ts)) : s.lex.cur = t.tok := h.here.1.1
theorem At.eof {b : Bool} {s : St} (h : At b s []) : s.lex.cur = .eof := h.here.1
theorem At.wf {b : Bool} {s : St} {t : PTok} {ts : List PTok} (h : At b s (t :: ts)) (hw : t.isWs = false) : t.Wf := by
  rcases h.here.2.1 with h | h
  · rw [hw] at h; cases h
  · exact h
theorem At.inSel {s : St} {ts : List PTok} (h : At true s ts) : InSelector ts = true := h.sel rfl
theorem At.str {b : Bool} {s : St} {t : PTok} {ts : List PTok} (h : At b s (t :: ts)) {x : Bytes} (e : t.str = some x) :
    s.lex.str = x := h.here.1.2.1 x e
theorem At.num {b : Bool} {s : St} {t : PTok} {ts : List PTok} (h : At b s (t :: ts)) {x : Bytes} (e : t.num = some x) :
    s.lex.num = x := h.here.1.2.2 x e

/-- Only comments. -/
inductive Comments : Bytes → Prop where
  | nil : Comments []
  | comment {body w : Bytes} : IsCommentBody body → Comments w → Comments (47 :: 42 :: (body ++ 42 :: 47 :: w))

/-- Skipping comments, whether white space is retained or not. -/
theorem fwd_comments {w : Bytes} (hw : Comments w) : ∀ {s : St} {rest : Bytes} {X : Exc} {n : Nat} {Q : Unit → St → Prop},
    On s (w ++ rest) → s.lex.retainComments = false → w.length ≤ n →
    (∀ s1 j, On s1 rest → Adv s s1 → n ≤ j + w.length → wp (nextLoop j) Q X s1) → wp (nextLoop n) Q X s := by
  induction hw with
  | nil =>
    intro s rest X n Q h _ _ hf
    exact hf s n h (Adv.refl h.inv) (by simp)
  | @comment body w hb _ ih =>
    intro s rest X n Q h h2 hn hf
    simp only [List.length_cons, List.length_append] at hn hf
    obtain ⟨n, rfl⟩ : ∃ m, n = m + 1 := ⟨n - 1, by omega⟩
    have h' : On s (47 :: 42 :: (body ++ 42 :: 47 :: (w ++ rest))) := by simpa using h
    refine fwd_skip_comment h' hb h2 fun s1 o1 a1 => ?_
    refine ih o1 (a1.retainComments.trans h2) (by omega) fun s2 j o2 a2 hj => ?_
    exact hf s2 j o2 (a1.trans h.inv a2) (by omega)

/-- `next` at the end of the text, whatever is retained. -/
theorem next_end {s : St} {w : Bytes} {X : Exc} (hw : Comments w) (h : On s w) (h2 : s.lex.retainComments = false) :
    wp next (fun _ s' => On s' [] ∧ Adv s s' ∧ s'.lex.cur = .eof) X s := by
  rw [next]
  wpb
  have hl := h.len
  rw [← List.append_nil w] at h
  refine fwd_comments hw h h2 (by omega) fun s1 j o1 a1 hj => ?_
  obtain ⟨j, rfl⟩ : ∃ m, j = m + 1 := ⟨j - 1, by omega⟩
  rw [nextLoop_wp, o1.chEq]
  show wp (setCur .eof) _ _ _
  wpb
  have sc : SameCursor s1 { s1 with lex := { s1.lex with start := s1.lex.lastPos, cur := .eof } } :=
    ⟨rfl, rfl, rfl, rfl, rfl, rfl, rfl, rfl⟩
  exact ⟨sc.on o1, a1.trans h.inv (sc.adv o1.inv), trivial⟩

/-- `next` on a token, when only comments have to be skipped. -/
theorem next_tok {s : St} {w : Bytes} {t : PTok} {rest : Bytes} {X : Exc} (hc : Comments w) (hw : t.Wf) (hf : t.Follow rest)
    (hws : t.tok = .whitespace → s.lex.retainWS = true) (h : On s (w ++ (t.text ++ rest)))
    (h2 : s.lex.retainComments = false) :
    wp next (fun _ s' => ∃ s1, On s1 (t.text ++ rest) ∧ Adv s s1 ∧ Reads s1 s' t rest) X s := by
  rw [next]
  wpb
  have hl := h.len
  simp only [List.length_append] at hl
  refine fwd_comments hc h h2 (by omega) fun s1 j o1 a1 hj => ?_
  obtain ⟨j, rfl⟩ : ∃ m, j = m + 1 := ⟨j - 1, by omega⟩
  exact wp_mono (fwd_tok hw hf (fun e => a1.retainWS.trans (hws e)) o1) fun _ s2 r => ⟨s1, o1, a1, r⟩

/-- Comments at the front. -/
theorem comments_split {ts : List PTok} {r : Bytes} (h : Laid ts r) : ∃ w, Comments w ∧
    (ts = [] ∧ r = w ∨ ∃ t ts' r', ts = t :: ts' ∧ r = w ++ (t.text ++ r') ∧ t.Wf ∧ t.Follow r' ∧ Laid ts' r') := by
  induction h with
  | nil => exact ⟨[], .nil, .inl ⟨rfl, rfl⟩⟩
  | tok h1 h2 h3 => exact ⟨[], .nil, .inr ⟨_, _, _, rfl, rfl, h1, h2, h3⟩⟩
  | @comment body ts r hb _ ih =>
    obtain ⟨w, hw, ih⟩ := ih
    refine ⟨47 :: 42 :: (body ++ 42 :: 47 :: w), .comment hb hw, ?_⟩
    rcases ih with ⟨rfl, rfl⟩ | ⟨t, ts', r', rfl, rfl, h⟩
    · exact .inl ⟨rfl, rfl⟩
    · exact .inr ⟨t, ts', r', rfl, by simp, h⟩

/-- White space tokens and comments at the front are a gap. -/
theorem skip_split {ts : List PTok} {r : Bytes} (h : Laid ts r) : ∃ w, Gap w ∧
    (skipWs false ts = [] ∧ r = w ∨ ∃ t ts' r', skipWs false ts = t :: ts' ∧ r = w ++ (t.text ++ r') ∧ t.isWs = false ∧
      t.Wf ∧ t.Follow r' ∧ Laid ts' r') := by
  induction h with
  | nil => exact ⟨[], .nil, .inl ⟨rfl, rfl⟩⟩
  | @tok t ts r h1 h2 h3 ih =>
    cases t with
    | ws w =>
      obtain ⟨g, hg, ih⟩ := ih
      refine ⟨w ++ g, ?_, ?_⟩
      · have hb : ∀ b ∈ w, isWsByte b = true := h1.2
        clear h1 h2 h3 ih
        induction w with
        | nil => exact hg
        | cons b w ih => exact .ws (hb b (by simp)) (ih fun c hc => hb c (by simp [hc]))
      · rcases ih with ⟨e, rfl⟩ | ⟨t, ts', r', e, rfl, h⟩
        · exact .inl ⟨e, rfl⟩
        · exact .inr ⟨t, ts', r', e, by simp [PTok.text], h⟩
    | _ => exact ⟨[], .nil, .inr ⟨_, _, _, rfl, rfl, rfl, h1, h2, h3⟩⟩
  | @comment body ts r hb _ ih =>
    obtain ⟨w, hw, ih⟩ := ih
    refine ⟨47 :: 42 :: (body ++ 42 :: 47 :: w), .comment hb hw, ?_⟩
    rcases ih with ⟨e, rfl⟩ | ⟨t, ts', r', e, rfl, h⟩
    · exact .inl ⟨e, rfl⟩
    · exact .inr ⟨t, ts', r', e, by simp, h⟩

theorem tok_ne_ws {t : PTok} (hw : t.Wf) (h : t.isWs = false) : t.tok ≠ .whitespace := by
  cases t <;> simp [PTok.tok, PTok.isWs] at h ⊢
  rename_i b
  simp only [PTok.Wf] at hw
  unfold punctTok at hw ⊢
  split <;> simp_all

theorem wp_run {m : P α} {Q : α → St → Prop} {s : St} (h : wp m Q ⟨fun _ _ => False, fun _ => False, False⟩ s) :
    ∃ a s', m s = .ok a s' ∧ Q a s' := by
  unfold wp at h
  split at h
  · exact ⟨_, _, ‹_›, h⟩
  · exact absurd h id
  · exact absurd h id
  · exact absurd h id

/-- The next token. -/
theorem on_next {b : Bool} {s : St} {t : PTok} {ts us : List PTok} {r : Bytes} (hs : Spaced t ts us) (hl : Laid us r) (ho : On s r)
    (h1 : s.lex.retainWS = b) (h2 : s.lex.retainComments = false)
    (hb : b = true → t.isBound = false ∧ InSelector ts = true) : ∃ s', next s = .ok () s' ∧ At b s' (skipWs b ts) := by
  cases b with
  | true =>
    rw [skipWs_true]
    obtain ⟨ht, hi⟩ := hb rfl
    obtain ⟨u, v, ts', us', rfl, rfl, huv, hs'⟩ := hs.tight ht hi
    obtain ⟨w, hw, ⟨e, _⟩ | ⟨t', ts'', r', e, rfl, hwf, hf, hl'⟩⟩ := comments_split hl
    · cases e
    · cases e
      obtain ⟨_, s', e, s1, o1, a1, r⟩ := wp_run (next_tok hw hwf hf (fun _ => h1) ho h2)
      refine ⟨s', e, r.adv.retainWS.trans (a1.retainWS.trans h1), r.adv.retainComments.trans (a1.retainComments.trans h2), fun _ => hi, ?_⟩
      rcases huv with rfl | ⟨hu, hv⟩
      · exact ⟨⟨r.cur, r.str, r.num⟩, .inr hwf, _, _, hs', hl', r.on⟩
      · cases u <;> cases hu
        cases v <;> cases hv
        exact ⟨⟨r.cur, fun x hx => (by cases hx), fun x hx => (by cases hx)⟩, .inl rfl, _, _, hs', hl', r.on⟩
  | false =>
    obtain ⟨k1, k2⟩ := hs.skip
    obtain ⟨w, hg, ⟨e, rfl⟩ | ⟨t', us', r', e, rfl, hne, hwf, hf, hl'⟩⟩ := skip_split hl
    · rw [k1 e]
      obtain ⟨_, s', e, o, a, c⟩ := wp_run (fwd_eof hg ho h1 h2)
      exact ⟨s', e, a.retainWS.trans h1, a.retainComments.trans h2, fun h => (by cases h), c, o⟩
    · obtain ⟨ts', e', hs'⟩ := k2 _ _ e
      rw [e']
      obtain ⟨_, s', e, s1, o1, a1, r⟩ := wp_run (fwd_next hg hwf hf ho h1 h2 (tok_ne_ws hwf hne))
      exact ⟨s', e, r.adv.retainWS.trans (a1.retainWS.trans h1), r.adv.retainComments.trans (a1.retainComments.trans h2),
        fun h => (by cases h), ⟨r.cur, r.str, r.num⟩, .inr hwf, _, _, hs', hl', r.on⟩

theorem At.next {b : Bool} {s : St} {t : PTok} {ts : List PTok} (h : At b s (t :: ts))
    (hb : b = true → t ≠ .punct 123 := by first | (intro h; cases h; done) | (intro _ h; cases h; done)) :
    ∃ s', next s = .ok () s' ∧ At b s' (skipWs b ts) := by
  obtain ⟨_, _, us, r, hs, hl, ho⟩ := h.here
  have hi := h.sel
  refine on_next hs hl ho h.ws h.rc fun e => ?_
  have := inSelector_bound (hi e) (hb e)
  exact ⟨this, by rw [← inSelector_cons this]; exact hi e⟩

theorem At.expect {b : Bool} {s : St} {t : PTok} {ts : List PTok} (h : At b s (t :: ts)) {k : Tok} (hk : t.tok = k)
    (hb : b = true → t ≠ .punct 123 := by first | (intro h; cases h; done) | (intro _ h; cases h; done)) :
    ∃ s', Cssc.expect k s = .ok () s' ∧ At b s' (skipWs b ts) := by
  obtain ⟨s', e, a⟩ := h.next hb
  refine ⟨s', ?_, a⟩
  show (do if (← getCur) ≠ k then errorf "expected %s, but got %s instead" else Cssc.next : P Unit) s = _
  rw [bind_ok (m := getCur) (a := s.lex.cur) (s' := s) rfl, h.cur, hk, if_neg (by simp)]
  exact e

/-- Changing what is retained. -/
theorem At.retain {b : Bool} {s : St} {ts : List PTok} (h : At b s ts) (c : Bool)
    (hc : c = true → InSelector ts = true := by intro h; cases h; done) :
    At c { s with lex := { s.lex with retainWS := c } } ts := by
  obtain ⟨_, hrc, _, hh⟩ := h
  refine ⟨rfl, hrc, hc, ?_⟩
  have on : ∀ {r}, On s r → On { s with lex := { s.lex with retainWS := c } } r :=
    fun o => ⟨⟨o.inv.le, o.inv.ch, o.inv.pos⟩, o.rest⟩
  cases ts with
  | nil => exact ⟨hh.1, on hh.2⟩
  | cons t ts =>
    obtain ⟨h1, h2, us, r, h3, h4, h5⟩ := hh
    exact ⟨h1, h2, us, r, h3, h4, on h5⟩

/-! ### Running methods -/

theorem run_bind {m : P α} {f : α → P β} {s s' : St} {a : α} (h : m s = .ok a s') : (m >>= f) s = f a s' := bind_ok h

/-- Sequencing of outcomes. -/
def Res.andThen (r : Res α) (f : α → P β) : Res β :=
  match r with
  | .ok a s => f a s
  | .err e s => .err e s
  | .crash s => .crash s
  | .timeout => .timeout

theorem pbind_apply (m : P α) (f : α → P β) (s : St) : (m >>= f) s = (m s).andThen f := rfl
theorem andThen_ok (a : α) (s : St) (f : α → P β) : (Res.ok a s).andThen f = f a s := rfl
theorem getCur_apply (s : St) : getCur s = .ok s.lex.cur s := rfl
theorem getStr_apply (s : St) : getStr s = .ok s.lex.str s := rfl
theorem getNum_apply (s : St) : getNum s = .ok s.lex.num s := rfl
theorem tokenSpan_apply (s : St) : tokenSpan s = .ok ⟨s.lex.start, s.lex.lastPos⟩ s := rfl
theorem tokenEnd_apply (s : St) : tokenEnd s = .ok s.lex.lastPos s := rfl
theorem ppure_apply (a : α) (s : St) : (pure a : P α) s = .ok a s := rfl
theorem pite_apply {c : Prop} [Decidable c] (m n : P α) (s : St) :
    (if c then m else n) s = if c then m s else n s := by split <;> rfl

/-- Run a method symbolically. -/
macro "prun" "[" ls:Lean.Parser.Tactic.simpLemma,* "]" : tactic =>
  `(tactic| simp only [pbind_apply, andThen_ok, getCur_apply, getStr_apply, getNum_apply, tokenSpan_apply,
    tokenEnd_apply, ppure_apply, pite_apply, $ls,*])

/-- The method, with enough fuel, returns `a` in state `s'`. -/
def Yields (f : Nat → P α) (s : St) (a : α) (s' : St) : Prop := ∃ k, ∀ n, k ≤ n → f n s = .ok a s'

theorem withRetain_ok {c : Bool} {m : P α} {s s' : St} {a : α}
    (h : m { s with lex := { s.lex with retainWS := c } } = .ok a s') :
    withRetain c m s = .ok a { s' with lex := { s'.lex with retainWS := s.lex.retainWS } } := by
  unfold withRetain
  simp only [h]

theorem skipWs_cons {b : Bool} {t : PTok} {ts : List PTok} (h : t.isWs = false) : skipWs b (t :: ts) = t :: ts := by
  cases t <;> first | rfl | simp [PTok.isWs] at h

theorem skipWs_space {ts : List PTok} : skipWs false (.space :: ts) = skipWs false ts := rfl

end Cssc
