import Verif.Proofs.TwinsRule
import Verif.Proofs.RoundSheet

/-!
# Two texts that consist of the same tokens are twins
-/

namespace Cssc

/-- The lexer stands on the first of the tokens, exactly these. -/
structure StandsOn (b : Bool) (s : St) (ts : List PTok) : Prop where
  ws : s.lex.retainWS = b
  rc : s.lex.retainComments = false
  here : match ts with
    | [] => s.lex.cur = .eof ∧ On s []
    | t :: ts' => (s.lex.cur = t.tok ∧ (∀ x, t.str = some x → s.lex.str = x) ∧ ∀ x, t.num = some x → s.lex.num = x) ∧
        t.Wf ∧ ∃ r, Laid ts' r ∧ On s r

theorem StandsOn.cur {b : Bool} {s : St} {t : PTok} {ts : List PTok} (h : StandsOn b s (t :: ts)) : s.lex.cur = t.tok := h.here.1.1
theorem StandsOn.eof {b : Bool} {s : St} (h : StandsOn b s []) : s.lex.cur = .eof := h.here.1
theorem StandsOn.wf {b : Bool} {s : St} {t : PTok} {ts : List PTok} (h : StandsOn b s (t :: ts)) : t.Wf := h.here.2.1
theorem StandsOn.str {b : Bool} {s : St} {t : PTok} {ts : List PTok} (h : StandsOn b s (t :: ts)) {x : Bytes} (e : t.str = some x) :
    s.lex.str = x := h.here.1.2.1 x e
theorem StandsOn.num {b : Bool} {s : St} {t : PTok} {ts : List PTok} (h : StandsOn b s (t :: ts)) {x : Bytes} (e : t.num = some x) :
    s.lex.num = x := h.here.1.2.2 x e

/-- The next token. -/
theorem stands_next {b : Bool} {s : St} {ts : List PTok} {r : Bytes} (hl : Laid ts r) (ho : On s r) (h1 : s.lex.retainWS = b)
    (h2 : s.lex.retainComments = false) : ∃ s', next s = .ok () s' ∧ StandsOn b s' (skipWs b ts) := by
  cases b with
  | true =>
    rw [skipWs_true]
    obtain ⟨w, hw, ⟨rfl, rfl⟩ | ⟨t, ts', r', rfl, rfl, hwf, hf, hl'⟩⟩ := comments_split hl
    · obtain ⟨_, s', e, o, a, c⟩ := wp_run (next_end hw ho h2)
      exact ⟨s', e, a.retainWS.trans h1, a.retainComments.trans h2, c, o⟩
    · obtain ⟨_, s', e, s1, o1, a1, r⟩ := wp_run (next_tok hw hwf hf (fun _ => h1) ho h2)
      exact ⟨s', e, r.adv.retainWS.trans (a1.retainWS.trans h1), r.adv.retainComments.trans (a1.retainComments.trans h2),
        ⟨r.cur, r.str, r.num⟩, hwf, _, hl', r.on⟩
  | false =>
    obtain ⟨w, hg, ⟨e, rfl⟩ | ⟨t, ts', r', e, rfl, hne, hwf, hf, hl'⟩⟩ := skip_split hl
    · rw [e]
      obtain ⟨_, s', e, o, a, c⟩ := wp_run (fwd_eof hg ho h1 h2)
      exact ⟨s', e, a.retainWS.trans h1, a.retainComments.trans h2, c, o⟩
    · rw [e]
      obtain ⟨_, s', e, s1, o1, a1, r⟩ := wp_run (fwd_next hg hwf hf ho h1 h2 (tok_ne_ws hwf hne))
      exact ⟨s', e, r.adv.retainWS.trans (a1.retainWS.trans h1), r.adv.retainComments.trans (a1.retainComments.trans h2),
        ⟨r.cur, r.str, r.num⟩, hwf, _, hl', r.on⟩

theorem StandsOn.next {b : Bool} {s : St} {t : PTok} {ts : List PTok} (h : StandsOn b s (t :: ts)) :
    ∃ s', next s = .ok () s' ∧ StandsOn b s' (skipWs b ts) := by
  obtain ⟨_, _, r, hl, ho⟩ := h.here
  exact stands_next hl ho h.ws h.rc

/-- Changing what is retained. -/
theorem StandsOn.retain {b : Bool} {s : St} {ts : List PTok} (h : StandsOn b s ts) (c : Bool) :
    StandsOn c { s with lex := { s.lex with retainWS := c } } ts := by
  obtain ⟨_, hrc, hh⟩ := h
  refine ⟨rfl, hrc, ?_⟩
  have on : ∀ {r}, On s r → On { s with lex := { s.lex with retainWS := c } } r :=
    fun o => ⟨⟨o.inv.le, o.inv.ch, o.inv.pos⟩, o.rest⟩
  cases ts with
  | nil => exact ⟨hh.1, on hh.2⟩
  | cons t ts =>
    obtain ⟨h1, h2, r, h3, h4⟩ := hh
    exact ⟨h1, h2, r, h3, on h4⟩


theorem skipWs_drop : ∀ (ts : List PTok), skipWs false ts = ts.dropWhile PTok.isWs
  | [] => rfl
  | t :: ts => by
    cases t <;> simp [skipWs, List.dropWhile, PTok.isWs, skipWs_drop ts]

theorem Alike.skip {b : Bool} {ts us : List PTok} (h : Alike ts us) : Alike (skipWs b ts) (skipWs b us) := by
  cases b with
  | true => rw [skipWs_true, skipWs_true]; exact h
  | false =>
    induction h with
    | nil => exact .nil
    | @cons t u ts us h1 h2 ih =>
      rcases h1 with rfl | ⟨ht, hu⟩
      · cases t <;> first | exact ih | exact .cons (.inl rfl) h2
      · cases t <;> first | cases ht | skip
        cases u <;> first | exact ih | cases hu

theorem Named.skip {b : Bool} {ts : List PTok} (h : Named ts) : Named (skipWs b ts) := by
  cases b with
  | true => rw [skipWs_true]; exact h
  | false =>
    induction ts with
    | nil => exact h
    | cons t ts ih => cases t <;> first | exact ih h.2.2 | exact h

theorem tok_str {t : PTok} (hw : t.Wf) (h : hasStr t.tok) : ∃ x, t.str = some x := by
  cases t <;> first | exact ⟨_, rfl⟩ | skip
  case punct c =>
    simp only [PTok.Wf, PTok.tok] at hw h
    unfold punctTok at hw h
    split at h <;> first | exact absurd h (by decide) | simp_all
  all_goals exact absurd h (show ¬ _ by simp only [PTok.tok]; decide)

theorem tok_num {t : PTok} (hw : t.Wf) (h : hasNum t.tok) : ∃ x, t.num = some x := by
  cases t <;> first | exact ⟨_, rfl⟩ | skip
  case punct c =>
    simp only [PTok.Wf, PTok.tok] at hw h
    unfold punctTok at hw h
    split at h <;> first | exact absurd h (by decide) | simp_all
  all_goals exact absurd h (show ¬ _ by simp only [PTok.tok]; decide)

/-- Two lexers at the same place of texts that consist of the same tokens. -/
def SameToks (b : Bool) (s t : St) : Prop := ∃ ts us, Alike ts us ∧ Named ts ∧ StandsOn b s ts ∧ StandsOn b t us

theorem ws_tok {t : PTok} (h : t.isWs = true) : t.tok = .whitespace := by
  cases t <;> first | rfl | cases h

theorem StandsOn.step {b : Bool} {s s' : St} {ts : List PTok} (h : StandsOn b s ts) (e : Cssc.next s = .ok () s') :
    StandsOn b s' (skipWs b ts.tail) := by
  cases ts with
  | nil =>
    obtain ⟨s1, e1, a1⟩ := stands_next .nil h.here.2 h.ws h.rc
    rw [e] at e1
    cases e1
    exact a1
  | cons t ts =>
    obtain ⟨s1, e1, a1⟩ := h.next
    rw [e] at e1
    cases e1
    exact a1

theorem StandsOn.go {b : Bool} {s : St} {ts : List PTok} (h : StandsOn b s ts) : ∃ s', Cssc.next s = .ok () s' ∧ StandsOn b s' (skipWs b ts.tail) := by
  cases ts with
  | nil => exact stands_next .nil h.here.2 h.ws h.rc
  | cons t ts => exact h.next

theorem Alike.tail {ts us : List PTok} (h : Alike ts us) : Alike ts.tail us.tail := by
  cases h with
  | nil => exact .nil
  | cons _ h => exact h

theorem Named.tail {ts : List PTok} (h : Named ts) : Named ts.tail := by
  cases ts with
  | nil => exact h
  | cons _ _ => exact h.2.2

theorem alike_str {b : Bool} {s t : St} {ts us : List PTok} (ha : Alike ts us) (h1 : StandsOn b s ts) (h2 : StandsOn b t us) {u : PTok}
    {l : List PTok} (e : ts = u :: l) (hu : u.str.isSome = true) : t.lex.str = s.lex.str := by
  subst e
  obtain ⟨x, hx⟩ := Option.isSome_iff_exists.1 hu
  cases ha with
  | cons h _ =>
    rcases h with rfl | ⟨hw, _⟩
    · rw [h1.str hx, h2.str hx]
    · cases u <;> first | (cases hu; done) | (cases hw; done)

theorem sameToks_twins : Twins SameToks where
  cur := by
    rintro b s t ⟨ts, us, ha, _, h1, h2⟩
    cases ha with
    | nil => rw [h1.eof, h2.eof]
    | cons h _ =>
      rw [h1.cur, h2.cur]
      rcases h with rfl | ⟨ht, hu⟩
      · rfl
      · rw [ws_tok ht, ws_tok hu]
  str := by
    rintro b s t ⟨ts, us, ha, _, h1, h2⟩ hs
    cases ts with
    | nil => rw [h1.eof] at hs; exact absurd hs (by decide)
    | cons u l =>
      rw [h1.cur] at hs
      obtain ⟨x, hx⟩ := tok_str h1.wf hs
      exact alike_str ha h1 h2 rfl (by rw [hx]; rfl)
  num := by
    rintro b s t ⟨ts, us, ha, _, h1, h2⟩ hs
    cases ha with
    | nil => rw [h1.eof] at hs; exact absurd hs (by decide)
    | @cons u v l l' h _ =>
      rw [h1.cur] at hs
      rcases h with rfl | ⟨ht, hu⟩
      · obtain ⟨x, hx⟩ := tok_num h1.wf hs
        rw [h1.num hx, h2.num hx]
      · rw [ws_tok ht] at hs; exact absurd hs (by decide)
  flag := by
    rintro b s t ⟨ts, us, ha, _, h1, h2⟩
    exact ⟨h1.ws, h2.ws⟩
  retain := by
    rintro b s t b' ⟨ts, us, ha, hn, h1, h2⟩
    exact ⟨ts, us, ha, hn, h1.retain b', h2.retain b'⟩
  next := by
    rintro b s t s' ⟨ts, us, ha, hn, h1, h2⟩ e
    obtain ⟨t', g, h3⟩ := h2.go
    exact ⟨t', g, _, _, ha.tail.skip, hn.tail.skip, h1.step e, h3⟩
  bang := by
    rintro s t s' t' ⟨ts, us, ha, hn, h1, h2⟩ hc hs e g hi
    have h3 := h1.step e
    have h4 := h2.step g
    cases ts with
    | nil => rw [h1.eof] at hc; cases hc
    | cons u l =>
      have hu : u = .delim 33 := by
        have hw := h1.wf
        rw [h1.cur] at hc
        cases u <;> first | cases hc | skip
        · rename_i c
          simp only [PTok.Wf, PTok.tok] at hw hc
          unfold punctTok at hw hc
          split at hc <;> first | cases hc | simp_all
        · have := h1.str (x := [_]) rfl
          rw [hs] at this
          simp only [List.cons.injEq, and_true] at this
          rw [← this]
      obtain ⟨v, vs, e1, hv⟩ := hn.1 hu
      rw [← skipWs_drop] at e1
      rw [alike_str ha.tail.skip h3 h4 e1 hv]
      exact hi
  attr := by
    rintro s t s1 t1 s2 t2 ⟨ts, us, ha, hn, h1, h2⟩ hc e1 g1 hi e2 g2 hb _
    have h3 := h1.step e1
    have h4 := h2.step g1
    have h5 := h3.step e2
    have h6 := h4.step g2
    cases ts with
    | nil => rw [h1.eof] at hc; cases hc
    | cons u l =>
      have hu : u = .punct 91 := by
        have hw := h1.wf
        rw [h1.cur] at hc
        cases u <;> first | cases hc | skip
        rename_i c
        simp only [PTok.Wf, PTok.tok] at hw hc
        unfold punctTok at hw hc
        split at hc <;> first | rfl | (cases hc; done) | simp_all
      cases hl : skipWs false l with
      | nil => simp only [List.tail_cons] at h3; rw [hl] at h3; rw [h3.eof] at hi; cases hi
      | cons v vs =>
        simp only [List.tail_cons] at h3 h5
        rw [hl] at h3 h5
        have hv : ∃ w, v = .ident w := by
          have hw := h3.wf
          rw [h3.cur] at hi
          cases v <;> first | exact ⟨_, rfl⟩ | (cases hi; done) | skip
          rename_i c
          simp only [PTok.Wf, PTok.tok] at hw hi
          unfold punctTok at hw hi
          split at hi <;> first | cases hi | simp_all
        obtain ⟨w, rfl⟩ := hv
        rcases hn.2.1 hu w vs (by rw [← skipWs_drop]; exact hl) with ⟨x, xs, e3, hx⟩ | ⟨xs, e3⟩
        · rw [← skipWs_drop] at e3
          exact alike_str ha.tail.skip.tail.skip (by simp only [List.tail_cons]; rw [hl]; exact h5) h6
            (by simp only [List.tail_cons]; rw [hl]; exact e3) hx
        · rw [← skipWs_drop] at e3
          simp only [List.tail_cons] at h5
          rw [e3] at h5
          exact absurd h5.cur hb

/-- Texts that consist of the same tokens are parsed alike. -/
theorem parse_twins {ts us : List PTok} {x y : Bytes} {n id : Nat} {ss : Stylesheet} {lines : List Nat} (ha : Alike ts us)
    (hn : Named ts) (hx : Laid ts x) (hy : Laid us y) (hp : parse n x id = .ok ss lines) (hc : ∀ d ∈ ss.nodes, d.clean) :
    ∃ ss' lines', parse n y id = .ok ss' lines' ∧ ss.Same ss' := by
  obtain ⟨s1, e1, hi, hsrc, _, hlp, hf1, hf2, _⟩ := first_step x id
  have o : On s1 x := ⟨hi, by rw [hsrc, hlp]; rfl⟩
  obtain ⟨s2, e2, a2⟩ := stands_next hx o hf1 hf2
  obtain ⟨t1, g1, hi', hsrc', _, hlp', hf1', hf2', _⟩ := first_step y id
  have o' : On t1 y := ⟨hi', by rw [hsrc', hlp']; rfl⟩
  obtain ⟨t2, g2, b2⟩ := stands_next hy o' hf1' hf2'
  have hr : SameToks false s2 t2 := ⟨_, _, ha.skip, hn.skip, a2, b2⟩
  unfold parse at hp ⊢
  rw [newLexer_eq e1, e2] at hp
  rw [newLexer_eq g1, g2]
  dsimp only at hp ⊢
  split at hp
  · rename_i ss0 s3 e3
    cases hp
    obtain ⟨ss', t3, g3, hs, _⟩ := topLoop_twin sameToks_twins n hr (x := ⟨[], []⟩) (y := ⟨[], []⟩) ⟨rfl, rfl⟩ _ _ e3 hc
    rw [g3]
    exact ⟨ss', t3.lines, rfl, hs⟩
  all_goals cases hp

end Cssc
