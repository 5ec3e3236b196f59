import Verif.Proofs.RoundSheet
import Verif.Proofs.Runes

/-!
# A line break behind the tokens
-/

namespace Cssc

theorem headRune_newline (t q : Bytes) : isDigit (headRune (t ++ 10 :: q)) = isDigit (headRune t) ∧
    (headRune (t ++ 10 :: q) = r!"+" ↔ headRune t = r!"+") ∧ (headRune (t ++ 10 :: q) = r!"-" ↔ headRune t = r!"-") ∧
    (headRune (t ++ 10 :: q) = r!"." ↔ headRune t = r!".") := by
  cases t with
  | nil =>
    rw [List.nil_append, headRune_cons (by decide)]
    decide
  | cons b t =>
    have : headRune (b :: t ++ 10 :: q) = headRune (b :: t) := by
      unfold headRune
      rw [if_neg (by simp), if_neg (by simp), decodeRune_append_text (by simp) (by decide)]
    rw [this]
    exact ⟨rfl, .rfl, .rfl, .rfl⟩

theorem drop_newline {t q : Bytes} (h : t ≠ []) : (t ++ 10 :: q).drop 1 = t.drop 1 ++ 10 :: q := by
  cases t with
  | nil => exact absurd rfl h
  | cons b t => rfl

theorem headRune_ne {t : Bytes} {c : Int} (h : headRune t = c) (hc : 0 ≤ c) : t ≠ [] := by
  rintro rfl
  rw [headRune, if_pos rfl] at h
  omega

theorem StartsUnsigned.newline {t q : Bytes} (h : StartsUnsigned (t ++ 10 :: q)) : StartsUnsigned t := by
  rcases h with h | ⟨h1, h2⟩
  · exact .inl ((headRune_newline t q).1 ▸ h)
  · have h1 := (headRune_newline t q).2.2.2.1 h1
    rw [drop_newline (headRune_ne h1 (by decide)), (headRune_newline ..).1] at h2
    exact .inr ⟨h1, h2⟩

theorem StartsNum.newline {t q : Bytes} (h : StartsNum (t ++ 10 :: q)) : StartsNum t := by
  rcases h with h | ⟨h1, h2⟩
  · exact .inl h.newline
  · have h1 : headRune t = r!"+" ∨ headRune t = r!"-" :=
      h1.imp (headRune_newline t q).2.1.1 (headRune_newline t q).2.2.1.1
    have hne : t ≠ [] := by rcases h1 with h | h <;> exact headRune_ne h (by decide)
    rw [drop_newline hne] at h2
    exact .inr ⟨h1, h2.newline⟩

theorem WordStop.newline {r q : Bytes} (h : WordStop r) : WordStop (r ++ 10 :: q) := by
  rcases h with rfl | ⟨b, t, rfl, h⟩
  · exact .inr ⟨10, q, rfl, by decide, by decide, by decide, by decide⟩
  · exact .inr ⟨b, t ++ 10 :: q, rfl, h⟩

theorem NumStop.newline {r q : Bytes} (h : NumStop r) : NumStop (r ++ 10 :: q) := by
  rcases h with rfl | ⟨b, t, rfl, h1, h2, h3, h4, h5⟩
  · exact .inr ⟨10, q, rfl, by decide, by decide, by decide, fun h => absurd h (by decide), fun h => absurd h (by decide)⟩
  · refine .inr ⟨b, t ++ 10 :: q, rfl, h1, h2, h3, fun h => (headRune_newline t q).1 ▸ h4 h, fun h hd => h5 h ?_⟩
    rcases hd with hd | ⟨hd1, hd2⟩
    · exact .inl ((headRune_newline t q).1 ▸ hd)
    · have hd1 : headRune t = r!"+" ∨ headRune t = r!"-" :=
        hd1.imp (headRune_newline t q).2.1.1 (headRune_newline t q).2.2.1.1
      have hne : t ≠ [] := by rcases hd1 with h | h <;> exact headRune_ne h (by decide)
      rw [drop_newline hne, (headRune_newline ..).1] at hd2
      exact .inr ⟨hd1, hd2⟩

theorem ne_newline {r q : Bytes} {c : UInt8} (hc : c ≠ 10) (h : ∀ t, r ≠ c :: t) : ∀ t, r ++ 10 :: q ≠ c :: t := by
  intro t e
  cases r with
  | nil => injection e with e; exact hc e.symm
  | cons b r => injection e with e; subst e; exact h r rfl

/-- A token followed by a text is not changed by a line break behind it. -/
theorem PTok.Follow.newline {t : PTok} {r q : Bytes} (h : t.Follow r) (hw : t.isWs = true → r ≠ []) :
    t.Follow (r ++ 10 :: q) := by
  have stop : ∀ {P : UInt8 → Prop}, P 10 → (r = [] ∨ ∃ c t, r = c :: t ∧ P c) →
      r ++ 10 :: q = [] ∨ ∃ c t, r ++ 10 :: q = c :: t ∧ P c := by
    rintro P h10 (rfl | ⟨c, t, rfl, hp⟩)
    · exact .inr ⟨10, q, rfl, h10⟩
    · exact .inr ⟨c, t ++ 10 :: q, rfl, hp⟩
  cases t with
  | punct | percentage | string | url => trivial
  | delim b =>
    rcases h with h | ⟨e, h⟩ | ⟨e, h⟩ | ⟨e, h⟩ | ⟨e, h⟩ | ⟨e, h⟩ | ⟨e, h⟩
    · exact .inl h
    · exact .inr (.inl ⟨e, fun k => h k.newline⟩)
    · exact .inr (.inr (.inl ⟨e, stop (P := fun c => c.toNat < 0x80 ∧ isNameByte c = false ∧ c ≠ 46 ∧ c ≠ 92) (by decide) h⟩))
    · exact .inr (.inr (.inr (.inl ⟨e, fun k => h k.newline⟩)))
    · exact .inr (.inr (.inr (.inr (.inl ⟨e, ne_newline (by decide) h⟩))))
    · refine .inr (.inr (.inr (.inr (.inr (.inl ⟨e, fun t e => ?_⟩)))))
      rcases r with _ | ⟨a, _ | ⟨b, _ | ⟨c, r⟩⟩⟩
      · cases e
      · cases e
      · cases e
      · simp only [List.cons_append, List.cons.injEq] at e
        exact h r (by rw [e.1, e.2.1, e.2.2.1])
    · exact .inr (.inr (.inr (.inr (.inr (.inr ⟨e, stop (P := fun c => c.toNat < 0x80 ∧ isNameByte c = false ∧ c ≠ 92)
        (by decide) h⟩)))))
  | ident w => exact ⟨h.1.newline, ne_newline (by decide) h.2⟩
  | func w =>
    intro hu
    obtain ⟨m, t, rfl, hm⟩ := h hu
    exact ⟨m, t ++ 10 :: q, rfl, hm⟩
  | «at» w => exact WordStop.newline h
  | hash w => exact WordStop.newline h
  | number n => exact ⟨h.1.newline, h.2.1.newline, ne_newline (by decide) h.2.2⟩
  | dimension n u =>
    refine ⟨?_, h.2.newline⟩
    have := h.1.newline (q := q)
    rwa [List.append_assoc] at this
  | ws w =>
    rcases h with rfl | ⟨b, t, rfl, h⟩
    · exact absurd rfl (hw rfl)
    · exact .inr ⟨b, t ++ 10 :: q, rfl, h⟩

theorem text_ne {t : PTok} (h : t.Wf) : t.text ≠ [] := by
  have num : ∀ {n : Bytes}, IsNum n → n ≠ [] := by
    rintro n ⟨sgn, ds, fr, ex, hn, rfl⟩ e
    simp only [List.append_eq_nil_iff] at e
    rcases hn.nonempty with h | h
    · exact h e.2.1
    · exact h e.2.2.1
  have idn : ∀ {w : Bytes}, IsIdent w → w ≠ [] := by
    rintro w ⟨_, ⟨_, _, rfl, _⟩ | ⟨_, _, rfl, _⟩ | ⟨_, _, rfl, _⟩ | ⟨_, _, rfl, _⟩ | ⟨_, _, rfl⟩⟩ <;> simp
  cases t with
  | ident w => exact idn h
  | number n => exact num h
  | dimension n u => exact fun e => num h.1 (List.append_eq_nil_iff.1 e).1
  | ws w => exact h.1
  | _ => simp [PTok.text]

/-- Tokens that do not end with white space, and a line break and more behind them. -/
theorem Lay.laid_newline {tl : List PTok} {q : Bytes} (hq : Laid tl (10 :: q)) : ∀ {ts : List PTok}, Lay ts →
    (∀ w, ts.getLast? ≠ some (.ws w)) → Laid (ts ++ tl) (texts ts ++ 10 :: q)
  | [], _, _ => hq
  | t :: ts, h, he => by
    have ih := Lay.laid_newline hq h.2.2 fun w e => he w (by
      cases ts with
      | nil => cases e
      | cons t' ts => rw [List.getLast?_cons_cons]; exact e)
    rw [texts, List.append_assoc]
    refine .tok h.1 (h.2.1.newline fun hw e => ?_) ih
    cases ts with
    | nil =>
      cases t <;> first | exact he _ rfl | cases hw
    | cons t' ts =>
      have := h.2.2.1
      have hne : t'.text ≠ [] := text_ne this
      rw [texts] at e
      exact hne (List.append_eq_nil_iff.1 e).1

theorem Block.toks_last (b : Block) : ∃ ts c, b.toks = ts ++ [.punct c] := by
  cases b with
  | none => exact ⟨[], 59, rfl⟩
  | decls d => exact ⟨.punct 123 :: declsToks d.decls, 125, rfl⟩
  | rules sp rs => exact ⟨.punct 123 :: rulesToks rs, 125, rfl⟩

theorem nodesToks_last : ∀ (ns : List Node), nodesToks ns = [] ∨ ∃ ts c, nodesToks ns = ts ++ [.punct c]
  | [] => .inl rfl
  | n :: ns => by
    right
    rcases nodesToks_last ns with e | ⟨ts, c, e⟩
    · rw [nodesToks, e, List.append_nil]
      cases n with
      | rule r =>
        exact ⟨r.prelude.toks ++ .punct 123 :: (match r.block with | none => [] | some b => declsToks b.decls), 125,
          by simp only [Node.toks, QRule.toks, List.append_assoc, List.cons_append]; rfl⟩
      | «at» a =>
        obtain ⟨ts, c, e⟩ := a.block.toks_last
        exact ⟨.at a.name :: (preludesToks a.name a.preludes ++ ts), c, by simp [Node.toks, AtRule.toks, e]⟩
    · exact ⟨n.toks ++ ts, c, by rw [nodesToks, e, List.append_assoc]⟩

end Cssc
