import Verif.Spec.Tree
import Verif.Proofs.LexBar

/-!
# Tokens that do not advance, and function names

The tokens that take no text are `-->`, `<!--` and the empty number, and the text then contains one of five
sequences.  The name of a function is followed by `(` in the text.
-/

namespace Cssc

set_option linter.unusedSimpArgs false

theorem slice_of_bytes {src t : Bytes} {a : Nat} (h : ∀ i, i < t.length → src[a + i]? = t[i]?) (ha : a ≤ src.length) :
    SliceOf src t := by
  have hlen : a + t.length ≤ src.length := by
    refine Classical.byContradiction fun hc => ?_
    have := h (src.length - a) (by omega)
    rw [List.getElem?_eq_none (by omega), List.getElem?_eq_getElem (by omega)] at this
    cases this
  refine ⟨a, a + t.length, by omega, hlen, ?_⟩
  refine List.ext_getElem? fun i => ?_
  unfold sub
  rw [Nat.add_sub_cancel_left, List.getElem?_take]
  split
  · rename_i hi
    rw [List.getElem?_drop, h i hi]
  · rw [List.getElem?_eq_none (by omega)]

/-- The byte of an ASCII rune. -/
theorem byte_of_decode {src : Bytes} {q : Nat} {b : UInt8} (hb : b.toNat < 0x80)
    (h : (decodeRune (src.drop q)).1 = (b.toNat : Int)) : src[q]? = some b ∧ (decodeRune (src.drop q)).2 = 1 := by
  obtain ⟨c, t, e, h1, h2⟩ := decodeRune_of_lt (s := src.drop q) (by omega)
  have hc : src[q]? = some c := by
    have := congrArg List.head? e
    simpa [List.head?_drop] using this
  rw [h1] at h
  have : c.toNat = b.toNat := by omega
  have : c = b := UInt8.toNat_inj.1 this
  subst this
  exact ⟨hc, h2⟩

/-- The byte that was peeked. -/
theorem peek_byte {s : St} {i : Nat} {b : UInt8} (hb : b.toNat < 0x80) (h : s.peek i = (b.toNat : Int)) :
    s.src[s.lex.pos + i]? = some b := by
  unfold St.peek at h
  split at h
  · omega
  · dsimp only at h
    split at h
    · omega
    · exact (byte_of_decode hb h).1

/-- The bytes of the current rune. -/
theorem ch_bytes {s : St} (hi : Inv s) {b : UInt8} (hb : b.toNat < 0x80) (h : s.lex.ch = (b.toNat : Int)) :
    (s.src[s.lex.lastPos]? = some b ∧ s.lex.pos = s.lex.lastPos + 1) ∨
    (s.src[s.lex.lastPos]? = some 13 ∧ s.src[s.lex.lastPos + 1]? = some b ∧ s.lex.pos = s.lex.lastPos + 2) := by
  rw [hi.ch] at h
  rw [hi.pos]
  unfold curAt at h ⊢
  dsimp only at h ⊢
  split at h
  · omega
  · rename_i hs
    rw [if_neg hs]
    split at h
    · rename_i hcr
      obtain ⟨e1, e2⟩ := decode_cr hcr
      rw [if_pos hcr]
      rw [e2] at h ⊢
      obtain ⟨e3, e4⟩ := byte_of_decode hb h
      right
      rw [e4]
      exact ⟨e1, e3, rfl⟩
    · rename_i hcr
      rw [if_neg hcr]
      obtain ⟨e3, e4⟩ := byte_of_decode hb h
      left
      rw [e4]
      exact ⟨e3, rfl⟩

theorem ch_byte {s : St} (hi : Inv s) {b : UInt8} (hb : b.toNat < 0x80) (h : s.lex.ch = (b.toNat : Int)) :
    ∃ q, s.lex.pos = q + 1 ∧ s.src[q]? = some b := by
  rcases ch_bytes hi hb h with ⟨h1, h2⟩ | ⟨_, h1, h2⟩
  · exact ⟨_, h2, h1⟩
  · exact ⟨_, h2, h1⟩

/-- The text contains the name followed by an opening parenthesis. -/
def CallIn (src name : Bytes) : Prop := SliceOf src (name ++ b!"(") ∨ SliceOf src (name ++ b!"\r(")

/-- The name and an opening parenthesis end at `e`. -/
def CallAt (src name : Bytes) (e : Nat) : Prop :=
  e ≤ src.length ∧ ∃ i, i ≤ e ∧ (name ++ b!"(" = sub src i e ∨ name ++ b!"\r(" = sub src i e)

/-- A token that takes no text although it is not the end. -/
def Stalls (s : St) : Prop := s.lex.cur = .cdo ∨ s.lex.cur = .cdc ∨ (s.lex.cur = .number ∧ s.lex.num = [])

/-- What the text contains because of the current token. -/
structure Told (src : Bytes) (s : St) : Prop where
  stalls : Stalls s → StuckIn src
  func : s.lex.cur = .functionStart → CallIn src s.lex.str
  atRule : s.lex.cur = .at → SliceOf src (b!"@" ++ s.lex.str)
  bracket : s.lex.cur = .lbracket → SliceOf src b!"["
  call : s.lex.cur = .functionStart → isURLString s.lex.str = false → CallAt src s.lex.str s.lex.lastPos

section
variable {src : Bytes}

theorem Told.cur {s : St} {t : Tok} (h : s.lex.cur = t)
    (h1 : t ≠ .cdo ∧ t ≠ .cdc ∧ t ≠ .number ∧ t ≠ .functionStart ∧ t ≠ .at ∧ t ≠ .lbracket) : Told src s :=
  ⟨by rintro (e | e | ⟨e, _⟩) <;> rw [h] at e <;> simp_all, fun e => absurd (h.symm.trans e) h1.2.2.2.1,
    fun e => absurd (h.symm.trans e) h1.2.2.2.2.1, fun e => absurd (h.symm.trans e) h1.2.2.2.2.2,
    fun e => absurd (h.symm.trans e) h1.2.2.2.1⟩

theorem told_delim {s : St} (h : G src s) : wp nextDelimToken (fun _ s' => Told src s') XT s := by
  rw [nextDelimToken]
  wpb
  refine wp_seq (g_step h) fun _ s1 _ => ?_
  wpb
  refine wp_seq (R := fun _ s' => s'.lex.cur = .delim) (slice_top fun _ => rfl) fun t s2 h2 => ?_
  rw [wp_setStr]
  exact .cur h2 (by decide)

theorem told_numeric {s : St} (h : G src s) (hn : startsNumber s.lex.ch (s.peek 0) (s.peek 1) = true ∨ StuckIn src) :
    wp nextNumericToken (fun _ s' => Told src s') XT s := by
  rw [nextNumericToken]
  wpb
  refine wp_seq (wp_top (nextNumber_spec h.good)) fun _ s1 ⟨m1, lt1⟩ => ?_
  have g1 := m1.good h.good
  wpb
  rw [wpb_slice m1.le g1.inv.le]
  wpb
  refine wp_ite (fun hid => ?_) fun _ => wp_ite (fun hpc => ?_) fun _ => ?_
  · wpb
    refine wp_seq (R := fun _ _ => True) wp_trivial fun _ s4 _ => ?_
    wpb
    refine wp_seq (R := fun _ _ => True) wp_trivial fun t s5 _ => ?_
    wpb
    exact .cur (t := .dimension) rfl (by decide)
  · wpb
    have sc : SameCursor s1 { s1 with lex := { s1.lex with
        num := sub s1.src s.lex.lastPos s1.lex.lastPos, cur := .percentage } } := by constructor <;> rfl
    refine wp_mono (wp_top (X := XT) (step_spec (sc.good g1))) fun _ s3 ⟨m3, _⟩ => ?_
    exact .cur (t := .percentage) m3.cur (by decide)
  · rw [wp_setCur]
    refine ⟨fun hst => ?_, (fun e => by cases e), (fun e => by cases e), (fun e => by cases e), (fun e => by cases e)⟩
    rcases hst with e | e | ⟨_, e⟩
    · cases e
    · cases e
    · rcases hn with hn | hn
      · exfalso
        have := lt1 hn
        have hl := congrArg List.length e
        have := g1.inv.le
        simp only [sub, List.length_take, List.length_drop, List.length_nil] at hl
        omega
      · exact hn

theorem byte_sub {b : UInt8} {q : Nat} (hb : src[q]? = some b) : sub src q (q + 1) = [b] := by
  obtain ⟨hlt, e⟩ := List.getElem?_eq_some_iff.1 hb
  unfold sub
  rw [Nat.add_sub_cancel_left, List.drop_eq_getElem_cons hlt, e]
  rfl

theorem call_of {s s1 : St} (h : G src s) (m : Mov s s1) (hc : s1.lex.ch = r!"(") :
    CallIn src (sub s1.src s.lex.lastPos s1.lex.lastPos) := by
  have g1 := m.good h.good
  have hle := m.le
  have hs1 : s1.src = src := m.src.trans h.srcEq
  have hlen : s1.lex.lastPos ≤ src.length := by have := g1.inv.le; rwa [hs1] at this
  rcases ch_bytes g1.inv (b := 40) (by decide) hc with ⟨e1, _⟩ | ⟨e0, e1, _⟩
  · rw [hs1] at e1 ⊢
    left
    obtain ⟨hlt, _⟩ := List.getElem?_eq_some_iff.1 e1
    refine ⟨s.lex.lastPos, s1.lex.lastPos + 1, by omega, by omega, ?_⟩
    rw [← sub_append src hle (Nat.le_succ _), byte_sub e1]
  · rw [hs1] at e0 e1 ⊢
    right
    obtain ⟨hlt, _⟩ := List.getElem?_eq_some_iff.1 e1
    refine ⟨s.lex.lastPos, s1.lex.lastPos + 1 + 1, by omega, by omega, ?_⟩
    rw [← sub_append src (b := s1.lex.lastPos + 1) (by omega) (Nat.le_succ _), ← sub_append src hle (Nat.le_succ _),
      byte_sub e0, byte_sub e1]
    simp

theorem call_at {s s1 : St} (h : G src s) (m : Mov s s1) (hc : s1.lex.ch = r!"(") :
    CallAt src (sub s1.src s.lex.lastPos s1.lex.lastPos) s1.lex.pos := by
  have g1 := m.good h.good
  have hle := m.le
  have hs1 : s1.src = src := m.src.trans h.srcEq
  rcases ch_bytes g1.inv (b := 40) (by decide) hc with ⟨e1, ep⟩ | ⟨e0, e1, ep⟩
  · rw [hs1] at e1 ⊢
    obtain ⟨hlt, _⟩ := List.getElem?_eq_some_iff.1 e1
    rw [ep]
    refine ⟨by omega, s.lex.lastPos, by omega, .inl ?_⟩
    rw [← sub_append src hle (Nat.le_succ _), byte_sub e1]
  · rw [hs1] at e0 e1 ⊢
    obtain ⟨hlt, _⟩ := List.getElem?_eq_some_iff.1 e1
    rw [ep]
    refine ⟨by omega, s.lex.lastPos, by omega, .inr ?_⟩
    rw [← sub_append src (b := s1.lex.lastPos + 1) (by omega) (Nat.le_succ _), ← sub_append src hle (Nat.le_succ _),
      byte_sub e0, byte_sub e1]
    simp

theorem told_ident {s : St} (h : G src s) : wp nextIdentLikeToken (fun _ s' => Told src s') XT s := by
  rw [nextIdentLikeToken]
  wpb
  refine wp_seq (wp_top (nextName_spec h.good)) fun _ s1 ⟨m1, _⟩ => ?_
  have g1 := m1.good h.good
  wpb
  rw [wpb_slice m1.le g1.inv.le, wpb_setStr]
  generalize hs2 : ({ s1 with lex := { s1.lex with str := sub s1.src s.lex.lastPos s1.lex.lastPos } } : St) = s2
  have sc : SameCursor s1 s2 := by subst hs2; constructor <;> rfl
  have str2 : s2.lex.str = sub s1.src s.lex.lastPos s1.lex.lastPos := by subst hs2; rfl
  have g2 := sc.good g1
  have hch := sc.ch
  wpb
  have call : s2.lex.ch = r!"(" → CallIn src s2.lex.str := fun hc => by
    rw [str2]
    exact call_of h m1 (by rw [← hch]; exact hc)
  have fin : ∀ {s' : St}, s2.lex.ch = r!"(" → s'.lex.str = s2.lex.str → s'.lex.cur = .functionStart →
      (isURLString s2.lex.str = false → s'.lex.lastPos = s2.lex.pos) → Told src s' := by
    intro s' hc e1 e2 e3
    refine ⟨fun hst => ?_, fun _ => by rw [e1]; exact call hc, (fun e => by rw [e2] at e; cases e),
      (fun e => by rw [e2] at e; cases e), fun _ hu => ?_⟩
    rotate_left
    · rw [e1] at hu ⊢
      rw [e3 hu, str2, sc.pos]
      exact call_at h m1 (by rw [← hch]; exact hc)
    rcases hst with e | e | ⟨e, _⟩ <;> rw [e2] at e <;> cases e
  refine wp_ite (fun hu => ?_) fun _ => wp_ite (fun hc => ?_) fun _ => ?_
  · refine wp_seq (wp_top (X := XT) (step_spec g2)) fun _ s3 ⟨m3, _⟩ => ?_
    have g3 := m3.good g2
    wpb
    refine wp_seq (wp_top (urlWsLoop_spec _ s3 g3)) fun _ s4 m4 => ?_
    wpb
    refine wp_ite (fun _ => ?_) fun _ => ?_
    · rw [wp_setCur]
      exact fin hu.2 (m4.str.trans m3.str) rfl fun e => by rw [hu.1] at e; cases e
    · wpb
      have g4 := m4.good g3
      have g5 := (sc_cur s4 .url).good g4
      refine wp_mono (wp_top (urlLoop_spec _ _ _ g5 (Nat.le_refl _) (by simp only; omega))) fun _ s6 hh => ?_
      exact .cur (t := .url) hh.2.2.1 (by decide)
  · refine wp_seq (R := fun _ s3 => Mov s2 s3 ∧ s3.lex.lastPos = s2.lex.pos) ?_ fun _ s3 ⟨m3, hp⟩ => ?_
    · rw [wp_step g2]
      exact ⟨mov_step g2.inv, rfl⟩
    rw [wp_setCur]
    exact fin hc m3.str rfl fun _ => hp
  · rw [wp_setCur]
    exact .cur (t := .ident) rfl (by decide)

theorem stuck3 {s : St} (hi : Inv s) (hs : s.src = src) (h0 : s.lex.ch = r!"-") (h1 : s.peek 0 = r!"-") (h2 : s.peek 1 = r!">") :
    StuckIn src := by
  subst hs
  obtain ⟨q, e, b0⟩ := ch_byte hi (b := 45) (by decide) h0
  have b1 := peek_byte (b := 45) (by decide) h1
  have b2 := peek_byte (b := 62) (by decide) h2
  rw [e] at b1 b2
  refine .inl (slice_of_bytes (a := q) ?_ (by rw [List.getElem?_eq_some_iff] at b0; obtain ⟨_, _⟩ := b0; omega))
  intro i hlt
  match i, hlt with
  | 0, _ => exact b0
  | 1, _ => exact b1
  | 2, _ => exact b2

theorem stuck4 {s : St} (hi : Inv s) (hs : s.src = src) (h0 : s.lex.ch = r!"<") (h1 : s.peek 0 = r!"!") (h2 : s.peek 1 = r!"-")
    (h3 : s.peek 2 = r!"-") : StuckIn src := by
  subst hs
  obtain ⟨q, e, b0⟩ := ch_byte hi (b := 60) (by decide) h0
  have b1 := peek_byte (b := 33) (by decide) h1
  have b2 := peek_byte (b := 45) (by decide) h2
  have b3 := peek_byte (b := 45) (by decide) h3
  rw [e] at b1 b2 b3
  refine .inr (.inl (slice_of_bytes (a := q) ?_ (by rw [List.getElem?_eq_some_iff] at b0; obtain ⟨_, _⟩ := b0; omega)))
  intro i hlt
  match i, hlt with
  | 0, _ => exact b0
  | 1, _ => exact b1
  | 2, _ => exact b2
  | 3, _ => exact b3

theorem stuck2 {s : St} (hi : Inv s) (hs : s.src = src) (h0 : s.lex.ch = r!".") {b : UInt8} (hb : b = 43 ∨ b = 45 ∨ b = 46)
    (h1 : s.peek 0 = (b.toNat : Int)) : StuckIn src := by
  subst hs
  obtain ⟨q, e, b0⟩ := ch_byte hi (b := 46) (by decide) h0
  have hb' : b.toNat < 0x80 := by rcases hb with rfl | rfl | rfl <;> decide
  have b1 := peek_byte hb' h1
  rw [e] at b1
  have key : SliceOf s.src [46, b] := by
    refine slice_of_bytes (a := q) ?_ (by rw [List.getElem?_eq_some_iff] at b0; obtain ⟨_, _⟩ := b0; omega)
    intro i hlt
    match i, hlt with
    | 0, _ => exact b0
    | 1, _ => exact b1
  unfold StuckIn
  rcases hb with rfl | rfl | rfl
  · exact .inr (.inr (.inl key))
  · exact .inr (.inr (.inr (.inl key)))
  · exact .inr (.inr (.inr (.inr key)))

theorem nextLoop_told : ∀ (n : Nat) (s : St), Inv s → s.src = src →
    wp (nextLoop n) (fun _ s' => Told src s') XT s
  | 0, _, _, _ => trivial
  | n + 1, s, h, hsrc => by
    rw [nextLoop, wpb_modLex]
    generalize hs0 : ({ s with lex := { s.lex with start := s.lex.lastPos } } : St) = s0
    have sc : SameCursor s s0 := by subst hs0; constructor <;> rfl
    have i0 := sc.inv h
    have src0 := sc.src.trans hsrc
    clear hs0
    wpb
    refine wp_ite (fun hc => ?_) fun hne => ?_
    · rw [wp_setCur]
      exact .cur (t := .eof) rfl (by decide)
    have g0 : G src s0 := ⟨⟨i0, fun hp => hne (i0.pos_zero hp)⟩, src0⟩
    have single : ∀ t, (t ≠ .cdo ∧ t ≠ .cdc ∧ t ≠ .number ∧ t ≠ .functionStart ∧ t ≠ .at ∧ t ≠ .lbracket) →
        wp (do setCur t; step) (fun _ s' => Told src s') XT s0 := fun t ht => by
      rw [wpb_setCur, wp_step (g0.same (sc_cur s0 t)).good]
      exact .cur (t := t) rfl ht
    have numeric := told_numeric g0
    have dlm := told_delim g0
    have ident := told_ident g0
    refine wp_ite (fun _ => single _ (by decide)) fun _ => ?_
    refine wp_ite (fun _ => single _ (by decide)) fun _ => ?_
    refine wp_ite (fun _ => wp_ite (fun hs => numeric (.inl hs)) fun _ => dlm) fun _ => ?_
    refine wp_ite (fun hc => wp_ite (fun hs => numeric (.inl hs)) fun _ => wp_ite (fun hs => ?_) fun _ =>
      wp_ite (fun _ => ident) fun _ => dlm) fun _ => ?_
    · rw [wp_setCur]
      exact ⟨fun _ => stuck3 i0 src0 hc hs.1 hs.2, (fun e => by cases e), (fun e => by cases e), (fun e => by cases e),
        (fun e => by cases e)⟩
    refine wp_ite (fun hc => wp_ite (fun hs => ?_) fun _ => dlm) fun _ => ?_
    · rw [wp_setCur]
      exact ⟨fun _ => stuck4 i0 src0 hc hs.1 hs.2.1 hs.2.2, (fun e => by cases e), (fun e => by cases e), (fun e => by cases e),
        (fun e => by cases e)⟩
    refine wp_ite (fun hc => wp_ite (fun _ => ?_) fun _ => dlm) fun _ => ?_
    · refine wp_seq (g_step g0) fun _ s1 ⟨g1, e1⟩ => ?_
      wpb
      have g1' := g1.same (sc_cur s1 .at)
      refine wp_seq (wp_top (nextName_spec g1'.good)) fun _ s2 ⟨m2, _⟩ => ?_
      wpb
      have g2 := m2.good g1'.good
      have hsrc2 : s2.src = src := m2.src.trans g1'.srcEq
      have hle : s1.lex.lastPos ≤ s2.lex.lastPos := m2.le
      rw [wpb_slice hle g2.inv.le, wp_setStr]
      refine ⟨fun hst => ?_, fun e => ?_, fun _ => ?_, fun e => ?_, fun e => absurd ((show s2.lex.cur = .at from m2.cur).symm.trans e) (by simp)⟩
      · have hcur : s2.lex.cur = .at := m2.cur
        rcases hst with e | e | ⟨e, _⟩
        · rw [show s2.lex.cur = _ from e] at hcur; cases hcur
        · rw [show s2.lex.cur = _ from e] at hcur; cases hcur
        · rw [show s2.lex.cur = _ from e] at hcur; cases hcur
      · have hcur : s2.lex.cur = .at := m2.cur
        rw [show s2.lex.cur = _ from e] at hcur; cases hcur
      · obtain ⟨q, eq, b0⟩ := ch_byte i0 (b := 64) (by decide) hc
        have hl := g2.inv.le
        simp only
        rw [hsrc2] at hl ⊢
        rw [src0] at b0
        refine ⟨q, s2.lex.lastPos, by omega, hl, ?_⟩
        rw [e1, eq] at hle
        rw [e1, eq, ← sub_append src (a := q) (b := q + 1) (by omega) hle, byte_sub b0]
      · have hcur : s2.lex.cur = .at := m2.cur
        rw [show s2.lex.cur = _ from e] at hcur; cases hcur
    refine wp_ite (fun _ => wp_ite (fun _ => ?_) fun _ => dlm) fun _ => ?_
    · wpb
      refine wp_seq (wp_top (X := XT) (step_spec (g0.same (sc_cur s0 .hash)).good)) fun _ s1 ⟨m1, _⟩ => ?_
      wpb
      refine wp_seq (wp_top (nextName_spec (m1.good (g0.same (sc_cur s0 .hash)).good))) fun _ s2 ⟨m2, _⟩ => ?_
      wpb
      refine wp_seq (R := fun _ s' => s'.lex.cur = .hash) (slice_top fun _ => m2.cur.trans m1.cur) fun t s3 h3 => ?_
      rw [wp_setStr]
      exact .cur h3 (by decide)
    iterate 3 refine wp_ite (fun _ => single _ (by decide)) fun _ => ?_
    refine wp_ite (fun hc => ?_) fun _ => ?_
    · rw [wpb_setCur, wp_step (g0.same (sc_cur s0 .lbracket)).good]
      refine ⟨?_, (fun e => by cases e), (fun e => by cases e), (fun _ => ?_), fun e => by cases e⟩
      · rintro (e | e | ⟨e, _⟩) <;> cases e
      · obtain ⟨q, -, b0⟩ := ch_byte i0 (b := 91) (by decide) hc
        rw [src0] at b0
        obtain ⟨hlt, -⟩ := List.getElem?_eq_some_iff.1 b0
        exact ⟨q, q + 1, by omega, by omega, (byte_sub b0).symm⟩
    iterate 3 refine wp_ite (fun _ => single _ (by decide)) fun _ => ?_
    refine wp_ite (fun hc => wp_ite (fun hs => numeric ?_) fun _ => dlm) fun _ => ?_
    · -- a full stop
      unfold startsNumber at hs
      split at hs
      · rename_i h1
        right
        rcases h1 with h1 | h1
        · exact stuck2 i0 src0 hc (b := 43) (by simp) h1
        · exact stuck2 i0 src0 hc (b := 45) (by simp) h1
      · split at hs
        · rename_i h1
          right
          exact stuck2 i0 src0 hc (b := 46) (by simp) h1.1
        · left
          unfold startsNumber
          rw [hc, if_neg (by decide), if_pos ⟨rfl, hs⟩]
    refine wp_ite (fun _ => wp_ite (fun he => ident) fun _ => trivial) fun _ => ?_
    refine wp_ite (fun _ => wp_ite (fun _ => dlm) fun _ => ?_) fun _ => ?_
    · -- comment
      refine wp_seq (g_step g0) fun _ s1 ⟨g1, _⟩ => ?_
      refine wp_seq (g_step g1) fun _ s2 ⟨g2, _⟩ => ?_
      wpb
      refine wp_seq (wp_top (commentLoop_spec _ s2 g2.good (by omega))) fun e s3 ⟨m3, _⟩ => ?_
      have g3 : G src s3 := ⟨m3.good g2.good, m3.src.trans g2.srcEq⟩
      wpb
      refine wp_seq (R := fun _ s' => G src s' ∧ s'.lex.cur = .comment)
        (slice_top fun _ => ⟨g3.same (sc_cur s3 .comment), rfl⟩) fun t s5 ⟨g5, c5⟩ => ?_
      wpb
      refine wp_ite (fun _ => ?_) fun _ => ?_
      · exact .cur (t := .comment) c5 (by decide)
      · have g6 := g5.same (sc_str s5 t)
        exact nextLoop_told n _ g6.good.inv g6.srcEq
    refine wp_ite (fun hq => ?_) fun _ => ?_
    · -- string
      refine wp_seq (R := fun _ _ => True) wp_trivial fun _ s1 _ => ?_
      wpb
      refine wp_seq (R := fun _ _ => True) wp_trivial fun _ s3 _ => ?_
      wpb
      refine wp_seq (R := fun _ s' => s'.lex.cur = .string) (slice_top fun _ => rfl) fun t s5 h5 => ?_
      rw [wp_setStr]
      exact .cur h5 (by decide)
    refine wp_ite (fun hw => ?_) fun _ => ?_
    · wpb
      refine wp_ite (fun hr => ?_) fun _ => ?_
      · wpb
        refine wp_seq (R := fun _ _ => True) wp_trivial fun _ s1 _ => ?_
        rw [wp_setCur]
        exact .cur (t := .whitespace) rfl (by decide)
      · refine wp_seq (g_step g0) fun _ s1 ⟨g1, _⟩ => ?_
        exact nextLoop_told n s1 g1.good.inv g1.srcEq
    refine wp_ite (fun hd => numeric (.inl ?_)) fun _ => wp_ite (fun _ => ident) fun _ => dlm
    unfold startsNumber
    have h1 : ¬ (s0.lex.ch = r!"+" ∨ s0.lex.ch = r!"-") := by
      rintro (e | e) <;> rw [e] at hd <;> revert hd <;> decide
    have h2 : ¬ (s0.lex.ch = r!"." ∧ isDigit (s0.peek 0) = true) := by
      rintro ⟨e, _⟩; rw [e] at hd; revert hd; decide
    rw [if_neg h1, if_neg h2]
    exact hd

theorem next_told {s : St} (h : Inv s) (hsrc : s.src = src) : wp next (fun _ s' => Told src s') XT s := by
  rw [next, wpb_lexFuel]
  exact nextLoop_told _ s h hsrc

theorem wp_and {m : P α} {Q R : α → St → Prop} {X Y : Exc} {s : St} (h : wp m Q X s) (h' : wp m R Y s) :
    wp m (fun a s' => Q a s' ∧ R a s') X s := by
  unfold wp at *
  cases hm : m s <;> rw [hm] at h h' <;> first | exact ⟨h, h'⟩ | exact h

end

end Cssc
