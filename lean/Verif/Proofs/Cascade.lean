import Verif.Spec.Cascade
import Verif.Proofs.TwinsSel
import Verif.Props.Transform

/-!
# Lowering keeps what a stylesheet says: media queries, selectors and values
-/

namespace Cssc

/-! ### Chains -/

theorem chain_cons (w : Bytes) (p : MQPart) (ps : List MQPart) : chain w (p :: ps) = (p.isFeature && tailOk w ps) := by
  cases ps with
  | nil => rw [chain, tailOk, Bool.and_true]
  | cons q qs =>
    cases q with
    | ident sp v => rw [chain, tailOk, Bool.and_assoc]
    | _ => simp [chain, tailOk]

theorem tailOk_feature {w : Bytes} {p : MQPart} {ps : List MQPart} (h : p.isFeature = true) : tailOk w (p :: ps) = false := by
  cases p <;> simp [MQPart.isFeature] at h <;> rfl

theorem tailOk_word {w : Bytes} {sp : Span} {v : Bytes} {ps : List MQPart} : tailOk w (.ident sp v :: ps) = (v == w && chain w ps) := rfl

theorem word_of_not {p : MQPart} (h : p.isFeature = false) : ∃ sp v, p = .ident sp v := by
  cases p <;> simp [MQPart.isFeature] at h
  exact ⟨_, _, rfl⟩

theorem chain_append {w : Bytes} : ∀ {ps : List MQPart}, chain w ps = true → ∀ rest, chain w (ps ++ rest) = tailOk w rest
  | [], h, _ => by simp [chain] at h
  | p :: ps, h, rest => by
    rw [chain_cons, Bool.and_eq_true] at h
    rw [List.cons_append, chain_cons, h.1, Bool.true_and]
    cases ps with
    | nil => rfl
    | cons q qs =>
      cases q with
      | ident sp v =>
        rw [tailOk_word, Bool.and_eq_true] at h
        rw [List.cons_append, tailOk_word, h.2.1, Bool.true_and]
        exact chain_append h.2.2 rest
      | _ => simp [tailOk] at h

theorem chain_head {w : Bytes} {ps : List MQPart} (h : chain w ps = true) : ∃ p qs, ps = p :: qs ∧ p.isFeature = true := by
  cases ps with
  | nil => simp [chain] at h
  | cons p qs =>
    rw [chain_cons, Bool.and_eq_true] at h
    exact ⟨p, qs, rfl, h.1⟩

/-- The words in a chain. -/
theorem chain_words {w : Bytes} : ∀ {ps : List MQPart}, chain w ps = true → ∀ sp v, .ident sp v ∈ ps → v = w
  | [], _, _, _, hm => by simp at hm
  | p :: ps, h, sp, v, hm => by
    rw [chain_cons, Bool.and_eq_true] at h
    rcases List.mem_cons.1 hm with e | hm
    · rw [← e] at h
      cases h.1
    · cases ps with
      | nil => simp at hm
      | cons q qs =>
        cases q with
        | ident sp' v' =>
          rw [tailOk_word, Bool.and_eq_true] at h
          rcases List.mem_cons.1 hm with e | hm
          · cases e
            exact by simpa using h.2.1
          · exact chain_words h.2.2 sp v hm
        | _ => simp [tailOk] at h

/-- What lowering does to a part: words stay, features become chains that hold under the same conditions. -/
structure Lowered (F F' : MQPart → Prop) (p : MQPart) (out : List MQPart) : Prop where
  word : p.isFeature = false → out = [p]
  feature : p.isFeature = true → chain b!"and" out = true ∧ (AllHold F' out ↔ F p)

theorem Lowered.ne {F F' : MQPart → Prop} {p : MQPart} {out : List MQPart} (h : Lowered F F' p out) : out ≠ [] := by
  intro e
  cases hp : p.isFeature with
  | false => rw [h.word hp] at e; cases e
  | true =>
    obtain ⟨q, qs, e', _⟩ := chain_head (h.feature hp).1
    rw [e'] at e
    cases e

theorem lowered_chain {F F' : MQPart → Prop} {ps out : List MQPart} (h : Pieces (Lowered F F') ps out) :
    chain b!"and" out = chain b!"and" ps ∧ tailOk b!"and" out = tailOk b!"and" ps := by
  induction h with
  | nil => exact ⟨rfl, rfl⟩
  | @cons x xs o1 o2 hx _ ih =>
    cases hp : x.isFeature with
    | false =>
      obtain ⟨sp, v, rfl⟩ := word_of_not hp
      rw [hx.word hp, List.cons_append, List.nil_append, chain_cons, chain_cons, tailOk_word, tailOk_word, hp, ih.1]
      exact ⟨rfl, rfl⟩
    | true =>
      have hc := (hx.feature hp).1
      obtain ⟨q, qs, rfl, hq⟩ := chain_head hc
      rw [chain_append hc, chain_cons, hp, ih.2, tailOk_feature hp, List.cons_append, tailOk_feature hq]
      exact ⟨rfl, rfl⟩

theorem allHold_append {F : MQPart → Prop} {a b : List MQPart} : AllHold F (a ++ b) ↔ AllHold F a ∧ AllHold F b := by
  unfold AllHold
  simp only [List.mem_append]
  exact ⟨fun h => ⟨fun p hp => h p (.inl hp), fun p hp => h p (.inr hp)⟩, fun h p hp => hp.elim (h.1 p) (h.2 p)⟩

theorem allHold_cons {F : MQPart → Prop} {p : MQPart} {b : List MQPart} :
    AllHold F (p :: b) ↔ (p.isFeature = true → F p) ∧ AllHold F b := by
  unfold AllHold
  simp only [List.mem_cons]
  exact ⟨fun h => ⟨h p (.inl rfl), fun q hq => h q (.inr hq)⟩, fun h q hq => hq.elim (fun e => e ▸ h.1) (h.2 q)⟩

theorem lowered_all {F F' : MQPart → Prop} {ps out : List MQPart} (h : Pieces (Lowered F F') ps out) : AllHold F' out ↔ AllHold F ps := by
  induction h with
  | nil => exact ⟨fun _ _ hp => by simp at hp, fun _ _ hp => by simp at hp⟩
  | @cons x xs o1 o2 hx _ ih =>
    rw [allHold_append, allHold_cons, ih]
    refine and_congr_left fun _ => ?_
    cases hp : x.isFeature with
    | false =>
      rw [hx.word hp]
      refine ⟨fun _ e => (nomatch e), fun _ p hp' hf => ?_⟩
      rw [List.mem_singleton.1 hp', hp] at hf
      cases hf
    | true => rw [(hx.feature hp).2]; simp

/-! ### Queries -/

theorem query_word (B : Browser) (F : MQPart → Prop) (sp : Span) (w : Bytes) (ps : List MQPart) :
    QueryHolds B F (.ident sp w :: ps) =
      if w = b!"not" then
        match ps with
        | .ident _ t :: ps => tailOk b!"and" ps = true ∧ ¬ (B.medium t ∧ AllHold F ps)
        | [p] => ¬ F p
        | _ => False
      else if w = b!"only" then
        match ps with
        | .ident _ t :: ps => tailOk b!"and" ps = true ∧ B.medium t ∧ AllHold F ps
        | _ => False
      else tailOk b!"and" ps = true ∧ B.medium w ∧ AllHold F ps := rfl

theorem query_feature (B : Browser) (F : MQPart → Prop) {p : MQPart} (hp : p.isFeature = true) (ps : List MQPart) :
    QueryHolds B F (p :: ps) =
      ((chain b!"and" (p :: ps) = true ∧ AllHold F (p :: ps)) ∨
        (chain b!"or" (p :: ps) = true ∧ ∃ q ∈ p :: ps, q.isFeature = true ∧ F q)) := by
  cases p <;> simp [MQPart.isFeature] at hp <;> rfl

/-- A chain without its word is a single feature. -/
theorem chain_noOr {p : MQPart} {ps : List MQPart} (hn : ∀ q ∈ p :: ps, q.isOr = false) (h : chain b!"or" (p :: ps) = true) : ps = [] := by
  rw [chain_cons, Bool.and_eq_true] at h
  cases ps with
  | nil => rfl
  | cons q qs =>
    cases q with
    | ident sp v =>
      rw [tailOk_word, Bool.and_eq_true] at h
      have : (v == b!"or") = false := hn (.ident sp v) (by simp)
      rw [h.2.1] at this
      cases this
    | _ => simp [tailOk] at h

theorem query_noOr (B : Browser) (F : MQPart → Prop) {p : MQPart} (hp : p.isFeature = true) {ps : List MQPart}
    (hn : ∀ q ∈ p :: ps, q.isOr = false) :
    QueryHolds B F (p :: ps) ↔ chain b!"and" (p :: ps) = true ∧ AllHold F (p :: ps) := by
  rw [query_feature B F hp]
  refine ⟨fun h => h.elim id fun h => ?_, .inl⟩
  have := chain_noOr hn h.1
  subst this
  obtain ⟨q, hq, _, hf⟩ := h.2
  rw [List.mem_singleton] at hq
  subst hq
  refine ⟨by rw [chain_cons, hp]; rfl, fun q hq _ => ?_⟩
  rw [List.mem_singleton] at hq
  subst hq
  exact hf

/-- A chain holds if all its features do. -/
theorem query_chain (B : Browser) (F : MQPart → Prop) {ps : List MQPart} (h : chain b!"and" ps = true) : QueryHolds B F ps ↔ AllHold F ps := by
  obtain ⟨p, qs, rfl, hp⟩ := chain_head h
  rw [query_noOr B F hp fun q hq => ?_]
  · exact ⟨fun k => k.2, fun k => ⟨h, k⟩⟩
  · cases q with
    | ident sp v =>
      have := chain_words h _ _ hq
      subst this
      rfl
    | _ => rfl

/-- A query is lowered: each part becomes one, or the query is one that can be extended. -/
theorem query_lowered {B : Browser} {F F' : MQPart → Prop} {ps out : List MQPart} (h : Pieces (Lowered F F') ps out)
    (hj : (∀ p ∈ ps, p.isOr = false) ∧ ∀ sp p, ps = [.ident sp b!"not", p] → p.isFeature = false) : QueryHolds B F' out ↔ QueryHolds B F ps := by
  cases h with
  | nil => simp [QueryHolds, chain]
  | cons hx hxs =>
    rename_i x xs o1 o2
    cases hp : x.isFeature with
    | false =>
      rw [hx.word hp]
      obtain ⟨sp, w, rfl⟩ := word_of_not hp
      rw [List.cons_append, List.nil_append, query_word, query_word]
      split
      · rename_i hw
        subst hw
        cases hxs with
        | nil => exact Iff.rfl
        | cons hy hys =>
          rename_i y ys q1 q2
          cases hq : y.isFeature with
          | false =>
            rw [hy.word hq]
            obtain ⟨sp', t, rfl⟩ := word_of_not hq
            rw [List.cons_append, List.nil_append]
            show (_ ∧ ¬ (_ ∧ _)) ↔ (_ ∧ ¬ (_ ∧ _))
            rw [(lowered_chain hys).2, lowered_all hys]
          | true =>
            obtain ⟨z, zs, rfl, hz⟩ := chain_head (hy.feature hq).1
            have hne : ys ≠ [] := by
              intro e
              rw [e] at hj
              have := hj.2 _ _ rfl
              rw [hq] at this
              cases this
            have hne' : q2 ≠ [] := by
              cases hys with
              | nil => exact absurd rfl hne
              | cons hv _ => exact fun e => hv.ne (List.append_eq_nil_iff.1 e).1
            obtain ⟨y', ys', rfl⟩ := List.exists_cons_of_ne_nil hne
            obtain ⟨z', zs', e⟩ := List.exists_cons_of_ne_nil (l := zs ++ q2) (by simp [hne'])
            rw [List.cons_append, e]
            cases z <;> simp [MQPart.isFeature] at hz <;> cases y <;> simp [MQPart.isFeature] at hq <;> exact Iff.rfl
      · split
        · cases hxs with
          | nil => exact Iff.rfl
          | cons hy hys =>
            rename_i y ys q1 q2
            cases hq : y.isFeature with
            | false =>
              rw [hy.word hq]
              obtain ⟨sp', t, rfl⟩ := word_of_not hq
              rw [List.cons_append, List.nil_append]
              show (_ ∧ _ ∧ _) ↔ (_ ∧ _ ∧ _)
              rw [(lowered_chain hys).2, lowered_all hys]
            | true =>
              obtain ⟨z, zs, rfl, hz⟩ := chain_head (hy.feature hq).1
              cases z <;> simp [MQPart.isFeature] at hz <;> cases y <;> simp [MQPart.isFeature] at hq <;> exact Iff.rfl
        · rw [(lowered_chain hxs).2, lowered_all hxs]
    | true =>
      have hall : Pieces (Lowered F F') (x :: xs) (o1 ++ o2) := .cons hx hxs
      have hnoor : ∀ q ∈ o1 ++ o2, q.isOr = false := by
        intro q hq
        obtain ⟨y, hy, p, hR, hm⟩ := hall.origin q hq
        cases hf : y.isFeature with
        | false =>
          rw [hR.word hf, List.mem_singleton] at hm
          exact hm ▸ hj.1 y hy
        | true =>
          cases q with
          | ident sp v =>
            have := chain_words (hR.feature hf).1 _ _ hm
            subst this
            rfl
          | _ => rfl
      rw [query_noOr B F hp hj.1]
      obtain ⟨z, zs, rfl, hz⟩ := chain_head (hx.feature hp).1
      rw [List.cons_append] at hnoor hall ⊢
      rw [query_noOr B F' hz hnoor, (lowered_chain hall).1, lowered_all hall]

/-- A part that becomes one part. -/
def LoweredOne (F F' : MQPart → Prop) (p : MQPart) (out : List MQPart) : Prop :=
  ∃ q, out = [q] ∧ (p.isFeature = false → q = p) ∧ (p.isFeature = true → q.isFeature = true ∧ (F' q ↔ F p))

theorem Lowered.one {F F' : MQPart → Prop} {p : MQPart} {out : List MQPart} (h : Lowered F F' p out) (hl : out.length = 1) :
    LoweredOne F F' p out := by
  obtain ⟨q, rfl⟩ := List.length_eq_one_iff.1 hl
  refine ⟨q, rfl, fun hp => ?_, fun hp => ?_⟩
  · have := h.word hp
    simpa using this
  · obtain ⟨h1, h2⟩ := h.feature hp
    rw [chain_cons, tailOk, Bool.and_true] at h1
    refine ⟨h1, ?_⟩
    rw [← h2, allHold_cons]
    exact ⟨fun k => ⟨fun _ => k, fun _ hx => by simp at hx⟩, fun k => k.1 h1⟩

theorem loweredOne_chain (w : Bytes) {F F' : MQPart → Prop} {ps out : List MQPart} (h : Pieces (LoweredOne F F') ps out) :
    (chain w out = chain w ps ∧ tailOk w out = tailOk w ps) ∧ (AllHold F' out ↔ AllHold F ps) ∧
      ((∃ p ∈ out, p.isFeature = true ∧ F' p) ↔ ∃ p ∈ ps, p.isFeature = true ∧ F p) := by
  induction h with
  | nil => exact ⟨⟨rfl, rfl⟩, ⟨fun _ _ hp => by simp at hp, fun _ _ hp => by simp at hp⟩, by simp⟩
  | @cons x xs o1 o2 hx _ ih =>
    obtain ⟨q, rfl, h1, h2⟩ := hx
    obtain ⟨⟨i1, i2⟩, i3, i4⟩ := ih
    rw [List.cons_append, List.nil_append, allHold_cons, allHold_cons, i3, chain_cons, chain_cons, i2]
    simp only [List.mem_cons, exists_eq_or_imp, i4]
    cases hp : x.isFeature with
    | false =>
      rw [h1 hp]
      obtain ⟨sp, w', rfl⟩ := word_of_not hp
      rw [tailOk_word, tailOk_word, i1]
      simp [MQPart.isFeature]
    | true =>
      obtain ⟨k1, k2⟩ := h2 hp
      rw [tailOk_feature hp, tailOk_feature k1, k1, k2]
      simp

/-- A query in which each part becomes one part. -/
theorem query_single {B : Browser} {F F' : MQPart → Prop} {ps out : List MQPart} (h : Pieces (LoweredOne F F') ps out) :
    QueryHolds B F' out ↔ QueryHolds B F ps := by
  cases h with
  | nil => simp [QueryHolds, chain]
  | @cons x xs o1 o2 hx hxs =>
    have hall : Pieces (LoweredOne F F') (x :: xs) (o1 ++ o2) := .cons hx hxs
    obtain ⟨q, rfl, h1, h2⟩ := hx
    rw [List.cons_append, List.nil_append] at hall ⊢
    cases hp : x.isFeature with
    | false =>
      rw [h1 hp]
      obtain ⟨sp, w, rfl⟩ := word_of_not hp
      rw [query_word, query_word, (loweredOne_chain b!"and" hxs).1.2, (loweredOne_chain b!"and" hxs).2.1]
      cases hxs with
      | nil => exact Iff.rfl
      | @cons y ys q1 q2 hy hys =>
        obtain ⟨z, rfl, k1, k2⟩ := hy
        rw [List.cons_append, List.nil_append]
        cases hq : y.isFeature with
        | false =>
          rw [k1 hq]
          obtain ⟨sp', t, rfl⟩ := word_of_not hq
          dsimp only
          rw [(loweredOne_chain b!"and" hys).1.2, (loweredOne_chain b!"and" hys).2.1]
        | true =>
          obtain ⟨k3, k4⟩ := k2 hq
          cases hys with
          | nil => cases z <;> simp [MQPart.isFeature] at k3 <;> cases y <;> simp [MQPart.isFeature] at hq <;> simp only [k4]
          | @cons u us r1 r2 hu _ =>
            obtain ⟨v, rfl, -, -⟩ := hu
            cases z <;> simp [MQPart.isFeature] at k3 <;> cases y <;> simp [MQPart.isFeature] at hq <;> exact Iff.rfl
    | true =>
      rw [query_feature B F hp, query_feature B F' (h2 hp).1, (loweredOne_chain b!"and" hall).1.1, (loweredOne_chain b!"or" hall).1.1,
        (loweredOne_chain b!"and" hall).2.1, (loweredOne_chain b!"and" hall).2.2]

/-! ### Bounds -/

theorem isFeature_bare (p : MQPart) : p.bare.isFeature = p.isFeature := by cases p <;> rfl

theorem bare_nil_iff {v : Value} : v.bare = .nil ↔ v = .nil := by cases v <;> simp [Value.bare]

theorem custom?_bare (p : MQPart) : p.bare.custom? = p.custom? := by
  cases p with
  | plain sp psp prop v => cases v <;> rfl
  | _ => rfl

theorem custom?_feature {p : MQPart} {name : Bytes} (h : p.custom? = some name) : p.isFeature = true := by
  cases p <;> first | rfl | cases h

theorem cond_plain {B : Browser} {defs : List (Bytes × MQ)} {p : MQPart} (h : p.custom? = none) : B.cond defs p ↔ B.feature p := by
  unfold Browser.cond
  rw [h]

theorem cond_nil {B : Browser} {p : MQPart} : B.cond [] p ↔ B.feature p := by
  unfold Browser.cond
  cases p.custom? <;> exact Iff.rfl

theorem feature_min {B : Browser} {prop : Bytes} {v : Value} {p : MQPart} (h : IsMin prop v p) :
    B.feature p.bare ↔ (B.axis prop).le ((B.axis prop).val v.bare) (B.axis prop).here := by
  rw [show p = _ from h]
  exact Iff.rfl

theorem feature_max {B : Browser} {prop : Bytes} {v : Value} {p : MQPart} (h : IsMax prop v p) :
    B.feature p.bare ↔ (B.axis prop).le (B.axis prop).here ((B.axis prop).val v.bare) := by
  rw [show p = _ from h]
  exact Iff.rfl

/-- The bounds that can be lowered. -/
def OpOk (B : Browser) (fo : FloatOps) (prop op : Bytes) (v : Value) : Prop :=
  op = b!"<=" ∨ op = b!">=" ∨ (op = b!"<" ∨ op = b!">") ∧ v.Bound fo ∧ (B.axis prop).Coarse fo

theorem bound_feature {B : Browser} {fo : FloatOps} {prop op : Bytes} {v : Value} {p : MQPart} (hv : v ≠ .nil)
    (hop : OpOk B fo prop op v) (h : BoundPart fo prop v op p) :
    p.isFeature = true ∧
      (B.feature p.bare ↔ (B.axis prop).rel op ((B.axis prop).val v.bare) (B.axis prop).here) := by
  have moved : ∀ {d v'}, op = b!"<" ∨ op = b!">" → Moved fo d v v' → (B.axis prop).Coarse fo ∧
      ∃ sp num unit f, v = .dim sp num unit ∧ fo.parse num = some f ∧ v' = .dim ⟨0, 0⟩ (fo.fmt (fo.add f d)) unit := by
    intro d v' ho hm
    rcases hop with e | e | ⟨_, hb, hc⟩
    · rw [e] at ho; simp at ho
    · rw [e] at ho; simp at ho
    · refine ⟨hc, ?_⟩
      rcases hb with e | ⟨sp, num, unit, f, e, hf⟩
      · exact absurd e hv
      · subst e
        cases hm with
        | num hf' => exact ⟨_, _, _, _, rfl, hf', rfl⟩
        | notNum hn => exact absurd hf (hn _ _ _ _ rfl)
  cases h with
  | le h => exact ⟨by rw [show p = _ from h]; rfl, by rw [feature_min h]; simp [Axis.rel]⟩
  | ge h => exact ⟨by rw [show p = _ from h]; rfl, by rw [feature_max h]; simp [Axis.rel]⟩
  | lt hm h =>
    obtain ⟨hc, sp, num, unit, f, rfl, hf, rfl⟩ := moved (.inl rfl) hm
    refine ⟨by rw [show p = _ from h]; rfl, ?_⟩
    rw [feature_min h]
    simp only [Axis.rel, Value.bare]
    rw [(hc num unit f hf).1]
    simp
  | gt hm h =>
    obtain ⟨hc, sp, num, unit, f, rfl, hf, rfl⟩ := moved (.inr rfl) hm
    refine ⟨by rw [show p = _ from h]; rfl, ?_⟩
    rw [feature_max h]
    simp only [Axis.rel, Value.bare]
    rw [(hc num unit f hf).2]
    simp
  | bad h =>
    exfalso
    apply h
    rcases hop with rfl | rfl | ⟨rfl | rfl, _⟩ <;> simp

theorem opOk_flip {B : Browser} {fo : FloatOps} {prop op : Bytes} {v : Value} (h : OpOk B fo prop op v) : OpOk B fo prop (flipOp op) v := by
  unfold OpOk at *
  rcases h with rfl | rfl | ⟨rfl | rfl, h⟩ <;> simp [flipOp] <;> try exact h

theorem rel_flip {B : Browser} {fo : FloatOps} {prop op : Bytes} {v : Value} (h : OpOk B fo prop op v) (A : Axis) (a b : A.V) :
    A.rel (flipOp op) a b ↔ A.rel op b a := by
  rcases h with rfl | rfl | ⟨rfl | rfl, h⟩ <;> simp [flipOp, Axis.rel]

/-- A range is lowered. -/
theorem range_lowered {B : Browser} {fo : FloatOps} {sp psp : Span} {prop op : Bytes} {l r : Value} {out : List MQPart}
    (hi : (MQPart.range sp psp prop l op r).Interval B fo) (h : RangePiece fo prop op l r out) (defs : List (Bytes × MQ)) :
    Lowered (B.cond defs) (B.cond []) (MQPart.range sp psp prop l op r).bare (out.map MQPart.bare) := by
  obtain ⟨hne, hop⟩ := hi
  have hl : OpOk B fo prop op l := hop.imp_right (.imp_right fun k => ⟨k.1, k.2.1, k.2.2.2⟩)
  have hr : OpOk B fo prop op r := hop.imp_right (.imp_right fun k => ⟨k.1, k.2.2⟩)
  refine ⟨fun hp => (by cases hp), fun _ => ?_⟩
  rw [cond_plain (B := B) (defs := defs) (p := (MQPart.range sp psp prop l op r).bare) rfl]
  show chain b!"and" _ = true ∧ (_ ↔ (_ ∧ _))
  rw [ne_eq, ne_eq, bare_nil_iff, bare_nil_iff]
  cases h with
  | neither => simp at hne
  | left hv hp =>
    obtain ⟨h1, h3⟩ := bound_feature hv hl hp
    simp only [List.map_cons, List.map_nil]
    rw [chain_cons, isFeature_bare, h1, allHold_cons, isFeature_bare, cond_nil, h3]
    refine ⟨rfl, ⟨fun k => ⟨fun _ => k.1 h1, fun e => absurd trivial e⟩, fun k => ⟨fun _ => k.1 hv, fun _ hx => by simp at hx⟩⟩⟩
  | right hv hp =>
    obtain ⟨h1, h3⟩ := bound_feature hv (opOk_flip hr) hp
    rw [rel_flip hr] at h3
    simp only [List.map_cons, List.map_nil]
    rw [chain_cons, isFeature_bare, h1, allHold_cons, isFeature_bare, cond_nil, h3]
    refine ⟨rfl, ⟨fun k => ⟨fun e => absurd trivial e, fun _ => k.1 h1⟩, fun k => ⟨fun _ => k.2 hv, fun _ hx => by simp at hx⟩⟩⟩
  | both hv hw hp hq =>
    obtain ⟨h1, h3⟩ := bound_feature hv hl hp
    obtain ⟨g1, g3⟩ := bound_feature hw (opOk_flip hr) hq
    rw [rel_flip hr] at g3
    simp only [List.map_cons, List.map_nil]
    rw [chain_cons, isFeature_bare, h1, allHold_cons, isFeature_bare, cond_nil, h3, allHold_cons, allHold_cons]
    simp only [cond_nil]
    rw [g3, isFeature_bare]
    refine ⟨?_, ⟨fun k => ⟨fun _ => k.1 h1, fun _ => k.2.2.1 (by rw [isFeature_bare, g1])⟩,
      fun k => ⟨fun _ => k.1 hv, fun e => (by cases e), fun _ => k.2 hw, fun _ hx => by simp at hx⟩⟩⟩
    rw [MQPart.bare, tailOk_word, chain_cons, isFeature_bare, g1]
    rfl

theorem range_single {fo : FloatOps} {prop op : Bytes} {l r : Value} {out : List MQPart} (h : RangePiece fo prop op l r out)
    (hne : l ≠ .nil ∨ r ≠ .nil) (hs : l = .nil ∨ r = .nil) : out.length = 1 := by
  cases h with
  | neither => simp at hne
  | left => rfl
  | right => rfl
  | both hv hw => exact (hs.elim hv hw).elim

/-! ### Definitions -/

theorem customMedia?_bare (n : Node) : n.bare.customMedia? = n.customMedia?.map fun d => (d.1, d.2.bare) := by
  cases n with
  | rule r => rfl
  | «at» a =>
    show a.bare.customMedia? = a.customMedia?.map _
    unfold AtRule.customMedia?
    by_cases hn : a.name = b!"custom-media"
    · rw [if_pos (show a.bare.name = b!"custom-media" from hn), if_pos hn]
      show (match a.preludes.map AtPrelude.bare with | [.ident _ name, .mq q] => some (name, q) | _ => none) = _
      match a.preludes with
      | [] => rfl
      | [x] => cases x <;> rfl
      | [x, y] => cases x <;> cases y <;> rfl
      | x :: y :: z :: w => cases x <;> cases y <;> rfl
    · rw [if_neg (show ¬ a.bare.name = b!"custom-media" from hn), if_neg hn]
      rfl

theorem mediaDefs_bare (ns : List Node) : mediaDefs (ns.map Node.bare) = (mediaDefs ns).map fun d => (d.1, d.2.bare) := by
  unfold mediaDefs
  induction ns with
  | nil => rfl
  | cons n ns ih =>
    rw [List.map_cons, List.filterMap_cons, List.filterMap_cons, customMedia?_bare]
    cases n.customMedia? with
    | none => exact ih
    | some d => rw [Option.map_some, List.map_cons, ← ih]

theorem lastDef_bare (defs : List (Bytes × MQ)) (name : Bytes) :
    lastDef (defs.map fun d => (d.1, d.2.bare)) name = (lastDef defs name).map MQ.bare := by
  unfold lastDef
  rw [← List.map_reverse, List.find?_map, Option.map_map, Option.map_map]
  rfl

theorem lastDef_mem {defs : List (Bytes × α)} {name : Bytes} {q : α} (h : lastDef defs name = some q) : ∃ d ∈ defs, d.2 = q := by
  unfold lastDef at h
  rw [Option.map_eq_some_iff] at h
  obtain ⟨d, h1, h2⟩ := h
  exact ⟨d, List.mem_reverse.1 (List.mem_of_find?_eq_some h1), h2⟩

theorem chain_bare (w : Bytes) : ∀ (ps : List MQPart), chain w (ps.map MQPart.bare) = chain w ps ∧ tailOk w (ps.map MQPart.bare) = tailOk w ps
  | [] => ⟨rfl, rfl⟩
  | p :: ps => by
    have ih := chain_bare w ps
    rw [List.map_cons, chain_cons, chain_cons, isFeature_bare, ih.2]
    refine ⟨rfl, ?_⟩
    cases hp : p.isFeature with
    | false =>
      obtain ⟨sp, v, rfl⟩ := word_of_not hp
      rw [tailOk_word, ← ih.1]
      rfl
    | true => rw [tailOk_feature hp, tailOk_feature (by rw [isFeature_bare, hp])]

/-! ### Queries with their definitions -/

/-- A part is lowered. -/
theorem part_lowered {B : Browser} {fo : FloatOps} {o : TOpts} {before defs : List (Bytes × MQ)} {p : MQPart} {out : List MQPart}
    (h : MQPartPiece fo o before p out) (hc : o.customMediaQueries = true ∨ defs = []) (hd : ∀ d ∈ defs, d.2.Definition)
    (hi : p.Interval B fo) (hk : ∀ name, p.custom? = some name → lastDef before name = lastDef defs name) :
    Lowered (B.cond (defs.map fun d => (d.1, d.2.bare))) (B.cond []) p.bare (out.map MQPart.bare) ∧
      (p.Single defs → out.length = 1) := by
  cases h with
  | @custom _ name q _ h1 h2 =>
    have hf := custom?_feature h1
    rw [hk _ h1] at h2
    obtain ⟨d, hm, rfl⟩ := lastDef_mem h2
    obtain ⟨g1, g2⟩ := hd d hm
    refine ⟨⟨fun e => ?_, fun _ => ?_⟩, fun hs => hs.2 _ _ h1 h2⟩
    · rw [isFeature_bare, hf] at e
      cases e
    · refine ⟨by rw [(chain_bare _ _).1, g1], ?_⟩
      unfold Browser.cond
      rw [custom?_bare, h1]
      dsimp only
      rw [lastDef_bare, h2]
      show _ ↔ QueryHolds B B.feature (d.2.parts.map MQPart.bare)
      rw [query_chain B B.feature (by rw [(chain_bare _ _).1, g1])]
      refine ⟨fun k x hx hf => cond_nil.1 (k x hx hf), fun k x hx hf => cond_nil.2 (k x hx hf)⟩
  | same h1 h2 =>
    refine ⟨⟨fun _ => rfl, fun hf => ⟨by rw [List.map_cons, chain_cons, hf]; rfl, ?_⟩⟩, fun _ => rfl⟩
    rw [List.map_cons, List.map_nil, allHold_cons, cond_nil]
    have : B.cond (defs.map fun d => (d.1, d.2.bare)) p.bare ↔ B.feature p.bare := by
      unfold Browser.cond
      rw [custom?_bare]
      cases e : p.custom? with
      | none => exact Iff.rfl
      | some name =>
        dsimp only
        have : lastDef defs name = none := by
          rcases hc with hc | rfl
          · rw [← hk _ e]
            exact h1 hc _ e
          · rfl
        rw [lastDef_bare, this]
        exact Iff.rfl
    rw [this]
    exact ⟨fun k => k.1 hf, fun k => ⟨fun _ => k, fun _ hx => by simp at hx⟩⟩
  | range _ h2 => exact ⟨range_lowered hi h2 _, fun hs => range_single h2 hi.1 (hs.1 _ _ _ _ _ _ rfl)⟩

theorem pieces_bare {R : MQPart → List MQPart → Prop} {S : MQPart → List MQPart → Prop} {ps out : List MQPart} (h : Pieces R ps out)
    (hs : ∀ p ∈ ps, ∀ o, R p o → S p.bare (o.map MQPart.bare)) : Pieces S (ps.map MQPart.bare) (out.map MQPart.bare) := by
  induction h with
  | nil => exact .nil
  | @cons x xs o1 o2 hx _ ih =>
    rw [List.map_append, List.map_cons]
    exact .cons (hs _ (List.mem_cons_self ..) _ hx) (ih fun p hp => hs p (List.mem_cons_of_mem _ hp))

theorem isOr_bare (p : MQPart) : p.bare.isOr = p.isOr := by cases p <;> rfl

/-- A query is lowered. -/
theorem mq_lowered {B : Browser} {fo : FloatOps} {o : TOpts} {before defs : List (Bytes × MQ)} {q : MQ} {parts : List MQPart}
    (h : Pieces (MQPartPiece fo o before) q.parts parts) (hc : o.customMediaQueries = true ∨ defs = []) (hd : ∀ d ∈ defs, d.2.Definition)
    (hl : q.Lowerable B fo before defs) :
    QueryHolds B (B.cond []) (parts.map MQPart.bare) ↔
      QueryHolds B (B.cond (defs.map fun d => (d.1, d.2.bare))) (q.parts.map MQPart.bare) := by
  rcases hl.shape with hs | ⟨hs1, hs2⟩
  · refine query_single (pieces_bare h fun p hp out hR => ?_)
    obtain ⟨h1, h2⟩ := part_lowered hR hc hd (hl.interval p hp) (hl.known p hp)
    exact h1.one (by rw [List.length_map, h2 (hs p hp)])
  · refine query_lowered (pieces_bare h fun p hp out hR => (part_lowered hR hc hd (hl.interval p hp) (hl.known p hp)).1) ⟨?_, ?_⟩
    · intro p hp
      obtain ⟨p', hp', rfl⟩ := List.mem_map.1 hp
      rw [isOr_bare]
      exact hs1 p' hp'
    · intro sp p e
      match hq : q.parts, e with
      | [x, y], e =>
        rw [List.map_cons, List.map_cons, List.map_nil] at e
        cases x with
        | ident sp' w =>
          have e1 : w = b!"not" := by injection e with e _; injection e
          have e2 : y.bare = p := by injection e with _ e; injection e
          rw [← e2, isFeature_bare]
          exact hs2 sp' y (by rw [hq, e1])
        | _ => cases e
      | [], e => cases e
      | [_], e => simp at e
      | _ :: _ :: _ :: _, e => simp at e

end Cssc
