import Verif.Proofs.PrintFine
import Verif.Proofs.PrintSafe
import Verif.Spec.Items

/-!
# What is missing in a tree that cannot be printed

For a well-formed tree, `whole` is the absence of three kinds of item.
-/

namespace Cssc

/-- An empty parenthesised expression, a rule without a selector, or an empty media query list. -/
def Item.bad : Item → Prop
  | .value (.paren _ .nil) => True
  | .rule r => r.prelude = .nil
  | .at a => .mql none ∈ a.preludes
  | _ => False

/-- No bad item in a list. -/
def NoBad (l : List Item) : Prop := ∀ it ∈ l, ¬ it.bad

theorem NoBad.nil : NoBad [] := fun _ h => by cases h

theorem noBad_append {a b : List Item} : NoBad (a ++ b) ↔ NoBad a ∧ NoBad b := by
  unfold NoBad
  constructor
  · intro h; exact ⟨fun x hx => h x (by simp [hx]), fun x hx => h x (by simp [hx])⟩
  · rintro ⟨h1, h2⟩ x hx
    rcases List.mem_append.1 hx with h | h
    · exact h1 x h
    · exact h2 x h

theorem noBad_cons {a : Item} {b : List Item} : NoBad (a :: b) ↔ ¬ a.bad ∧ NoBad b := by
  unfold NoBad; rw [List.forall_mem_cons]

theorem noBad_flatMap {α : Type} {l : List α} {f : α → List Item} : NoBad (l.flatMap f) ↔ ∀ a ∈ l, NoBad (f a) := by
  unfold NoBad
  constructor
  · intro h a ha x hx; exact h x (List.mem_flatMap.2 ⟨a, ha, hx⟩)
  · intro h x hx
    obtain ⟨a, ha, hx⟩ := List.mem_flatMap.1 hx
    exact h a ha x hx

theorem noBad_span {sp : Span} {b : List Item} : NoBad (.span sp :: b) ↔ NoBad b :=
  noBad_cons.trans ⟨fun h => h.2, fun h => ⟨fun h' => h', h⟩⟩

theorem noBad_lit {t : Bytes} {b : List Item} : NoBad (.lit t :: b) ↔ NoBad b :=
  noBad_cons.trans ⟨fun h => h.2, fun h => ⟨fun h' => h', h⟩⟩

mutual
theorem VOk.noBad {src : Bytes} : ∀ {v : Value}, VOk src v → (v.whole ↔ NoBad v.items)
  | .nil, h => by unfold VOk at h; exact h.elim
  | .str _ _, _ => by
    unfold Value.whole Value.items; simp [noBad_cons, noBad_span, noBad_lit, NoBad.nil, Item.bad]
  | .dim _ _ _, _ => by
    unfold Value.whole Value.items; simp [noBad_cons, noBad_span, noBad_lit, NoBad.nil, Item.bad]
  | .ident _ _, _ => by
    unfold Value.whole Value.items; simp [noBad_cons, noBad_span, noBad_lit, NoBad.nil, Item.bad]
  | .hex _ _, _ => by
    unfold Value.whole Value.items; simp [noBad_cons, noBad_span, noBad_lit, NoBad.nil, Item.bad]
  | .brackets _ vs, h => by
    unfold VOk at h
    unfold Value.whole Value.items
    rw [noBad_cons, noBad_span, ← VsOk.noBad h.2.2.1]
    simp [Item.bad]
  | .func _ name args, h => by
    unfold VOk at h
    unfold Value.whole Value.items
    rw [noBad_cons, noBad_span, noBad_lit]
    rcases h.2 with ⟨_, w, rfl, _⟩ | ⟨_, _, h, _⟩
    · simp [Value.wholeL, Value.whole, Value.itemsL, Value.items, noBad_cons, noBad_span, noBad_lit, NoBad.nil, Item.bad]
    · rw [← VsOk.noBad h]
      simp [Item.bad]
  | .math _ _ l r, h => by
    unfold VOk at h
    unfold Value.whole Value.items
    rw [noBad_cons, noBad_span, noBad_lit, noBad_append, ← VOk.noBad h.2.2.1, ← VOk.noBad h.2.2.2.1]
    simp [Item.bad]
  | .paren _ v, h => by
    unfold VOk at h
    unfold Value.whole Value.items
    rw [noBad_cons, noBad_span]
    rcases h.2 with rfl | ⟨h, _⟩
    · simp [Value.whole, Item.bad]
    · rw [← VOk.noBad h]
      cases v with
      | nil => unfold VOk at h; exact h.elim
      | _ => simp [Item.bad]
  | .raw _ _, _ => by
    unfold Value.whole Value.items; simp [noBad_cons, noBad_span, noBad_lit, NoBad.nil, Item.bad]
  | .comma _, _ => by
    unfold Value.whole Value.items; simp [noBad_cons, noBad_span, noBad_lit, NoBad.nil, Item.bad]
theorem VsOk.noBad {src : Bytes} : ∀ {vs : List Value}, VsOk src vs → (Value.wholeL vs ↔ NoBad (Value.itemsL vs))
  | [], _ => by unfold Value.wholeL Value.itemsL; simp [NoBad.nil]
  | v :: vs, h => by
    unfold VsOk at h
    unfold Value.wholeL Value.itemsL
    rw [noBad_append, VOk.noBad h.1, VsOk.noBad h.2]
end

theorem OptVOk.noBad {src : Bytes} {lo hi : Nat} {v : Value} (h : OptVOk src lo hi v) : v.optWhole ↔ NoBad v.items := by
  unfold Value.optWhole
  rcases h with rfl | ⟨h, _⟩
  · simp [Value.items, NoBad.nil]
  · rw [← VOk.noBad h]
    cases v with
    | nil => unfold VOk at h; exact h.elim
    | _ => simp

mutual
theorem PartOk.noBad {src : Bytes} : ∀ {p : SelPart}, PartOk src p → (p.whole ↔ NoBad p.items)
  | .type _ _, _ => by
    unfold SelPart.whole SelPart.items; simp [noBad_cons, NoBad.nil, Item.bad]
  | .cls _ _, _ => by
    unfold SelPart.whole SelPart.items; simp [noBad_cons, NoBad.nil, Item.bad]
  | .id _ _, _ => by
    unfold SelPart.whole SelPart.items; simp [noBad_cons, NoBad.nil, Item.bad]
  | .comb _ _, _ => by
    unfold SelPart.whole SelPart.items; simp [noBad_cons, NoBad.nil, Item.bad]
  | .ws _, _ => by
    unfold SelPart.whole SelPart.items; simp [noBad_cons, NoBad.nil, Item.bad]
  | .pclass _ _ args, h => by
    unfold PartOk at h
    unfold SelPart.whole SelPart.items
    simp only [noBad_cons, Item.bad, not_false_eq_true, true_and]
    exact ArgsOk.noBad h.2.2.1
  | .pelem _ _ _ args, h => by
    unfold PartOk at h
    unfold SelPart.whole SelPart.items
    simp only [noBad_cons, Item.bad, not_false_eq_true, true_and]
    exact ArgsOk.noBad h.2.2.2.1
  | .attr _ _ _ value _, h => by
    unfold PartOk at h
    unfold SelPart.whole SelPart.items
    simp only [noBad_cons, Item.bad, not_false_eq_true, true_and]
    exact OptVOk.noBad h.2.2.2.1
theorem ArgsOk.noBad {src : Bytes} {sp : Span} {b : Bool} : ∀ {a : PArgs}, ArgsOk src sp b a → (a.whole ↔ NoBad a.items)
  | .nil, _ => by unfold PArgs.whole PArgs.items; simp [NoBad.nil]
  | .sels _ l, h => by
    unfold ArgsOk at h
    unfold PArgs.whole PArgs.items
    simp only [noBad_cons, Item.bad, not_false_eq_true, true_and]
    exact SelsOk.noBad h.2.2.2.2
  | .ident _ _, _ => by unfold PArgs.whole PArgs.items; simp [noBad_cons, NoBad.nil, Item.bad]
  | .anb _ _ _ _, _ => by unfold PArgs.whole PArgs.items; simp [noBad_cons, NoBad.nil, Item.bad]
theorem SelOk.noBad {src : Bytes} : ∀ {s : Sel}, SelOk src s → (s.whole ↔ NoBad s.items)
  | .mk _ parts, h => by
    unfold SelOk at h
    unfold Sel.whole Sel.items
    simp only [noBad_cons, Item.bad, not_false_eq_true, true_and]
    exact PartsOk.noBad h.2.2.2
theorem PartsOk.noBad {src : Bytes} : ∀ {l : List SelPart}, PartsOk src l → (SelPart.wholeL l ↔ NoBad (SelPart.itemsL l))
  | [], _ => by unfold SelPart.wholeL SelPart.itemsL; simp [NoBad.nil]
  | p :: ps, h => by
    unfold PartsOk at h
    unfold SelPart.wholeL SelPart.itemsL
    rw [noBad_append, PartOk.noBad h.1, PartsOk.noBad h.2]
theorem SelsOk.noBad {src : Bytes} : ∀ {l : List Sel}, SelsOk src l → (Sel.wholeL l ↔ NoBad (Sel.itemsL l))
  | [], _ => by unfold Sel.wholeL Sel.itemsL; simp [NoBad.nil]
  | s :: ss, h => by
    unfold SelsOk at h
    unfold Sel.wholeL Sel.itemsL
    rw [noBad_append, SelOk.noBad h.1, SelsOk.noBad h.2]
end

theorem ksel_noBad (l : List KSel) : NoBad (l.flatMap KSel.items) := by
  rw [noBad_flatMap]
  intro k _
  cases k <;> simp [KSel.items, noBad_cons, NoBad.nil, Item.bad]

theorem DeclOk.noBad {src : Bytes} {d : Decl} (h : DeclOk src d) : d.whole ↔ NoBad d.items := by
  cases d with
  | decl sp prop vals imp =>
    unfold Decl.whole Decl.items
    simp only [noBad_cons, Item.bad, not_false_eq_true, true_and]
    exact VsOk.noBad h.2.2.2.2.1
  | raw sp v => simp [Decl.whole, Decl.items, noBad_cons, NoBad.nil, Item.bad]

theorem DeclBlockOk.noBad {src : Bytes} {b : DeclBlock} (h : DeclBlockOk src b) :
    (∀ d ∈ b.decls, Decl.whole d) ↔ NoBad b.items := by
  unfold DeclBlock.items
  rw [noBad_span, noBad_flatMap]
  exact forall_congr' fun d => ⟨fun g hd => (h.2.2 d hd).noBad.1 (g hd), fun g hd => (h.2.2 d hd).noBad.2 (g hd)⟩

theorem RuleOk.noBad {src : Bytes} {kf : Bool} {r : QRule} (h : RuleOk src kf r) : r.whole ↔ NoBad r.items := by
  obtain ⟨_, hp, b, hb, hbo, _⟩ := h
  unfold QRule.whole QRule.items
  rw [noBad_cons, noBad_span, noBad_append, hb]
  simp only [Option.toList_some, List.flatMap_cons, List.flatMap_nil, List.append_nil, Option.some.injEq,
    exists_eq_left', ← hbo.noBad, Item.bad]
  cases hpre : r.prelude with
  | nil => simp [Prelude.whole]
  | sels l =>
    rw [hpre] at hp
    simp only [Prelude.whole, Prelude.items, noBad_cons, Item.bad, not_false_eq_true, true_and, reduceCtorEq]
    rw [SelsOk.noBad hp.2.2.2.2]
  | keyframes sp l =>
    simp [Prelude.whole, Prelude.items, noBad_span, ksel_noBad]

theorem MQPartOk.noBad {src : Bytes} {p : MQPart} (h : MQPartOk src p) : p.whole ↔ NoBad p.items := by
  cases p with
  | ident sp v => simp [MQPart.whole, MQPart.items, noBad_cons, NoBad.nil, Item.bad]
  | plain sp psp prop value =>
    simp only [MQPart.whole, MQPart.items, noBad_cons, Item.bad, not_false_eq_true, true_and]
    exact OptVOk.noBad h.2.2.2.1
  | range sp psp prop left op right =>
    simp only [MQPart.whole, MQPart.items, noBad_cons, Item.bad, not_false_eq_true, true_and, noBad_append]
    rw [OptVOk.noBad h.2.2.2.1, OptVOk.noBad h.2.2.2.2.1]
  | inParens sp ps => exact h.elim

theorem MQOk.noBad {src : Bytes} {q : MQ} (h : MQOk src q) : q.whole ↔ NoBad q.items := by
  unfold MQ.whole MQ.items
  simp only [noBad_cons, Item.bad, not_false_eq_true, true_and]
  rw [noBad_flatMap]
  exact forall_congr' fun p => ⟨fun g hp => (h.2.2.2 p hp).noBad.1 (g hp), fun g hp => (h.2.2.2 p hp).noBad.2 (g hp)⟩

theorem AtOk.noBad {src : Bytes} {a : AtRule} (h : AtOk src a) : a.whole ↔ NoBad a.items := by
  unfold AtRule.whole AtRule.items
  rw [noBad_cons, noBad_span, noBad_lit, noBad_append, noBad_flatMap]
  have h1 : (∀ p ∈ a.preludes, AtPrelude.whole p) ↔
      .mql none ∉ a.preludes ∧ ∀ p ∈ a.preludes, NoBad p.items := by
    have key : ∀ p ∈ a.preludes, AtPrelude.whole p ↔ (p ≠ .mql none ∧ NoBad p.items) := by
      intro p hp
      have hok := h.2.2.1 p hp
      cases p with
      | str sp v => simp [AtPrelude.whole, AtPrelude.items, noBad_cons, NoBad.nil, Item.bad]
      | ident sp v => simp [AtPrelude.whole, AtPrelude.items, noBad_cons, NoBad.nil, Item.bad]
      | mq q =>
        simp only [AtPrelude.whole, AtPrelude.items, ne_eq, reduceCtorEq, not_false_eq_true, true_and]
        exact MQOk.noBad hok
      | mql l =>
        cases l with
        | none => simp [AtPrelude.whole]
        | some l =>
          have hok : MQListOk src l := hok
          simp only [AtPrelude.whole, AtPrelude.items, Option.toList_some, List.flatMap_cons, List.flatMap_nil,
            List.append_nil, MQList.items, noBad_cons, Item.bad, not_false_eq_true, true_and, ne_eq,
            AtPrelude.mql.injEq, reduceCtorEq]
          rw [noBad_flatMap]
          exact forall_congr' fun q => ⟨fun g hq => (hok.2.2.2 q hq).noBad.1 (g hq),
            fun g hq => (hok.2.2.2 q hq).noBad.2 (g hq)⟩
    constructor
    · intro g
      exact ⟨fun hm => ((key _ hm).1 (g _ hm)).1 rfl, fun p hp => ((key p hp).1 (g p hp)).2⟩
    · rintro ⟨g1, g2⟩ p hp
      exact (key p hp).2 ⟨fun e => g1 (e ▸ hp), g2 p hp⟩
  have h2 : a.block.whole ↔ NoBad a.block.items := by
    have hb := h.2.2.2.1
    cases hbk : a.block with
    | none => simp [Block.whole, Block.items, NoBad.nil]
    | decls d => rw [hbk] at hb; exact DeclBlockOk.noBad hb
    | rules sp rs =>
      rw [hbk] at hb
      unfold Block.whole Block.items
      rw [noBad_span, noBad_flatMap]
      exact forall_congr' fun r => ⟨fun g hr => (hb.2.2 r hr).noBad.1 (g hr), fun g hr => (hb.2.2 r hr).noBad.2 (g hr)⟩
  rw [h1, h2, and_assoc]
  rfl

theorem SheetOk.noBad {src : Bytes} {ss : Stylesheet} (h : SheetOk src ss) :
    (∀ n ∈ ss.nodes, Node.whole n) ↔ NoBad ss.items := by
  unfold Stylesheet.items
  rw [noBad_flatMap]
  refine forall_congr' fun n => ?_
  constructor <;> intro g hn
  · have := h.nodes n hn
    cases n with
    | rule r => exact (RuleOk.noBad this).1 (g hn)
    | «at» a => exact (AtOk.noBad this).1 (g hn)
  · have := h.nodes n hn
    cases n with
    | rule r => exact (RuleOk.noBad this).2 (g hn)
    | «at» a => exact (AtOk.noBad this).2 (g hn)

theorem SheetOk.noParens {src : Bytes} {ss : Stylesheet} (h : SheetOk src ss) : ∀ n ∈ ss.nodes, Node.noParens n := by
  intro n hn
  have hok := h.nodes n hn
  cases n with
  | rule r => exact trivial
  | «at» a =>
    intro p hp
    have := hok.2.2.1 p hp
    have key : ∀ q : MQ, MQOk src q → ∀ p ∈ q.parts, MQPart.noParens p := by
      intro q hq p hp
      have := hq.2.2.2 p hp
      cases p with
      | inParens => exact this.elim
      | _ => exact trivial
    cases p with
    | mql l =>
      cases l with
      | none => exact trivial
      | some l => exact fun q hq => key q (this.2.2.2 q hq)
    | mq q => exact key q this
    | _ => exact trivial

end Cssc
