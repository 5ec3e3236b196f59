import Verif.Spec.Items
import Verif.Proofs.ParseSpec

/-!
# Well-formed trees contain only well-formed items
-/

namespace Cssc

theorem itemSpan {src : Bytes} {sp : Span} (h : SpOk src sp) : ItemOk src (.span sp) :=
  ⟨fun _ e => (by cases e; exact h), fun _ e => (by cases e), trivial, trivial, trivial⟩

theorem itemLit {src t : Bytes} (h : LitOk src t) : ItemOk src (.lit t) :=
  ⟨fun _ e => (by cases e), fun _ e => (by cases e; exact h), trivial, trivial, trivial⟩

theorem LitOk.text {src t : Bytes} {sp : Span} (h : TextIn src sp t) (hs : SpOk src sp) : LitOk src t :=
  .inl (h.slice hs.2)

theorem LitOk.at {src t : Bytes} {sp : Span} (h : t = textAt src sp) (hs : SpOk src sp) : LitOk src t :=
  .inl ⟨sp.start, sp.stop, hs.1, hs.2, h⟩

theorem LitOk.fixed {src t : Bytes} (h : t ∈ fixedLits) : LitOk src t := .inr (.inl h)

theorem SpIn.spOk {src : Bytes} {sp sp' : Span} (h : SpIn sp.start sp.stop sp') (hs : SpOk src sp) : SpOk src sp' :=
  ⟨h.2.1, by have := h.2.2; have := hs.2; omega⟩

theorem dim_lit {src num unit : Bytes} {sp : Span} (hs : SpOk src sp)
    (h : num ++ unit = textAt src sp ∨ unit = b!"%") : LitOk src unit := by
  rcases h with h | h
  · exact .text (TextIn.append (t := num) (by rw [h]; exact .self hs.1) hs.2).2 hs
  · exact .fixed (by rw [h]; decide)

/-- An item that is neither a span nor a literal. -/
macro "node" : tactic =>
  `(tactic| exact ⟨fun _ e => (by cases e), fun _ e => (by cases e), by simp [Shape], trivial, trivial⟩)

/-- The same with a form. -/
macro "node" t:term : tactic =>
  `(tactic| exact ⟨fun _ e => (by cases e), fun _ e => (by cases e), by simp [Shape], trivial, $t⟩)

theorem OptVOk.comp {src : Bytes} {lo hi : Nat} {v : Value} (h : OptVOk src lo hi v) : v = .nil ∨ v.isComp = true :=
  h.imp (fun e => e) fun e => e.2.2

mutual
theorem VOk.items {src : Bytes} : ∀ {v : Value}, VOk src v → ∀ it ∈ v.items, ItemOk src it
  | .nil, h => by simp [VOk] at h
  | .str sp v, h => by
    simp only [Value.items, List.forall_mem_cons, List.not_mem_nil, false_implies, implies_true, and_true]
    exact ⟨by node h.2.2, itemSpan h.1, itemLit (.text h.2.1 h.1)⟩
  | .dim sp num unit, h => by
    simp only [Value.items, List.forall_mem_cons, List.not_mem_nil, false_implies, implies_true, and_true]
    exact ⟨by node h.2.2.2, itemSpan h.1, itemLit (.text h.2.1 h.1), itemLit (dim_lit h.1 h.2.2.1)⟩
  | .ident sp v, h => by
    simp only [Value.items, List.forall_mem_cons, List.not_mem_nil, false_implies, implies_true, and_true]
    exact ⟨by node (.inr h.2.2), itemSpan h.1, itemLit (.at h.2.1 h.1)⟩
  | .hex sp v, h => by
    simp only [Value.items, List.forall_mem_cons, List.not_mem_nil, false_implies, implies_true, and_true]
    exact ⟨by node h.2.2, itemSpan h.1, itemLit (.text h.2.1 h.1)⟩
  | .brackets sp vs, h => by
    simp only [Value.items, List.forall_mem_cons]
    exact ⟨by node h.2.2.2, itemSpan h.1, VsOk.items h.2.2.1⟩
  | .func sp name args, h => by
    simp only [Value.items, List.forall_mem_cons]
    refine ⟨by node (h.2.imp (fun ⟨a, w, b, _, c⟩ => ⟨a, w, b, c⟩) fun x => x.2.2.2), itemSpan h.1, ?_⟩
    rcases h.2 with ⟨e, w, e', hw, _⟩ | ⟨hn, _, ha, _⟩
    · subst e e'
      simp only [Value.itemsL, Value.items, List.append_nil, List.forall_mem_cons, List.not_mem_nil, false_implies, implies_true, and_true]
      exact ⟨itemLit (.fixed (by decide)), by node (.inl rfl), itemSpan ⟨Nat.le_refl _, Nat.zero_le _⟩, itemLit (.text hw h.1)⟩
    · exact ⟨itemLit (.text hn h.1), VsOk.items ha⟩
  | .math sp op l r, h => by
    simp only [Value.items, List.forall_mem_cons, List.forall_mem_append]
    refine ⟨?_, itemSpan h.1, itemLit (.fixed ?_), VOk.items h.2.2.1, VOk.items h.2.2.2.1⟩
    · exact ⟨fun _ e => (by cases e), fun _ e => (by cases e), by simp [Shape], h.2.2.2.2.1, h.2.2.2.2.2⟩
    · rcases h.2.2.2.2.1 with ⟨h | h, _⟩ | ⟨h | h, _⟩ <;> rw [h] <;> decide
  | .paren sp v, h => by
    simp only [Value.items, List.forall_mem_cons]
    refine ⟨by node (h.2.imp (fun e => e) fun e => e.2.2), itemSpan h.1, ?_⟩
    rcases h.2 with e | ⟨hv, _⟩
    · subst e
      simp [Value.items]
    · exact VOk.items hv
  | .raw sp v, h => by
    simp only [Value.items, List.forall_mem_cons, List.not_mem_nil, false_implies, implies_true, and_true]
    exact ⟨by node h.2.2, itemSpan h.1, itemLit (.at h.2.1 h.1)⟩
  | .comma sp, h => by
    simp only [Value.items, List.forall_mem_cons, List.not_mem_nil, false_implies, implies_true, and_true]
    exact ⟨by node, itemSpan h⟩

theorem VsOk.items {src : Bytes} : ∀ {vs : List Value}, VsOk src vs → ∀ it ∈ Value.itemsL vs, ItemOk src it
  | [], _ => by simp [Value.itemsL]
  | v :: vs, h => by
    simp only [Value.itemsL, List.forall_mem_append]
    exact ⟨VOk.items h.1, VsOk.items h.2⟩
end

theorem OptVOk.items {src : Bytes} {lo hi : Nat} {v : Value} (h : OptVOk src lo hi v) : ∀ it ∈ v.items, ItemOk src it := by
  rcases h with e | ⟨h, _⟩
  · subst e; simp [Value.items]
  · exact h.items

theorem op_lit {src op : Bytes} (h : op = [] ∨ op = b!"+" ∨ op = b!"-") : LitOk src op := by
  rcases h with h | h | h <;> rw [h] <;> exact .fixed (by decide)

mutual
theorem PartOk.items {src : Bytes} : ∀ {p : SelPart}, PartOk src p → ∀ it ∈ p.items, ItemOk src it
  | .type sp name, h => by
    simp only [PartOk] at h
    simp only [SelPart.items, List.forall_mem_cons, List.not_mem_nil, false_implies, implies_true, and_true]
    exact ⟨by node h.2.2, itemSpan h.1, itemLit (.at h.2.1 h.1)⟩
  | .cls sp name, h => by
    simp only [PartOk] at h
    simp only [SelPart.items, List.forall_mem_cons, List.not_mem_nil, false_implies, implies_true, and_true]
    exact ⟨by node h.2.2, itemSpan h.1, itemLit (.text h.2.1 h.1)⟩
  | .id sp name, h => by
    simp only [PartOk] at h
    simp only [SelPart.items, List.forall_mem_cons, List.not_mem_nil, false_implies, implies_true, and_true]
    exact ⟨by node h.2.2, itemSpan h.1, itemLit (.text h.2.1 h.1)⟩
  | .comb sp op, h => by
    simp only [PartOk] at h
    simp only [SelPart.items, List.forall_mem_cons, List.not_mem_nil, false_implies, implies_true, and_true]
    exact ⟨by node, itemSpan h.1, itemLit (.at h.2.1 h.1)⟩
  | .pclass sp name args, h => by
    simp only [PartOk] at h
    simp only [SelPart.items, List.forall_mem_cons]
    obtain ⟨h1, h2, h3, h4⟩ := h
    exact ⟨by node h4, itemSpan h1, itemLit (.text h2 h1), ArgsOk.args h3, ArgsOk.items h1 h3⟩
  | .pelem sp isp name args, h => by
    simp only [PartOk] at h
    simp only [SelPart.items, List.forall_mem_cons]
    obtain ⟨h1, h2, h3, h4, h6⟩ := h
    have h5 := h2.spOk h1
    exact ⟨by node h6, itemSpan h1, itemSpan h5, itemLit (.text h3 h5), ArgsOk.args h4, ArgsOk.items h5 h4⟩
  | .ws sp, h => by
    simp only [PartOk] at h
    simp only [SelPart.items, List.forall_mem_cons, List.not_mem_nil, false_implies, implies_true, and_true]
    exact ⟨by node, itemSpan h⟩
  | .attr sp prop preOp value modifier, h => by
    simp only [PartOk] at h
    obtain ⟨h1, h2, h3, h4, h5, h6, h7⟩ := h
    simp only [SelPart.items, List.forall_mem_cons]
    refine ⟨by node ⟨h7, h4.comp⟩, itemSpan h1, itemLit (.text h2 h1), itemLit (.fixed ?_), itemLit (.fixed ?_), h4.items⟩
    · simp only [List.mem_cons, List.not_mem_nil, or_false] at h3
      rcases h3 with h | h | h | h | h | h <;> rw [h] <;> decide
    · simp only [List.mem_cons, List.not_mem_nil, or_false] at h6
      rcases h6 with h | h | h <;> rw [h] <;> decide

theorem ArgsOk.args {src : Bytes} {sp : Span} {name : Bytes} : ∀ {a : PArgs},
    ArgsOk src sp (nthNames.contains name) a → ItemOk src (.args name a)
  | .nil, _ => by node
  | .sels _ _, h => by
    simp only [ArgsOk] at h
    refine ⟨fun _ e => (by cases e), fun _ e => (by cases e), ?_, trivial, trivial⟩
    simpa [Shape] using h.1
  | .ident _ _, h => by
    simp only [ArgsOk] at h
    refine ⟨fun _ e => (by cases e), fun _ e => (by cases e), ⟨?_, h.2.2.2⟩, trivial, trivial⟩
    simpa using h.1
  | .anb _ _ _ _, h => by
    simp only [ArgsOk] at h
    refine ⟨fun _ e => (by cases e), fun _ e => (by cases e), ?_, ⟨h.2.2.2, h.2.2.1.2.2.2⟩, trivial⟩
    simpa [Shape] using h.1

theorem ArgsOk.items {src : Bytes} {sp : Span} {b : Bool} : ∀ {a : PArgs}, SpOk src sp → ArgsOk src sp b a →
    ∀ it ∈ a.items, ItemOk src it
  | .nil, _, _ => by simp [PArgs.items]
  | .sels lsp l, hs, h => by
    simp only [ArgsOk] at h
    simp only [PArgs.items, List.forall_mem_cons]
    refine ⟨⟨fun _ e => (by cases e), fun _ e => (by cases e), h.2.2.1, trivial, trivial⟩, itemSpan (h.2.1.spOk hs),
      SelsOk.items h.2.2.2.2⟩
  | .ident isp v, hs, h => by
    simp only [ArgsOk] at h
    simp only [PArgs.items, List.forall_mem_cons, List.not_mem_nil, false_implies, implies_true, and_true]
    have hi := h.2.1.spOk hs
    exact ⟨itemSpan hi, itemLit (.at h.2.2.1 hi)⟩
  | .anb asp x op y, hs, h => by
    simp only [ArgsOk] at h
    obtain ⟨_, h2, ⟨h3, h4, h5, _⟩, _⟩ := h
    simp only [PArgs.items, List.forall_mem_cons, List.not_mem_nil, false_implies, implies_true, and_true]
    have hi := h2.spOk hs
    refine ⟨itemSpan hi, itemLit ?_, itemLit (op_lit h4), itemLit (.text h5 hi)⟩
    rcases h3 with h | h | h
    · exact .text h hi
    · rw [h]; exact .fixed (by decide)
    · rw [h]; exact .fixed (by decide)

theorem SelOk.items {src : Bytes} : ∀ {s : Sel}, SelOk src s → ∀ it ∈ s.items, ItemOk src it
  | .mk sp parts, h => by
    simp only [SelOk] at h
    simp only [Sel.items, List.forall_mem_cons]
    exact ⟨⟨fun _ e => (by cases e), fun _ e => (by cases e), h.2.1, trivial, trivial⟩, itemSpan h.1, PartsOk.items h.2.2.2⟩

theorem PartsOk.items {src : Bytes} : ∀ {l : List SelPart}, PartsOk src l → ∀ it ∈ SelPart.itemsL l, ItemOk src it
  | [], _ => by simp [SelPart.itemsL]
  | p :: ps, h => by
    simp only [PartsOk] at h
    simp only [SelPart.itemsL, List.forall_mem_append]
    exact ⟨PartOk.items h.1, PartsOk.items h.2⟩

theorem SelsOk.items {src : Bytes} : ∀ {l : List Sel}, SelsOk src l → ∀ it ∈ Sel.itemsL l, ItemOk src it
  | [], _ => by simp [Sel.itemsL]
  | p :: ps, h => by
    simp only [SelsOk] at h
    simp only [Sel.itemsL, List.forall_mem_append]
    exact ⟨SelOk.items h.1, SelsOk.items h.2⟩
end

theorem KSelOk.items {src : Bytes} {k : KSel} (h : KSelOk src k) : ∀ it ∈ k.items, ItemOk src it := by
  cases k with
  | pct sp v =>
    simp only [KSel.items, List.forall_mem_cons, List.not_mem_nil, false_implies, implies_true, and_true]
    exact ⟨by node h.2.2, itemSpan h.1, itemLit (.text h.2.1 h.1)⟩
  | ident sp v =>
    simp only [KSel.items, List.forall_mem_cons, List.not_mem_nil, false_implies, implies_true, and_true]
    exact ⟨⟨fun _ e => (by cases e), fun _ e => (by cases e), h.2.2, trivial, trivial⟩, itemSpan h.1, itemLit (.at h.2.1 h.1)⟩

theorem flatMap_items {α : Type} {src : Bytes} {l : List α} {f : α → List Item} (h : ∀ a ∈ l, ∀ it ∈ f a, ItemOk src it) :
    ∀ it ∈ l.flatMap f, ItemOk src it := by
  intro it hit
  rw [List.mem_flatMap] at hit
  obtain ⟨a, ha, h'⟩ := hit
  exact h a ha it h'

theorem PreludeOk.items {src : Bytes} {kf : Bool} {p : Prelude} (h : PreludeOk src kf p) :
    ∀ it ∈ p.items, ItemOk src it := by
  cases p with
  | nil => simp [Prelude.items]
  | sels l =>
    simp only [Prelude.items, List.forall_mem_cons]
    obtain ⟨_, h1, h2, h3, h4⟩ := h
    exact ⟨⟨fun _ e => (by cases e), fun _ e => (by cases e), h2, trivial, trivial⟩, itemSpan h1, h4.items⟩
  | keyframes sp l =>
    simp only [Prelude.items, List.forall_mem_cons]
    obtain ⟨_, h1, h2, h3, h4⟩ := h
    exact ⟨itemSpan h1, flatMap_items fun k hk => (h4 k hk).items⟩

theorem DeclOk.items {src : Bytes} {d : Decl} (h : DeclOk src d) : ∀ it ∈ d.items, ItemOk src it := by
  cases d with
  | decl sp prop vals imp =>
    simp only [Decl.items, List.forall_mem_cons]
    obtain ⟨h1, ⟨e, he, hp, hlit⟩, h3, h4, h5, h6⟩ := h
    refine ⟨⟨fun _ e => (by cases e), fun _ e => (by cases e), h3, trivial, ⟨_, hp, hlit⟩, h6⟩, itemSpan h1, itemLit ?_, h5.items⟩
    have hsl : SliceOf src (sub src sp.start e) := by
      rcases Nat.le_total sp.start e with hle | hle
      · exact ⟨_, _, hle, by have := h1.2; omega, rfl⟩
      · exact ⟨sp.start, sp.start, Nat.le_refl _, by have := h1.1; have := h1.2; omega, by
          simp [sub, Nat.sub_eq_zero_of_le hle]⟩
    rcases hp with hp | hp
    · rw [hp]; exact .inl hsl
    · exact .inr (.inr ⟨_, hsl, hp⟩)
  | raw sp v =>
    simp only [Decl.items, List.forall_mem_cons, List.not_mem_nil, false_implies, implies_true, and_true]
    exact ⟨by node, itemSpan h.1, itemLit (.at h.2 h.1)⟩

theorem DeclBlockOk.items {src : Bytes} {b : DeclBlock} (h : DeclBlockOk src b) : ∀ it ∈ b.items, ItemOk src it := by
  simp only [DeclBlock.items, List.forall_mem_cons]
  exact ⟨itemSpan h.1, flatMap_items fun d hd => (h.2.2 d hd).items⟩

theorem RuleOk.items {src : Bytes} {kf : Bool} {r : QRule} (h : RuleOk src kf r) : ∀ it ∈ r.items, ItemOk src it := by
  obtain ⟨h1, h2, b, hb, h3, h4⟩ := h
  simp only [QRule.items, List.forall_mem_cons, List.forall_mem_append, hb, Option.toList_some, List.flatMap_cons,
    List.flatMap_nil, List.append_nil]
  exact ⟨⟨fun _ e => (by cases e), fun _ e => (by cases e), ⟨b, hb⟩, trivial, trivial⟩, itemSpan h1, h2.items, h3.items⟩

theorem MQPartOk.items {src : Bytes} {p : MQPart} (h : MQPartOk src p) : ∀ it ∈ p.items, ItemOk src it := by
  cases p with
  | ident sp v =>
    simp only [MQPart.items, List.forall_mem_cons, List.not_mem_nil, false_implies, implies_true, and_true]
    exact ⟨by node h.2.2, itemSpan h.1, itemLit (.at h.2.1 h.1)⟩
  | plain sp psp prop value =>
    simp only [MQPart.items, List.forall_mem_cons]
    obtain ⟨h1, h2, h3, h4, h6⟩ := h
    have h5 := h2.spOk h1
    exact ⟨by node ⟨h6, h4.comp⟩, itemSpan h1, itemSpan h5, itemLit (.at h3 h5), h4.items⟩
  | range sp psp prop left op right =>
    simp only [MQPart.items, List.forall_mem_cons, List.forall_mem_append]
    obtain ⟨h1, h2, h3, h4, h6, h7, h8⟩ := h
    have h5 := h2.spOk h1
    refine ⟨⟨fun _ e => (by cases e), fun _ e => (by cases e), h7, trivial, h8, h4.comp, h6.comp⟩, itemSpan h1, itemSpan h5,
      itemLit (.at h3 h5), itemLit (.fixed ?_), h4.items, h6.items⟩
    simp only [List.mem_cons, List.not_mem_nil, or_false] at h7
    rcases h7 with h | h | h | h <;> rw [h] <;> decide
  | inParens sp parts => exact absurd h id

theorem MQOk.items {src : Bytes} {q : MQ} (h : MQOk src q) : ∀ it ∈ q.items, ItemOk src it := by
  simp only [MQ.items, List.forall_mem_cons]
  exact ⟨⟨fun _ e => (by cases e), fun _ e => (by cases e), h.2.1, trivial, trivial⟩, itemSpan h.1,
    flatMap_items fun d hd => (h.2.2.2 d hd).items⟩

theorem MQListOk.items {src : Bytes} {l : MQList} (h : MQListOk src l) : ∀ it ∈ l.items, ItemOk src it := by
  simp only [MQList.items, List.forall_mem_cons]
  exact ⟨⟨fun _ e => (by cases e), fun _ e => (by cases e), h.2.1, trivial, trivial⟩, itemSpan h.1,
    flatMap_items fun d hd => (h.2.2.2 d hd).items⟩

theorem AtPreludeOk.items {src : Bytes} {p : AtPrelude} (h : AtPreludeOk src p) : ∀ it ∈ p.items, ItemOk src it := by
  cases p with
  | str sp v =>
    simp only [AtPrelude.items, List.forall_mem_cons, List.not_mem_nil, false_implies, implies_true, and_true]
    exact ⟨itemSpan h.1, itemLit (.text h.2.1 h.1)⟩
  | ident sp v =>
    simp only [AtPrelude.items, List.forall_mem_cons, List.not_mem_nil, false_implies, implies_true, and_true]
    exact ⟨itemSpan h.1, itemLit (.at h.2.1 h.1)⟩
  | mql l =>
    cases l with
    | none => simp [AtPrelude.items]
    | some l =>
      simp only [AtPrelude.items, Option.toList_some, List.flatMap_cons, List.flatMap_nil, List.append_nil]
      exact MQListOk.items h
  | mq q => exact MQOk.items h

theorem AtOk.items {src : Bytes} {a : AtRule} (h : AtOk src a) : ∀ it ∈ a.items, ItemOk src it := by
  obtain ⟨h1, h2, h3, h4, h5, h6, h7⟩ := h
  simp only [AtRule.items, List.forall_mem_cons, List.forall_mem_append]
  refine ⟨⟨fun _ e => (by cases e), fun _ e => (by cases e), ?_, trivial, h7, fun _ _ hp => (h3 _ hp).2.2,
    fun _ _ hp => (h3 _ hp).2.2⟩, itemSpan h1, itemLit (.text h2 h1),
    flatMap_items fun p hp => (h3 p hp).items, ?_⟩
  · intro hn
    unfold AtShape at h6
    rw [if_neg (by rw [hn]; decide), if_neg (by rw [hn]; decide), if_neg (by rw [hn]; decide), if_pos hn] at h6
    exact h6.1
  · cases hb : a.block with
    | none => simp [Block.items]
    | decls b =>
      rw [hb] at h4
      exact DeclBlockOk.items h4
    | rules sp rs =>
      rw [hb] at h4
      simp only [Block.items, List.forall_mem_cons]
      exact ⟨itemSpan h4.1, flatMap_items fun r hr => (h4.2.2 r hr).items⟩

theorem NodeOk.items {src : Bytes} {n : Node} (h : NodeOk src n) : ∀ it ∈ n.items, ItemOk src it := by
  cases n with
  | rule r => exact RuleOk.items h
  | «at» a => exact AtOk.items h

theorem SheetOk.items {src : Bytes} {ss : Stylesheet} (h : SheetOk src ss) : ∀ it ∈ ss.items, ItemOk src it :=
  flatMap_items fun n hn => (h.nodes n hn).items

end Cssc
