import Verif.Proofs.Trace

/-!
# The line table of a parsed text

With fallbacks every line start is still entered, and nothing else is; without a raw declaration in the result there
was no fallback, and every line start was entered once.
-/

namespace Cssc

/-- The lexer has moved from `s` to `s'`, perhaps reading parts more than once: what has been entered into the line
table are line starts, among them all those passed. -/
structure Wide (s s' : St) : Prop where
  src : s'.src = s.src
  inv : Inv s'
  pos : s.lex.pos ≤ s'.lex.pos
  lines : ∃ l, s'.lines = s.lines ++ l ∧ (∀ x ∈ l, x ∈ nls s.src 0 s.src.length) ∧
    ∀ x ∈ nls s.src s.lex.pos s'.lex.pos, x ∈ l

theorem mem_nls {src : Bytes} {a b x : Nat} : x ∈ nls src a b ↔ ∃ i, a ≤ i ∧ i < b ∧ src[i]? = some 10 ∧ x = i + 1 := by
  unfold nls
  simp only [List.mem_map, List.mem_filter, List.mem_range'_1, beq_iff_eq]
  constructor
  · rintro ⟨i, ⟨⟨h1, h2⟩, h3⟩, rfl⟩; exact ⟨i, h1, by omega, h3, rfl⟩
  · rintro ⟨i, h1, h2, h3, rfl⟩; exact ⟨i, ⟨⟨h1, by omega⟩, h3⟩, rfl⟩

theorem nls_sub {src : Bytes} {a b x : Nat} (h : x ∈ nls src a b) : x ∈ nls src 0 src.length := by
  rw [mem_nls] at h ⊢
  obtain ⟨i, h1, h2, h3, rfl⟩ := h
  refine ⟨i, Nat.zero_le _, ?_, h3, rfl⟩
  have := List.getElem?_eq_some_iff.1 h3
  exact this.1

theorem Fwd0.wide {s s' : St} (h : Fwd0 s s') : Wide s s' :=
  ⟨h.src, h.inv, h.pos, _, h.lines, fun _ => nls_sub, fun _ h => h⟩

theorem Wide.refl {s : St} (h : Inv s) : Wide s s := (Fwd0.refl h).wide

theorem Wide.trans {s s1 s2 : St} (h : Wide s s1) (h' : Wide s1 s2) : Wide s s2 := by
  obtain ⟨l1, e1, a1, b1⟩ := h.lines
  obtain ⟨l2, e2, a2, b2⟩ := h'.lines
  rw [h.src] at a2 b2
  refine ⟨h'.src.trans h.src, h'.inv, Nat.le_trans h.pos h'.pos, l1 ++ l2, ?_, ?_, ?_⟩
  · rw [e2, e1, List.append_assoc]
  · intro x hx
    rw [List.mem_append] at hx
    exact hx.elim (a1 x) (a2 x)
  · intro x hx
    rw [← nls_append _ h.pos h'.pos, List.mem_append] at hx
    rw [List.mem_append]
    exact hx.imp (b1 x) (b2 x)

/-- Starting over. -/
theorem Wide.again {s s1 s2 : St} (h : Wide s s1) (h' : Wide { s1 with lex := s.lex } s2) : Wide s s2 := by
  obtain ⟨l1, e1, a1, b1⟩ := h.lines
  obtain ⟨l2, e2, a2, b2⟩ := h'.lines
  rw [show ({ s1 with lex := s.lex } : St).src = s.src from h.src] at a2 b2
  refine ⟨h'.src.trans h.src, h'.inv, h'.pos, l1 ++ l2, ?_, ?_, ?_⟩
  · rw [e2]
    show s1.lines ++ l2 = _
    rw [e1, List.append_assoc]
  · intro x hx
    rw [List.mem_append] at hx
    exact hx.elim (a1 x) (a2 x)
  · intro x hx
    rw [List.mem_append]
    exact .inr (b2 x hx)

/-- Requirements on the abnormal outcomes. -/
def XW (s : St) : Exc := ⟨fun _ s' => Wide s s', fun s' => Wide s s', True⟩

theorem Tr.wide {m : P α} {Q : α → St → Prop} {s0 s : St} (h : Tr m) (h0 : Wide s0 s)
    (hq : ∀ a s', Fwd0 s s' → Q a s') : wp m Q (XW s0) s :=
  wp_conseq (h s h0.inv) (fun a s' h1 => hq a s' h1) (fun _ _ h1 => h0.trans h1.wide)
    (fun _ h1 => h0.trans h1.wide) id

theorem wide_seq {m : P α} {f : α → P β} {Q : β → St → Prop} {s0 s : St} (h : Tr m) (h0 : Wide s0 s)
    (hq : ∀ a s', Fwd0 s s' → wp (f a) Q (XW s0) s') : wp (m >>= f) Q (XW s0) s := by
  rw [wp_bind]
  exact h.wide h0 hq

/-- No raw declaration among these items. -/
def NoRaw (l : List Item) : Prop := ∀ sp v, Item.decl (.raw sp v) ∉ l

theorem NoRaw.append {l l' : List Item} (h : NoRaw (l ++ l')) : NoRaw l ∧ NoRaw l' :=
  ⟨fun sp v hm => h sp v (List.mem_append_left _ hm), fun sp v hm => h sp v (List.mem_append_right _ hm)⟩

/-- The method `m` started in `s` after having come from `s0`. -/
def ExP (it : α → List Item) (m : P α) : Prop := ∀ s, Inv s →
  wp m (fun a s' => Wide s s' ∧ (NoRaw (it a) → Fwd0 s s')) (XW s) s

theorem ExP.seq {it : α → List Item} {m : P α} {f : α → P β} {Q : β → St → Prop} {s0 s : St} (h : ExP it m)
    (h0 : Wide s0 s) (hq : ∀ a s', Wide s0 s' → (NoRaw (it a) → Fwd0 s s') → wp (f a) Q (XW s0) s') :
    wp (m >>= f) Q (XW s0) s := by
  rw [wp_bind]
  exact wp_conseq (h s h0.inv) (fun a s' ⟨h1, h2⟩ => hq a s' (h0.trans h1) h2) (fun _ _ h1 => h0.trans h1)
    (fun _ h1 => h0.trans h1) id

theorem ExP.conseq {it : α → List Item} {m : P α} {Q : α → St → Prop} {s0 s : St} (h : ExP it m)
    (h0 : Wide s0 s) (hq : ∀ a s', Wide s0 s' → (NoRaw (it a) → Fwd0 s s') → Q a s') : wp m Q (XW s0) s :=
  wp_conseq (h s h0.inv) (fun a s' ⟨h1, h2⟩ => hq a s' (h0.trans h1) h2) (fun _ _ h1 => h0.trans h1)
    (fun _ h1 => h0.trans h1) id

theorem wide_errorf {Q : α → St → Prop} {s0 s : St} {msg : String} (h : Wide s0 s) : wp (errorf msg) Q (XW s0) s := h

theorem fallback_ex {n : Nat} : ExP Decl.items (parseDeclarationOrFallback n) := by
  intro s hs
  have h := tr_parseDeclaration (n := n) s hs
  have key : ∀ s1, Fwd0 s s1 → wp (parseRaw n) (fun a s' => Wide s s' ∧ (NoRaw a.items → Fwd0 s s')) (XW s)
      { s1 with lex := s.lex } := by
    intro s1 h1
    have hi : Inv { s1 with lex := s.lex } := by
      have e : ({ s1 with lex := s.lex } : St).src = s.src := h1.src
      exact ⟨by rw [e]; exact hs.le, by rw [e]; exact hs.ch, by rw [e]; exact hs.pos⟩
    have hw : ∀ s', Fwd0 { s1 with lex := s.lex } s' → Wide s s' := fun s' h' => h1.wide.again h'.wide
    have hraw := tr_parseRaw (n := n) _ hi
    have hret : wp (parseRaw n) (fun a _ => ∃ sp v, a = .raw sp v) ⟨fun _ _ => True, fun _ => True, True⟩
        { s1 with lex := s.lex } := by
      unfold parseRaw
      simp only [wp_bind, wp_tokenSpan]
      have ht : ∀ {β : Type} {m : P β} {Q : β → St → Prop} {s : St}, (∀ a s', Q a s') →
          wp m Q ⟨fun _ _ => True, fun _ => True, True⟩ s := by
        intro β m Q s hq
        unfold wp
        split <;> first | trivial | exact hq _ _
      exact ht fun _ _ => ht fun _ _ => ht fun _ _ => ht fun _ _ => ⟨_, _, rfl⟩
    unfold wp at hraw hret ⊢
    cases hr : parseRaw n { s1 with lex := s.lex } with
    | ok a s' =>
      rw [hr] at hraw hret
      obtain ⟨sp, v, rfl⟩ := hret
      exact ⟨hw _ hraw, fun hn => absurd (List.mem_cons_self ..) (hn sp v)⟩
    | err e s' => rw [hr] at hraw; exact hw _ hraw
    | crash s' => rw [hr] at hraw; exact hw _ hraw
    | timeout => trivial
  unfold wp at h
  unfold wp parseDeclarationOrFallback
  cases hr : parseDeclaration n s with
  | ok d s' => rw [hr] at h; exact ⟨Fwd0.wide h, fun _ => h⟩
  | err e s1 => rw [hr] at h; exact key s1 h
  | crash s1 => rw [hr] at h; exact key s1 h
  | timeout => trivial

theorem declsLoop_ex : ∀ (n : Nat) {s0 s : St} (ds : List Decl), Wide s0 s →
    wp (declsLoop n ds) (fun r s' => ∃ l, r = ds ++ l ∧ Wide s0 s' ∧ (NoRaw (l.flatMap Decl.items) → Fwd0 s s')) (XW s0) s
  | 0, _, _, _, _ => trivial
  | n + 1, s0, s, ds, h0 => by
    rw [declsLoop]
    wpb
    refine wp_ite (fun _ => ⟨[], by simp, h0, fun _ => Fwd0.refl h0.inv⟩) fun _ => ?_
    refine fallback_ex.seq h0 fun d s1 h1 e1 => ?_
    wpb
    refine wide_seq (tr_whenP tr_next) h1 fun _ s2 h2 => ?_
    refine wp_mono (declsLoop_ex n _ (h1.trans h2.wide)) fun r s3 ⟨l, hl, hw, hf⟩ => ?_
    refine ⟨d :: l, by rw [hl, List.append_assoc]; rfl, hw, fun hn => ?_⟩
    rw [List.flatMap_cons] at hn
    exact (e1 hn.append.1).trans (h2.trans (hf hn.append.2))

theorem parseDeclarationBlock_ex {n : Nat} : ExP DeclBlock.items (parseDeclarationBlock n) := by
  intro s hs
  unfold parseDeclarationBlock
  wpb
  refine wide_seq tr_next (.refl hs) fun _ s1 h1 => ?_
  rw [wp_bind]
  refine wp_mono (declsLoop_ex n [] h1.wide) fun r s2 ⟨l, hl, hw, hf⟩ => ?_
  wpb
  refine wide_seq tr_next hw fun _ s3 h3 => ?_
  wpb
  refine ⟨hw.trans h3.wide, fun hn => h1.trans ((hf fun sp v hm => ?_).trans h3)⟩
  refine hn sp v (List.mem_cons_of_mem _ ?_)
  rw [hl]
  exact hm

theorem ruleLoop_ex {k : Bool} : ∀ (n : Nat) {s0 s : St} (sp : Span) (p : Prelude), Wide s0 s →
    wp (ruleLoop k n sp p) (fun r s' => Wide s0 s' ∧ (NoRaw r.items → Fwd0 s s')) (XW s0) s
  | 0, _, _, _, _, _ => trivial
  | n + 1, s0, s, sp, p, h0 => by
    rw [ruleLoop]
    wpb
    split
    · exact wide_errorf h0
    · refine parseDeclarationBlock_ex.seq h0 fun b s1 h1 e1 => ?_
      wpb
      refine ⟨h1, fun hn => e1 fun a v hm => hn a v ?_⟩
      unfold QRule.items
      simp only [Option.toList_some, List.flatMap_cons, List.flatMap_nil, List.append_nil]
      exact List.mem_cons_of_mem _ (List.mem_cons_of_mem _ (List.mem_append_right _ hm))
    · split
      · refine wide_seq tr_parseKeyframeSelectorList h0 fun q s1 h1 => ?_
        exact wp_mono (ruleLoop_ex n _ _ (h0.trans h1.wide)) fun r s2 ⟨hw, hf⟩ => ⟨hw, fun hn => h1.trans (hf hn)⟩
      · refine wide_seq (selTr n).sels h0 fun q s1 h1 => ?_
        exact wp_mono (ruleLoop_ex n _ _ (h0.trans h1.wide)) fun r s2 ⟨hw, hf⟩ => ⟨hw, fun hn => h1.trans (hf hn)⟩

theorem parseQualifiedRule_ex {k : Bool} {n : Nat} : ExP QRule.items (parseQualifiedRule k n) := by
  intro s hs
  unfold parseQualifiedRule
  wpb
  exact ruleLoop_ex n _ _ (.refl hs)

theorem rulesLoop_ex {k : Bool} : ∀ (n : Nat) {s0 s : St} (acc : List QRule), Wide s0 s →
    wp (rulesLoop k n acc) (fun r s' => ∃ l, r.1 = acc ++ l ∧ Wide s0 s' ∧ (NoRaw (l.flatMap QRule.items) → Fwd0 s s'))
      (XW s0) s
  | 0, _, _, _, _ => trivial
  | n + 1, s0, s, acc, h0 => by
    rw [rulesLoop]
    wpb
    split
    · exact wide_errorf h0
    · wpb
      refine wide_seq tr_next h0 fun _ s1 h1 => ?_
      wpb
      exact ⟨[], by simp, h0.trans h1.wide, fun _ => h1⟩
    · refine parseQualifiedRule_ex.seq h0 fun d s1 h1 e1 => ?_
      refine wp_mono (rulesLoop_ex n _ h1) fun r s3 ⟨l, hl, hw, hf⟩ => ?_
      refine ⟨d :: l, by rw [hl, List.append_assoc]; rfl, hw, fun hn => ?_⟩
      rw [List.flatMap_cons] at hn
      exact (e1 hn.append.1).trans (hf hn.append.2)

/-- What an at-rule adds. -/
def addedItems (x : Node × List ImportSpec) : List Item := x.1.items

theorem Tr.ex {it : α → List Item} {m : P α} (h : Tr m) : ExP it m := fun _ hs =>
  h.wide (.refl hs) fun _ _ h1 => ⟨h1.wide, fun _ => h1⟩

theorem block_ex {k : Bool} {n : Nat} {s0 s s00 : St} {g : List QRule → Nat → Node}
    (h0 : Wide s0 s) (hf : Fwd0 s00 s) (hg : ∀ rs e sp v, Item.decl (.raw sp v) ∈ rs.flatMap QRule.items →
      Item.decl (.raw sp v) ∈ (g rs e).items) :
    wp (rulesLoop k n [] >>= fun x => pure (g x.1 x.2, []))
      (fun a s' => Wide s0 s' ∧ (NoRaw (addedItems a) → Fwd0 s00 s')) (XW s0) s := by
  rw [wp_bind]
  refine wp_mono (rulesLoop_ex n [] h0) fun r s2 ⟨l, hl, hw, hf2⟩ => ?_
  wpb
  refine ⟨hw, fun hn => hf.trans (hf2 fun sp v hm => hn sp v (hg _ _ _ _ ?_))⟩
  rw [hl]; exact hm

theorem at_rules_mem {id : Nat} {sp bsp : Span} {name : Bytes} {ps : List AtPrelude} {rs : List QRule} {it : Item}
    (h : it ∈ rs.flatMap QRule.items) : it ∈ (Node.at ⟨id, sp, name, ps, .rules bsp rs⟩).items := by
  show it ∈ AtRule.items _
  unfold AtRule.items
  refine List.mem_cons_of_mem _ (List.mem_cons_of_mem _ (List.mem_cons_of_mem _ (List.mem_append_right _ ?_)))
  exact List.mem_cons_of_mem _ h

theorem parseKeyframes_ex {n : Nat} : ExP addedItems (parseKeyframes n) := by
  intro s hs
  unfold parseKeyframes
  show wp (tokenSpan >>= _) _ _ _
  wpb
  refine wide_seq tr_next (.refl hs) fun _ s1 h1 => ?_
  wpb
  refine wide_seq ?_ h1.wide fun p s2 h2 => ?_
  · tr
  refine wide_seq tr_next (h1.trans h2).wide fun _ s3 h3 => ?_
  wpb
  refine wide_seq tr_expect ((h1.trans h2).trans h3).wide fun _ s4 h4 => ?_
  have hf := ((h1.trans h2).trans h3).trans h4
  exact block_ex (g := fun rs e => .at ⟨s.id, ⟨s.lex.start, e⟩, s.lex.str, [p], .rules ⟨s3.lex.start, e⟩ rs⟩)
    hf.wide hf fun _ _ _ _ => at_rules_mem

theorem parseMediaAtRule_ex {n : Nat} : ExP addedItems (parseMediaAtRule n) := by
  intro s hs
  unfold parseMediaAtRule
  show wp (tokenSpan >>= _) _ _ _
  wpb
  refine wide_seq tr_next (.refl hs) fun _ s1 h1 => ?_
  refine wide_seq tr_parseMediaQueryList h1.wide fun p s2 h2 => ?_
  wpb
  refine wide_seq tr_expect (h1.trans h2).wide fun _ s4 h4 => ?_
  have hf := (h1.trans h2).trans h4
  exact block_ex (g := fun rs e => .at ⟨s.id, ⟨s.lex.start, e⟩, s.lex.str, [.mql p], .rules ⟨s2.lex.start, e⟩ rs⟩)
    hf.wide hf fun _ _ _ _ => at_rules_mem

theorem parseGenericAtRule_ex {n : Nat} : ExP addedItems (parseGenericAtRule n) := by
  intro s hs
  unfold parseGenericAtRule
  show wp (tokenSpan >>= _) _ _ _
  wpb
  refine wide_seq tr_next (.refl hs) fun _ s1 h1 => ?_
  refine parseDeclarationBlock_ex.seq h1.wide fun b s2 h2 e2 => ?_
  wpb
  refine ⟨h2, fun hn => h1.trans (e2 fun sp v hm => hn sp v ?_)⟩
  show _ ∈ AtRule.items _
  unfold AtRule.items
  exact List.mem_cons_of_mem _ (List.mem_cons_of_mem _ (List.mem_cons_of_mem _ (List.mem_append_right _ hm)))

theorem parseAtRule_ex {n : Nat} : ExP addedItems (parseAtRule n) := by
  intro s hs
  unfold parseAtRule
  wpb
  refine wp_ite (fun _ => tr_parseImportAtRule.ex s hs) fun _ => wp_ite (fun _ => parseMediaAtRule_ex s hs) fun _ =>
    wp_ite (fun _ => parseKeyframes_ex s hs) fun _ => wp_ite (fun _ => tr_parseCustomMediaAtRule.ex s hs) fun _ =>
    parseGenericAtRule_ex s hs

theorem topLoop_ex : ∀ (n : Nat) {s0 s : St} (ss : Stylesheet), Wide s0 s →
    wp (topLoop n ss) (fun r s' => s'.lex.cur = .eof ∧
      ∃ l, r.nodes = ss.nodes ++ l ∧ Wide s0 s' ∧ (NoRaw (l.flatMap Node.items) → Fwd0 s s')) (XW s0) s
  | 0, _, _, _, _ => trivial
  | n + 1, s0, s, ss, h0 => by
    have skip : wp (next >>= fun _ => topLoop n ss) (fun r s' => s'.lex.cur = .eof ∧
      ∃ l, r.nodes = ss.nodes ++ l ∧ Wide s0 s' ∧ (NoRaw (l.flatMap Node.items) → Fwd0 s s')) (XW s0) s := by
      refine wide_seq tr_next h0 fun _ s1 h1 => ?_
      exact wp_mono (topLoop_ex n ss (h0.trans h1.wide)) fun r s2 ⟨he, l, hl, hw, hf⟩ =>
        ⟨he, l, hl, hw, fun hn => h1.trans (hf hn)⟩
    have more : ∀ (node : Node) (imports : List ImportSpec) (s1 : St), Wide s0 s1 → (NoRaw node.items → Fwd0 s s1) →
        wp (topLoop n ⟨ss.nodes ++ [node], imports⟩) (fun r s' => s'.lex.cur = .eof ∧
          ∃ l, r.nodes = ss.nodes ++ l ∧ Wide s0 s' ∧ (NoRaw (l.flatMap Node.items) → Fwd0 s s')) (XW s0) s1 := by
      intro node imports s1 h1 e1
      refine wp_mono (topLoop_ex n _ h1) fun r s2 ⟨he, l, hl, hw, hf⟩ => ?_
      refine ⟨he, node :: l, by rw [hl, List.append_assoc]; rfl, hw, fun hn => ?_⟩
      rw [List.flatMap_cons] at hn
      exact (e1 hn.append.1).trans (hf hn.append.2)
    rw [topLoop]
    wpb
    split
    · exact ⟨by assumption, [], by simp, h0, fun _ => Fwd0.refl h0.inv⟩
    · exact parseAtRule_ex.seq h0 fun x s1 h1 e1 => more x.1 _ s1 h1 e1
    · exact skip
    · exact skip
    · exact skip
    · exact parseQualifiedRule_ex.seq h0 fun r s1 h1 e1 => more (.rule r) _ s1 h1 e1

end Cssc
