import Verif.Proofs.Cascade
import Verif.Props.TransformBasic
import Verif.Props.Output

/-!
# C88: lowering keeps what a stylesheet says
-/

namespace Cssc

/-! ### Selectors -/

theorem linkAs_replace {o : TOpts} (ho : o.anyLink = true) (name : Bytes) : SelPart.linkAs name = replaceAnyLink o name := by
  funext p
  unfold SelPart.linkAs replaceAnyLink
  rw [isAnyLink_eq ho]

theorem anyLink_bare (p : SelPart) : p.bare.anyLink = p.anyLink := by cases p <;> rfl

theorem linkAs_isWs (name : Bytes) (p : SelPart) : (p.linkAs name).isWs = p.isWs := by
  unfold SelPart.linkAs
  split
  · rename_i h
    cases p <;> first | rfl | cases h
  · rfl

theorem linkAs_bare (name : Bytes) (p : SelPart) : (p.linkAs name).bare = p.bare.linkAs name := by
  unfold SelPart.linkAs
  rw [anyLink_bare]
  split <;> rfl

theorem bareParts_linkAs (name : Bytes) : ∀ (ps : List SelPart), bareParts (ps.map (SelPart.linkAs name)) = (bareParts ps).map (SelPart.linkAs name)
  | [] => by simp [bareParts]
  | p :: ps => by
    rw [List.map_cons, bareParts, bareParts, List.isEmpty_map, linkAs_isWs, bareParts_linkAs name ps]
    split
    · rfl
    · rw [List.map_cons, linkAs_bare]

theorem bareParts_count : ∀ (ps : List SelPart), (bareParts ps).countP SelPart.anyLink ≤ ps.countP SelPart.anyLink
  | [] => by simp [bareParts]
  | p :: ps => by
    have ih := bareParts_count ps
    rw [bareParts]
    split
    · simp
    · rw [List.countP_cons, List.countP_cons, anyLink_bare]
      omega

theorem linkAs_weigh {B : Browser} (hB : B.KnowsLinks) {name : Bytes} (hn : name = b!"link" ∨ name = b!"visited") (p : SelPart) :
    B.weigh (p.linkAs name) = B.weigh p := by
  unfold SelPart.linkAs
  split
  · rename_i h
    cases p <;> simp [SelPart.anyLink] at h
    subst h
    exact (hB.2 _ _ _ hn).symm
  · rfl

/-- A selector becomes selectors that match the same elements, with the same weights. -/
theorem sel_lowered {B : Browser} (hB : B.KnowsLinks) {o : TOpts} {s : Sel} {out : List Sel} (h : SelPiece o s out)
    (hc : s.parts.countP SelPart.anyLink ≤ 1) (e : B.doc.Elem) (w : List B.W) :
    Weights B e (out.map Sel.bare) w ↔ Weights B e [s.bare] w := by
  cases h with
  | same => exact Iff.rfl
  | split ho _ h1 h2 h3 =>
    obtain ⟨sp, parts⟩ := s
    have hbare : ∀ name, (Sel.linkAs name (.mk sp parts)).bare = .mk ⟨0, 0⟩ ((bareParts parts).map (SelPart.linkAs name)) := by
      intro name
      unfold Sel.linkAs
      rw [Sel.bare, bareParts_linkAs]
    have hw : ∀ name, name = b!"link" ∨ name = b!"visited" →
        ((bareParts parts).map (SelPart.linkAs name)).map B.weigh = (bareParts parts).map B.weigh := by
      intro name hn
      rw [List.map_map]
      exact List.map_congr_left fun p _ => linkAs_weigh hB hn p
    have hone : Weights B e [Sel.bare (.mk sp parts)] w ↔
        (∃ a, Leads B.doc (bareParts parts) a e) ∧ (bareParts parts).map B.weigh = w := by
      rw [Sel.bare]
      constructor
      · rintro ⟨s, hs, h, hq⟩
        rw [List.mem_singleton] at hs
        subst hs
        exact ⟨h, hq⟩
      · rintro ⟨h, hq⟩
        exact ⟨_, List.mem_singleton_self _, h, hq⟩
    rw [hone]
    constructor
    · rintro ⟨_, hm, ⟨a, ha⟩, hq⟩
      obtain ⟨t, ht, rfl⟩ := List.mem_map.1 hm
      have key : ∀ name, name = b!"link" ∨ name = b!"visited" → t = (Sel.mk sp parts).linkAs name →
          (∃ a, Leads B.doc (bareParts parts) a e) ∧ (bareParts parts).map B.weigh = w := by
        rintro name hn rfl
        rw [hbare] at ha hq
        refine ⟨⟨a, ?_⟩, (hw name hn).symm.trans hq⟩
        have ha : Leads B.doc ((bareParts parts).map (SelPart.linkAs name)) a e := ha
        rw [linkAs_replace ho] at ha
        exact replaced_sound hB.1 ho hn ha
      rcases h1 t ht with h | h
      · exact key _ (.inl rfl) h
      · exact key _ (.inr rfl) h
    · rintro ⟨⟨a, ha⟩, hq⟩
      rcases replaced_complete hB.1 ho (Nat.le_trans (bareParts_count parts) hc) ha with h | h
      · refine ⟨_, List.mem_map_of_mem h2, ⟨a, ?_⟩, ?_⟩
        · rw [hbare, linkAs_replace ho]
          exact h
        · rw [hbare]
          exact (hw _ (.inl rfl)).trans hq
      · refine ⟨_, List.mem_map_of_mem h3, ⟨a, ?_⟩, ?_⟩
        · rw [hbare, linkAs_replace ho]
          exact h
        · rw [hbare]
          exact (hw _ (.inr rfl)).trans hq

theorem weights_append {B : Browser} {e : B.doc.Elem} {a b : List Sel} {w : List B.W} :
    Weights B e (a ++ b) w ↔ Weights B e a w ∨ Weights B e b w := by
  unfold Weights
  simp only [List.mem_append]
  exact ⟨fun ⟨s, hs, h⟩ => hs.imp (fun k => ⟨s, k, h⟩) fun k => ⟨s, k, h⟩,
    fun h => h.elim (fun ⟨s, hs, h⟩ => ⟨s, .inl hs, h⟩) fun ⟨s, hs, h⟩ => ⟨s, .inr hs, h⟩⟩

theorem sels_lowered {B : Browser} (hB : B.KnowsLinks) {o : TOpts} {l out : List Sel} (h : Pieces (SelPiece o) l out)
    (hc : ∀ s ∈ l, s.parts.countP SelPart.anyLink ≤ 1) (e : B.doc.Elem) (w : List B.W) :
    Weights B e (out.map Sel.bare) w ↔ Weights B e (l.map Sel.bare) w := by
  induction h with
  | nil => exact Iff.rfl
  | @cons x xs o1 o2 hx _ ih =>
    rw [List.map_append, weights_append, ih fun s hs => hc s (List.mem_cons_of_mem _ hs), sel_lowered hB hx (hc x (List.mem_cons_self ..)),
      List.map_cons, ← weights_append]
    rfl

/-! ### Values and declarations -/

theorem vals_lowered {B : Browser} {fo : FloatOps} {o : TOpts} (hr : RoundTrip fo) (hB : B.KnowsCalc fo) (ho : o.customProperties = false)
    {defs : List (Bytes × List Value)} {vals vals' : List Value} (h : Pieces (ValuePiece fo o defs) vals vals') :
    (bareVals vals').map B.value = (bareVals vals).map B.value := by
  rw [bareVals_map, bareVals_map]
  induction h with
  | nil => rfl
  | @cons x xs o1 o2 hx _ ih =>
    rw [List.map_append, List.map_append, ih, List.map_cons, List.map_cons]
    suffices h : (o1.map Value.bare).map B.value = [B.value x.bare] by rw [h]; rfl
    cases hx with
    | other => rfl
    | varOff => rfl
    | varDefined h => rw [ho] at h; cases h
    | varFallback h => rw [ho] at h; cases h
    | varUndefined h => rw [ho] at h; cases h
    | varBad => rfl
    | calcKept => rfl
    | calcReduced _ h =>
      obtain ⟨f, rfl, hd⟩ := h hr
      rw [if_neg (by rw [ho]; decide)] at hd
      rw [hB _ _ _ _ hd]
      rfl

theorem decls_lowered {B : Browser} {fo : FloatOps} {o : TOpts} (hr : RoundTrip fo) (hB : B.KnowsCalc fo) (ho : o.customProperties = false)
    {defs : List (Bytes × List Value)} (c : List B.W → Prop) {ds ds' : List Decl} (h : Pieces (DeclPiece fo o defs) ds ds') :
    (ds'.map Decl.bare).map (Decl.offer B c) = (ds.map Decl.bare).map (Decl.offer B c) := by
  induction h with
  | nil => rfl
  | @cons x xs o1 o2 hx _ ih =>
    rw [List.map_append, List.map_append, ih, List.map_cons, List.map_cons]
    suffices h : (o1.map Decl.bare).map (Decl.offer B c) = [Decl.offer B c x.bare] by rw [h]; rfl
    cases hx with
    | raw => rfl
    | decl h =>
      simp only [List.map_cons, List.map_nil, Decl.bare, Decl.offer]
      rw [vals_lowered hr hB ho h]

/-! ### Nodes -/

theorem offer_congr {B : Browser} {c c' : List B.W → Prop} (h : ∀ w, c w ↔ c' w) : c = c' := funext fun w => propext (h w)

theorem mqs_lowered {B : Browser} {fo : FloatOps} {o : TOpts} {before defs : List (Bytes × MQ)} {qs qs' : List MQ}
    (h : Pieces (MQPiece fo o before) qs qs') (hc : o.customMediaQueries = true ∨ defs = []) (hd : ∀ d ∈ defs, d.2.Definition)
    (hl : ∀ q ∈ qs, q.Lowerable B fo before defs) :
    (∃ q ∈ qs'.map MQ.bare, QueryHolds B (B.cond []) q.parts) ↔
      ∃ q ∈ qs.map MQ.bare, QueryHolds B (B.cond (defs.map fun d => (d.1, d.2.bare))) q.parts := by
  induction h with
  | nil => simp
  | @cons x xs o1 o2 hx _ ih =>
    cases hx with
    | @mk sp parts parts' hp =>
      have := mq_lowered (q := ⟨sp, parts⟩) hp hc hd (hl _ (List.mem_cons_self ..))
      simp only [List.cons_append, List.nil_append, List.map_cons, List.mem_cons, exists_eq_or_imp]
      rw [ih fun q hq => hl q (List.mem_cons_of_mem _ hq)]
      exact or_congr this Iff.rfl

/-- A node becomes nodes that say the same. -/
theorem node_lowered {B : Browser} {fo : FloatOps} {o : TOpts} (hr : RoundTrip fo) (hC : B.KnowsCalc fo) (hL : B.KnowsLinks)
    (ho : o.customProperties = false) {pre post : List Node} {n : Node} {out : List Node} (h : NodePiece fo o pre n out)
    (hl : Lowerable B fo o (pre ++ n :: post)) (e : B.doc.Elem) :
    (out.map Node.bare).flatMap (Node.offers B [] e) =
      n.bare.offers B ((mediaDefs (pre ++ n :: post)).map fun d => (d.1, d.2.bare)) e := by
  cases h with
  | @rule sp bsp lsp sels sels' decls ds ds' defs _ h2 h3 h4 _ =>
    rcases h2 with h2 | ⟨_, h2⟩
    · rw [ho] at h2; cases h2.1
    subst h2
    have hw := sels_lowered hL h4 (hl.links _ _ (List.mem_append_right _ (List.mem_cons_self ..)) rfl) e
    simp only [List.map_cons, List.map_nil, List.flatMap_cons, List.flatMap_nil, List.append_nil]
    show (ds'.map Decl.bare).map (Decl.offer B fun w => True ∧ Weights B e (bareSels sels') w) =
      (ds.map Decl.bare).map (Decl.offer B fun w => True ∧ Weights B e (bareSels sels) w)
    rw [decls_lowered hr hC ho _ h3]
    congr 2
    refine offer_congr fun w => and_congr_right fun _ => ?_
    rw [bareSels_map, bareSels_map, hw]
  | @emptyRule r b hb hk =>
    rcases hk with hk | ⟨_, hk⟩
    · rw [ho] at hk; cases hk.1
    show [] = QRule.offers B e True r.bare
    unfold QRule.offers QRule.bare
    rw [hb]
    dsimp only [Option.map_some]
    cases r.prelude with
    | sels l => simp [Prelude.bare, DeclBlock.bare, ← hk]
    | _ => rfl
  | @customMedia a ha =>
    simp only [Node.bare, Node.offers]
    rw [if_pos (show a.bare.name = b!"custom-media" from ha)]
    rfl
  | @media src sp lsp qs qs' rest block h2 =>
    have hq := mqs_lowered h2 hl.custom hl.definitions (hl.queries pre _ post _ _ rfl rfl rfl)
    simp only [List.map_cons, List.map_nil, List.flatMap_cons, List.flatMap_nil, List.append_nil]
    show block.bare.offers B e (MediaHold B [] (qs'.map MQ.bare)) = block.bare.offers B e (MediaHold B _ (qs.map MQ.bare))
    congr 1
    unfold MediaHold
    rw [hq]
    refine propext (or_congr_left ?_)
    cases h2 with
    | nil => exact Iff.rfl
    | cons hx _ =>
      cases hx
      simp
  | @other a h1 h2 =>
    simp only [List.map_cons, List.map_nil, List.flatMap_cons, List.flatMap_nil, List.append_nil]
    simp only [Node.bare, Node.offers]
    rw [if_neg (show ¬ a.bare.name = b!"custom-media" from h1), if_neg (show ¬ a.bare.name = b!"custom-media" from h1),
      if_neg (show ¬ a.bare.name = b!"media" from h2), if_neg (show ¬ a.bare.name = b!"media" from h2)]

theorem nodes_lowered {B : Browser} {fo : FloatOps} {o : TOpts} (hr : RoundTrip fo) (hC : B.KnowsCalc fo) (hL : B.KnowsLinks)
    (ho : o.customProperties = false) {pre ns out : List Node} (h : NodePieces fo o pre ns out) :
    Lowerable B fo o (pre ++ ns) → ∀ e : B.doc.Elem,
    (out.map Node.bare).flatMap (Node.offers B [] e) =
      (ns.map Node.bare).flatMap (Node.offers B ((mediaDefs (pre ++ ns)).map fun d => (d.1, d.2.bare)) e) := by
  induction h with
  | nil => exact fun _ _ => rfl
  | @cons pre ns o1 o2 n hn _ ih =>
    intro hl e
    rw [List.append_assoc, List.singleton_append] at ih
    rw [List.map_append, List.flatMap_append, ih hl e, node_lowered hr hC hL ho hn hl e, List.map_cons, List.flatMap_cons]

/-- Nothing is left of custom media queries. -/
theorem pieces_noDefs {fo : FloatOps} {o : TOpts} {pre ns out : List Node} (h : NodePieces fo o pre ns out) : mediaDefs out = [] := by
  induction h with
  | nil => rfl
  | @cons pre ns o1 o2 n hn _ ih =>
    unfold mediaDefs at ih ⊢
    rw [List.filterMap_append, ih, List.append_nil]
    cases hn with
    | rule => rfl
    | emptyRule => rfl
    | customMedia => rfl
    | media => rfl
    | @other a h1 _ =>
      simp [Node.customMedia?, AtRule.customMedia?, h1]

/-- **C88, partial**: whatever the options but for custom properties, the transformed stylesheet says about every element
what the (inlined) stylesheet says: the same declarations in the same order, with the same values, and each applies on the
same devices, to the same elements, with the same weights; in every browser that knows what `:any-link` and `calc()` mean.
The stylesheet must be `Lowerable`: no selector with two `:any-link`; custom media queries are defined once and for all
before they are used, as features joined by `and`; ranges are intervals; and where a feature becomes several, it is not
within `not` or `or`. -/
theorem meaning_partial {B : Browser} {fo : FloatOps} {o : TOpts} (hr : RoundTrip fo) (hC : B.KnowsCalc fo) (hL : B.KnowsLinks)
    (ho : o.customProperties = false) {repl : Replacements} {n : Nat} {ss ss' : Stylesheet} {s : TSt}
    (h : transform fo o repl n ss = .ok ss' s) :
    ∃ flat, Flat repl ss.nodes flat ∧ (Lowerable B fo o flat → ∀ e : B.doc.Elem, applied B e ss'.nodes = applied B e flat) := by
  obtain ⟨_, flat, h1, h2⟩ := transform_pieces h
  refine ⟨flat, h1, fun hl e => ?_⟩
  unfold applied offersOf
  rw [mediaDefs_bare, mediaDefs_bare, pieces_noDefs h2]
  exact nodes_lowered hr hC hL ho h2 hl e

/-! ### A test for `Lowerable` -/

/-- An interval, without `<` and `>`. -/
def MQPart.intervalB : MQPart → Bool
  | .range _ _ _ l op r => (!l.isNil || !r.isNil) && (op == b!"<=" || op == b!">=")
  | _ => true

def MQPart.singleB (defs : List (Bytes × MQ)) : MQPart → Bool
  | .range _ _ _ l _ r => l.isNil || r.isNil
  | p => match p.custom? with
    | none => true
    | some name => match lastDef defs name with
      | none => true
      | some q => q.parts.length == 1

def MQ.joinableB (q : MQ) : Bool :=
  q.parts.all (!·.isOr) && match q.parts with
    | [.ident _ w, p] => !(w == b!"not" && p.isFeature)
    | _ => true

/-- A query with the definitions `defs`, of which `later` follow it. -/
def MQ.lowerableB (later defs : List (Bytes × MQ)) (q : MQ) : Bool :=
  q.parts.all MQPart.intervalB &&
  q.parts.all (fun p => match p.custom? with | none => true | some name => later.all fun d => d.1 != name) &&
  (q.parts.all (MQPart.singleB defs) || q.joinableB)

def queriesB (defs : List (Bytes × MQ)) : List Node → Bool
  | [] => true
  | n :: ns => (match n with
    | .at a => if a.name = b!"media" then (match a.preludes with
        | .mql (some l) :: _ => l.queries.all (MQ.lowerableB (mediaDefs ns) defs)
        | _ => true) else true
    | .rule _ => true) && queriesB defs ns

def lowerableB (o : TOpts) (ns : List Node) : Bool :=
  (o.customMediaQueries || (mediaDefs ns).isEmpty) &&
  ns.all (fun | .rule r => (match r.prelude with | .sels l => l.sels.all (fun s => decide (s.parts.countP SelPart.anyLink ≤ 1)) | _ => true) | _ => true) &&
  (mediaDefs ns).all (fun d => chain b!"and" d.2.parts && d.2.parts.all (·.custom?.isNone)) &&
  queriesB (mediaDefs ns) ns

theorem intervalB_sound {p : MQPart} (h : p.intervalB = true) (B : Browser) (fo : FloatOps) : p.Interval B fo := by
  cases p with
  | range sp psp name l op r =>
    rw [MQPart.intervalB, Bool.and_eq_true, Bool.or_eq_true, Bool.or_eq_true] at h
    refine ⟨h.1.imp (fun k e => ?_) fun k e => ?_, ?_⟩
    · rw [e] at k; cases k
    · rw [e] at k; cases k
    · rcases h.2 with k | k
      · exact .inl (by simpa using k)
      · exact .inr (.inl (by simpa using k))
  | _ => trivial

theorem singleB_sound {defs : List (Bytes × MQ)} {p : MQPart} (h : p.singleB defs = true) : p.Single defs := by
  refine ⟨fun sp psp name l op r e => ?_, fun name q h1 h2 => ?_⟩
  · subst e
    rw [MQPart.singleB, Bool.or_eq_true] at h
    exact h.imp (isNil_iff _).1 (isNil_iff _).1
  · cases p with
    | plain sp psp prop v =>
      rw [MQPart.singleB, h1] at h
      · dsimp only at h
        rw [h2] at h
        simpa using h
      · intro _ _ _ _ _ _ e
        cases e
    | _ => cases h1

theorem lastDef_append {before later : List (Bytes × MQ)} {name : Bytes} (h : ∀ d ∈ later, d.1 ≠ name) :
    lastDef (before ++ later) name = lastDef before name := by
  unfold lastDef
  rw [List.reverse_append, List.find?_append, List.find?_eq_none.2 fun d hd => by simpa using h d (List.mem_reverse.1 hd), Option.none_or]

theorem queriesB_sound {B : Browser} {fo : FloatOps} {defs : List (Bytes × MQ)} : ∀ {ns : List Node} {before : List (Bytes × MQ)},
    queriesB defs ns = true → defs = before ++ mediaDefs ns → ∀ pre a post l rest, ns = pre ++ .at a :: post → a.name = b!"media" →
      a.preludes = .mql (some l) :: rest → ∀ q ∈ l.queries, q.Lowerable B fo (before ++ mediaDefs pre) defs
  | [], _, _, _, pre, a, post, _, _, e, _, _ => by simp at e
  | n :: ns, before, h, hd, pre, a, post, l, rest, e, hn, hp => by
    rw [queriesB.eq_def] at h
    dsimp only at h
    rw [Bool.and_eq_true] at h
    cases pre with
    | nil =>
      rw [List.nil_append, List.cons.injEq] at e
      obtain ⟨rfl, rfl⟩ := e
      have h1 := h.1
      dsimp only at h1
      rw [if_pos hn, hp] at h1
      have hnone : (Node.at a).customMedia? = none := by
        simp [Node.customMedia?, AtRule.customMedia?, hn]
      have hd' : defs = before ++ mediaDefs ns := by
        rw [hd]
        unfold mediaDefs
        rw [List.filterMap_cons, hnone]
      intro q hq
      have := List.all_eq_true.1 h1 q hq
      rw [MQ.lowerableB, Bool.and_eq_true, Bool.and_eq_true] at this
      obtain ⟨⟨k1, k2⟩, k3⟩ := this
      refine ⟨fun p hp => intervalB_sound (List.all_eq_true.1 k1 p hp) B fo, fun p hp name hc => ?_, ?_⟩
      · have := List.all_eq_true.1 k2 p hp
        rw [hc] at this
        show lastDef (before ++ []) name = _
        rw [List.append_nil, hd', lastDef_append]
        intro d hm
        simpa using List.all_eq_true.1 this d hm
      · rcases Bool.or_eq_true_iff.1 k3 with k | k
        · exact .inl fun p hp => singleB_sound (List.all_eq_true.1 k p hp)
        · rw [MQ.joinableB, Bool.and_eq_true] at k
          refine .inr ⟨fun p hp => by simpa using List.all_eq_true.1 k.1 p hp, fun sp p e => ?_⟩
          have := k.2
          rw [e] at this
          simpa using this
    | cons m pre =>
      rw [List.cons_append, List.cons.injEq] at e
      obtain ⟨rfl, e⟩ := e
      have hcons : ∀ ms : List Node, mediaDefs (n :: ms) = mediaDefs [n] ++ mediaDefs ms := by
        intro ms
        unfold mediaDefs
        rw [← List.filterMap_append]
        rfl
      intro q hq
      have := queriesB_sound (B := B) (fo := fo) (before := before ++ mediaDefs [n]) h.2 (by rw [hd, hcons, List.append_assoc]) pre a post l rest e hn hp q hq
      rw [hcons, ← List.append_assoc]
      exact this

/-- Stylesheets that pass the test can be lowered, whatever the browser. -/
theorem lowerableB_sound {o : TOpts} {ns : List Node} (h : lowerableB o ns = true) (B : Browser) (fo : FloatOps) : Lowerable B fo o ns := by
  rw [lowerableB, Bool.and_eq_true, Bool.and_eq_true, Bool.and_eq_true] at h
  obtain ⟨⟨⟨h1, h2⟩, h3⟩, h4⟩ := h
  refine ⟨?_, fun r l hr hl s hs => ?_, fun d hd => ?_, fun pre a post l rest e hn hp => ?_⟩
  · rcases Bool.or_eq_true_iff.1 h1 with k | k
    · exact .inl k
    · exact .inr (by simpa using k)
  · have := List.all_eq_true.1 h2 _ hr
    dsimp only at this
    rw [hl] at this
    simpa using List.all_eq_true.1 this s hs
  · have := List.all_eq_true.1 h3 d hd
    rw [Bool.and_eq_true] at this
    refine ⟨this.1, fun p hp => ?_⟩
    simpa using List.all_eq_true.1 this.2 p hp
  · exact queriesB_sound (before := []) h4 rfl pre a post l rest e hn hp

/-! ### An example, and what cannot be lowered -/

/-- A browser that takes numbers and `calc()` for numbers, on a device that is 1 wide; all links are visited. -/
def smallBrowser : Browser where
  doc := ⟨Bool, fun e p => (match p with | .pclass _ name _ => e && (name == b!"any-link" || name == b!"visited") | _ => true) = true, fun _ a b => a ≠ b⟩
  W := Nat
  weigh p := match p with | .type _ _ => 1 | .id _ _ => 100 | .ws _ => 0 | .comb _ _ => 0 | _ => 10
  medium t := t = b!"screen"
  axis _ := ⟨Nat, (· ≤ ·), (· < ·), fun v => match v with | .dim _ num _ => num.length | _ => 0, 1⟩
  plain _ _ := False
  group _ := False
  X := Bool
  value v := match v with | .dim _ _ _ => true | .func _ name _ => name == b!"calc" | _ => false

theorem smallBrowser_links : smallBrowser.KnowsLinks := by
  refine ⟨fun e sp args => ?_, fun sp args name hn => rfl⟩
  show (e && _) = true ↔ (e && _) = true ∨ (e && _) = true
  cases e <;> decide

theorem smallBrowser_calc : smallBrowser.KnowsCalc unaryOps := fun _ _ _ _ _ => rfl

theorem unary_roundTrip : RoundTrip unaryOps := by
  intro f
  have h : ∀ n : Nat, (if (List.replicate n (49 : UInt8)).all (· == 49) then some (List.replicate n (49 : UInt8)).length else none) = some n := by
    intro n
    rw [if_pos (by simp), List.length_replicate]
  exact h f

/-- All features but custom properties. -/
def lowering : TOpts := ⟨.inline, true, true, false, true, true⟩

/-- A text with all of these features. -/
def lowerText : Bytes :=
  b!"@custom-media --w (11px <= width) and (height >= 1px); a:any-link { w: calc(11px + 1px); c: var(--c) } @media screen and (--w), (11px <= width <= 1111px) and (color) { b { c: d } } @media not (width <= 1px) { e { f: g } }"

/-- `meaning_partial` applies to it. -/
example : ((parse 400 lowerText).sheet?.map fun x => (lowerableB lowering x.1.nodes, (transform unaryOps lowering (some []) 30 x.1).out?.map fun ss =>
    (print none ss).text?)) = some (true, some (some
      b!"a:visited,a:link{w:111px;c:var(--c)}@media screen and (11px<=width) and (height>=1px),(min-width:11px) and (max-width:1111px) and (color){b{c:d}}@media not (max-width:1px){e{f:g}}")) := by
  decide +kernel

/-- `@media not (11px<=width<=11px){a{b:c}}` -/
def notSheet : Stylesheet :=
  ⟨[.at ⟨0, ⟨0, 0⟩, b!"media", [.mql (some ⟨⟨0, 0⟩, [⟨⟨0, 0⟩, [.ident ⟨0, 0⟩ b!"not",
      .range ⟨0, 0⟩ ⟨0, 0⟩ b!"width" (.dim ⟨0, 0⟩ b!"11" b!"px") b!"<=" (.dim ⟨0, 0⟩ b!"11" b!"px")]⟩]⟩)],
    .rules ⟨0, 0⟩ [⟨⟨0, 0⟩, .sels ⟨⟨0, 0⟩, [.mk ⟨0, 0⟩ [.type ⟨0, 0⟩ b!"a"]]⟩, some ⟨⟨0, 0⟩, [.decl ⟨0, 0⟩ b!"b" [.ident ⟨0, 0⟩ b!"c"] false]⟩⟩]⟩], []⟩

/-- What it becomes: `@media not (min-width:11px) and (max-width:11px){a{b:c}}` -/
def notOut : Stylesheet :=
  ⟨[.at ⟨0, ⟨0, 0⟩, b!"media", [.mql (some ⟨⟨0, 0⟩, [⟨⟨0, 0⟩, [.ident ⟨0, 0⟩ b!"not",
      .plain ⟨0, 0⟩ ⟨0, 0⟩ b!"min-width" (.dim ⟨0, 0⟩ b!"11" b!"px"), .ident ⟨0, 0⟩ b!"and",
      .plain ⟨0, 0⟩ ⟨0, 0⟩ b!"max-width" (.dim ⟨0, 0⟩ b!"11" b!"px")]⟩]⟩)],
    .rules ⟨0, 0⟩ [⟨⟨0, 0⟩, .sels ⟨⟨0, 0⟩, [.mk ⟨0, 0⟩ [.type ⟨0, 0⟩ b!"a"]]⟩, some ⟨⟨0, 0⟩, [.decl ⟨0, 0⟩ b!"b" [.ident ⟨0, 0⟩ b!"c"] false]⟩⟩]⟩], []⟩

theorem notSheet_out : transform unaryOps lowering (some []) 3 notSheet = .ok notOut ⟨none, some [], []⟩ := by rfl

/-- **C88, refuted in general**: a range with two bounds under `not` becomes `not (min-…) and (max-…)`, which is no media
query; the same happens to custom media queries, and with `or`. -/
theorem meaning_refuted :
    (¬ ∀ (B : Browser) (fo : FloatOps) (o : TOpts) (n : Nat) (ss ss' : Stylesheet) (s : TSt), RoundTrip fo → B.KnowsCalc fo → B.KnowsLinks →
      o.customProperties = false → transform fo o (some []) n ss = .ok ss' s → ∀ e : B.doc.Elem, applied B e ss'.nodes = applied B e ss.nodes) ∧
    (print none notSheet).text? = some b!"@media not (11px<=width<=11px){a{b:c}}" ∧
    ([b!"@media not (11px<=width<=11px){a{b:c}}", b!"@custom-media --x (a) and (b);@media not (--x){a{b:c}}",
      b!"@media (1px<=width<=2px) or (color){a{b:c}}", b!"@media (--x){a{b:c}}@custom-media --x (a);"].map fun src =>
        (parse 300 src).sheet?.map fun x => (transform unaryOps lowering (some []) 30 x.1).out?.map fun ss => (print none ss).text?) =
      [some (some (some b!"@media not (min-width:11px) and (max-width:11px){a{b:c}}")), some (some (some b!"@media not (a) and (b){a{b:c}}")),
        some (some (some b!"@media (min-width:1px) and (max-width:2px) or (color){a{b:c}}")), some (some (some b!"@media (--x){a{b:c}}"))] := by
  refine ⟨fun hall => ?_, by decide +kernel, by decide +kernel⟩
  have h := hall smallBrowser unaryOps lowering 3 notSheet notOut _ unary_roundTrip smallBrowser_calc smallBrowser_links rfl notSheet_out false
  have h1 : (MediaHold smallBrowser [] [⟨⟨0, 0⟩, [.ident ⟨0, 0⟩ b!"not",
      .plain ⟨0, 0⟩ ⟨0, 0⟩ b!"min-width" (.dim ⟨0, 0⟩ b!"11" b!"px"), .ident ⟨0, 0⟩ b!"and",
      .plain ⟨0, 0⟩ ⟨0, 0⟩ b!"max-width" (.dim ⟨0, 0⟩ b!"11" b!"px")]⟩] ∧ Weights smallBrowser false [.mk ⟨0, 0⟩ [.type ⟨0, 0⟩ b!"a"]] [(1 : Nat)]) =
    (MediaHold smallBrowser [] [⟨⟨0, 0⟩, [.ident ⟨0, 0⟩ b!"not",
      .range ⟨0, 0⟩ ⟨0, 0⟩ b!"width" (.dim ⟨0, 0⟩ b!"11" b!"px") b!"<=" (.dim ⟨0, 0⟩ b!"11" b!"px")]⟩] ∧
      Weights smallBrowser false [.mk ⟨0, 0⟩ [.type ⟨0, 0⟩ b!"a"]] [(1 : Nat)]) :=
    congrArg (fun l : List (Offer smallBrowser) => match l with | .decl c _ _ _ :: _ => c [(1 : Nat)] | _ => True) h
  have h2 : MediaHold smallBrowser [] [⟨⟨0, 0⟩, [.ident ⟨0, 0⟩ b!"not",
      .range ⟨0, 0⟩ ⟨0, 0⟩ b!"width" (.dim ⟨0, 0⟩ b!"11" b!"px") b!"<=" (.dim ⟨0, 0⟩ b!"11" b!"px")]⟩] := by
    refine .inr ⟨_, List.mem_singleton_self _, ?_⟩
    show ¬ (_ ∧ _)
    rintro ⟨k, _⟩
    have := k (by simp)
    unfold Axis.rel at this
    simp [smallBrowser] at this
  have h3 : Weights smallBrowser false [.mk ⟨0, 0⟩ [.type ⟨0, 0⟩ b!"a"]] [(1 : Nat)] :=
    ⟨_, List.mem_singleton_self _, ⟨false, rfl, rfl⟩, rfl⟩
  have h4 : _ ∧ _ := h1.mpr ⟨h2, h3⟩
  rcases h4.1 with h5 | ⟨q, hq, h5⟩
  · cases h5
  · rw [List.mem_singleton] at hq
    subst hq
    exact h5

end Cssc
