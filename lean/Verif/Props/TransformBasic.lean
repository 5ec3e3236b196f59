import Verif.Proofs.Transform
import Verif.Spec.Select
import Verif.Props.Parser

/-!
# Properties of the transformer: C30, C31

C30: default options.  C31: `:any-link`.
-/

namespace Cssc

/-- What a transform returns. -/
def TRes.out? : TRes α → Option α
  | .ok a _ => some a
  | _ => none

theorem out?_some {r : TRes α} {a : α} (h : r.out? = some a) : ∃ s, r = .ok a s := by
  cases r <;> cases h
  exact ⟨_, rfl⟩

/-- Arithmetic on unary numbers, for concrete examples: `111px` is three pixels. -/
def unaryOps : FloatOps where
  F := Nat
  parse b := if b.all (· == 49) then some b.length else none
  fmt n := List.replicate n 49
  add := (· + ·)
  sub := (· - ·)
  mul := (· * ·)
  div := (· / ·)
  isZero := (· == 0)
  eps := 1
  negEps := 0

/-- The names of the at-rules and the number of selectors of the rules that come out of a transform. -/
def outline (ns : List Node) : List (Bytes × Nat) :=
  ns.map fun
    | .at a => (a.name, 0)
    | .rule r => ([], match r.prelude with | .sels l => l.sels.length | _ => 0)

/-- Parse, then transform: the outline. -/
def transformOutline (o : TOpts) (repl : Replacements) (src : Bytes) : Option (Option (List (Bytes × Nat))) :=
  (parse 80 src).sheet?.map fun x => (transform unaryOps o repl 30 x.1).out?.map fun ss => outline ss.nodes

/-! ### C30: default options -/

theorem transformValues_id {fo : FloatOps} {o : TOpts} {n : Nat} {vs : List Value} {s : TSt} (hc : o.calcReduction = false)
    (hv : s.vars = none) : transformValues fo o (n + 1) vs s = .ok vs s := by
  have key : ∀ v ∈ vs, transformValue fo o (n + 1) v s = .ok [v] s := by
    intro v _
    cases v with
    | func sp name args =>
      rw [transformValue]
      have h1 : substVar (.func sp name args) name args s = .ok [.func sp name args] s := by
        unfold substVar
        split
        · rfl
        · rw [tbind_eq_ok (show T.get s = .ok s s from rfl), hv]
          rfl
      rw [tbind_eq_ok h1]
      unfold reduceCalc
      split
      · rfl
      · rw [if_pos (by simp [hc])]
        rfl
    | _ => rfl
  unfold transformValues
  rw [mapConcat_map key, List.flatMap_singleton']

theorem transformDeclarations_id {fo : FloatOps} {o : TOpts} {n : Nat} {ds : List Decl} {s : TSt}
    (hc : o.calcReduction = false) (hv : s.vars = none) : transformDeclarations fo o (n + 1) ds s = .ok ds s := by
  have key : ∀ d ∈ ds, transformDecl fo o (n + 1) d s = .ok [d] s := by
    intro d _
    cases d with
    | raw => rfl
    | decl sp prop vals imp =>
      unfold transformDecl
      dsimp only
      rw [tbind_eq_ok (transformValues_id hc hv)]
      rfl
  unfold transformDeclarations
  rw [mapConcat_map key, List.flatMap_singleton']

theorem transformSelector_id {o : TOpts} {s : Sel} (h : ∀ p ∈ s.parts, isAnyLink o p = false) :
    transformSelector o s = [s] := by
  obtain ⟨sp, parts⟩ := s
  unfold transformSelector
  have h1 : parts.countP (isAnyLink o) = 0 := by
    rw [List.countP_eq_zero]
    intro p hp
    rw [h p hp]
    decide
  have h2 : ∀ name, parts.map (replaceAnyLink o name) = parts := by
    intro name
    conv => rhs; rw [← List.map_id parts]
    apply List.map_congr_left
    intro p hp
    unfold replaceAnyLink
    rw [if_neg (by rw [show isAnyLink o p = false from h p hp]; decide)]
    rfl
  dsimp only
  rw [h1, h2, h2]
  rfl

theorem transformSelectors_id {o : TOpts} {l : List Sel} (h : ∀ s ∈ l, ∀ p ∈ s.parts, isAnyLink o p = false) :
    transformSelectors o l = l := by
  unfold transformSelectors
  induction l with
  | nil => rfl
  | cons s l ih =>
    rw [List.flatMap_cons, transformSelector_id (h s (List.mem_cons_self ..)),
      ih fun t ht => h t (List.mem_cons_of_mem _ ht)]
    rfl

theorem isAnyLink_off {o : TOpts} (h : o.anyLink = false) (p : SelPart) : isAnyLink o p = false := by
  unfold isAnyLink
  split
  · rw [h, Bool.and_false]
  · rfl

theorem collectVars_none : ∀ {ds : List Decl} {s : TSt}, s.vars = none → collectVars ds s = .ok ds s
  | [], s, _ => rfl
  | .decl sp prop vals imp :: ds, s, h => by
    have ih := collectVars_none (ds := ds) h
    rw [collectVars]
    split
    · dsimp only
      rw [h]
      dsimp only
      rw [tbind_eq_ok ih]
      rfl
    · dsimp only
      rw [tbind_eq_ok ih]
      rfl
  | .raw sp v :: ds, s, h => by
    have ih := collectVars_none (ds := ds) h
    rw [collectVars, tbind_eq_ok ih]
    rfl

theorem collectsRoot_some {l : List Sel} (h : ∀ s ∈ l, s.parts ≠ []) : ∃ b, collectsRoot l = some b := by
  unfold collectsRoot
  split
  · rename_i hany
    cases l with
    | nil => simp at hany
    | cons s l =>
      dsimp only
      split
      · rename_i hp
        exact absurd hp (h s (List.mem_cons_self ..))
      · exact ⟨_, rfl⟩
      · exact ⟨_, rfl⟩
  · exact ⟨_, rfl⟩

/-- What the default options do to one node. -/
def KeptNode (repl : Replacements) : Node → Prop
  | .rule r => (∃ l, r.prelude = .sels l ∧ ∀ s ∈ l.sels, s.parts ≠ []) ∧ ∃ b, r.block = some b ∧ b.decls ≠ []
  | .at a =>
    if a.name = b!"import" then ∃ m, repl = some m ∧ lookupImport m a.id = none
    else if a.name = b!"custom-media" then False
    else if a.name = b!"media" then ∃ l rest, a.preludes = .mql (some l) :: rest
    else True

theorem mqParts_id {fo : FloatOps} {o : TOpts} {ps : List MQPart} {s : TSt} (hr : o.mediaFeatureRanges = false)
    (hm : s.media = none) : mapConcat (transformMQPart fo o) ps s = .ok ps s := by
  have key : ∀ p ∈ ps, transformMQPart fo o p s = .ok [p] s := by
    intro p _
    cases p with
    | plain sp psp prop value =>
      unfold transformMQPart
      dsimp only
      split
      · rfl
      · rw [tbind_eq_ok (show T.get s = .ok s s from rfl), hm]
        rfl
    | range sp psp prop left op right =>
      unfold transformMQPart transformMediaFeatureRange
      dsimp only
      rw [if_pos (by simp [hr])]
      rfl
    | _ => rfl
  rw [mapConcat_map key, List.flatMap_singleton']

theorem mediaQueries_id {fo : FloatOps} {o : TOpts} {qs : List MQ} {s : TSt} (hr : o.mediaFeatureRanges = false)
    (hm : s.media = none) : transformMediaQueries fo o qs s = .ok qs s := by
  have key : ∀ q ∈ qs, transformMQ fo o q s = .ok [q] s := by
    intro q _
    unfold transformMQ
    rw [tbind_eq_ok (mqParts_id hr hm)]
    rfl
  unfold transformMediaQueries
  rw [mapConcat_map key, List.flatMap_singleton']

/-- No feature is to be transformed. -/
structure TOpts.Off (o : TOpts) : Prop where
  ranges : o.mediaFeatureRanges = false
  anyLink : o.anyLink = false
  vars : o.customProperties = false
  media : o.customMediaQueries = false
  reduction : o.calcReduction = false

theorem TOpts.off_default : TOpts.default.Off := ⟨rfl, rfl, rfl, rfl, rfl⟩

/-- One kept node. -/
theorem transformNode_kept {fo : FloatOps} {o : TOpts} {repl : Replacements} {n : Nat} {nd : Node} {s : TSt} (ho : o.Off)
    (h : KeptNode repl nd) (hv : s.vars = none) (hm : s.media = none) : transformNode fo o repl (n + 1) nd s = .ok [nd] s := by
  cases nd with
  | rule r =>
    obtain ⟨⟨l, hl, hp⟩, b, hb, hd⟩ := h
    rw [transformNode]
    unfold transformRule
    obtain ⟨root, hroot⟩ := collectsRoot_some hp
    have hc : (if root = true then collectVars b.decls else pure b.decls : T (List Decl)) s = .ok b.decls s := by
      split
      · exact collectVars_none hv
      · rfl
    rw [hl]
    dsimp only
    rw [hroot, hb]
    dsimp only
    rw [tbind_eq_ok hc, tbind_eq_ok (transformDeclarations_id ho.reduction hv), if_neg (by simpa using hd),
      transformSelectors_id fun _ _ p _ => isAnyLink_off ho.anyLink p]
    obtain ⟨sp, pre, blk⟩ := r
    dsimp only at hl hb ⊢
    rw [hl, hb]
    rfl
  | «at» a =>
    rw [transformNode]
    unfold transformAt
    unfold KeptNode at h
    dsimp only at h
    split
    · rename_i h1
      simp only [h1, if_true] at h
      obtain ⟨m, rfl, hl⟩ := h
      dsimp only
      rw [hl]
      rfl
    · rename_i h1
      rw [if_neg h1] at h
      split
      · rename_i h2
        rw [if_pos h2] at h
        exact h.elim
      · rename_i h2
        rw [if_neg h2] at h
        split
        · rename_i h3
          rw [if_pos h3] at h
          obtain ⟨l, rest, hp⟩ := h
          rw [hp]
          dsimp only
          rw [tbind_eq_ok (mediaQueries_id ho.ranges hm)]
          obtain ⟨src, sp, name, preludes, block⟩ := a
          dsimp only at hp ⊢
          rw [hp]
          rfl
        · rfl

/-- **C30, partial**: the default options return the stylesheet unchanged and report nothing, if every rule has a
selector list and a declaration, every `@media` a query, and there is no `@import` (unless a map of replacements
is given, without one for it) and no `@custom-media`.  Missing from the full statement: these exceptions (next
theorem). -/
theorem default_unchanged_partial {fo : FloatOps} {repl : Replacements} {n : Nat} {ss : Stylesheet}
    (h : ∀ nd ∈ ss.nodes, KeptNode repl nd) :
    transform fo .default repl (n + 1) ss = .ok ss ⟨none, none, []⟩ := by
  have hi : TSt.init .default repl = ⟨none, none, []⟩ := by
    unfold TSt.init
    simp [TOpts.default]
  unfold transform transformNodes
  rw [hi, mapConcat_map fun nd hnd => transformNode_kept TOpts.off_default (h nd hnd) rfl rfl, List.flatMap_singleton']

/-- **C30, refuted as stated**: with the default options, a rule without declarations and every `@custom-media`
is dropped, `@import` is written twice when there are no replacements, and a rule without selector makes
`Transform` panic. -/
theorem default_unchanged_refuted :
    transformOutline .default none b!"a{} b{c:d}" = some (some [([], 1)]) ∧
    transformOutline .default none b!"@custom-media --x (a:b); b{c:d}" = some (some [([], 1)]) ∧
    transformOutline .default none b!"@import \"x\";" = some (some [(b!"import", 0), (b!"import", 0)]) ∧
    transformOutline .default none b!"{c:d}" = some none :=
  ⟨by decide +kernel, by decide +kernel, by decide +kernel, by decide +kernel⟩

example : transformOutline .default none b!"@media (c<d){e{f:g}} a,b{c:d}" = some (some [(b!"media", 0), ([], 2)]) := by
  decide +kernel

/-! ### C31: `:any-link` -/

theorem isAnyLink_eq {o : TOpts} (ho : o.anyLink = true) (p : SelPart) : isAnyLink o p = p.anyLink := by
  cases p <;> simp [isAnyLink, SelPart.anyLink, ho]

theorem replaceAnyLink_comb {o : TOpts} {name : Bytes} {p : SelPart} (ho : o.anyLink = true) :
    (replaceAnyLink o name p).isComb = p.isComb := by
  unfold replaceAnyLink
  rw [isAnyLink_eq ho]
  split
  · rename_i h
    cases p <;> simp [SelPart.anyLink] at h
    rfl
  · rfl

theorem anyLink_has {D : Doc} (hD : AnyLinkDoc D) {p : SelPart} (hp : p.anyLink = true) (e : D.Elem) :
    D.has e p ↔ D.has e (.pclass ⟨0, 0⟩ b!"link" .nil) ∨ D.has e (.pclass ⟨0, 0⟩ b!"visited" .nil) := by
  cases p <;> simp [SelPart.anyLink] at hp
  subst hp
  exact hD e _ _

/-- A selector with `:any-link` replaced by one of the two matches no more. -/
theorem replaced_sound {D : Doc} (hD : AnyLinkDoc D) {o : TOpts} (ho : o.anyLink = true) {name : Bytes}
    (hn : name = b!"link" ∨ name = b!"visited") : ∀ {ps : List SelPart} {a e : D.Elem},
    Leads D (ps.map (replaceAnyLink o name)) a e → Leads D ps a e
  | [], _, _, h => h
  | p :: ps, a, e, h => by
    rw [List.map_cons, Leads, replaceAnyLink_comb ho] at h
    rw [Leads]
    split at h
    · rename_i hc
      rw [if_pos hc]
      obtain ⟨b, h1, h2⟩ := h
      refine ⟨b, ?_, replaced_sound hD ho hn h2⟩
      have : replaceAnyLink o name p = p := by
        unfold replaceAnyLink
        rw [isAnyLink_eq ho, if_neg]
        cases p <;> simp [SelPart.isComb] at hc <;> simp [SelPart.anyLink]
      rwa [this] at h1
    · rename_i hc
      rw [if_neg hc]
      refine ⟨?_, replaced_sound hD ho hn h.2⟩
      have h1 := h.1
      unfold replaceAnyLink at h1
      rw [isAnyLink_eq ho] at h1
      split at h1
      · rename_i hp
        rw [anyLink_has hD hp]
        rcases hn with rfl | rfl
        · exact .inl h1
        · exact .inr h1
      · exact h1

theorem replaced_none {o : TOpts} (ho : o.anyLink = true) {name : Bytes} {ps : List SelPart}
    (h : ∀ p ∈ ps, p.anyLink = false) : ps.map (replaceAnyLink o name) = ps := by
  conv => rhs; rw [← List.map_id ps]
  apply List.map_congr_left
  intro p hp
  unfold replaceAnyLink
  rw [isAnyLink_eq ho, if_neg (by rw [h p hp]; decide)]
  rfl

/-- With a single `:any-link`, one of the two replacements matches. -/
theorem replaced_complete {D : Doc} (hD : AnyLinkDoc D) {o : TOpts} (ho : o.anyLink = true) :
    ∀ {ps : List SelPart} {a e : D.Elem}, ps.countP SelPart.anyLink ≤ 1 → Leads D ps a e →
      Leads D (ps.map (replaceAnyLink o b!"link")) a e ∨ Leads D (ps.map (replaceAnyLink o b!"visited")) a e
  | [], _, _, _, h => .inl h
  | p :: ps, a, e, hc, h => by
    rw [Leads] at h
    simp only [List.map_cons]
    rw [Leads, Leads, replaceAnyLink_comb ho, replaceAnyLink_comb ho]
    by_cases hp : p.anyLink = true
    · rw [List.countP_cons_of_pos hp] at hc
      have h0 : ∀ q ∈ ps, q.anyLink = false := by
        have : ps.countP SelPart.anyLink = 0 := by omega
        rw [List.countP_eq_zero] at this
        intro q hq
        simpa using this q hq
      rw [replaced_none ho h0, replaced_none ho h0]
      have hnc : ¬ p.isComb = true := by
        cases p <;> simp [SelPart.anyLink] at hp
        simp [SelPart.isComb]
      rw [if_neg hnc] at h
      rw [if_neg hnc, if_neg hnc]
      have e1 : ∀ name, replaceAnyLink o name p = .pclass ⟨0, 0⟩ name .nil := by
        intro name
        unfold replaceAnyLink
        rw [isAnyLink_eq ho, if_pos hp]
      rw [e1, e1]
      rcases (anyLink_has hD hp a).1 h.1 with h1 | h1
      · exact .inl ⟨h1, h.2⟩
      · exact .inr ⟨h1, h.2⟩
    · rw [List.countP_cons_of_neg hp] at hc
      have e1 : ∀ name, replaceAnyLink o name p = p := by
        intro name
        unfold replaceAnyLink
        rw [isAnyLink_eq ho, if_neg hp]
      rw [e1, e1]
      split
      · rename_i hcb
        rw [if_pos hcb] at h
        obtain ⟨b, h1, h2⟩ := h
        exact (replaced_complete hD ho hc h2).imp (fun k => ⟨b, h1, k⟩) fun k => ⟨b, h1, k⟩
      · rename_i hcb
        rw [if_neg hcb] at h
        exact (replaced_complete hD ho hc h.2).imp (fun k => ⟨h.1, k⟩) fun k => ⟨h.1, k⟩

theorem replaced_clean {o : TOpts} (ho : o.anyLink = true) {name : Bytes} (hn : name = b!"link" ∨ name = b!"visited")
    {ps : List SelPart} : ∀ p ∈ ps.map (replaceAnyLink o name), p.anyLink = false := by
  intro p hp
  rw [List.mem_map] at hp
  obtain ⟨q, _, rfl⟩ := hp
  unfold replaceAnyLink
  rw [isAnyLink_eq ho]
  split
  · rcases hn with rfl | rfl <;> decide
  · rename_i h
    simpa using h

/-- **C31, partial** (selector lists): the transformed list contains no `:any-link`; it matches no element that
the original list does not match; and if every selector has at most one `:any-link`, it matches exactly the same
elements, in every document in which `:any-link` means "`:link` or `:visited`".  Missing from the full statement:
selectors with several `:any-link`, and rules inside at-rules (next theorems). -/
theorem anyLink_equiv_partial {o : TOpts} (ho : o.anyLink = true) (l : List Sel) :
    (∀ s ∈ transformSelectors o l, ∀ p ∈ s.parts, p.anyLink = false) ∧
    ∀ D : Doc, AnyLinkDoc D → ∀ e : D.Elem,
      (ListMatches D (transformSelectors o l) e → ListMatches D l e) ∧
      ((∀ s ∈ l, s.parts.countP SelPart.anyLink ≤ 1) →
        (ListMatches D l e → ListMatches D (transformSelectors o l) e)) := by
  have mem : ∀ t ∈ transformSelectors o l, ∃ s ∈ l, ∃ name, (name = b!"link" ∨ name = b!"visited") ∧
      t = .mk s.loc (s.parts.map (replaceAnyLink o name)) := by
    intro t ht
    unfold transformSelectors at ht
    rw [List.mem_flatMap] at ht
    obtain ⟨s, hs, ht⟩ := ht
    obtain ⟨sp, parts⟩ := s
    unfold transformSelector at ht
    rw [List.mem_append] at ht
    rcases ht with ht | ht
    · exact ⟨_, hs, _, .inr rfl, List.eq_of_mem_replicate ht⟩
    · rw [List.mem_singleton] at ht
      exact ⟨_, hs, _, .inl rfl, ht⟩
  refine ⟨fun t ht p hp => ?_, fun D hD e => ⟨?_, fun hc => ?_⟩⟩
  · obtain ⟨s, _, name, hn, rfl⟩ := mem t ht
    exact replaced_clean ho hn p hp
  · rintro ⟨t, ht, a, ha⟩
    obtain ⟨s, hs, name, hn, rfl⟩ := mem t ht
    exact ⟨s, hs, a, replaced_sound hD ho hn ha⟩
  · rintro ⟨s, hs, a, ha⟩
    obtain ⟨sp, parts⟩ := s
    have link : Sel.mk sp (parts.map (replaceAnyLink o b!"link")) ∈ transformSelectors o l := by
      unfold transformSelectors
      rw [List.mem_flatMap]
      exact ⟨_, hs, by unfold transformSelector; simp⟩
    by_cases h0 : parts.countP SelPart.anyLink = 0
    · refine ⟨_, link, a, ?_⟩
      rw [List.countP_eq_zero] at h0
      show Leads D (parts.map (replaceAnyLink o b!"link")) a e
      rw [replaced_none ho fun p hp => by simpa using h0 p hp]
      exact ha
    · rcases replaced_complete hD ho (hc _ hs) ha with h | h
      · exact ⟨_, link, a, h⟩
      · refine ⟨.mk sp (parts.map (replaceAnyLink o b!"visited")), ?_, a, h⟩
        unfold transformSelectors
        rw [List.mem_flatMap]
        refine ⟨_, hs, ?_⟩
        unfold transformSelector
        rw [List.mem_append]
        left
        have e1 : parts.countP (isAnyLink o) = parts.countP SelPart.anyLink := by
          congr 1
          funext p
          exact isAnyLink_eq ho p
        rw [e1, List.mem_replicate]
        exact ⟨h0, rfl⟩

/-- The nodes that end up in the output of a transform: those of the stylesheet and, through `@import`, those of
its replacements. -/
inductive Reach (repl : Replacements) : List Node → Node → Prop where
  | here {ns : List Node} {n : Node} : n ∈ ns → Reach repl ns n
  | inside {ns : List Node} {a : AtRule} {m : List (AtId × Stylesheet)} {ss : Stylesheet} {n : Node} :
      .at a ∈ ns → a.name = b!"import" → repl = some m → lookupImport m a.id = some ss → Reach repl ss.nodes n →
      Reach repl ns n

theorem Reach.mono {repl : Replacements} {ns ms : List Node} {n : Node} (h : Reach repl ns n) (hs : ∀ x ∈ ns, x ∈ ms) :
    Reach repl ms n := by
  cases h with
  | here h => exact .here (hs _ h)
  | inside h1 h2 h3 h4 h5 => exact .inside (hs _ h1) h2 h3 h4 h5

/-- `@media` does not crash only if its first prelude is a list of queries. -/
theorem media_ok {ps : List AtPrelude} {f : MQList → List AtPrelude → T α} {s s' : TSt} {a : α}
    (h : (match ps with
      | .mql (some l) :: rest => f l rest
      | _ => T.crash : T α) s = .ok a s') :
    ∃ l rest, ps = .mql (some l) :: rest ∧ f l rest s = .ok a s' := by
  rcases ps with _ | ⟨_ | _ | (_ | l) | _, rest⟩
  all_goals first | exact ⟨_, _, rfl, h⟩ | cases h

/-- Where the rules of the output come from. -/
theorem transform_rule_origin {fo : FloatOps} {o : TOpts} {repl : Replacements} : ∀ {n : Nat} {ns : List Node}
    {s s' : TSt} {out : List Node}, transformNodes fo o repl n ns s = .ok out s' → ∀ r', .rule r' ∈ out →
    ∃ r l, Reach repl ns (.rule r) ∧ r'.sp = r.sp ∧ r.prelude = .sels l ∧
      r'.prelude = .sels ⟨l.sp, transformSelectors o l.sels⟩ := by
  intro n
  induction n with
  | zero =>
    intro ns s s' out h
    cases ns with
    | nil =>
      obtain ⟨rfl, _⟩ := tpure_ok h
      simp
    | cons x xs =>
      obtain ⟨o1, s1, o2, h1, _⟩ := mapConcat_cons_ok h
      cases h1
  | succ n ihn =>
    intro ns
    induction ns with
    | nil =>
      intro s s' out h
      obtain ⟨rfl, _⟩ := tpure_ok h
      simp
    | cons x xs ih =>
      intro s s' out h r' hr'
      obtain ⟨o1, s1, o2, h1, h2, rfl⟩ := mapConcat_cons_ok h
      rw [List.mem_append] at hr'
      rcases hr' with hr' | hr'
      · cases x with
        | rule r =>
          rw [transformNode] at h1
          unfold transformRule at h1
          rcases hl : r.prelude with _ | l | ⟨sp, ks⟩ <;> rw [hl] at h1 <;> dsimp only at h1
          · cases h1
          · rcases hroot : collectsRoot l.sels with _ | root <;> rw [hroot] at h1 <;> dsimp only at h1
            · cases h1
            · rcases hb : r.block with _ | b <;> rw [hb] at h1 <;> dsimp only at h1
              · cases h1
              · obtain ⟨d1, t1, _, h1⟩ := tbind_ok h1
                obtain ⟨d2, t2, _, h1⟩ := tbind_ok h1
                split at h1
                · obtain ⟨rfl, _⟩ := tpure_ok h1
                  simp at hr'
                · obtain ⟨rfl, _⟩ := tpure_ok h1
                  rw [List.mem_singleton] at hr'
                  cases hr'
                  exact ⟨r, l, .here (List.mem_cons_self ..), rfl, hl, rfl⟩
          · obtain ⟨_, _, _, h1⟩ := tbind_ok h1
            cases h1
        | «at» a =>
          rw [transformNode] at h1
          unfold transformAt at h1
          split at h1
          · rename_i hname
            rcases repl with _ | m <;> dsimp only at h1
            · obtain ⟨rfl, _⟩ := tpure_ok h1
              simp at hr'
            · rcases hl : lookupImport m a.id with _ | imported <;> rw [hl] at h1 <;> dsimp only at h1
              · obtain ⟨rfl, _⟩ := tpure_ok h1
                simp at hr'
              · obtain ⟨_, t1, _, h1⟩ := tbind_ok h1
                obtain ⟨r, l, h3, h4⟩ := ihn h1 r' hr'
                exact ⟨r, l, .inside (List.mem_cons_self ..) hname rfl hl h3, h4⟩
          · split at h1
            · obtain ⟨_, _, _, h1⟩ := tbind_ok h1
              obtain ⟨rfl, _⟩ := tpure_ok h1
              simp at hr'
            · split at h1
              · obtain ⟨l, rest, hp, h1⟩ := media_ok h1
                obtain ⟨_, _, _, h1⟩ := tbind_ok h1
                obtain ⟨rfl, _⟩ := tpure_ok h1
                simp at hr'
              · obtain ⟨rfl, _⟩ := tpure_ok h1
                simp at hr'
      · obtain ⟨r, l, h3, h4⟩ := ih h2 r' hr'
        exact ⟨r, l, h3.mono fun y hy => List.mem_cons_of_mem _ hy, h4⟩

/-- **C31, partial** (stylesheets): every rule at the top level of the output of `Transform` comes from a rule of
the input (or of an inlined import), contains no `:any-link`, and, if no selector of that rule has two of them,
matches exactly the same elements. -/
theorem anyLink_transform_partial {fo : FloatOps} {o : TOpts} (ho : o.anyLink = true) {repl : Replacements} {n : Nat}
    {ss ss' : Stylesheet} {s : TSt} (h : transform fo o repl n ss = .ok ss' s) (r' : QRule) (hr : .rule r' ∈ ss'.nodes) :
    ∃ r l l', Reach repl ss.nodes (.rule r) ∧ r.prelude = .sels l ∧ r'.prelude = .sels l' ∧
      (∀ t ∈ l'.sels, ∀ p ∈ t.parts, p.anyLink = false) ∧
      ((∀ t ∈ l.sels, t.parts.countP SelPart.anyLink ≤ 1) →
        ∀ D : Doc, AnyLinkDoc D → ∀ e : D.Elem, ListMatches D l'.sels e ↔ ListMatches D l.sels e) := by
  unfold transform at h
  split at h
  · rename_i nodes s1 h1
    cases h
    obtain ⟨r, l, h2, _, h4, h5⟩ := transform_rule_origin h1 r' hr
    have := anyLink_equiv_partial ho l.sels
    refine ⟨r, l, _, h2, h4, h5, this.1, fun hc D hD e => ?_⟩
    exact ⟨(this.2 D hD e).1, (this.2 D hD e).2 hc⟩
  · cases h
  · cases h

/-- Two elements, one inside the other; the first is an unvisited link, the second a visited one. -/
def linksDoc : Doc where
  Elem := Bool
  has e p := p = .pclass ⟨0, 0⟩ (if e then b!"visited" else b!"link") .nil ∨ p.anyLink = true
  rel _ a b := a = false ∧ b = true

/-- `:any-link :any-link`. -/
def twoLinks : Sel := .mk ⟨0, 0⟩ [.pclass ⟨0, 0⟩ b!"any-link" .nil, .ws ⟨0, 0⟩, .pclass ⟨0, 0⟩ b!"any-link" .nil]

/-- **C31, refuted as stated**: a visited link inside an unvisited one matches `:any-link :any-link`, but not
its transform; and a rule inside `@media` is not transformed. -/
theorem anyLink_refuted :
    (¬ ∀ (o : TOpts), o.anyLink = true → ∀ (l : List Sel) (D : Doc), AnyLinkDoc D → ∀ e : D.Elem,
      ListMatches D (transformSelectors o l) e ↔ ListMatches D l e) ∧
    transformOutline { TOpts.default with anyLink := true } none b!"a :any-link{b:c}" = some (some [([], 2)]) ∧
    ((parse 80 b!"@media a{:any-link{b:c}}").sheet?.map fun x =>
      (transform unaryOps { TOpts.default with anyLink := true } none 30 x.1).out?.map fun ss =>
        ss.items.any fun | .part p => p.anyLink | _ => false) = some (some true) := by
  refine ⟨fun hall => ?_, by decide +kernel, by decide +kernel⟩
  have hD : AnyLinkDoc linksDoc := by
    intro e sp args
    constructor
    · intro _
      cases e
      · exact .inl (.inl rfl)
      · exact .inr (.inl rfl)
    · intro _
      exact .inr (by simp [SelPart.anyLink])
  have h := (hall { TOpts.default with anyLink := true } rfl [twoLinks] linksDoc hD true).2
    ⟨twoLinks, List.mem_singleton.2 rfl, false, by
      simp [twoLinks, Sel.parts, Leads, SelPart.isComb, linksDoc, SelPart.anyLink]⟩
  obtain ⟨t, ht, a, ha⟩ := h
  simp [transformSelectors, transformSelector, twoLinks, isAnyLink, replaceAnyLink, TOpts.default] at ht
  rcases ht with rfl | rfl <;>
    simp [Sel.parts, Leads, SelPart.isComb, linksDoc, SelPart.anyLink] at ha
  exact absurd (ha.1.symm.trans ha.2) (by decide)

example : AnyLinkDoc linksDoc → ListMatches linksDoc [.mk ⟨0, 0⟩ [.pclass ⟨7, 9⟩ b!"any-link" .nil]] false :=
  fun _ => ⟨_, List.mem_singleton.2 rfl, false, by
    simp [Sel.parts, Leads, SelPart.isComb, linksDoc, SelPart.anyLink]⟩

end Cssc
