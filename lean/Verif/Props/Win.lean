import Verif.Spec.Win
import Verif.Props.VarWritten
import Verif.Props.Sharing
import Verif.Proofs.Renumber
import Verif.Proofs.RoundCheck

/-!
# C92: files that are not inlined

Without inlining every `@import` is written twice.  What wins stays the same.
-/

namespace Cssc

/-! ### Repeating does not matter -/

variable {B : Browser} {lt : List B.W → List B.W → Prop}

theorem Stronger.not_back (has : ∀ a b, lt a b → ¬ lt b a) {o o' : Offer B} (h : Stronger lt o o') : ¬ Stronger lt o' o := by
  rintro ⟨-, -, k⟩
  obtain ⟨-, -, h⟩ := h
  rcases h with ⟨h1, h2⟩ | ⟨h1, w, h2, h3⟩
  · rcases k with ⟨k1, k2⟩ | ⟨k1, -⟩
    · rw [h2] at k1; cases k1
    · rw [h1, h2] at k1; cases k1
  · rcases k with ⟨k1, k2⟩ | ⟨-, w', k2, k3⟩
    · rw [h1, k1] at k2; cases k2
    · exact has _ _ (h3 w' k2) (k3 w h2)

theorem Stronger.supersedes (has : ∀ a b, lt a b → ¬ lt b a) {o o' : Offer B} (h : Stronger lt o o') : Supersedes lt o o' :=
  ⟨h.1, h.2.1, h.not_back has⟩

theorem supersedes_self (has : ∀ a b, lt a b → ¬ lt b a) {o : Offer B} (h : o.Applies) : Supersedes lt o o :=
  ⟨rfl, h, fun k => k.not_back has k⟩

/-- A part of what is said may be said again. -/
theorem wins_again (has : ∀ a b, lt a b → ¬ lt b a) {p x q : List (Offer B)} {o : Offer B} :
    Wins lt (p ++ (x ++ (x ++ q))) o ↔ Wins lt (p ++ (x ++ q)) o := by
  constructor
  · rintro ⟨b, a, e0, h1, h2, h3⟩
    rcases List.append_eq_append_iff.1 e0 with ⟨u, rfl, e1⟩ | ⟨u, rfl, e1⟩
    · rcases List.append_eq_append_iff.1 e1 with ⟨v, rfl, e⟩ | ⟨v, rfl, e⟩
      · -- within the second copy, or later
        refine ⟨p ++ v, a, by rw [List.append_assoc, e], h1, fun o' ho => h2 o' ?_, h3⟩
        rcases List.mem_append.1 ho with ho | ho
        · exact List.mem_append_left _ ho
        · exact List.mem_append_right _ (List.mem_append_right _ ho)
      · rcases List.cons_eq_append_iff.1 e with ⟨rfl, e⟩ | ⟨v', rfl, e⟩
        · refine ⟨p, a, by rw [e], h1, fun o' ho => h2 o' (List.mem_append_left _ ho), h3⟩
        · -- within the first copy: the second one supersedes it
          refine absurd (supersedes_self has h1) (h3 o ?_)
          rw [e]
          exact List.mem_append_right _ (List.mem_append_left _ (List.mem_append_right _ List.mem_cons_self))
    · rcases List.cons_eq_append_iff.1 e1 with ⟨rfl, e⟩ | ⟨u', rfl, e⟩
      · cases x with
        | nil => exact ⟨b, a, by rw [List.append_nil]; simpa using e, h1, h2, h3⟩
        | cons y x =>
          injection e with e3 e2
          subst e3
          refine absurd (supersedes_self has h1) (h3 _ ?_)
          rw [← e2]
          exact List.mem_append_right _ List.mem_cons_self
      · refine ⟨b, u' ++ (x ++ q), by simp, h1, h2, fun o' ho => h3 o' ?_⟩
        rw [e]
        rcases List.mem_append.1 ho with ho | ho
        · exact List.mem_append_left _ ho
        · exact List.mem_append_right _ (List.mem_append_right _ ho)
  · rintro ⟨b, a, e0, h1, h2, h3⟩
    rcases List.append_eq_append_iff.1 e0 with ⟨u, rfl, e1⟩ | ⟨u, rfl, e1⟩
    · -- not before the part
      refine ⟨p ++ (x ++ u), a, by simp only [List.append_assoc]; rw [e1], h1, fun o' ho => ?_, h3⟩
      rcases List.mem_append.1 ho with ho | ho
      · exact h2 o' (List.mem_append_left _ ho)
      · rcases List.mem_append.1 ho with ho | ho
        · have hm : o' ∈ u ++ o :: a := by rw [← e1]; exact List.mem_append_left _ ho
          rcases List.mem_append.1 hm with hm | hm
          · exact h2 o' (List.mem_append_right _ hm)
          · rcases List.mem_cons.1 hm with rfl | hm
            · exact fun k => k.not_back has k
            · exact fun k => h3 o' hm (k.supersedes has)
        · exact h2 o' (List.mem_append_right _ ho)
    · rcases List.cons_eq_append_iff.1 e1 with ⟨rfl, e⟩ | ⟨u', rfl, e⟩
      · refine ⟨b ++ x, a, by rw [e]; simp, h1, fun o' ho => ?_, h3⟩
        rcases List.mem_append.1 ho with ho | ho
        · exact h2 o' ho
        · have hm : o' ∈ o :: a := by rw [← e]; exact List.mem_append_left _ ho
          rcases List.mem_cons.1 hm with rfl | hm
          · exact fun k => k.not_back has k
          · exact fun k => h3 o' hm (k.supersedes has)
      · refine ⟨b, u' ++ (x ++ (x ++ q)), by simp, h1, h2, fun o' ho => h3 o' ?_⟩
        rw [e]
        simp only [List.mem_append] at ho ⊢
        tauto

theorem SameWins.refl (x : List (Offer B)) : SameWins lt x x := fun _ _ _ => Iff.rfl

theorem SameWins.trans {x y z : List (Offer B)} (h1 : SameWins lt x y) (h2 : SameWins lt y z) : SameWins lt x z := fun p q o => (h1 p q o).trans (h2 p q o)

theorem SameWins.append {x y x' y' : List (Offer B)} (h1 : SameWins lt x y) (h2 : SameWins lt x' y') : SameWins lt (x ++ x') (y ++ y') := fun p q o => by
  rw [List.append_assoc, List.append_assoc, h1, ← List.append_assoc, h2, List.append_assoc]

theorem again_wins (has : ∀ a b, lt a b → ¬ lt b a) (x : List (Offer B)) : SameWins lt (x ++ x) x := fun p q o => by
  rw [List.append_assoc, wins_again has]

/-- If the same declarations win in the imported stylesheets, they do in what is said with them. -/
theorem withImports_wins {imp imp' : AtRule → List (Offer B)} (said : List (Offer B))
    (h : ∀ a, .other a ∈ said → a.name = b!"import" → SameWins lt (imp' a) (imp a)) :
    SameWins lt (withImports imp' said) (withImports imp said) := by
  unfold withImports
  induction said with
  | nil => exact .refl _
  | cons o said ih =>
    rw [List.flatMap_cons, List.flatMap_cons]
    refine SameWins.append ?_ (ih fun a ha => h a (List.mem_cons_of_mem _ ha))
    cases o with
    | decl => exact .refl _
    | raw => exact .refl _
    | other a =>
      dsimp only
      split
      · rename_i hn
        exact h a List.mem_cons_self hn
      · exact .refl _

/-- What does not apply can be left out. -/
theorem wins_idle {p x q : List (Offer B)} {o : Offer B} (hx : ∀ o ∈ x, ¬ o.Applies) : Wins lt (p ++ (x ++ q)) o ↔ Wins lt (p ++ q) o := by
  constructor
  · rintro ⟨b, a, e0, h1, h2, h3⟩
    rcases List.append_eq_append_iff.1 e0 with ⟨u, rfl, e1⟩ | ⟨u, rfl, e1⟩
    · rcases List.append_eq_append_iff.1 e1 with ⟨v, rfl, e⟩ | ⟨v, rfl, e⟩
      · refine ⟨p ++ v, a, by rw [List.append_assoc, e], h1, fun o' ho => h2 o' ?_, h3⟩
        simp only [List.mem_append] at ho ⊢
        tauto
      · rcases List.cons_eq_append_iff.1 e with ⟨rfl, e⟩ | ⟨v', rfl, e⟩
        · exact ⟨p, a, by rw [e]; rfl, h1, fun o' ho => h2 o' (List.mem_append_left _ ho), h3⟩
        · exact absurd h1 (hx o (List.mem_append_right _ List.mem_cons_self))
    · rcases List.cons_eq_append_iff.1 e1 with ⟨rfl, e⟩ | ⟨u', rfl, e⟩
      · cases x with
        | nil => exact ⟨b, a, by rw [List.append_nil]; simpa using e, h1, h2, h3⟩
        | cons y x =>
          injection e with e3 e2
          subst e3
          exact absurd h1 (hx _ List.mem_cons_self)
      · refine ⟨b, u' ++ q, by simp, h1, h2, fun o' ho => h3 o' ?_⟩
        rw [e]
        simp only [List.mem_append] at ho ⊢
        tauto
  · rintro ⟨b, a, e0, h1, h2, h3⟩
    rcases List.append_eq_append_iff.1 e0 with ⟨u, rfl, e1⟩ | ⟨u, rfl, e1⟩
    · refine ⟨p ++ (x ++ u), a, by simp only [List.append_assoc]; rw [e1], h1, fun o' ho k => ?_, h3⟩
      by_cases hm : o' ∈ x
      · exact hx o' hm k.2.1
      · refine h2 o' ?_ k
        simp only [List.mem_append] at ho ⊢
        tauto
    · rcases List.cons_eq_append_iff.1 e1 with ⟨rfl, e⟩ | ⟨u', rfl, e⟩
      · refine ⟨b ++ x, a, by rw [e]; simp, h1, fun o' ho k => ?_, h3⟩
        rcases List.mem_append.1 ho with ho | ho
        · exact h2 o' ho k
        · exact hx o' ho k.2.1
      · refine ⟨b, u' ++ (x ++ q), by simp, h1, h2, fun o' ho k => ?_⟩
        by_cases hm : o' ∈ x
        · exact hx o' hm k.2.1
        · refine h3 o' ?_ k
          rw [e]
          simp only [List.mem_append] at ho ⊢
          tauto

theorem under_true : ∀ o : Offer B, o.under True = o
  | .decl applies _ _ _ => by simp [Offer.under]
  | .raw applies _ => by simp [Offer.under]
  | .other _ => rfl

theorem under_idle : ∀ o : Offer B, ¬ (o.under False).Applies
  | .decl .., h => h.elim fun _ k => k.1
  | .raw .., h => h.elim fun _ k => k
  | .other _, h => h.elim fun _ k => k

/-- Under a condition the same declarations win too. -/
theorem SameWins.under {x y : List (Offer B)} (h : SameWins lt x y) (c : Prop) : SameWins lt (x.map (Offer.under c)) (y.map (Offer.under c)) := by
  by_cases hc : c
  · rw [show c = True from eq_true hc]
    have : (Offer.under True : Offer B → Offer B) = id := funext under_true
    rw [this, List.map_id, List.map_id]
    exact h
  · rw [show c = False from eq_false hc]
    intro p q o
    have hi : ∀ z : List (Offer B), ∀ o ∈ z.map (Offer.under False), ¬ o.Applies := fun z o ho => by
      obtain ⟨o', _, rfl⟩ := List.mem_map.1 ho
      exact under_idle o'
    rw [wins_idle (hi x), wins_idle (hi y)]

/-! ### Imports that are written twice -/

theorem double_cons (n : Node) (ns : List Node) :
    doubleImports (n :: ns) = if n.isImport = true then n :: n :: doubleImports ns else n :: doubleImports ns := by
  unfold doubleImports
  rw [List.flatMap_cons]
  cases n with
  | rule r => rfl
  | «at» a =>
    by_cases h : a.name = b!"import"
    · simp [Node.isImport, h]
    · simp [Node.isImport, h]

theorem isImport_bare (n : Node) : n.bare.isImport = n.isImport := by cases n <;> rfl

theorem double_bare (ns : List Node) : (doubleImports ns).map Node.bare = doubleImports (ns.map Node.bare) := by
  induction ns with
  | nil => rfl
  | cons n ns ih =>
    rw [List.map_cons, double_cons, double_cons, isImport_bare]
    split
    · rw [List.map_cons, List.map_cons, ih]
    · rw [List.map_cons, ih]

theorem import_noDef {n : Node} (h : n.isImport = true) : n.customMedia? = none := by
  cases n with
  | rule r => rfl
  | «at» a =>
    have h : a.name = b!"import" := by simpa [Node.isImport] using h
    simp [Node.customMedia?, AtRule.customMedia?, h]

theorem double_defs (ns : List Node) : mediaDefs (doubleImports ns) = mediaDefs ns := by
  unfold mediaDefs
  induction ns with
  | nil => rfl
  | cons n ns ih =>
    rw [double_cons]
    split
    · rename_i h
      simp only [List.filterMap_cons, import_noDef h, ih]
    · simp only [List.filterMap_cons, ih]

theorem double_mem {n : Node} {ns : List Node} (h : n ∈ doubleImports ns) : n ∈ ns := by
  unfold doubleImports at h
  obtain ⟨x, h1, h2⟩ := List.mem_flatMap.1 h
  have : n = x := by
    split at h2
    · split at h2 <;> simpa using h2
    · simpa using h2
  rw [this]
  exact h1

theorem double_split {a : AtRule} (ha : a.name ≠ b!"import") : ∀ {ns pre post : List Node}, doubleImports ns = pre ++ .at a :: post →
    ∃ pre' post', ns = pre' ++ .at a :: post' ∧ pre = doubleImports pre'
  | [], pre, post, h => by cases pre <;> cases h
  | n :: ns, pre, post, h => by
    have hn : (Node.at a).isImport = false := by simpa [Node.isImport] using ha
    rw [double_cons] at h
    split at h
    · rename_i hi
      cases pre with
      | nil => injection h with h1 _; rw [h1, hn] at hi; cases hi
      | cons x pre =>
        injection h with h1 h
        subst h1
        cases pre with
        | nil => injection h with h1 _; rw [h1, hn] at hi; cases hi
        | cons x pre =>
          injection h with h1 h
          subst h1
          obtain ⟨pre', post', rfl, rfl⟩ := double_split ha h
          exact ⟨n :: pre', post', rfl, by rw [double_cons, if_pos hi]⟩
    · rename_i hi
      cases pre with
      | nil => injection h with h1 _; exact ⟨[], ns, by rw [h1]; rfl, rfl⟩
      | cons x pre =>
        injection h with h1 h
        subst h1
        obtain ⟨pre', post', rfl, rfl⟩ := double_split ha h
        exact ⟨n :: pre', post', rfl, by rw [double_cons, if_neg hi]⟩

theorem Lowerable.double {fo : FloatOps} {o : TOpts} {ns : List Node} (h : Lowerable B fo o ns) : Lowerable B fo o (doubleImports ns) := by
  refine ⟨?_, fun r l hr => h.links r l (double_mem hr), ?_, fun pre a post l rest e hn hp q hq => ?_⟩
  · rw [double_defs]; exact h.custom
  · rw [double_defs]; exact h.definitions
  · obtain ⟨pre', post', e1, rfl⟩ := double_split (by rw [hn]; decide) e
    rw [double_defs, double_defs]
    exact h.queries pre' a post' l rest e1 hn hp q hq

/-- With imports twice nothing changes, whatever the imported stylesheets say. -/
theorem double_wins (has : ∀ a b, lt a b → ¬ lt b a) (imp : AtRule → List (Offer B)) (e : B.doc.Elem) (ns : List Node) :
    SameWins lt (withImports imp (applied B e (doubleImports ns))) (withImports imp (applied B e ns)) := by
  unfold applied offersOf
  rw [double_bare, double_defs]
  generalize mediaDefs (ns.map Node.bare) = defs
  generalize ns.map Node.bare = ns
  have hap : ∀ u v : List (Offer B), withImports imp (u ++ v) = withImports imp u ++ withImports imp v := fun u v => by
    unfold withImports; rw [List.flatMap_append]
  induction ns with
  | nil => exact .refl _
  | cons n ns ih =>
    rw [double_cons]
    split
    · rw [List.flatMap_cons, List.flatMap_cons, List.flatMap_cons, hap, hap, hap, ← List.append_assoc]
      exact (again_wins has _).append ih
    · rw [List.flatMap_cons, List.flatMap_cons, hap, hap]
      exact (SameWins.refl _).append ih

/-- What is not about elements comes from at-rules. -/
theorem other_mem {e : B.doc.Elem} {ns : List Node} {r : AtRule} (h : .other r ∈ applied B e ns) : ∃ a, .at a ∈ ns ∧ r = a.bare := by
  have hdecl : ∀ (c : List B.W → Prop) (ds : List Decl), Offer.other r ∉ ds.map (Decl.offer B c) := fun c ds hm => by
    obtain ⟨d, _, hd⟩ := List.mem_map.1 hm
    cases d <;> cases hd
  have hrule : ∀ (c : Prop) (q : QRule), Offer.other r ∉ q.offers B e c := fun c q hm => by
    unfold QRule.offers at hm
    split at hm
    · exact hdecl _ _ hm
    · cases hm
  unfold applied offersOf at h
  obtain ⟨x, h1, h2⟩ := List.mem_flatMap.1 h
  obtain ⟨n, h3, rfl⟩ := List.mem_map.1 h1
  cases n with
  | rule q => exact absurd h2 (hrule _ _)
  | «at» a =>
    refine ⟨a, h3, ?_⟩
    simp only [Node.bare, Node.offers] at h2
    split at h2
    · cases h2
    · split at h2
      · split at h2
        · unfold Block.offers at h2
          split at h2
          · cases h2
          · exact absurd h2 (hdecl _ _)
          · obtain ⟨q, _, hq⟩ := List.mem_flatMap.1 h2
            exact absurd hq (hrule _ _)
        · cases h2
      · cases h2 with
        | head => rfl
        | tail _ k => cases k

/-! ### What is written -/

/-- **C92** for what is printed of a file. -/
theorem made_wins {env : CEnv} (hr : RoundTrip env.fo) (hC : B.KnowsCalc env.fo) (hL : B.KnowsLinks)
    (has : ∀ a b, lt a b → ¬ lt b a) (ho : env.opts.customProperties = false) (hin : env.opts.importRules ≠ .inline)
    (hready : ∀ {p a c ss lines}, Asked env p → env.abs p = some a → env.read a = some c → parse env.fuel c = .ok ss lines → ss.Ready)
    {a c out : Bytes} {ss' : Stylesheet} {log : List Report} {lines0 : List Nat} (hm : Made env True a ss' log)
    (hp : print (some ⟨a, c, lines0⟩) ss' = .ok out) :
    ∃ c id ss lines, env.read a = some c ∧ parse env.fuel c id = .ok ss lines ∧
      (Lowerable B env.fo env.opts ss.nodes → ss'.Reckoned → ∀ i, ∃ k ss2 lines2, (∀ n, k ≤ n → parse n out i = .ok ss2 lines2) ∧
        ∀ (e : B.doc.Elem) (imp imp' : AtRule → List (Offer B)),
          (∀ r, .at r ∈ ss.nodes → r.name = b!"import" → SameWins lt (imp' r.bare) (imp r.bare)) →
          SameWins lt (withImports imp' (applied B e ss2.nodes)) (withImports imp (applied B e ss.nodes))) := by
  have hc := hm.compiled (P := Stylesheet.Ready) fun h1 h2 h3 h4 => by
    obtain ⟨ss0, h5, rfl⟩ := parse_ok_id h4
    exact ready_setId (hready h1 h2 h3 h5) _
  cases hm with
  | mk fileOf logOf m1 m2 m3 m4 m5 m6 m7 m8 =>
    refine ⟨_, _, _, _, m3, m4, fun hlow hn i => ?_⟩
    obtain ⟨j, ss2, l2, d1, d2, -⟩ := output_map_parses hc (sources_fit hc hn) hp i
    refine ⟨j, ss2, l2, d1, fun e imp imp' himp => ?_⟩
    rw [if_neg hin] at m8
    obtain ⟨flat, f1, f2⟩ := meaning_partial hr hC hL ho m8
    cases (show flat = _ from f1)
    have : applied B e ss2.nodes = applied B e ss'.nodes := by
      unfold applied
      rw [d2]
    rw [this, f2 hlow.double e]
    refine (withImports_wins _ fun r hm hn => ?_).trans (double_wins has imp e _)
    obtain ⟨b, hb, rfl⟩ := other_mem hm
    exact himp b (double_mem hb) hn

/-- **C92** for stylesheets as values. -/
theorem apart_wins {env : CEnv} (hr : RoundTrip env.fo) (hC : B.KnowsCalc env.fo) (hL : B.KnowsLinks)
    (has : ∀ a b, lt a b → ¬ lt b a) (ho : env.opts.customProperties = false) (hin : env.opts.importRules ≠ .inline)
    (hready : ∀ {p a c ss lines}, Asked env p → env.abs p = some a → env.read a = some c → parse env.fuel c = .ok ss lines → ss.Ready)
    {st : CSt} (h : Reached env st) (hd : Distinct st.sh) {a out : Bytes} (hf : (a, out) ∈ st.sh.files) :
    ∃ c id ss lines ss' log, env.read a = some c ∧ parse env.fuel c id = .ok ss lines ∧ Made env True a ss' log ∧
      (Lowerable B env.fo env.opts ss.nodes → ss'.Reckoned → ∀ i, ∃ k ss2 lines2, (∀ n, k ≤ n → parse n out i = .ok ss2 lines2) ∧
        ∀ (e : B.doc.Elem) (imp imp' : AtRule → List (Offer B)),
          (∀ r, .at r ∈ ss.nodes → r.name = b!"import" → SameWins lt (imp' r.bare) (imp r.bare)) →
          SameWins lt (withImports imp' (applied B e ss2.nodes)) (withImports imp (applied B e ss.nodes))) := by
  obtain ⟨p, c, ss', log, lines0, -, -, -, hm, hp⟩ := written_true_distinct_partial h hd hf
  obtain ⟨c, id, ss, lines, h1, h2, h3⟩ := made_wins (lt := lt) hr hC hL has ho hin hready hm hp
  exact ⟨c, id, ss, lines, ss', log, h1, h2, hm, h3⟩

/-- **C92, partial**: without inlining and without custom properties, with trees shared in memory and under every schedule in which no
number is given twice, what is written for a file is parsed as a stylesheet in which for every element the declarations win that
win in the file, whatever is said before and after it and whatever the imported stylesheets say; these may be replaced by others in
which the same declarations win, as by those that are written for them.  The file must be such that printing loses nothing (`Ready`) and that can
be lowered (`Lowerable`, see C88), and what is computed must be writable (`Reckoned`). -/
theorem apart_wins_partial {env : CEnv} (hr : RoundTrip env.fo) (hC : B.KnowsCalc env.fo) (hL : B.KnowsLinks)
    (has : ∀ a b, lt a b → ¬ lt b a) (ho : env.opts.customProperties = false) (hin : env.opts.importRules ≠ .inline)
    (hready : ∀ {p a c ss lines}, Asked env p → env.abs p = some a → env.read a = some c → parse env.fuel c = .ok ss lines → ss.Ready)
    {hs : HSt} (h : HReached env hs) (hd : Distinct hs.sh) {a out : Bytes} (hf : (a, out) ∈ hs.sh.files) :
    ∃ c id ss lines ss' log, env.read a = some c ∧ parse env.fuel c id = .ok ss lines ∧ Made env True a ss' log ∧
      (Lowerable B env.fo env.opts ss.nodes → ss'.Reckoned → ∀ i, ∃ k ss2 lines2, (∀ n, k ≤ n → parse n out i = .ok ss2 lines2) ∧
        ∀ (e : B.doc.Elem) (imp imp' : AtRule → List (Offer B)),
          (∀ r, .at r ∈ ss.nodes → r.name = b!"import" → SameWins lt (imp' r.bare) (imp r.bare)) →
          SameWins lt (withImports imp' (applied B e ss2.nodes)) (withImports imp (applied B e ss.nodes))) := by
  obtain ⟨st, h, v⟩ := shared_reached (fun k => absurd k hin) h
  unfold Distinct at hd
  rw [v.sources] at hd
  rw [v.files] at hf
  exact apart_wins hr hC hL has ho hin hready h hd hf

/-- C92 for the sequential compilation, in which numbers are never given twice. -/
theorem apart_wins_seq {env : CEnv} (hr : RoundTrip env.fo) (hC : B.KnowsCalc env.fo) (hL : B.KnowsLinks)
    (has : ∀ a b, lt a b → ¬ lt b a) (ho : env.opts.customProperties = false) (hin : env.opts.importRules ≠ .inline)
    (hready : ∀ {p a c ss lines}, Asked env p → env.abs p = some a → env.read a = some c → parse env.fuel c = .ok ss lines → ss.Ready)
    {n : Nat} {sh : Shared} (h : seqCompile env n = some sh) {a out : Bytes} (hf : (a, out) ∈ sh.files) :
    ∃ c id ss lines ss' log, env.read a = some c ∧ parse env.fuel c id = .ok ss lines ∧ Made env True a ss' log ∧
      (Lowerable B env.fo env.opts ss.nodes → ss'.Reckoned → ∀ i, ∃ k ss2 lines2, (∀ n, k ≤ n → parse n out i = .ok ss2 lines2) ∧
        ∀ (e : B.doc.Elem) (imp imp' : AtRule → List (Offer B)),
          (∀ r, .at r ∈ ss.nodes → r.name = b!"import" → SameWins lt (imp' r.bare) (imp r.bare)) →
          SameWins lt (withImports imp' (applied B e ss2.nodes)) (withImports imp (applied B e ss.nodes))) := by
  obtain ⟨st, h2, h3, rfl⟩ := seqCompile_tidy h
  exact apart_wins hr hC hL has ho hin hready h2.reached (seqCompile_distinct h) hf

/-! ### The files of a project together -/

theorem applied_setId {B : Browser} (e : B.doc.Elem) (ss : Stylesheet) (i : Nat) : applied B e (ss.setId i).nodes = applied B e ss.nodes := by
  unfold applied Stylesheet.setId
  rw [List.map_map]
  congr 1
  exact List.map_congr_left fun n _ => by cases n <;> rfl

theorem saidBy_congr {env : CEnv} {e : B.doc.Elem} {sheet : Bytes → Option (List Node)} {dir : Bytes} {ns ns' : List Node}
    (h : applied B e ns = applied B e ns') : ∀ d, saidBy B env e sheet d dir ns = saidBy B env e sheet d dir ns'
  | 0 => by unfold saidBy; rw [h]
  | d + 1 => by unfold saidBy; rw [h]

theorem writtenOf_eq {files : List (Bytes × Bytes)} {f out : Bytes} {k : Nat} {ss : Stylesheet} {lines : List Nat} (h : lookupMap files f = some out)
    (hp : ∀ n, k ≤ n → parse n out = .ok ss lines) : writtenOf files f = some ss.nodes := by
  have hex : ∃ ns, ParsedAs files f ns := ⟨_, out, k, ss, lines, h, hp, rfl⟩
  unfold writtenOf
  rw [dif_pos hex]
  obtain ⟨out', k', ss', lines', h1, h2, h3⟩ := Classical.choose_spec hex
  rw [h] at h1
  cases h1
  have e := hp (max k k') (le_max_left ..)
  rw [h2 (max k k') (le_max_right ..)] at e
  cases e
  rw [h3]

theorem writtenOf_none {files : List (Bytes × Bytes)} {f : Bytes} (h : lookupMap files f = none) : writtenOf files f = none := by
  unfold writtenOf
  rw [dif_neg]
  rintro ⟨_, _, _, _, _, h1, _⟩
  rw [h] at h1
  cases h1

/-- C92 for whole projects, for stylesheets as values. -/
theorem followed_wins {env : CEnv} (hr : RoundTrip env.fo) (hC : B.KnowsCalc env.fo) (hL : B.KnowsLinks)
    (has : ∀ a b, lt a b → ¬ lt b a) (ho : env.opts.customProperties = false) (hin : env.opts.importRules ≠ .inline)
    (hready : ∀ {p a c ss lines}, Asked env p → env.abs p = some a → env.read a = some c → parse env.fuel c = .ok ss lines → ss.Ready)
    (hlow : ∀ {p a c id ss lines}, Asked env p → env.abs p = some a → env.read a = some c → parse env.fuel c id = .ok ss lines →
      Lowerable B env.fo env.opts ss.nodes)
    (hrk : ∀ {a ss' log}, Made env True a ss' log → ss'.Reckoned)
    {st : CSt} (h : Reached env st) (hd : Distinct st.sh)
    (hall : ∀ {p f ns}, Asked env p → env.abs p = some f → sourceOf env f = some ns → ∃ out, lookupMap st.sh.files f = some out) :
    ∀ (d : Nat) {p f : Bytes} {ns : List Node}, Asked env p → env.abs p = some f → sourceOf env f = some ns →
      ∃ ns', writtenOf st.sh.files f = some ns' ∧ ∀ e : B.doc.Elem,
        SameWins lt (saidBy B env e (writtenOf st.sh.files) d (dirOf f) ns') (saidBy B env e (sourceOf env) d (dirOf f) ns) := by
  have key : ∀ {p f : Bytes} {ns : List Node}, Asked env p → env.abs p = some f → sourceOf env f = some ns →
      ∃ ns' c id ss lines, writtenOf st.sh.files f = some ns' ∧ env.read f = some c ∧ parse env.fuel c id = .ok ss lines ∧
        (∀ e : B.doc.Elem, applied B e ns = applied B e ss.nodes) ∧
        ∀ (e : B.doc.Elem) (imp imp' : AtRule → List (Offer B)),
          (∀ r, .at r ∈ ss.nodes → r.name = b!"import" → SameWins lt (imp' r.bare) (imp r.bare)) →
          SameWins lt (withImports imp' (applied B e ns')) (withImports imp (applied B e ss.nodes)) := by
    intro p f ns hp hf hns
    obtain ⟨out, hout⟩ := hall hp hf hns
    obtain ⟨c, id, ss, lines, ss', log, h1, h2, h3, h4⟩ := apart_wins (lt := lt) hr hC hL has ho hin hready h hd (lookupMap_mem hout)
    obtain ⟨k', ss3, l3, d1, d2⟩ := h4 (hlow hp hf h1 h2) (hrk h3) 0
    refine ⟨_, c, id, ss, lines, writtenOf_eq hout d1, h1, h2, fun e => ?_, d2⟩
    obtain ⟨ss0, h5, rfl⟩ := parse_ok_id h2
    rw [applied_setId]
    unfold sourceOf at hns
    rw [h1] at hns
    simp only [Option.bind_some, h5] at hns
    cases hns
    rfl
  intro d
  induction d with
  | zero =>
    intro p f ns hp hf hns
    obtain ⟨ns', c, id, ss, lines, h0, -, -, h3, h4⟩ := key hp hf hns
    refine ⟨ns', h0, fun e => ?_⟩
    unfold saidBy
    rw [h3 e]
    exact h4 e _ _ fun _ _ _ => .refl _
  | succ d ih =>
    intro p f ns hp hf hns
    obtain ⟨ns', c, id, ss, lines, h0, h1, h2, h3, h4⟩ := key hp hf hns
    refine ⟨ns', h0, fun e => ?_⟩
    unfold saidBy
    rw [h3 e]
    refine h4 e _ _ fun r hr hn => ?_
    obtain ⟨i1, i2, -⟩ := imports_exact h2
    obtain ⟨sp, val, rest, hv, -⟩ := i2 r hr hn
    have himp : (⟨val, r.id⟩ : ImportSpec) ∈ ss.imports := by
      rw [i1]
      unfold importsOf
      refine List.mem_filterMap.2 ⟨_, hr, ?_⟩
      dsimp only
      rw [if_pos hn, hv]
    have hb : ∃ sp' rest', r.bare.preludes = .str sp' val :: rest' := by
      unfold AtRule.bare
      dsimp only
      rw [hv]
      exact ⟨_, _, rfl⟩
    obtain ⟨sp', rest', hb⟩ := hb
    rw [hb]
    dsimp only
    refine SameWins.under ?_ _
    cases hres : env.resolve val (dirOf f) with
    | none => exact .refl _
    | some rel =>
      have hasked : Asked env rel := .imp hp hf h1 h2 himp hres
      rw [Option.bind_some]
      cases habs : env.abs rel with
      | none => exact .refl _
      | some g =>
        rw [Option.bind_some, Option.bind_some]
        cases hsrc : sourceOf env g with
        | none =>
          cases hl : lookupMap st.sh.files g with
          | none => rw [writtenOf_none hl]; exact .refl _
          | some out =>
            obtain ⟨c', id', ss', _, _, _, h5, h6, -⟩ := apart_wins (lt := lt) ‹RoundTrip env.fo› hC hL has ho hin hready h hd (lookupMap_mem hl)
            obtain ⟨ss0, h7, -⟩ := parse_ok_id h6
            unfold sourceOf at hsrc
            rw [h5] at hsrc
            simp only [Option.bind_some, h7] at hsrc
            cases hsrc
        | some ns0 =>
          obtain ⟨ns1, k1, k2⟩ := ih hasked habs hsrc
          rw [k1]
          exact k2 e

/-- **C92 for whole projects, partial**: when all files are written, as imported files are in follow mode, and none is inlined, then for
every element the same declarations win in the files that are written as in the sources, each with the imported ones at the
places of their imports, to any depth, under the conditions of the imports.  Conditions as for `apart_wins_partial`, on all files. -/
theorem followed_wins_partial {env : CEnv} (hr : RoundTrip env.fo) (hC : B.KnowsCalc env.fo) (hL : B.KnowsLinks)
    (has : ∀ a b, lt a b → ¬ lt b a) (ho : env.opts.customProperties = false) (hin : env.opts.importRules ≠ .inline)
    (hready : ∀ {p a c ss lines}, Asked env p → env.abs p = some a → env.read a = some c → parse env.fuel c = .ok ss lines → ss.Ready)
    (hlow : ∀ {p a c id ss lines}, Asked env p → env.abs p = some a → env.read a = some c → parse env.fuel c id = .ok ss lines →
      Lowerable B env.fo env.opts ss.nodes)
    (hrk : ∀ {a ss' log}, Made env True a ss' log → ss'.Reckoned)
    {hs : HSt} (h : HReached env hs) (hd : Distinct hs.sh)
    (hall : ∀ {p f ns}, Asked env p → env.abs p = some f → sourceOf env f = some ns → ∃ out, lookupMap hs.sh.files f = some out) :
    ∀ (d : Nat) {p f : Bytes} {ns : List Node}, Asked env p → env.abs p = some f → sourceOf env f = some ns →
      ∃ ns', writtenOf hs.sh.files f = some ns' ∧ ∀ e : B.doc.Elem,
        SameWins lt (saidBy B env e (writtenOf hs.sh.files) d (dirOf f) ns') (saidBy B env e (sourceOf env) d (dirOf f) ns) := by
  obtain ⟨st, h, v⟩ := shared_reached (fun k => absurd k hin) h
  unfold Distinct at hd
  rw [v.sources] at hd
  rw [v.files] at hall ⊢
  exact followed_wins hr hC hL has ho hin hready hlow hrk h hd hall

/-- The same for the sequential compilation. -/
theorem followed_wins_seq {env : CEnv} (hr : RoundTrip env.fo) (hC : B.KnowsCalc env.fo) (hL : B.KnowsLinks)
    (has : ∀ a b, lt a b → ¬ lt b a) (ho : env.opts.customProperties = false) (hin : env.opts.importRules ≠ .inline)
    (hready : ∀ {p a c ss lines}, Asked env p → env.abs p = some a → env.read a = some c → parse env.fuel c = .ok ss lines → ss.Ready)
    (hlow : ∀ {p a c id ss lines}, Asked env p → env.abs p = some a → env.read a = some c → parse env.fuel c id = .ok ss lines →
      Lowerable B env.fo env.opts ss.nodes)
    (hrk : ∀ {a ss' log}, Made env True a ss' log → ss'.Reckoned)
    {n : Nat} {sh : Shared} (h : seqCompile env n = some sh)
    (hall : ∀ {p f ns}, Asked env p → env.abs p = some f → sourceOf env f = some ns → ∃ out, lookupMap sh.files f = some out) :
    ∀ (d : Nat) {p f : Bytes} {ns : List Node}, Asked env p → env.abs p = some f → sourceOf env f = some ns →
      ∃ ns', writtenOf sh.files f = some ns' ∧ ∀ e : B.doc.Elem,
        SameWins lt (saidBy B env e (writtenOf sh.files) d (dirOf f) ns') (saidBy B env e (sourceOf env) d (dirOf f) ns) := by
  obtain ⟨st, h2, h3, rfl⟩ := seqCompile_tidy h
  exact followed_wins hr hC hL has ho hin hready hlow hrk h2.reached (seqCompile_distinct h) hall

/-! ### An example, and what is false -/

/-- All features but custom properties and inlining. -/
def apartOpts : TOpts := { lowering with importRules := .follow }

def apartFiles : List (Bytes × Bytes) :=
  [(b!"/m", b!"@import 'a'; @custom-media --w (11px <= width); a:any-link { w: calc(11px + 1px) } @media screen and (--w) { b { c: d !important } }"),
    (b!"/a", b!"@media (width >= 1px) { b { c: d } }")]

def apartEnv : CEnv :=
  ⟨[b!"m"], apartOpts, some b!"/", lookupMap apartFiles, fun spec dir => some (joinPath [dir, spec]), unaryOps, 400⟩

/-- More specific: the sum is greater. -/
def sumLess (a b : List Nat) : Prop := a.sum < b.sum

/-- All hypotheses of `apart_wins_seq` are met, and this is written. -/
example : RoundTrip apartEnv.fo ∧ smallBrowser.KnowsCalc apartEnv.fo ∧ smallBrowser.KnowsLinks ∧ (∀ a b, sumLess a b → ¬ sumLess b a) ∧
    apartEnv.opts.customProperties = false ∧ apartEnv.opts.importRules ≠ .inline ∧
    (∀ {p a c ss lines}, Asked apartEnv p → apartEnv.abs p = some a → apartEnv.read a = some c → parse apartEnv.fuel c = .ok ss lines → ss.Ready) ∧
    (apartFiles.map fun f => (parse 400 f.2).sheet?.map fun x => lowerableB apartOpts x.1.nodes) = [some true, some true] ∧
    (seqCompile apartEnv 20).map (fun sh => (sh.errors, (lookupMap sh.files b!"/m").map cssLine, (lookupMap sh.files b!"/a").map cssLine)) = some ([],
      some b!"@import \"a\";@import \"a\";a:visited,a:link{w:111px}@media screen and (11px<=width){b{c:d!important}}", some b!"@media (min-width:1px){b{c:d}}") :=
  ⟨unary_roundTrip, smallBrowser_calc, smallBrowser_links, fun _ _ h k => absurd h (Nat.lt_asymm k), rfl, by decide,
    fun _ _ hc hp => ready_of_test (env := apartEnv) (files := apartFiles) rfl (by decide +kernel) hc hp, by decide +kernel, by decide +kernel⟩

/-! ### Tests for the conditions of projects -/

theorem queriesB_setId (i : Nat) (defs : List (Bytes × MQ)) : ∀ ns : List Node, queriesB defs (ns.map (Node.setId i)) = queriesB defs ns
  | [] => rfl
  | n :: ns => by
    cases n with
    | rule r => simp only [List.map_cons, Node.setId, queriesB, queriesB_setId i defs ns]
    | «at» a => simp only [List.map_cons, Node.setId, queriesB, queriesB_setId i defs ns, mediaDefs_setId]

theorem lowerableB_setId (i : Nat) (o : TOpts) (ns : List Node) : lowerableB o (ns.map (Node.setId i)) = lowerableB o ns := by
  unfold lowerableB
  rw [mediaDefs_setId, queriesB_setId, List.all_map]
  congr 4
  funext n
  cases n <;> rfl

def Item.reckonedB : Item → Bool
  | .value (.dim _ num _) => isNumB num
  | .value (.math _ _ _ _) => false
  | _ => true

theorem Item.reckonedB_sound {it : Item} (h : it.reckonedB = true) : it.Reckoned := by
  cases it with
  | value v =>
    cases v with
    | dim => exact isNumB_sound h
    | math => cases h
    | _ => trivial
  | _ => trivial

/-- Everything that is computed is a number. -/
def reckonedTest (env : CEnv) (files : List (Bytes × Bytes)) : Bool :=
  files.all fun f =>
    match parse env.fuel f.2 with
    | .ok ss _ => (match transform env.fo env.opts none env.fuel ss with
      | .ok ss' _ => ss'.items.all Item.reckonedB
      | _ => true)
    | _ => true

theorem reckoned_ids {ns ns' : List Node} (h : plainIds ns = plainIds ns') (hn : ∀ x ∈ ns', ∀ it ∈ x.items, it.Reckoned) :
    ∀ x ∈ ns, ∀ it ∈ x.items, it.Reckoned := by
  intro x hx it hi
  have h1 : x.setId 0 ∈ plainIds ns' := by rw [← h]; exact List.mem_map_of_mem hx
  obtain ⟨y, hy, e⟩ := List.mem_map.1 h1
  cases y with
  | rule r =>
    rw [setId_rule e] at hi
    exact hn _ hy it hi
  | «at» a =>
    obtain ⟨i, rfl⟩ := setId_at e
    rcases List.mem_cons.1 hi with rfl | hi
    · trivial
    · exact hn _ hy it (List.mem_cons_of_mem _ hi)

theorem reckoned_of_test {env : CEnv} {files : List (Bytes × Bytes)} (hr : env.read = lookupMap files) (hin : env.opts.importRules ≠ .inline)
    (h : reckonedTest env files = true) {a : Bytes} {ss' : Stylesheet} {log : List Report} (hm : Made env True a ss' log) : ss'.Reckoned := by
  cases hm with
  | @mk _ _ c id ss _ lines _ s fileOf logOf m1 m2 m3 m4 m5 m6 m7 m8 =>
    rw [if_neg hin] at m8
    rw [hr] at m3
    have h1 := List.all_eq_true.1 h (a, c) (lookupMap_mem m3)
    dsimp only at h1
    obtain ⟨ss0, h2, rfl⟩ := parse_ok_id m4
    rw [h2] at h1
    dsimp only at h1
    have hs : SameIds (transformNodes env.fo env.opts none env.fuel (ss0.setId id).nodes) (transformNodes env.fo env.opts none env.fuel ss0.nodes) := by
      refine SameIds.mapConcat (R := fun x y => x.setId 0 = y.setId 0) sameIds_none ?_
      unfold Stylesheet.setId
      dsimp only
      generalize ss0.nodes = ns
      induction ns with
      | nil => exact .nil
      | cons n ns ih => exact .cons (setId_setId 0 id n) ih
    have hs := hs (TSt.init env.opts none)
    unfold transform at m8 h1
    cases e1 : transformNodes env.fo env.opts none env.fuel (ss0.setId id).nodes (TSt.init env.opts none) with
    | crash => rw [e1] at m8; cases m8
    | timeout => rw [e1] at m8; cases m8
    | ok ns1 s1 =>
      rw [e1] at m8 hs
      cases m8
      cases e2 : transformNodes env.fo env.opts none env.fuel ss0.nodes (TSt.init env.opts none) with
      | crash => rw [e2] at hs; cases hs
      | timeout => rw [e2] at hs; cases hs
      | ok ns2 s2 =>
        rw [e2] at hs h1
        injection hs with hs1 hs2
        intro it hi
        obtain ⟨x, hx, hi⟩ := List.mem_flatMap.1 hi
        refine reckoned_ids hs1 (fun y hy it hi => ?_) x hx it hi
        exact Item.reckonedB_sound (List.all_eq_true.1 h1 it (List.mem_flatMap.2 ⟨y, hy, hi⟩))

/-- All files can be lowered. -/
def lowTest (env : CEnv) (files : List (Bytes × Bytes)) : Bool :=
  files.all fun f =>
    match parse env.fuel f.2 with
    | .ok ss _ => lowerableB env.opts ss.nodes
    | _ => true

theorem low_of_test {env : CEnv} {files : List (Bytes × Bytes)} (hr : env.read = lookupMap files) (h : lowTest env files = true) (B : Browser)
    {a c : Bytes} {id : Nat} {ss : Stylesheet} {lines : List Nat} (hc : env.read a = some c) (hp : parse env.fuel c id = .ok ss lines) :
    Lowerable B env.fo env.opts ss.nodes := by
  rw [hr] at hc
  have h1 := List.all_eq_true.1 h (a, c) (lookupMap_mem hc)
  dsimp only at h1
  obtain ⟨ss0, h2, rfl⟩ := parse_ok_id hp
  rw [h2] at h1
  refine lowerableB_sound ?_ B env.fo
  unfold Stylesheet.setId
  rw [lowerableB_setId]
  exact h1

theorem sourceOf_mem {env : CEnv} {files : List (Bytes × Bytes)} (hr : env.read = lookupMap files) {f : Bytes} {ns : List Node}
    (h : sourceOf env f = some ns) : ∃ c, (f, c) ∈ files := by
  unfold sourceOf at h
  cases hc : env.read f with
  | none => rw [hc] at h; cases h
  | some c => rw [hr] at hc; exact ⟨c, lookupMap_mem hc⟩

/-- All hypotheses of `followed_wins_seq` are met. -/
example : ∃ sh, seqCompile apartEnv 20 = some sh ∧
    (∀ {p a c id ss lines}, Asked apartEnv p → apartEnv.abs p = some a → apartEnv.read a = some c → parse apartEnv.fuel c id = .ok ss lines →
      Lowerable smallBrowser apartEnv.fo apartEnv.opts ss.nodes) ∧
    (∀ {a ss' log}, Made apartEnv True a ss' log → ss'.Reckoned) ∧
    (∀ {p f ns}, Asked apartEnv p → apartEnv.abs p = some f → sourceOf apartEnv f = some ns → ∃ out, lookupMap sh.files f = some out) ∧
    ∀ (d : Nat) {p f : Bytes} {ns : List Node}, Asked apartEnv p → apartEnv.abs p = some f → sourceOf apartEnv f = some ns →
      ∃ ns', writtenOf sh.files f = some ns' ∧ ∀ e, SameWins sumLess (saidBy smallBrowser apartEnv e (writtenOf sh.files) d (dirOf f) ns')
        (saidBy smallBrowser apartEnv e (sourceOf apartEnv) d (dirOf f) ns) := by
  have h : ((seqCompile apartEnv 20).map fun sh => apartFiles.all fun f => (lookupMap sh.files f.1).isSome) = some true := by decide +kernel
  obtain ⟨sh, h1, h2⟩ := Option.map_eq_some_iff.1 h
  have hlow : ∀ {p a c id ss lines}, Asked apartEnv p → apartEnv.abs p = some a → apartEnv.read a = some c → parse apartEnv.fuel c id = .ok ss lines →
      Lowerable smallBrowser apartEnv.fo apartEnv.opts ss.nodes :=
    fun _ _ hc hp => low_of_test (files := apartFiles) rfl (by decide +kernel) _ hc hp
  have hrk : ∀ {a ss' log}, Made apartEnv True a ss' log → ss'.Reckoned :=
    fun hm => reckoned_of_test (files := apartFiles) rfl (by decide) (by decide +kernel) hm
  have hall : ∀ {p f ns}, Asked apartEnv p → apartEnv.abs p = some f → sourceOf apartEnv f = some ns → ∃ out, lookupMap sh.files f = some out :=
    fun _ _ hs => by
      obtain ⟨c, hc⟩ := sourceOf_mem (files := apartFiles) rfl hs
      exact Option.isSome_iff_exists.1 (List.all_eq_true.1 h2 _ hc)
  exact ⟨sh, h1, hlow, hrk, hall, followed_wins_seq (env := apartEnv) unary_roundTrip smallBrowser_calc smallBrowser_links
    (fun _ _ h k => absurd h (Nat.lt_asymm k)) rfl (by decide)
    (fun _ _ hc hp => ready_of_test (env := apartEnv) (files := apartFiles) rfl (by decide +kernel) hc hp) hlow hrk h1 hall⟩

theorem notSheet_apart : transform unaryOps apartOpts none 3 notSheet = .ok notOut ⟨none, some [], []⟩ := by rfl

/-- **C92, refuted in general**: in `@media not (11px<=width<=11px){a{b:c}}` a declaration wins, and none does in what it
becomes, `@media not (min-width:11px) and (max-width:11px){a{b:c}}`. -/
theorem apart_wins_refuted :
    ¬ ∀ (B : Browser) (lt : List B.W → List B.W → Prop) (fo : FloatOps) (o : TOpts) (n : Nat) (ss ss' : Stylesheet) (s : TSt), RoundTrip fo →
      B.KnowsCalc fo → B.KnowsLinks → (∀ a b, lt a b → ¬ lt b a) → o.customProperties = false → transform fo o none n ss = .ok ss' s →
      ∀ (e : B.doc.Elem) (imp : AtRule → List (Offer B)) (o : Offer B),
        Wins lt (withImports imp (applied B e ss.nodes)) o → Wins lt (withImports imp (applied B e ss'.nodes)) o := by
  intro hall
  have h := hall smallBrowser sumLess unaryOps apartOpts 3 notSheet notOut _ unary_roundTrip smallBrowser_calc smallBrowser_links
    (fun _ _ h k => absurd h (Nat.lt_asymm k)) rfl notSheet_apart false (fun _ => [])
  have h2 : MediaHold smallBrowser [] [⟨⟨0, 0⟩, [.ident ⟨0, 0⟩ b!"not",
      .range ⟨0, 0⟩ ⟨0, 0⟩ b!"width" (.dim ⟨0, 0⟩ b!"11" b!"px") b!"<=" (.dim ⟨0, 0⟩ b!"11" b!"px")]⟩] := by
    refine .inr ⟨_, List.mem_singleton_self _, ?_⟩
    show ¬ (_ ∧ _)
    rintro ⟨k, _⟩
    have := k (by simp)
    unfold Axis.rel at this
    simp [smallBrowser] at this
  have h3 : Weights smallBrowser false [.mk ⟨0, 0⟩ [.type ⟨0, 0⟩ b!"a"]] [(1 : Nat)] :=
    ⟨_, List.mem_singleton_self _, ⟨false, rfl, rfl⟩, rfl⟩
  obtain ⟨b, a, h4, ⟨w, h5⟩, -⟩ := h (.decl (fun w => MediaHold smallBrowser [] [⟨⟨0, 0⟩, [.ident ⟨0, 0⟩ b!"not",
      .range ⟨0, 0⟩ ⟨0, 0⟩ b!"width" (.dim ⟨0, 0⟩ b!"11" b!"px") b!"<=" (.dim ⟨0, 0⟩ b!"11" b!"px")]⟩] ∧
      Weights smallBrowser false [.mk ⟨0, 0⟩ [.type ⟨0, 0⟩ b!"a"]] w) b!"b" [false] false)
    ⟨[], [], rfl, ⟨_, h2, h3⟩, fun _ k => absurd k List.not_mem_nil, fun _ k => absurd k List.not_mem_nil⟩
  have h6 := h4.symm ▸ List.mem_append_right b List.mem_cons_self
  have h7 : Offer.decl (B := smallBrowser) _ _ _ _ = .decl (fun w => MediaHold smallBrowser [] [⟨⟨0, 0⟩, [.ident ⟨0, 0⟩ b!"not",
      .plain ⟨0, 0⟩ ⟨0, 0⟩ b!"min-width" (.dim ⟨0, 0⟩ b!"11" b!"px"), .ident ⟨0, 0⟩ b!"and",
      .plain ⟨0, 0⟩ ⟨0, 0⟩ b!"max-width" (.dim ⟨0, 0⟩ b!"11" b!"px")]⟩] ∧ Weights smallBrowser false [.mk ⟨0, 0⟩ [.type ⟨0, 0⟩ b!"a"]] w)
        b!"b" [false] false := List.mem_singleton.1 h6
  have h8 : _ ∧ _ := (congrArg (fun o : Offer smallBrowser => o.With w) h7).mp h5
  rcases h8.1 with h9 | ⟨q, hq, h9⟩
  · cases h9
  · rw [List.mem_singleton] at hq
    subst hq
    exact h9

end Cssc
