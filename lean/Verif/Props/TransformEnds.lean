import Verif.Proofs.TransformEnds

/-!
# When the transformer ends: C62
-/

namespace Cssc

/-! ### Specification -/

/-- The stylesheet that replaces `a` has the import `b`. -/
def LeadsTo (m : List (AtId × Stylesheet)) (a b : AtRule) : Prop :=
  ∃ ss, replacement m a = some ss ∧ Node.at b ∈ ss.nodes ∧ b.name = b!"import"

/-- An import of the stylesheet, an import of what replaces it, an import of what replaces that, and so on without
end.  Without replacements there is no such chain. -/
def EndlessImports (repl : Replacements) (ss : Stylesheet) : Prop :=
  ∃ m, repl = some m ∧ ∃ f : Nat → AtRule, Node.at (f 0) ∈ ss.nodes ∧ (f 0).name = b!"import" ∧
    ∀ i, LeadsTo m (f i) (f (i + 1))

/-! ### Proof -/

theorem endless_of_not_acc {m : List (AtId × Stylesheet)} {a : AtRule} (h : ¬ Acc (fun b a => LeadsTo m a b) a) :
    ∃ f : Nat → AtRule, f 0 = a ∧ ∀ i, LeadsTo m (f i) (f (i + 1)) := by
  have step : ∀ x : { a // ¬ Acc (fun b a => LeadsTo m a b) a }, ∃ y : { a // ¬ Acc (fun b a => LeadsTo m a b) a },
      LeadsTo m x.1 y.1 := by
    rintro ⟨a, ha⟩
    refine Classical.byContradiction fun hn => ha ⟨_, fun b hb => ?_⟩
    exact Classical.byContradiction fun hb' => hn ⟨⟨b, hb'⟩, hb⟩
  choose next hnext using step
  let g : Nat → { a // ¬ Acc (fun b a => LeadsTo m a b) a } := fun n => Nat.rec ⟨a, h⟩ (fun _ x => next x) n
  exact ⟨fun n => (g n).1, rfl, fun i => hnext (g i)⟩

theorem not_endless_of_acc {m : List (AtId × Stylesheet)} {a : AtRule} (h : Acc (fun b a => LeadsTo m a b) a) :
    ∀ f : Nat → AtRule, f 0 = a → ¬ ∀ i, LeadsTo m (f i) (f (i + 1)) := by
  induction h with
  | intro a _ ih =>
    intro f h0 hf
    exact ih (f 1) (h0 ▸ hf 0) (fun i => f (i + 1)) rfl fun i => hf (i + 1)

/-- Enough fuel for every node of a list gives enough for all. -/
theorem common_fuel {α : Type} {P : α → Nat → Prop} : ∀ {xs : List α}, (∀ x ∈ xs, ∃ N, ∀ n, N ≤ n → P x n) →
    ∃ N, ∀ n, N ≤ n → ∀ x ∈ xs, P x n
  | [], _ => ⟨0, fun _ _ _ h => by cases h⟩
  | x :: xs, h => by
    obtain ⟨N, hN⟩ := h x (List.mem_cons_self ..)
    obtain ⟨M, hM⟩ := common_fuel fun y hy => h y (List.mem_cons_of_mem _ hy)
    refine ⟨max N M, fun n hn y hy => ?_⟩
    rcases hy with _ | ⟨_, hy⟩
    · exact hN n (by omega)
    · exact hM n (by omega) y hy

theorem lookupImport_mem {m : List (AtId × Stylesheet)} {k : AtId} {ss : Stylesheet} (h : lookupImport m k = some ss) :
    (k, ss) ∈ m := by
  induction m with
  | nil => cases h
  | cons y m ih =>
    obtain ⟨k', v⟩ := y
    rw [lookupImport] at h
    split at h
    · cases h
      rename_i e
      exact e ▸ List.mem_cons_self ..
    · exact List.mem_cons_of_mem _ (ih h)

/-- The node is done with `n` fuel, under all options. -/
def NodeEnds (repl : Replacements) (x : Node) (n : Nat) : Prop :=
  ∀ (fo : FloatOps) (o : TOpts) (s : TSt), PlainVars s → transformNode fo o repl n x s ≠ .timeout

theorem transformNode_plainVars {fo : FloatOps} {o : TOpts} {repl : Replacements}
    (hr : ∀ m, repl = some m → ∀ p ∈ m, ∀ x ∈ p.2.nodes, x.tame) : ∀ {n : Nat} {x : Node} {s s' : TSt} {out : List Node},
    x.tame → PlainVars s → transformNode fo o repl n x s = .ok out s' → PlainVars s'
  | 0, _, _, _, _, _, _, h => by cases h
  | n + 1, .rule r, s, s', out, hx, hs, h => by
    rw [transformNode] at h
    unfold transformRule at h
    rcases hp : r.prelude with _ | l | ⟨ksp, kfs⟩ <;> rw [hp] at h <;> dsimp only at h
    · cases h
    · rcases hc : collectsRoot l.sels with _ | root <;> rw [hc] at h <;> dsimp only at h
      · cases h
      · rcases hb : r.block with _ | b <;> rw [hb] at h <;> dsimp only at h
        · cases h
        · obtain ⟨ds, s1, h1, h⟩ := tbind_ok h
          obtain ⟨ds', s2, h2, h⟩ := tbind_ok h
          have hs1 : PlainVars s1 := by
            split at h1
            · exact (collectVars_sub h1 (hx b hb) hs).2
            · obtain ⟨rfl, rfl⟩ := tpure_ok h1
              exact hs
          have hs2 := hs1.framed ((LogOnly.transformDeclarations ..).ok h2)
          split at h
          · obtain ⟨_, rfl⟩ := tpure_ok h
            exact hs2
          · obtain ⟨_, rfl⟩ := tpure_ok h
            exact hs2
    · obtain ⟨_, _, _, h⟩ := tbind_ok h
      cases h
  | n + 1, .at a, s, s', out, hx, hs, h => by
    rw [transformNode] at h
    unfold transformAt at h
    split at h
    · split at h
      · obtain ⟨_, rfl⟩ := tpure_ok h
        exact hs
      · rename_i m
        rcases himp : lookupImport m a.id with _ | imported <;> rw [himp] at h <;> dsimp only at h
        · obtain ⟨_, rfl⟩ := tpure_ok h
          exact hs
        · obtain ⟨_, s1, h1, h2⟩ := tbind_ok h
          have hs1 := hs.framed ((LogOnly.whenT (.report ..)).ok h1)
          have hm := hr m rfl _ (lookupImport_mem himp)
          have all : ∀ {xs : List Node} {s s' : TSt} {out : List Node}, (∀ x ∈ xs, x.tame) → PlainVars s →
              mapConcat (transformNode fo o (some m) n) xs s = .ok out s' → PlainVars s' := by
            intro xs
            induction xs with
            | nil =>
              intro s s' out _ hs h
              obtain ⟨_, rfl⟩ := tpure_ok h
              exact hs
            | cons x xs ih =>
              intro s s' out hx hs h
              obtain ⟨o1, s1, o2, h1, h2, _⟩ := mapConcat_cons_ok h
              exact ih (fun y hy => hx y (List.mem_cons_of_mem _ hy))
                (transformNode_plainVars hr (hx x (List.mem_cons_self ..)) hs h1) h2
          exact all hm hs1 h2
    · split at h
      · obtain ⟨_, s1, h1, h⟩ := tbind_ok h
        obtain ⟨_, rfl⟩ := tpure_ok h
        unfold collectMedia at h1
        split at h1
        · cases h1; exact hs
        · split at h1 <;> cases h1 <;> exact hs
      · split at h
        · rcases hpre : a.preludes with _ | ⟨_ | _ | (_ | l) | _, rest⟩ <;> rw [hpre] at h <;> try cases h
          obtain ⟨_, s1, h1, h⟩ := tbind_ok h
          obtain ⟨_, rfl⟩ := tpure_ok h
          exact hs.framed ((LogOnly.transformMediaQueries ..).ok h1)
        · obtain ⟨_, rfl⟩ := tpure_ok h
          exact hs

theorem rule_ends (repl : Replacements) {r : QRule} (hx : (Node.rule r).tame) :
    ∃ N, ∀ n, N ≤ n → NodeEnds repl (.rule r) n := by
  refine ⟨sizeOf r + 1, fun n hn fo o s hs => ?_⟩
  cases n with
  | zero => omega
  | succ n =>
    rw [transformNode]
    exact transformRule_ends (by omega) hx hs

/-- An at-rule that is not replaced. -/
theorem at_ends (repl : Replacements) {a : AtRule}
    (h : ∀ m, repl = some m → a.name = b!"import" → replacement m a = none) :
    ∃ N, ∀ n, N ≤ n → NodeEnds repl (.at a) n := by
  refine ⟨1, fun n hn fo o s hs => ?_⟩
  cases n with
  | zero => omega
  | succ n =>
    rw [transformNode]
    unfold transformAt
    refine Prompt.run ?_ s
    split
    · rename_i hname
      split
      · exact .pure _
      · rename_i m
        have := h m rfl hname
        rw [replacement_eq] at this
        rw [this]
        exact .pure _
    · refine .ite (.bind (.collectMedia _) fun _ => .pure _) (.ite ?_ (.pure _))
      split
      · exact .bind (.transformMediaQueries ..) fun _ => .pure _
      · exact .crash

theorem import_ends {m : List (AtId × Stylesheet)} (hr : ∀ p ∈ m, ∀ x ∈ p.2.nodes, x.tame) {a : AtRule}
    (h : Acc (fun b a => LeadsTo m a b) a) : ∃ N, ∀ n, N ≤ n → NodeEnds (some m) (.at a) n := by
  induction h with
  | intro a _ ih =>
    by_cases hn : a.name = b!"import"
    · rcases hi : replacement m a with _ | ss
      · exact at_ends _ fun m' e _ => by cases e; exact hi
      · have hmem := lookupImport_mem (replacement_eq m a ▸ hi)
        have hss := hr _ hmem
        obtain ⟨N, hN⟩ := common_fuel (P := NodeEnds (some m)) (xs := ss.nodes) fun x hx => by
          cases x with
          | rule r => exact rule_ends _ (hss _ hx)
          | «at» b =>
            by_cases hb : b.name = b!"import"
            · exact ih b ⟨ss, hi, hx, hb⟩
            · exact at_ends _ fun _ _ e => absurd e hb
        refine ⟨N + 1, fun n hn' fo o s hs => ?_⟩
        cases n with
        | zero => omega
        | succ n =>
          rw [transformNode]
          unfold transformAt
          rw [if_pos hn]
          dsimp only
          rw [← replacement_eq, hi]
          dsimp only
          refine ends_bind ((Prompt.whenT (.report ..)).run s) fun _ s1 h1 => ?_
          have hs1 := hs.framed ((LogOnly.whenT (.report ..)).ok h1)
          exact (ends_mapConcat (I := PlainVars) hs1 (fun x hx s hs => hN n (by omega) x hx fo o s hs)
            fun x hx s out s' hs h => transformNode_plainVars (fun m' e => by cases e; exact hr) (hss x hx) hs h).1
    · exact at_ends _ fun _ _ e => absurd e hn

/-- The other direction: what has been transformed has no endless imports. -/
theorem acc_of_ok {fo : FloatOps} {o : TOpts} {m : List (AtId × Stylesheet)} : ∀ {n : Nat} {xs : List Node} {s s' : TSt}
    {out : List Node}, mapConcat (transformNode fo o (some m) n) xs s = .ok out s' →
    ∀ a, Node.at a ∈ xs → a.name = b!"import" → Acc (fun b a => LeadsTo m a b) a
  | 0, [], _, _, _, _, _, hm, _ => by cases hm
  | 0, _ :: _, _, _, _, h, _, _, _ => by
    obtain ⟨_, _, _, h1, _⟩ := mapConcat_cons_ok h
    cases h1
  | n + 1, xs, s, s', out, h, a, hm, hn => by
    obtain ⟨pre, post, rfl⟩ := List.append_of_mem hm
    obtain ⟨_, s1, _, _, h2, _⟩ := mapConcat_append_ok h
    obtain ⟨o1, s2, o2, h3, _, _⟩ := mapConcat_cons_ok h2
    refine ⟨_, fun b hb => ?_⟩
    obtain ⟨ss, hss, hb, hbn⟩ := hb
    rw [transformNode] at h3
    unfold transformAt at h3
    rw [if_pos hn] at h3
    dsimp only at h3
    rw [← replacement_eq, hss] at h3
    dsimp only at h3
    obtain ⟨_, s4, _, h5⟩ := tbind_ok h3
    exact acc_of_ok h5 b hb hbn

theorem init_plainVars (o : TOpts) (repl : Replacements) : PlainVars (TSt.init o repl) := by
  intro vars h
  unfold TSt.init at h
  dsimp only at h
  split at h
  · cases h; simp
  · cases h

/-! ### C62 -/

theorem transform_ends_tame {repl : Replacements} {ss : Stylesheet} (ht : ∀ x ∈ ss.nodes, x.tame)
    (hr' : ∀ m, repl = some m → ∀ p ∈ m, ∀ x ∈ p.2.nodes, x.tame) (hc : ¬ EndlessImports repl ss) :
    ∃ N, ∀ n, N ≤ n → ∀ (fo : FloatOps) (o : TOpts), transform fo o repl n ss ≠ .timeout := by
  obtain ⟨N, hN⟩ := common_fuel (P := NodeEnds repl) (xs := ss.nodes) fun x hx => by
    cases x with
    | rule r => exact rule_ends _ (ht _ hx)
    | «at» a =>
      by_cases ha : a.name = b!"import"
      · cases repl with
        | none => exact at_ends _ fun m e => by cases e
        | some m =>
          refine import_ends (hr' m rfl) (Classical.byContradiction fun hacc => hc ?_)
          obtain ⟨f, rfl, hf⟩ := endless_of_not_acc hacc
          exact ⟨m, rfl, f, hx, ha, hf⟩
      · exact at_ends _ fun _ _ e => absurd e ha
  refine ⟨N, fun n hn fo o h => ?_⟩
  have := (ends_mapConcat (f := transformNode fo o repl n) (I := PlainVars) (init_plainVars o repl)
    (fun x hx s hs => hN n hn x hx fo o s hs)
    fun x hx s out s' hs h => transformNode_plainVars hr' (ht x hx) hs h).1
  unfold transform transformNodes at h
  rcases e : mapConcat (transformNode fo o repl n) ss.nodes (TSt.init o repl) with _ | _ | _ <;> rw [e] at h
  · cases h
  · cases h
  · exact this e

/-- **C62**, one half: `Transform` of a parsed stylesheet ends (it returns or panics), whatever the options and the
arithmetic, if its imports are not replaced without end.  The number of steps depends on the stylesheets only. -/
theorem transform_ends {repl : Replacements} {k : Nat} {src : Bytes} {id : Nat} {ss : Stylesheet} {lines : List Nat}
    (hp : parse k src id = .ok ss lines)
    (hr : ∀ m, repl = some m → ∀ p ∈ m, ∃ k src id lines, parse k src id = .ok p.2 lines)
    (hc : ¬ EndlessImports repl ss) :
    ∃ N, ∀ n, N ≤ n → ∀ (fo : FloatOps) (o : TOpts), transform fo o repl n ss ≠ .timeout := by
  refine transform_ends_tame (fun x hx => ((parse_sheetOk hp).nodes x hx).tame) (fun m hm p hp x hx => ?_) hc
  obtain ⟨k, src, id, lines, h⟩ := hr m hm p hp
  exact ((parse_sheetOk h).nodes x hx).tame

/-- **C62**, the other half: if `Transform` returns, of any stylesheet, its imports are not replaced without end. -/
theorem transform_returned {fo : FloatOps} {o : TOpts} {repl : Replacements} {n : Nat} {ss out : Stylesheet} {s : TSt}
    (h : transform fo o repl n ss = .ok out s) : ¬ EndlessImports repl ss := by
  rintro ⟨m, rfl, f, hf0, hfn, hf⟩
  unfold transform transformNodes at h
  rcases e : mapConcat (transformNode fo o (some m) n) ss.nodes (TSt.init o (some m)) with ⟨ns, s1⟩ | _ | _ <;>
    rw [e] at h
  · exact not_endless_of_acc (acc_of_ok e _ hf0 hfn) f rfl hf
  · cases h
  · cases h

/-- More steps give the same result. -/
theorem transform_more {fo : FloatOps} {o : TOpts} {repl : Replacements} {N n : Nat} {ss out : Stylesheet} {s : TSt}
    (e : transform fo o repl N ss = .ok out s) (hn : N ≤ n) : transform fo o repl n ss = .ok out s := by
  obtain ⟨d, rfl⟩ := Nat.exists_eq_add_of_le hn
  clear hn
  induction d with
  | zero => exact e
  | succ d ih =>
    unfold transform at ih ⊢
    rcases e1 : transformNodes fo o repl (N + d) ss.nodes (TSt.init o repl) with ⟨ns, s1⟩ | _ | _ <;> rw [e1] at ih
    · rw [show N + (d + 1) = N + d + 1 from rfl, (TLe.transformNodes fo o repl (N + d) ss.nodes).run _ _ _ e1]
      exact ih
    · cases ih
    · cases ih

/-- **C62**: `Transform` of a parsed stylesheet, with parsed replacements, returns exactly if its imports are not
replaced without end (rules without prelude and `@media` without queries apart: they panic, C39); and what it returns
does not depend on how long one waits. -/
theorem transform_returns_iff {fo : FloatOps} {o : TOpts} {repl : Replacements} {k : Nat} {src : Bytes} {id : Nat}
    {ss : Stylesheet} {lines : List Nat}
    (hp : parse k src id = .ok ss lines) (hc : ∀ x ∈ ss.nodes, x.complete)
    (hr : ∀ m, repl = some m → ∀ p ∈ m, ∃ k src id lines, parse k src id = .ok p.2 lines ∧ ∀ x ∈ p.2.nodes, x.complete) :
    (∃ N out s, ∀ n, N ≤ n → transform fo o repl n ss = .ok out s) ↔ ¬ EndlessImports repl ss := by
  constructor
  · rintro ⟨N, out, s, h⟩
    exact transform_returned (h N (Nat.le_refl _))
  · intro he
    obtain ⟨N, hN⟩ := transform_ends hp (fun m hm p hp => by
      obtain ⟨k, src, id, lines, h, _⟩ := hr m hm p hp
      exact ⟨k, src, id, lines, h⟩) he
    have h1 := hN N (Nat.le_refl _) fo o
    have h2 := transform_no_panic_partial (fo := fo) (o := o) (n := N) hp hc hr
    rcases e : transform fo o repl N ss with ⟨out, s⟩ | _ | _
    · exact ⟨N, out, s, fun n hn => transform_more e hn⟩
    · exact absurd e h2
    · exact absurd e h1

/-! ### Cases -/

/-- One import, at the start of the text. -/
def loneImport (ss : Stylesheet) : Bool :=
  match ss.nodes with
  | [.at a] => decide (a.name = b!"import" ∧ a.id = ⟨0, 0⟩)
  | _ => false

/-- **C62, the condition is needed**: a stylesheet that is the replacement of its own import.  `Transform` does not
return, however long one waits. -/
theorem transform_self_import : ∃ ss lines, parse 80 b!"@import \"a\";" = .ok ss lines ∧
    EndlessImports (some [(⟨0, 0⟩, ss)]) ss ∧
    ∀ fo o n, transform fo o (some [(⟨0, 0⟩, ss)]) n ss = .timeout := by
  have h : ((parse 80 b!"@import \"a\";").sheet?.map fun x => loneImport x.1) = some true := by decide +kernel
  rcases e : (parse 80 b!"@import \"a\";").sheet? with _ | ⟨ss, lines⟩ <;> rw [e] at h
  · cases h
  · have hs := sheet?_some e
    simp only [Option.map_some, Option.some.injEq] at h
    refine ⟨ss, lines, hs, ?_⟩
    unfold loneImport at h
    split at h
    · rename_i a hn
      have ha := of_decide_eq_true h
      have hrep : replacement [(⟨0, 0⟩, ss)] a = some ss := by
        rw [replacement_eq, lookupImport, if_pos ha.2.symm]
      have he : EndlessImports (some [(⟨0, 0⟩, ss)]) ss :=
        ⟨_, rfl, fun _ => a, hn ▸ List.mem_cons_self .., ha.1, fun _ => ⟨ss, hrep, hn ▸ List.mem_cons_self .., ha.1⟩⟩
      refine ⟨he, fun fo o n => ?_⟩
      rcases e : transform fo o (some [(⟨0, 0⟩, ss)]) n ss with ⟨out, s⟩ | _ | _
      · exact absurd he (transform_returned e)
      · refine absurd e (transform_no_panic_partial hs (fun x hx => ?_) fun m hm p hp => ?_)
        · rw [hn] at hx
          cases List.mem_singleton.1 hx
          exact fun hm => absurd (ha.1.symm.trans hm) (by decide)
        · cases hm
          cases List.mem_singleton.1 hp
          refine ⟨_, _, _, _, hs, fun x hx => ?_⟩
          rw [hn] at hx
          cases List.mem_singleton.1 hx
          exact fun hm => absurd (ha.1.symm.trans hm) (by decide)
      · rfl
    · cases h

/-- A stylesheet that imports another one, which imports a third. -/
def importRun : Option Bool :=
  (parse 80 b!"@import \"a\";x{y:calc(1px + 2px)}" 0).sheet?.bind fun x =>
    (parse 80 b!"@import \"b\";" 1).sheet?.bind fun y => (parse 80 b!"u{v:w}" 2).sheet?.map fun z =>
      ((transform unaryOps { TOpts.default with calcReduction := true }
        (some [(⟨0, 0⟩, y.1), (⟨1, 0⟩, z.1)]) 30 x.1).out?.map fun ss => outline ss.nodes) == some [([], 1), ([], 1)]

/-- The hypotheses are met by such a stylesheet. -/
example : ∃ x y z lx ly lz, parse 80 b!"@import \"a\";x{y:calc(1px + 2px)}" 0 = .ok x lx ∧
    parse 80 b!"@import \"b\";" 1 = .ok y ly ∧ parse 80 b!"u{v:w}" 2 = .ok z lz ∧
    ¬ EndlessImports (some [(⟨0, 0⟩, y), (⟨1, 0⟩, z)]) x := by
  have h : importRun = some true := by decide +kernel
  unfold importRun at h
  simp only [Option.bind_eq_some_iff, Option.map_eq_some_iff] at h
  obtain ⟨x, hx, y, hy, z, hz, h⟩ := h
  refine ⟨x.1, y.1, z.1, x.2, y.2, z.2, sheet?_some hx, sheet?_some hy, sheet?_some hz, ?_⟩
  rcases e : transform unaryOps { TOpts.default with calcReduction := true }
    (some [(⟨0, 0⟩, y.1), (⟨1, 0⟩, z.1)]) 30 x.1 with ⟨out, s⟩ | _ | _
  · exact transform_returned e
  · rw [e] at h; cases h
  · rw [e] at h; cases h

end Cssc
