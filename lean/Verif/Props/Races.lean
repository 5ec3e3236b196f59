import Verif.Props.Output
import Verif.Props.Truth
import Verif.Props.Tidy
import Verif.Props.Bundle

/-!
# C86: no race garbles the output
-/

namespace Cssc

/-- Whatever the order of the steps, what is made comes from parsing and transforming. -/
theorem Made.compiled {env : CEnv} {S : Prop} {P : Stylesheet → Prop}
    (hP : ∀ {p a c : Bytes} {id : Nat} {ss : Stylesheet} {lines : List Nat}, Asked env p → env.abs p = some a → env.read a = some c →
      parse env.fuel c id = .ok ss lines → P ss) {a : Bytes} {ss : Stylesheet} {log : List Report} (h : Made env S a ss log) :
    Compiled env.fo P ss := by
  induction h with
  | mk fileOf logOf h1 h2 h3 h4 _ _ _ h8 ih =>
    refine .transformed (.parsed h4 (hP h1 h2 h3 h4)) (fun m e d hd => ?_) h8
    split at e
    · cases e; exact ih d hd
    · cases e

/-- **C86**: under every schedule, whatever the options and however many numbers are given twice, every file that is written is
the text of a stylesheet that comes from parsing and transforming files that are looked at.  If this stylesheet has no
construct that printing loses, the file, source map included, is parsed as it, up to positions, and what is parsed is printed
as the CSS of the file. -/
theorem written_parses {env : CEnv} {st : CSt} (h : Reached env st) {a out : Bytes} (hf : (a, out) ∈ st.sh.files) :
    ∃ b ss log css, Made env False b ss log ∧ print none ss = .ok css ∧ Output css out ∧
      (ss.Fit → ∀ id, ∃ k ss2 lines, (∀ n, k ≤ n → parse n out id = .ok ss2 lines) ∧
        ss2.nodes.map Node.bare = ss.nodes.map Node.bare ∧
        ss2.imports.map ImportSpec.value = (importsOf ss.nodes).map ImportSpec.value ∧ print none ss2 = .ok css) := by
  obtain ⟨p, c, b, ss, log, lines, -, -, -, hm, hp⟩ := written_true_partial h hf
  obtain ⟨css, hc, ho⟩ := print_output hp
  refine ⟨b, ss, log, css, hm, hc, ho, fun hfit id => ?_⟩
  · have hcomp := hm.compiled (P := fun _ => True) fun _ _ _ _ => trivial
    have h4 : print (some ⟨a, c, lines⟩) ⟨ss.nodes, importsOf ss.nodes⟩ = .ok out := hp
    obtain ⟨k, ss2, l2, h5, h6⟩ := print_map_parse (hcomp.printable hfit) h4 id
    exact ⟨k, ss2, l2, h5, h6.nodes, h6.imports, (print_positions h6).trans hc⟩

/-- C86 with conditions on the sources: when no file that is looked at has a construct that printing loses, nor `:any-link`
with arguments. -/
theorem written_sources_parse {env : CEnv} {st : CSt} (h : Reached env st) {a out : Bytes} (hf : (a, out) ∈ st.sh.files)
    (hr : ∀ {p a c ss lines}, Asked env p → env.abs p = some a → env.read a = some c → parse env.fuel c = .ok ss lines → ss.Ready) :
    ∃ b ss log, Made env False b ss log ∧
      (ss.Reckoned → ∀ id, ∃ k ss2 lines, (∀ n, k ≤ n → parse n out id = .ok ss2 lines) ∧
        ss2.nodes.map Node.bare = ss.nodes.map Node.bare ∧
        ss2.imports.map ImportSpec.value = (importsOf ss.nodes).map ImportSpec.value) := by
  obtain ⟨b, ss, log, css, hm, -, -, h1⟩ := written_parses h hf
  have hc := hm.compiled (P := Stylesheet.Ready) fun h1 h2 h3 h4 => by
    obtain ⟨ss0, h5, rfl⟩ := parse_ok_id h4
    exact ready_setId (hr h1 h2 h3 h5) _
  refine ⟨b, ss, log, hm, fun hn id => ?_⟩
  obtain ⟨k, ss2, l, h2, h3, h4, -⟩ := h1 (sources_fit hc hn) id
  exact ⟨k, ss2, l, h2, h3, h4⟩

/-! ### Without features -/

/-- Without features every node comes from the stylesheet or from a replacement. -/
theorem transformNode_off_from {fo : FloatOps} {o : TOpts} {repl : Replacements} {P : Node → Prop} (ho : o.Off)
    (hrepl : ∀ m, repl = some m → ∀ kv ∈ m, ∀ y ∈ kv.2.nodes, P y) : ∀ {n : Nat} {x : Node} {out : List Node} {s s' : TSt},
    s.vars = none → s.media = none → P x → transformNode fo o repl n x s = .ok out s' →
      s'.vars = none ∧ s'.media = none ∧ ∀ y ∈ out, P y
  | 0, _, _, _, _, _, _, _, h => by cases h
  | n + 1, x, out, s, s', hv, hm, hx, h => by
    have hmap : ∀ {ns out : List Node} {s s' : TSt}, s.vars = none → s.media = none → (∀ y ∈ ns, P y) →
        mapConcat (transformNode fo o repl n) ns s = .ok out s' → s'.vars = none ∧ s'.media = none ∧ ∀ y ∈ out, P y := by
      intro ns
      induction ns with
      | nil =>
        intro out s s' hv hm _ h
        obtain ⟨rfl, rfl⟩ := tpure_ok h
        exact ⟨hv, hm, fun y hy => by cases hy⟩
      | cons z zs ih =>
        intro out s s' hv hm hP h
        obtain ⟨o1, s1, o2, h1, h2, rfl⟩ := mapConcat_cons_ok h
        obtain ⟨g1, g2, g3⟩ := transformNode_off_from ho hrepl hv hm (hP z (List.mem_cons_self ..)) h1
        obtain ⟨g4, g5, g6⟩ := ih g1 g2 (fun y hy => hP y (List.mem_cons_of_mem _ hy)) h2
        exact ⟨g4, g5, fun y hy => (List.mem_append.1 hy).elim (g3 y) (g6 y)⟩
    by_cases hi : x.isImport = true
    · cases x with
      | rule r => cases hi
      | «at» a =>
        have hi : a.name = b!"import" := by simpa [Node.isImport] using hi
        rw [transformNode] at h
        unfold transformAt at h
        rw [if_pos hi] at h
        cases repl with
        | none =>
          obtain ⟨rfl, rfl⟩ := tpure_ok h
          exact ⟨hv, hm, fun y hy => by simp only [List.mem_cons, List.not_mem_nil, or_false, or_self] at hy; exact hy ▸ hx⟩
        | some m =>
          dsimp only at h
          cases hl : lookupImport m a.id with
          | none =>
            rw [hl] at h
            obtain ⟨rfl, rfl⟩ := tpure_ok h
            exact ⟨hv, hm, fun y hy => by cases List.mem_singleton.1 hy; exact hx⟩
          | some imported =>
            rw [hl] at h
            obtain ⟨_, s2, h3, h4⟩ := tbind_ok h
            have hs2 : s2.vars = none ∧ s2.media = none := by
              unfold whenT at h3
              split at h3
              · cases h3; exact ⟨hv, hm⟩
              · obtain ⟨-, rfl⟩ := tpure_ok h3; exact ⟨hv, hm⟩
            exact hmap hs2.1 hs2.2 (hrepl m rfl _ (lookupImport_mem hl)) h4
    · obtain ⟨rfl, rfl⟩ := transformNode_off ho hv hm (by simpa using hi) h
      refine ⟨hv, hm, fun y hy => ?_⟩
      split at hy
      · cases hy
      · cases List.mem_singleton.1 hy; exact hx

/-- Without features what is made consists of nodes of the files. -/
theorem Made.off {env : CEnv} {S : Prop} (ho : env.opts.Off) {P : Node → Prop}
    (hP : ∀ {p a c : Bytes} {id : Nat} {ss : Stylesheet} {lines : List Nat}, Asked env p → env.abs p = some a → env.read a = some c →
      parse env.fuel c id = .ok ss lines → ∀ x ∈ ss.nodes, P x) {a : Bytes} {ss : Stylesheet} {log : List Report} (h : Made env S a ss log) :
    ∀ x ∈ ss.nodes, P x := by
  induction h with
  | @mk p a c id ss ss' lines repl s fileOf logOf h1 h2 h3 h4 _ _ _ h8 ih =>
    generalize hr : (if env.opts.importRules = .inline then some repl else none : Replacements) = r at h8
    have hrepl : ∀ m, r = some m → ∀ kv ∈ m, ∀ y ∈ kv.2.nodes, P y := by
      intro m e
      subst hr
      split at e
      · cases e; exact ih
      · cases e
    unfold transform transformNodes at h8
    have hmap : ∀ {ns out : List Node} {s s' : TSt}, s.vars = none → s.media = none → (∀ y ∈ ns, P y) →
        mapConcat (transformNode env.fo env.opts r env.fuel) ns s = .ok out s' → ∀ y ∈ out, P y := by
      intro ns
      induction ns with
      | nil =>
        intro out s s' _ _ _ h
        obtain ⟨rfl, rfl⟩ := tpure_ok h
        exact fun y hy => by cases hy
      | cons z zs ih =>
        intro out s s' hv hm hP h
        obtain ⟨o1, s1, o2, h1, h2, rfl⟩ := mapConcat_cons_ok h
        obtain ⟨g1, g2, g3⟩ := transformNode_off_from ho hrepl hv hm (hP z (List.mem_cons_self ..)) h1
        exact fun y hy => (List.mem_append.1 hy).elim (g3 y)
          (ih g1 g2 (fun y hy => hP y (List.mem_cons_of_mem _ hy)) h2 y)
    split at h8
    · rename_i nodes s1 hn
      cases h8
      exact hmap (by simp [TSt.init, ho.vars]) (by simp [TSt.init, ho.media]) (hP h1 h2 h3 h4) hn
    · cases h8
    · cases h8

/-- C86 without features: if no file that is looked at has a construct that printing loses, every file that is written, under
every schedule, is parsed as the stylesheet that was made, which consists of nodes of these files. -/
theorem written_plain_parses {env : CEnv} (ho : env.opts.Off) {st : CSt} (h : Reached env st) {a out : Bytes}
    (hf : (a, out) ∈ st.sh.files)
    (hk : ∀ {p a c id ss lines}, Asked env p → env.abs p = some a → env.read a = some c → parse env.fuel c id = .ok ss lines →
      ∀ it ∈ ss.items, it.Keeps) :
    ∃ b ss log css, Made env False b ss log ∧ print none ss = .ok css ∧ Output css out ∧
      (∀ x ∈ ss.nodes, ∃ p a c id ss0 lines, Asked env p ∧ env.abs p = some a ∧ env.read a = some c ∧
        parse env.fuel c id = .ok ss0 lines ∧ x ∈ ss0.nodes) ∧
      ∀ id, ∃ k ss2 lines, (∀ n, k ≤ n → parse n out id = .ok ss2 lines) ∧
        ss2.nodes.map Node.bare = ss.nodes.map Node.bare ∧
        ss2.imports.map ImportSpec.value = (importsOf ss.nodes).map ImportSpec.value := by
  obtain ⟨p, c, b, ss, log, lines, -, -, -, hm, hp⟩ := written_true_partial h hf
  obtain ⟨css, hc, ho'⟩ := print_output hp
  have hfrom := hm.off ho (P := fun x => ∃ p a c id ss0 lines, Asked env p ∧ env.abs p = some a ∧ env.read a = some c ∧
        parse env.fuel c id = .ok ss0 lines ∧ x ∈ ss0.nodes) fun h1 h2 h3 h4 x hx => ⟨_, _, _, _, _, _, h1, h2, h3, h4, hx⟩
  have hprint : Stylesheet.Printable ⟨ss.nodes, importsOf ss.nodes⟩ := by
    refine nodes_printable (fun x hx => ?_) fun x hx it hi => ?_
    · obtain ⟨_, _, _, _, _, _, -, -, -, h4, h5⟩ := hfrom x hx
      exact ⟨_, (parse_sheetOk h4).nodes x h5⟩
    · obtain ⟨_, _, _, _, _, _, h1, h2, h3, h4, h5⟩ := hfrom x hx
      exact hk h1 h2 h3 h4 it (List.mem_flatMap.2 ⟨x, h5, hi⟩)
  refine ⟨b, ss, log, css, hm, hc, ho', hfrom, fun id => ?_⟩
  have h4 : print (some ⟨a, c, lines⟩) ⟨ss.nodes, importsOf ss.nodes⟩ = .ok out := hp
  obtain ⟨k, ss2, l2, h5, h6⟩ := print_map_parse hprint h4 id
  exact ⟨k, ss2, l2, h5, h6.nodes, h6.imports⟩

/-! ### Examples -/

theorem keeps_setId {ss : Stylesheet} (h : ∀ it ∈ ss.items, it.Keeps) (i : Nat) : ∀ it ∈ (ss.setId i).items, it.Keeps := by
  intro it hi
  obtain ⟨x, hx, hi⟩ := List.mem_flatMap.1 hi
  obtain ⟨y, hy, rfl⟩ := List.mem_map.1 hx
  have h1 : ∀ it ∈ y.items, it.Keeps := fun it hi => h it (List.mem_flatMap.2 ⟨y, hy, hi⟩)
  cases y with
  | rule r => exact h1 it hi
  | «at» a =>
    rcases List.mem_cons.1 hi with rfl | hi
    · exact h1 (.at a) (by simp [Node.items, AtRule.items])
    · exact h1 it (List.mem_cons_of_mem _ hi)

/-- Two entries with imports, in which the goroutines can take the same number. -/
def raceFiles : List (Bytes × Bytes) := [(b!"/a", b!"@import \"c\"; x{y:z}"), (b!"/b", b!"u > v { w : 'x' }"), (b!"/c", b!"p{q:r}")]

def raceEnv : CEnv := exEnv [b!"a", b!"b"] .inline raceFiles

/-- The hypotheses of `written_plain_parses` are met in a state in which two files have the same number, and the content of
one file is written under the name of the other. -/
theorem race_written : raceEnv.opts.Off ∧
    (∀ {p a c id ss lines}, Asked raceEnv p → raceEnv.abs p = some a → raceEnv.read a = some c →
      parse raceEnv.fuel c id = .ok ss lines → ∀ it ∈ ss.items, it.Keeps) ∧
    ∃ st, Reached raceEnv st ∧ ¬ Distinct st.sh ∧ st.main = .done ∧
      st.sh.files.map (fun kv => (kv.1, cssLine kv.2)) = [(b!"/b", b!"p{q:r}x{y:z}")] := by
  refine ⟨⟨rfl, rfl, rfl, rfl, rfl⟩, ?_, ?_⟩
  · intro p a c id ss lines _ _ hc hp
    have hall : (raceFiles.all fun f => match parse raceEnv.fuel f.2 with
      | .ok ss _ => ss.items.all Item.keepsB
      | _ => true) = true := by decide +kernel
    have := List.all_eq_true.1 hall (a, c) (lookupMap_mem hc)
    obtain ⟨ss0, h1, rfl⟩ := parse_ok_id hp
    dsimp only at this
    rw [h1] at this
    exact keeps_setId (fun it hi => Item.keepsB_sound (List.all_eq_true.1 this it hi)) id
  · obtain ⟨st, h1, h2⟩ := reach_of_check (env := raceEnv)
      (cs := [.main] ++ steps 0 4 ++ [.main] ++ steps 1 4 ++ steps 0 12 ++ steps 1 40 ++ steps 0 40 ++ steps 2 60 ++ steps 0 40 ++
        steps 1 40 ++ [.main, .main, .print 0, .print 1, .main])
      (f := fun st => decide (¬ (st.sh.sources.map Prod.snd).Nodup ∧ st.main = .done ∧
        st.sh.files.map (fun kv => (kv.1, cssLine kv.2)) = [(b!"/b", b!"p{q:r}x{y:z}")])) (by decide +kernel)
    exact ⟨st, h1, (of_decide_eq_true h2).1, (of_decide_eq_true h2).2⟩

/-- Those of `written_sources_parse` are met by `featureEnv`, with all features; and the stylesheet written is reckoned. -/
example : ∃ st out, Reached featureEnv st ∧ (b!"/m", out) ∈ st.sh.files ∧
    cssLine out = b!"@media (min-width:11px){b{c:d}}x:visited,x:link{w:111px}" ∧
    ∀ {p a c ss lines}, Asked featureEnv p → featureEnv.abs p = some a → featureEnv.read a = some c →
      parse featureEnv.fuel c = .ok ss lines → ss.Ready := by
  have h : ((seqCompile featureEnv 10).map fun sh => (lookupMap sh.files b!"/m").map cssLine) =
      some (some b!"@media (min-width:11px){b{c:d}}x:visited,x:link{w:111px}") := by decide +kernel
  obtain ⟨sh, h1, h2⟩ := Option.map_eq_some_iff.1 h
  obtain ⟨out, h3, h4⟩ := Option.map_eq_some_iff.1 h2
  obtain ⟨st, h5, -, rfl⟩ := seqCompile_reach h1
  exact ⟨st, out, h5, mem_of_lookupMap h3, h4, fun _ _ hc hp => ready_of_test (env := featureEnv)
    (files := [(b!"/m", b!"@import 'a'; x:any-link { w: calc(11px + 1px) }"), (b!"/a", b!"@media (width > 1px) { b { c: d } }")])
    rfl (by decide +kernel) hc hp⟩

end Cssc
