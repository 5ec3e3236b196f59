import Verif.Proofs.TransformKeeps
import Verif.Props.Bundle

/-!
# What a compiled stylesheet means to its reader

C66: with any features, the output is parsed as the transformed stylesheet.  C67: conditions on the sources for this.
-/

namespace Cssc

/-! ### C66: the output of a transform -/

/-- Well-formed nodes without a construct that printing loses. -/
theorem lit_printable {ns : List Node} (hn : ∀ n ∈ ns, NodeLit n) (hk : ∀ n ∈ ns, ∀ it ∈ n.items, it.Keeps) :
    Stylesheet.Printable ⟨ns, importsOf ns⟩ := by
  have h : ∀ n ∈ ns, n.Shape ∧ ∀ rest, LayR n.toks rest := fun n h => node_keeps (hn n h) (hk n h)
  exact ⟨fun n hn => (h n hn).1, (nodes_lay (fun n hn => (h n hn).2) []).lay, importsOf_values ns⟩

/-- A stylesheet that comes from parsing and transforming: a parsed one for which `P` holds, or one that is transformed
from such, with replacements of imports that come from parsing and transforming. -/
inductive Compiled (fo : FloatOps) (P : Stylesheet → Prop) : Stylesheet → Prop
  | parsed {n id : Nat} {src : Bytes} {ss : Stylesheet} {lines : List Nat} : parse n src id = .ok ss lines → P ss → Compiled fo P ss
  | transformed {o : TOpts} {repl : Replacements} {n : Nat} {ss out : Stylesheet} {s : TSt} : Compiled fo P ss →
      (∀ m, repl = some m → ∀ d ∈ m, Compiled fo P d.2) → transform fo o repl n ss = .ok out s → Compiled fo P out

theorem Compiled.made {fo : FloatOps} {P : Stylesheet → Prop} {ss : Stylesheet} (h : Compiled fo P ss) : ∀ x ∈ ss.nodes, NodeMade x := by
  induction h with
  | parsed h _ => exact fun x hx => ((parse_sheetOk h).nodes x hx).lit.made
  | transformed _ _ h ih ihr => exact transform_made ih (fun m e d hd => ihr m e d hd) h

/-- Conditions on the output of a transform: no construct that printing loses, computed numbers are written as CSS
numbers, no media query that has lost all its parts. -/
def Stylesheet.Fit (ss : Stylesheet) : Prop := ∀ it ∈ ss.items, it.Keeps ∧ it.Whole

theorem Stylesheet.Fit.node {ss : Stylesheet} (h : ss.Fit) {n : Node} (hn : n ∈ ss.nodes) :
    ∀ it ∈ n.items, it.Keeps ∧ it.Whole := fun it hi => h it (List.mem_flatMap.2 ⟨n, hn, hi⟩)

theorem Compiled.printable {fo : FloatOps} {P : Stylesheet → Prop} {ss : Stylesheet} (h : Compiled fo P ss) (hf : ss.Fit) :
    Stylesheet.Printable ⟨ss.nodes, importsOf ss.nodes⟩ :=
  lit_printable (fun n hn => (h.made n hn).lit fun it hi => (hf.node hn it hi).2) fun n hn it hi => (hf.node hn it hi).1

/-- **C66**: whatever the features, the options and the replacements of imports, a stylesheet that comes from parsing
and transforming, and that has no construct that printing loses, is printed as a text that is parsed as this
stylesheet, up to positions.  Printing what was parsed gives the same text. -/
theorem output_parses {fo : FloatOps} {P : Stylesheet → Prop} {ss : Stylesheet} (h : Compiled fo P ss) (hf : ss.Fit) (id : Nat) :
    ∃ css k ss' lines, print none ss = .ok css ∧ (∀ n, k ≤ n → parse n css id = .ok ss' lines) ∧
      ss'.nodes.map Node.bare = ss.nodes.map Node.bare ∧
      ss'.imports.map ImportSpec.value = (importsOf ss.nodes).map ImportSpec.value ∧ print none ss' = .ok css := by
  obtain ⟨css, k, ss', lines, h1, h2, h3⟩ := print_parse (h.printable hf) id
  have h4 : print none ss = .ok css := h1
  exact ⟨css, k, ss', lines, h4, h2, h3.nodes, h3.imports, (print_positions h3).trans h4⟩

/-- The same with a source map. -/
theorem output_map_parses {fo : FloatOps} {P : Stylesheet → Prop} {ss : Stylesheet} (h : Compiled fo P ss) (hf : ss.Fit) {source : Source}
    {out : Bytes} (hp : print (some source) ss = .ok out) (id : Nat) :
    ∃ k ss' lines, (∀ n, k ≤ n → parse n out id = .ok ss' lines) ∧
      ss'.nodes.map Node.bare = ss.nodes.map Node.bare ∧
      ss'.imports.map ImportSpec.value = (importsOf ss.nodes).map ImportSpec.value := by
  have h4 : print (some source) ⟨ss.nodes, importsOf ss.nodes⟩ = .ok out := hp
  obtain ⟨k, ss', lines, h2, h3⟩ := print_map_parse (h.printable hf) h4 id
  exact ⟨k, ss', lines, h2, h3.nodes, h3.imports⟩

/-- The stylesheets that a compilation makes come from parsing and transforming. -/
theorem compiled_compiled {env : CEnv} {rank : Bytes → Nat} (hac : Acyclic env rank) {n : Nat} {sh : Shared}
    (h : seqCompile env n = some sh) {P : Stylesheet → Prop}
    (hP : ∀ {p a c : Bytes} {id : Nat} {ss : Stylesheet} {lines : List Nat}, Asked env p → env.abs p = some a → env.read a = some c →
      parse env.fuel c id = .ok ss lines → P ss) :
    ∀ (k : Nat) {p a : Bytes} {ss' : Stylesheet}, rank a < k → Asked env p → env.abs p = some a → sh.tab a = some ss' →
      Compiled env.fo P ss' := by
  have hd := seqCompile_done hac h
  intro k
  induction k with
  | zero => intro p a ss' hk; omega
  | succ k ih =>
    intro p a ss' hk hp ha ht
    obtain ⟨c, lines, log, ⟨id, ss, s, h1, h2, h3, h4⟩, -, -⟩ := hd.compiled ht
    refine .transformed (.parsed h2 (hP hp ha h1 h2)) ?_ h3
    intro m hm d hdm
    split at hm
    · cases hm
      unfold replOf at hdm
      rw [List.mem_reverse, List.mem_filterMap] at hdm
      obtain ⟨imp, himp, h5⟩ := hdm
      obtain ⟨ss2, h6, rfl⟩ := Option.map_eq_some_iff.1 h5
      obtain ⟨b, h7, htb⟩ := Option.bind_eq_some_iff.1 h6
      obtain ⟨rel, hres, hb⟩ := Option.bind_eq_some_iff.1 h7
      obtain ⟨ss0, h9, h10⟩ := parse_ok_id h2
      have hrank : rank b < rank a := by
        obtain ⟨i, hi, hi2⟩ : ∃ i ∈ ss0.imports, i.value = imp.value := by
          rw [h10] at himp
          obtain ⟨i, hi, hi2⟩ := List.mem_map.1 himp
          exact ⟨i, hi, by rw [← hi2]; rfl⟩
        exact hac hp ha h1 h9 hi (by rw [hi2]; exact hres) hb
      exact ih (by omega) (.imp hp ha h1 h2 himp hres) hb htb
    · cases hm

/-- **C66, compilations**: every file that a sequential compilation writes, whatever the options, is the text of a
stylesheet that comes from parsing and transforming; if this stylesheet has no construct that printing loses, then the
file, source map included, is parsed as it, up to positions. -/
theorem compiled_output {env : CEnv} {rank : Bytes → Nat} (hac : Acyclic env rank) {n : Nat} {sh : Shared}
    (h : seqCompile env n = some sh) {a out : Bytes} (ho : lookupMap sh.files a = some out) :
    ∃ c lines ss' log, CompiledBy env sh.tab a c lines ss' log ∧ sh.tab a = some ss' ∧
      print (some ⟨a, c, lines⟩) ss' = .ok out ∧
      (ss'.Fit → ∀ id, ∃ k ss2 lines2, (∀ n, k ≤ n → parse n out id = .ok ss2 lines2) ∧
        ss2.nodes.map Node.bare = ss'.nodes.map Node.bare ∧
        ss2.imports.map ImportSpec.value = (importsOf ss'.nodes).map ImportSpec.value) := by
  have hd := seqCompile_done hac h
  obtain ⟨hpr, ss', ht⟩ := hd.files ho
  obtain ⟨c, lines, log, h1, -, h3⟩ := hd.compiled ht
  have hasked : ∃ p, Asked env p ∧ env.abs p = some a := by
    rcases hpr with ⟨e, h1, h2⟩ | ⟨-, p, h1, h2⟩
    · exact ⟨e, .entry h1, h2⟩
    · exact ⟨p, h1.asked, h2⟩
  obtain ⟨p, hp, ha⟩ := hasked
  rcases h3 hpr with ⟨out', h5, h6⟩ | ⟨-, h6, -⟩
  · have e : out = out' := by
      rw [show lookupMap sh.files a = some out' from h6] at ho
      exact (Option.some.inj ho).symm
    subst e
    exact ⟨c, lines, ss', log, h1, ht, h5, fun hf id =>
      output_map_parses (compiled_compiled hac h (P := fun _ => True) (fun _ _ _ _ => trivial) _ (Nat.lt_succ_self _) hp ha ht) hf h5 id⟩
  · rw [show lookupMap sh.files a = none from h6] at ho
    cases ho

/-! #### Examples -/

def Item.wholeB : Item → Bool
  | .value (.dim _ num _) => isNumB num
  | .mq q => !q.parts.isEmpty
  | _ => true

theorem Item.wholeB_sound {it : Item} (h : it.wholeB = true) : it.Whole := by
  cases it with
  | value v => cases v <;> first | exact isNumB_sound h | trivial
  | mq q => simpa [Item.wholeB, Item.Whole] using h
  | _ => trivial

def Stylesheet.fitB (ss : Stylesheet) : Bool := ss.items.all fun it => it.keepsB && it.wholeB

theorem Stylesheet.fitB_sound {ss : Stylesheet} (h : ss.fitB = true) : ss.Fit := by
  intro it hi
  have := List.all_eq_true.mp h it hi
  rw [Bool.and_eq_true] at this
  exact ⟨Item.keepsB_sound this.1, Item.wholeB_sound this.2⟩

/-- The text that was printed. -/
def PrintRes.text? : PrintRes → Option Bytes
  | .ok b => some b
  | _ => none

theorem PrintRes.text?_some {r : PrintRes} {b : Bytes} (h : r.text? = some b) : r = .ok b := by
  cases r <;> cases h
  rfl

/-- The output of the transform of a text. -/
def transformText (fo : FloatOps) (o : TOpts) (src : Bytes) : Option Stylesheet :=
  (parse 300 src).sheet?.bind fun x => (transform fo o none 100 x.1).out?

theorem transformText_compiled {fo : FloatOps} {o : TOpts} {src : Bytes} {ss : Stylesheet}
    (h : transformText fo o src = some ss) : Compiled fo (fun _ => True) ss := by
  unfold transformText at h
  obtain ⟨x, h1, h2⟩ := Option.bind_eq_some_iff.1 h
  obtain ⟨s, h3⟩ := out?_some h2
  exact .transformed (.parsed (sheet?_some h1) trivial) (fun _ e => by cases e) h3

/-- All features at once. -/
def featureText : Bytes := b!":root { --c: 'x' } @custom-media --w (11px <= width <= 1111px); a:any-link { c: var(--c); w: calc(11px + 1px) } @media (--w) { b { c: d } } @media x and (width > 1px) { e { f: g } }"

theorem feature_output : (transformText unaryOps allOn featureText).map (fun ss => (ss.fitB, (print none ss).text?)) =
    some (true, some b!"a:visited,a:link{c:\"x\";w:111px}@media (11px<=width<=1111px){b{c:d}}@media x and (min-width:11px){e{f:g}}") := by
  decide +kernel

/-- `output_parses` applies to it. -/
example : ∃ ss, Compiled unaryOps (fun _ => True) ss ∧ ss.Fit ∧
    print none ss = .ok b!"a:visited,a:link{c:\"x\";w:111px}@media (11px<=width<=1111px){b{c:d}}@media x and (min-width:11px){e{f:g}}" := by
  obtain ⟨ss, h1, h2⟩ := Option.map_eq_some_iff.1 feature_output
  simp only [Prod.mk.injEq] at h2
  exact ⟨ss, transformText_compiled h1, Stylesheet.fitB_sound h2.1, PrintRes.text?_some h2.2⟩

/-- Two files, compiled with all features. -/
def featureEnv : CEnv :=
  { exEnv [b!"m"] .inline [(b!"/m", b!"@import 'a'; x:any-link { w: calc(11px + 1px) }"), (b!"/a", b!"@media (width > 1px) { b { c: d } }")] with
    opts := allOn, fo := unaryOps }

/-- `compiled_output` applies to it. -/
example : Acyclic featureEnv (fun a => if a = b!"/m" then 1 else 0) ∧
    ((seqCompile featureEnv 10).map fun sh => (sh.errors, (sh.tab b!"/m").map fun ss => ss.fitB,
      (lookupMap sh.files b!"/m").map cssLine)) =
      some ([], some true, some b!"@media (min-width:11px){b{c:d}}x:visited,x:link{w:111px}") :=
  ⟨acyclic_of_test (env := featureEnv) (rank := fun a => if a = b!"/m" then 1 else 0)
    (files := [(b!"/m", b!"@import 'a'; x:any-link { w: calc(11px + 1px) }"), (b!"/a", b!"@media (width > 1px) { b { c: d } }")])
    rfl (by decide +kernel), by decide +kernel⟩

/-- The number of media queries of the at-rules of a stylesheet. -/
def mediaCounts (ss : Stylesheet) : List (List (Option Nat)) :=
  ss.nodes.map fun
    | .at a => a.preludes.map fun
      | .mql (some l) => some l.queries.length
      | _ => none
    | .rule _ => []

theorem mediaCounts_bare {ss ss' : Stylesheet} (h : ss'.nodes.map Node.bare = ss.nodes.map Node.bare) :
    mediaCounts ss' = mediaCounts ss := by
  have key : ∀ x : Stylesheet, mediaCounts x = mediaCounts ⟨x.nodes.map Node.bare, []⟩ := by
    intro x
    unfold mediaCounts
    rw [List.map_map]
    refine List.map_congr_left fun n _ => ?_
    cases n with
    | rule r => rfl
    | «at» a =>
      show _ = List.map _ (a.preludes.map AtPrelude.bare)
      rw [List.map_map]
      refine List.map_congr_left fun p _ => ?_
      cases p with
      | mql q => cases q with
        | none => rfl
        | some l => simp [AtPrelude.bare, MQList.bare]
      | _ => rfl
  rw [key ss', key ss, h]

/-- **C66, refuted for all stylesheets**: a media query can lose all its parts, and then the output is parsed as an
at-rule without media queries. -/
theorem output_parses_refuted : ∃ ss css, Compiled unaryOps (fun _ => True) ss ∧ (∀ it ∈ ss.items, it.Keeps) ∧ print none ss = .ok css ∧
    ∀ n id ss' lines, parse n css id = .ok ss' lines → ss'.nodes.map Node.bare ≠ ss.nodes.map Node.bare := by
  have h : (transformText unaryOps allOn b!"@media (< width){a{b:c}}").map (fun ss => (ss.keepsB, (print none ss).text?, mediaCounts ss)) =
      some (true, some b!"@media {a{b:c}}", [[some 1]]) := by decide +kernel
  obtain ⟨ss, h1, h2⟩ := Option.map_eq_some_iff.1 h
  simp only [Prod.mk.injEq] at h2
  refine ⟨ss, _, transformText_compiled h1, Stylesheet.keepsB_sound h2.1, PrintRes.text?_some h2.2.1, fun n id ss' lines hp e => ?_⟩
  have h3 := mediaCounts_bare e
  rw [h2.2.2] at h3
  have h4 : ((parse 300 b!"@media {a{b:c}}").sheet?.map fun x => mediaCounts x.1) = some [[none]] := by decide +kernel
  obtain ⟨x, h5, h6⟩ := Option.map_eq_some_iff.1 h4
  obtain ⟨ss0, h7, h8⟩ := parse_ok_id hp
  have h9 := sheet?_some h5
  have := parse_deterministic (n := n) (m := 300) (src := b!"@media {a{b:c}}") (id := 0) (by rw [h7]; simp) (by rw [h9]; simp)
  rw [h7, h9] at this
  cases this
  have h10 : mediaCounts (x.1.setId id) = mediaCounts x.1 := by
    unfold mediaCounts Stylesheet.setId
    rw [List.map_map]
    exact List.map_congr_left fun n _ => by cases n <;> rfl
  rw [h8, h10, h6] at h3
  cases h3

/-! ### C67: conditions on the sources -/

/-- Conditions on a source. -/
def Stylesheet.Ready (ss : Stylesheet) : Prop := ∀ it ∈ ss.items, it.Ready

/-- Conditions on the numbers and the arithmetic of an output. -/
def Stylesheet.Reckoned (ss : Stylesheet) : Prop := ∀ it ∈ ss.items, it.Reckoned

theorem Compiled.fair {fo : FloatOps} {ss : Stylesheet} (h : Compiled fo Stylesheet.Ready ss) : ∀ x ∈ ss.nodes, AllFair x.items := by
  induction h with
  | parsed h hr => exact fun x hx => fair_of_ready ((parse_sheetOk h).nodes x hx) fun it hi => hr it (List.mem_flatMap.2 ⟨x, hx, hi⟩)
  | transformed _ _ h ih ihr => exact transform_fair ih (fun m e d hd => ihr m e d hd) h

/-- What comes from such sources has no construct that printing loses. -/
theorem sources_fit {fo : FloatOps} {ss : Stylesheet} (h : Compiled fo Stylesheet.Ready ss) (hn : ss.Reckoned) : ss.Fit := by
  intro it hi
  obtain ⟨x, hx, hx2⟩ := List.mem_flatMap.1 hi
  exact (h.fair x hx it hx2).fit (hn it hi)

/-- **C67, transforms**: a stylesheet that comes from parsing and transforming sources that are `Ready` is printed as a
text that is parsed as this stylesheet, when its numbers and what is left of the arithmetic can be written. -/
theorem sources_output_parses {fo : FloatOps} {ss : Stylesheet} (h : Compiled fo Stylesheet.Ready ss) (hn : ss.Reckoned) (id : Nat) :
    ∃ css k ss' lines, print none ss = .ok css ∧ (∀ n, k ≤ n → parse n css id = .ok ss' lines) ∧
      ss'.nodes.map Node.bare = ss.nodes.map Node.bare ∧
      ss'.imports.map ImportSpec.value = (importsOf ss.nodes).map ImportSpec.value ∧ print none ss' = .ok css :=
  output_parses h (sources_fit h hn) id

theorem ready_setId {ss : Stylesheet} (h : ss.Ready) (i : Nat) : (ss.setId i).Ready := by
  intro it hi
  obtain ⟨x, hx, hi⟩ := List.mem_flatMap.1 hi
  obtain ⟨y, hy, rfl⟩ := List.mem_map.1 hx
  have h1 : ∀ it ∈ y.items, it.Ready := fun it hi => h it (List.mem_flatMap.2 ⟨y, hy, hi⟩)
  cases y with
  | rule r => exact h1 it hi
  | «at» a =>
    rcases List.mem_cons.1 hi with rfl | hi
    · exact h1 (.at a) (by simp [Node.items, AtRule.items])
    · exact h1 it (List.mem_cons_of_mem _ hi)

/-- **C67**: when all files that a sequential compilation looks at are `Ready`, then whatever the options every file
that is written, and in whose stylesheet the numbers and what is left of the arithmetic can be written, is parsed as
the transformed stylesheet. -/
theorem sources_output {env : CEnv} {rank : Bytes → Nat} (hac : Acyclic env rank) {n : Nat} {sh : Shared}
    (h : seqCompile env n = some sh)
    (hr : ∀ {p a c ss lines}, Asked env p → env.abs p = some a → env.read a = some c → parse env.fuel c = .ok ss lines → ss.Ready)
    {a out : Bytes} (ho : lookupMap sh.files a = some out) :
    ∃ c lines ss' log, CompiledBy env sh.tab a c lines ss' log ∧ sh.tab a = some ss' ∧
      (ss'.Reckoned → ∀ id, ∃ k ss2 lines2, (∀ n, k ≤ n → parse n out id = .ok ss2 lines2) ∧
        ss2.nodes.map Node.bare = ss'.nodes.map Node.bare ∧
        ss2.imports.map ImportSpec.value = (importsOf ss'.nodes).map ImportSpec.value) := by
  obtain ⟨c, lines, ss', log, h1, ht, -, h3⟩ := compiled_output hac h ho
  obtain ⟨hpr, -⟩ := (seqCompile_done hac h).files ho
  have hasked : ∃ p, Asked env p ∧ env.abs p = some a := by
    rcases hpr with ⟨e, h1, h2⟩ | ⟨-, p, h1, h2⟩
    · exact ⟨e, .entry h1, h2⟩
    · exact ⟨p, h1.asked, h2⟩
  obtain ⟨p, hp, ha⟩ := hasked
  have hc : Compiled env.fo Stylesheet.Ready ss' := by
    refine compiled_compiled hac h ?_ _ (Nat.lt_succ_self _) hp ha ht
    intro p a c id ss lines h1 h2 h3 h4
    obtain ⟨ss0, h5, rfl⟩ := parse_ok_id h4
    exact ready_setId (hr h1 h2 h3 h5) id
  exact ⟨c, lines, ss', log, h1, ht, fun hn => h3 (sources_fit hc hn)⟩

/-! #### Examples -/

def Item.readyB : Item → Bool
  | .value (.dim _ _ unit) => decide (Clean unit) && !expLike unit
  | .value (.math _ _ _ _) => true
  | .part (.pclass _ name as) => decide (NoEsc name) && (name != b!"any-link" || match as with | .nil => true | _ => false)
  | it => it.keepsB

theorem Item.readyB_sound {it : Item} (h : it.readyB = true) : it.Ready := by
  have h0 : it.keepsB = true → it.Keeps := Item.keepsB_sound
  cases it with
  | value v =>
    cases v with
    | dim => simpa [Item.readyB, Item.Ready] using h
    | math => trivial
    | _ => exact h0 h
  | part p =>
    cases p with
    | pclass sp name as =>
      simp only [Item.readyB, Bool.and_eq_true, Bool.or_eq_true, bne_iff_ne, decide_eq_true_eq] at h
      refine ⟨h.1, fun e => ?_⟩
      have := h.2.resolve_left fun h => h e
      cases as <;> first | rfl | cases this
    | _ => exact h0 h
  | _ => exact h0 h

/-- A test for the condition of `sources_output`. -/
def readyTest (env : CEnv) (files : List (Bytes × Bytes)) : Bool :=
  files.all fun f =>
    match parse env.fuel f.2 with
    | .ok ss _ => ss.items.all Item.readyB
    | _ => true

theorem ready_of_test {env : CEnv} {files : List (Bytes × Bytes)} (hr : env.read = lookupMap files) (h : readyTest env files = true)
    {a c : Bytes} {ss : Stylesheet} {lines : List Nat} (hc : env.read a = some c) (hp : parse env.fuel c = .ok ss lines) : ss.Ready := by
  rw [hr] at hc
  have := List.all_eq_true.1 h (a, c) (lookupMap_mem hc)
  dsimp only at this
  rw [hp] at this
  exact fun it hi => Item.readyB_sound (List.all_eq_true.1 this it hi)

/-- The sources of `featureEnv` are ready.  Its output is shown above. -/
example {p a c : Bytes} {ss : Stylesheet} {lines : List Nat} (_ : Asked featureEnv p) (_ : featureEnv.abs p = some a)
    (hc : featureEnv.read a = some c) (hp : parse featureEnv.fuel c = .ok ss lines) : ss.Ready :=
  ready_of_test (env := featureEnv)
    (files := [(b!"/m", b!"@import 'a'; x:any-link { w: calc(11px + 1px) }"), (b!"/a", b!"@media (width > 1px) { b { c: d } }")])
    rfl (by decide +kernel) hc hp

/-- **C67, refuted when the sources are only free of constructs that printing loses**: the arguments of `:any-link` are
dropped, and then two words run together (`:linkb`). -/
theorem sources_output_refuted :
    ((parse 300 b!"x:any-link(y)b{c:d}").sheet?.map fun x => (x.1.keepsB, (transform unaryOps allOn none 30 x.1).out?.map fun ss =>
      (print none ss).text?)) = some (true, some (some b!"x:visitedb,x:linkb{c:d}")) := by
  decide +kernel

end Cssc
