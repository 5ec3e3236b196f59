import Verif.Proofs.RoundPrint
import Verif.Proofs.RoundSheet
import Verif.Proofs.RoundCheck
import Verif.Proofs.KeepsCheck
import Verif.Proofs.PrintBare
import Verif.Props.Parser

/-!
# Properties of printing and parsing together

C26, C27, C57: what a printed stylesheet is parsed as.  The class of printable stylesheets and equality up
to positions are in `Spec/Printable.lean`.
-/

namespace Cssc

/-- A stylesheet with every printable construct. -/
def roundSample : Bytes :=
  b!"@import \"a.css\" screen;@custom-media --m (width < 10px);.a .b>c:not(.d,e):nth-child(2n+1)::before ,[href=\"x\"] {margin:-1.5em auto 0 calc(1px*(2/var(--x)) + (1em*2)) !important;*color:#fff;background:url(a.png) no-repeat,rgba(0,0,0,.5);grid-area:1/2}@media screen and (min-width:100px),(1px<=width<=5e3em){a{b:c}}@keyframes x{from{opacity:0}50%{opacity:.5}to{opacity:1}}@font-face{font-family:\"X\",[a b]}"

/-- What `roundSample` is printed as. -/
def roundPrinted : Bytes :=
  b!"@import \"a.css\" screen;@custom-media --m (width<10px);.a .b>c:not(.d,e):nth-child(2n+1)::before,[href=\"x\"]{margin:-1.5em auto 0 calc(1px*(2/var(--x))+(1em*2))!important;*color:#fff;background:url(a.png) no-repeat,rgba(0,0,0,.5);grid-area:1 / 2}@media screen and (min-width:100px),(1px<=width<=5e3em){a{b:c}}@keyframes x{from{opacity:0}50%{opacity:.5}to{opacity:1}}@font-face{font-family:\"X\",[a b]}"

theorem sample_printable : ∃ ss lines, parse 2000 roundSample = .ok ss lines ∧ ss.Printable ∧ print none ss = .ok roundPrinted := by
  have h : (parse 2000 roundSample).sheet?.map (fun x => (x.1.printableB, print none x.1)) = some (true, .ok roundPrinted) := by
    decide +kernel
  cases hs : (parse 2000 roundSample).sheet? with
  | none => rw [hs] at h; cases h
  | some x =>
    rw [hs, Option.map_some, Option.some.injEq, Prod.mk.injEq] at h
    exact ⟨x.1, x.2, sheet?_some hs, Stylesheet.printableB_sound h.1, h.2⟩

/-! ### C57: positions -/

/-- Without a source to map to, what is printed does not depend on the positions in the tree. -/
theorem print_positions {a b : Stylesheet} (h : a.Same b) : print none a = print none b := by
  unfold print
  rw [printNodes_bare _ _ h.nodes]

example : ∃ a b : Stylesheet, a.Same b ∧ a.nodes.map Node.loc ≠ b.nodes.map Node.loc ∧ print none a = .ok b!"a{}" :=
  ⟨⟨[.rule ⟨⟨0, 3⟩, .sels ⟨⟨0, 1⟩, [.mk ⟨0, 1⟩ [.type ⟨0, 1⟩ b!"a"]]⟩, some ⟨⟨1, 3⟩, []⟩⟩], []⟩,
    ⟨[.rule ⟨⟨7, 11⟩, .sels ⟨⟨7, 8⟩, [.mk ⟨7, 8⟩ [.type ⟨7, 8⟩ b!"a"]]⟩, some ⟨⟨9, 11⟩, []⟩⟩], []⟩,
    ⟨rfl, rfl⟩, by decide, by decide +kernel⟩

/-! ### C26: parsing what was printed -/

/-- Printing a printable stylesheet succeeds, and parsing the text gives the stylesheet back, up to
positions. -/
theorem print_parse {ss : Stylesheet} (h : ss.Printable) (id : Nat) :
    ∃ out k ss' lines, print none ss = .ok out ∧ (∀ n, k ≤ n → parse n out id = .ok ss' lines) ∧ ss'.Same ss := by
  obtain ⟨k, ss', lines, hp, hn, hi⟩ := parse_reread h.shape h.lay id
  exact ⟨_, k, ss', lines, print_texts h.shape, hp, hn, by rw [hi, h.imports]⟩

example : ∃ ss : Stylesheet, ss.Printable ∧ print none ss = .ok roundPrinted := by
  obtain ⟨ss, _, _, h⟩ := sample_printable
  exact ⟨ss, h⟩

/-- Whatever the parser returns on the printed text is the stylesheet, up to positions. -/
theorem print_parse_any {ss ss' : Stylesheet} {out : Bytes} {n id : Nat} {lines : List Nat} (h : ss.Printable)
    (hp : print none ss = .ok out) (hq : parse n out id = .ok ss' lines) : ss'.Same ss := by
  obtain ⟨out', k, s, l, e, hk, hs⟩ := print_parse h id
  rw [hp] at e
  cases e
  have hk := hk k (Nat.le_refl k)
  have := parse_deterministic (n := n) (m := k) (by rw [hq]; simp) (by rw [hk]; simp)
  rw [hq, hk] at this
  cases this
  exact hs

/-- Printing, parsing and printing again gives the same text. -/
theorem print_stable {ss : Stylesheet} (h : ss.Printable) (id : Nat) :
    ∃ out k ss' lines, print none ss = .ok out ∧ (∀ n, k ≤ n → parse n out id = .ok ss' lines) ∧ print none ss' = .ok out := by
  obtain ⟨out, k, s, l, e, hk, hs⟩ := print_parse h id
  exact ⟨out, k, s, l, e, hk, by rw [print_positions hs, e]⟩

/-- Printable stylesheets that are printed alike are the same up to positions. -/
theorem print_injective {a b : Stylesheet} (ha : a.Printable) (hb : b.Printable) (h : print none a = print none b) : a.Same b := by
  obtain ⟨out, k, s, l, e, hk, hs⟩ := print_parse ha 0
  have hs' := print_parse_any hb (h ▸ e) (hk k (Nat.le_refl k))
  exact ⟨hs.nodes.symm.trans hs'.nodes, hs.imports.symm.trans hs'.imports⟩

/-! ### C27: printing what was parsed -/

/-- A text that is parsed and printed can be parsed as the same stylesheet. -/
def PrintKeeps (src : Bytes) : Prop :=
  ∀ n ss lines out, parse n src = .ok ss lines → print none ss = .ok out →
    ∃ m ss' lines', parse m out = .ok ss' lines' ∧ ss'.Same ss

/-- The printed text does not always mean the same: the selectors `10%,20%` of a keyframe are printed as
`10%20%`, which is parsed as `20%`. -/
theorem print_keeps_refuted : ¬ ∀ src, PrintKeeps src := by
  intro h
  have h0 : (parse 100 b!"@keyframes a{10%,20%{}}").sheet?.map (fun x => print none x.1) = some (.ok b!"@keyframes a{10%20%{}}") := by
    decide +kernel
  have h1 : (parse 100 b!"@keyframes a{10%20%{}}").sheet?.map (fun x => print none x.1) = some (.ok b!"@keyframes a{20%{}}") := by
    decide +kernel
  cases hs : (parse 100 b!"@keyframes a{10%,20%{}}").sheet? with
  | none => rw [hs] at h0; cases h0
  | some x =>
    rw [hs, Option.map_some, Option.some.injEq] at h0
    obtain ⟨m, ss', lines', hm, hsame⟩ := h _ _ _ _ _ (sheet?_some hs) h0
    cases ht : (parse 100 b!"@keyframes a{10%20%{}}").sheet? with
    | none => rw [ht] at h1; cases h1
    | some y =>
      rw [ht, Option.map_some, Option.some.injEq] at h1
      have := parse_deterministic (n := m) (m := 100) (by rw [hm]; simp) (by rw [sheet?_some ht]; simp)
      rw [hm, sheet?_some ht] at this
      injection this with e1 e2
      subst e1
      rw [print_positions hsame, h0, PrintRes.ok.injEq] at h1
      exact absurd h1 (by decide)

/-- Nor can the printed text always be parsed: a string is written between `"`, whatever it contains. -/
theorem print_reparse_refuted : ¬ ∀ src n ss lines out, parse n src = .ok ss lines → print none ss = .ok out →
    ∃ m ss' lines', parse m out = .ok ss' lines' := by
  intro h
  have h0 : (parse 100 b!"a{b:'\"'}").sheet?.map (fun x => print none x.1) = some (.ok b!"a{b:\"\"\"}") := by decide +kernel
  have h1 : (parse 100 b!"a{b:\"\"\"}").err?.isSome = true := by decide +kernel
  cases hs : (parse 100 b!"a{b:'\"'}").sheet? with
  | none => rw [hs] at h0; cases h0
  | some x =>
    rw [hs, Option.map_some, Option.some.injEq] at h0
    obtain ⟨m, ss', lines', hm⟩ := h _ _ _ _ _ (sheet?_some hs) h0
    cases ht : parse 100 b!"a{b:\"\"\"}" with
    | error e l =>
      have := parse_deterministic (n := m) (m := 100) (by rw [hm]; simp) (by rw [ht]; simp)
      rw [hm, ht] at this
      cases this
    | _ => rw [ht] at h1; cases h1

/-- Different stylesheets can be printed alike: the comparison of an attribute selector is not written, nor
are the spaces between the arguments of a function. -/
theorem print_loses : (parse 100 b!"a[b^=c]{}").sheet?.map (fun x => print none x.1) = some (.ok b!"a[b=c]{}") ∧
    (parse 100 b!"a{b:rgb(1 2 3)}").sheet?.map (fun x => print none x.1) = some (.ok b!"a{b:rgb(123)}") := by decide +kernel

theorem importsOf_values (ns : List Node) : (importsOf ns).map ImportSpec.value = importValues ns := by
  induction ns with
  | nil => rfl
  | cons n ns ih =>
    unfold importsOf importValues at ih ⊢
    rw [List.filterMap_cons, List.filterMap_cons]
    cases n with
    | rule r => exact ih
    | «at» a =>
      obtain ⟨src, sp, name, prs, blk⟩ := a
      dsimp only [Node.importValue]
      cases prs with
      | nil => rw [ite_self]; exact ih
      | cons p prs =>
        cases p with
        | str psp v =>
          dsimp only
          by_cases hn : name = b!"import"
          · rw [if_pos hn, if_pos hn, List.map_cons, ih]
          · rw [if_neg hn, if_neg hn, ih]
        | _ => rw [ite_self]; exact ih

/-- The part of C27 that holds: a text whose stylesheet has a printable shape, and whose tokens do not run into
each other, is printed as a text that means the same, and printing again does not change it.  Missing: texts
whose stylesheet is not in the class, most of which the refutations above are about. -/
theorem print_keeps_partial {n id : Nat} {src : Bytes} {ss : Stylesheet} {lines : List Nat} (hp : parse n src = .ok ss lines)
    (h : ∀ n ∈ ss.nodes, n.Shape) (hl : Lay (nodesToks ss.nodes)) :
    ∃ out k ss' lines', print none ss = .ok out ∧ (∀ m, k ≤ m → parse m out id = .ok ss' lines') ∧ ss'.Same ss ∧
      print none ss' = .ok out := by
  have h : ss.Printable := ⟨h, hl, by rw [(imports_exact hp).1, importsOf_values]⟩
  obtain ⟨out, k, s, l, e, hk, hs⟩ := print_parse h id
  exact ⟨out, k, s, l, e, hk, hs, by rw [print_positions hs, e]⟩

example : ∃ n ss lines, parse n roundSample = .ok ss lines ∧ (∀ n ∈ ss.nodes, n.Shape) ∧ Lay (nodesToks ss.nodes) := by
  obtain ⟨ss, l, h1, h2, _⟩ := sample_printable
  exact ⟨_, ss, l, h1, h2.shape, h2.lay⟩

/-- The conditions of the previous theorem, from conditions on the single nodes of the tree (`Spec/Keeps.lean`): a
text whose stylesheet has none of the constructs listed there is printed as a text that means the same, and
printing again does not change it. -/
theorem print_keeps_nodes_partial {n id : Nat} {src : Bytes} {ss : Stylesheet} {lines : List Nat} (hp : parse n src = .ok ss lines)
    (h : ss.Keeps) :
    ∃ out k ss' lines', print none ss = .ok out ∧ (∀ m, k ≤ m → parse m out id = .ok ss' lines') ∧ ss'.Same ss ∧
      print none ss' = .ok out := by
  obtain ⟨h1, h2⟩ := sheet_keeps (parse_sheetOk hp) h
  exact print_keeps_partial hp h1 h2

/-- A text with non-ASCII names, and with comments, white space and the other quotes, which the printed text does not have. -/
def keepSample : Bytes :=
  b!"@import url(a.css)  screen;\n@custom-media --m (width < 10px);\n/* x */ .größe  .b > c:not(.d , e):nth-child(2n + 1)::before , [href=\"x\"] {\n  margin : -1.5em  auto 0 calc(1px * (2 / var(--ü)) + ((1em) - (2px))) ! important ;\n  *color: #fff; background: URL( a b.png) no-repeat, rgba( 0, 0, 0, .5 ); grid-area: 1/2; }\n@media screen  and (min-width:100px), ( 1px <= width <= 5e3em ) { a { b: 'c' /**/ } }\n@keyframes -é { from { opacity: 0 } 50% { opacity: .5 } to { opacity: 1; } }\n@font-face { font-family: \"X\", [ a b ] }"

/-- What `keepSample` is printed as. -/
def keepPrinted : Bytes :=
  b!"@import \"a.css\" screen;@custom-media --m (width<10px);.größe .b > c:not(.d, e):nth-child(2n+1)::before,[href=\"x\"]{margin:-1.5em auto 0 calc(1px*(2/var(--ü))+((1em)-(2px)))!important;*color:#fff;background:url(a b.png) no-repeat,rgba(0,0,0,.5);grid-area:1 / 2}@media screen and (min-width:100px),(1px<=width<=5e3em){a{b:\"c\"}}@keyframes -é{from{opacity:0}50%{opacity:.5}to{opacity:1}}@font-face{font-family:\"X\",[a b]}"

example : ∃ n ss lines, parse n keepSample = .ok ss lines ∧ ss.Keeps ∧ print none ss = .ok keepPrinted := by
  have h : (parse 2000 keepSample).sheet?.map (fun x => (x.1.keepsB, print none x.1)) = some (true, .ok keepPrinted) := by
    decide +kernel
  cases hs : (parse 2000 keepSample).sheet? with
  | none => rw [hs] at h; cases h
  | some x =>
    rw [hs, Option.map_some, Option.some.injEq, Prod.mk.injEq] at h
    exact ⟨2000, x.1, x.2, sheet?_some hs, Stylesheet.keepsB_sound h.1, h.2⟩

end Cssc
