import Verif.Proofs.CompileTables
import Verif.Props.Truth
import Verif.Props.LineTable
import Verif.Proofs.TransformNodes

/-!
# The source maps that Compile writes (C80)
-/

namespace Cssc

/-! ### Specification -/

/-- The places of a rule or at-rule and of the rules inside of it. -/
def Node.ruleSpans : Node → List Span
  | .rule r => [r.sp]
  | .at a => a.sp :: (match a.block with | .rules _ rs => rs.map QRule.sp | _ => [])

/-- What is written for the file `a` with the content `c` is CSS, followed by a comment with a source map that names
the file and contains its text.  The mappings, read as the format prescribes, are one entry for each rule of the CSS, in
order, with the line and column of the output and the line and column of a rule of the file.  The rules of the output
are made of the rules of the file, in order. -/
def MapTrue (fuel : Nat) (a c out : Bytes) : Prop :=
  ∃ ss lines ns css b64 maps marks, parse fuel c = .ok ss lines ∧
    Pieces (fun n out => ∀ n' ∈ out, n'.ruleSpans = n.ruleSpans) ss.nodes ns ∧
    out = css ++ b!"\n/*# sourceMappingURL=data:application/json;base64," ++ b64 ++ b!" */\n" ∧
    (∀ b ∈ b64, isB64 b = true ∨ b = 61) ∧
    base64Read b64 = some (sourceMapJson a (jsonString c) maps) ∧
    NodesAt [] ns marks css ∧ decodeMappings maps = some (marks.map (entryFor c))

/-! ### Transforming keeps the places of rules -/

/-- Nothing is put in for an import. -/
def NoRepl (repl : Replacements) : Prop := repl = none ∨ repl = some []

theorem transformNode_places {fo : FloatOps} {o : TOpts} {repl : Replacements} (hr : NoRepl repl) {n : Nat} {x : Node}
    {s s' : TSt} {out : List Node} (h : transformNode fo o repl n x s = .ok out s') : ∀ y ∈ out, y.ruleSpans = x.ruleSpans := by
  cases n with
  | zero => cases h
  | succ n =>
    have key : tw True (transformNode fo o repl (n + 1) x) (fun out _ => ∀ y ∈ out, y.ruleSpans = x.ruleSpans) s := by
      cases x with
      | rule r =>
        rw [transformNode]
        unfold transformRule
        split
        · split
          · exact tw_crash trivial
          · split
            · exact tw_crash trivial
            · refine tw_seq (R := fun _ _ => True) (by unfold tw; split <;> trivial) fun _ _ _ => ?_
              refine tw_seq (R := fun _ _ => True) (by unfold tw; split <;> trivial) fun _ _ _ => ?_
              split
              · exact tw_pure (by simp)
              · refine tw_pure fun y hy => ?_
                rw [List.mem_singleton.1 hy]; rfl
        · exact tw_crash trivial
        · exact tw_seq (R := fun _ _ => True) (by unfold tw; split <;> trivial) fun _ _ _ => tw_crash trivial
      | «at» a =>
        rw [transformNode]
        unfold transformAt
        split
        · rcases hr with rfl | rfl
          · exact tw_pure (by simp)
          · exact tw_pure (by simp)
        · split
          · exact tw_seq (R := fun _ _ => True) (by unfold tw; split <;> trivial) fun _ _ _ => tw_pure (by simp)
          · split
            · split
              · refine tw_seq (R := fun _ _ => True) (by unfold tw; split <;> trivial) fun _ _ _ => tw_pure fun y hy => ?_
                rw [List.mem_singleton.1 hy]; rfl
              · exact tw_crash trivial
            · exact tw_pure (by simp)
    exact tw_ok key h

theorem transform_places {fo : FloatOps} {o : TOpts} {repl : Replacements} (hr : NoRepl repl) {n : Nat} {ss ss' : Stylesheet}
    {s : TSt} (h : transform fo o repl n ss = .ok ss' s) :
    Pieces (fun n out => ∀ n' ∈ out, n'.ruleSpans = n.ruleSpans) ss.nodes ss'.nodes := by
  unfold transform at h
  split at h
  · rename_i nodes s1 e
    cases h
    exact (mapConcat_pieces (f := transformNode fo o repl n) (I := fun _ => True) trivial
      (fun x _ s s' out _ h => ⟨transformNode_places hr h, trivial⟩) e).1
  · cases h
  · cases h

theorem Pieces.exists {α β : Type} {R : α → List β → Prop} {xs : List α} {ys : List β} (h : Pieces R xs ys) :
    ∀ y ∈ ys, ∃ x ∈ xs, ∃ out, R x out ∧ y ∈ out := by
  induction h with
  | nil => intro y hy; cases hy
  | cons hr _ ih =>
    intro y hy
    rcases List.mem_append.1 hy with hy | hy
    · exact ⟨_, List.mem_cons_self .., _, hr, hy⟩
    · obtain ⟨x, h1, h2⟩ := ih y hy
      exact ⟨x, List.mem_cons_of_mem _ h1, h2⟩

theorem Node.startsIn_spans {n : Nat} {x : Node} : x.startsIn n ↔ ∀ sp ∈ x.ruleSpans, sp.start ≤ n := by
  cases x with
  | rule r => simp [Node.startsIn, Node.ruleSpans]
  | «at» a =>
    unfold Node.startsIn Node.ruleSpans
    cases hb : a.block with
    | rules sp rs => simp [hb]
    | _ => simp [hb]

theorem setId_ruleSpans (i : Nat) (x : Node) : (x.setId i).ruleSpans = x.ruleSpans := by cases x <;> rfl

theorem pieces_map {α β : Type} {R R' : α → List β → Prop} {f : α → α} (h : ∀ x out, R (f x) out → R' x out) :
    ∀ {xs : List α} {ys : List β}, Pieces R (xs.map f) ys → Pieces R' xs ys := by
  intro xs
  induction xs with
  | nil => intro ys hp; cases hp; exact .nil
  | cons x xs ih =>
    intro ys hp
    cases hp with
    | cons h1 h2 => exact .cons (h _ _ h1) (ih h2)

/-! ### C80 -/

/-- C80 under every schedule in which no number is given twice, for a file that was parsed once, has no declaration that
is kept as text, and nothing inlined into it. -/
theorem map_true_partial {env : CEnv} {st : CSt} (h : Reached env st) (hd : Distinct st.sh) {a c out : Bytes}
    (hf : (a, out) ∈ st.sh.files) (hc : env.read a = some c) (honce : st.sh.parses.count a ≤ 1)
    (hss : ∀ ss lines, parse env.fuel c = .ok ss lines → ss.raws = [] ∧ (env.opts.importRules = .inline → ss.imports = []))
    (hsize : c.length + 2 < 1073741824) (hout : out.length < 1073741824) : MapTrue env.fuel a c out := by
  obtain ⟨p, c', b, ss', log, k, h1, h2, h3, h4, h5, h6, h7⟩ := h.filesT (fun _ => hd) a out hf
  rw [hc] at h3; cases h3
  obtain ⟨rfl, hk⟩ := h5 trivial
  have hk : k = 1 := by omega
  subst hk
  cases h4 with
  | mk fileOf logOf i1 i2 i3 i4 i5 i6 i7 i8 =>
    rename_i c2 id ss lines repl s
    rw [hc] at i3; cases i3
    obtain ⟨ss0, j1, j2⟩ := parse_ok_id i4
    obtain ⟨hraw, himp⟩ := hss _ _ j1
    have hrepl : NoRepl (if env.opts.importRules = .inline then some repl else none) := by
      split
      · rename_i hin
        right
        have himp' : ss.imports = [] := by rw [j2]; unfold Stylesheet.setId; rw [himp hin]; rfl
        cases repl with
        | nil => rfl
        | cons kv _ =>
          obtain ⟨imp, hm, _⟩ := i5 kv (List.mem_cons_self ..)
          rw [himp'] at hm; cases hm
      · exact .inl rfl
    have hpl := transform_places hrepl i8
    have htab : tables env c 1 = lineStarts c := by
      unfold tables
      rw [List.replicate_one, List.flatten_singleton, tableOf_ok i4, line_table_partial j1 hraw]
    rw [htab] at h7
    have hin : ∀ n ∈ ss'.nodes, n.startsIn c.length := by
      intro n hn
      obtain ⟨x, x1, o, x2, x3⟩ := hpl.exists n hn
      rw [Node.startsIn_spans, x2 n x3, ← Node.startsIn_spans]
      exact (parse_sheetOk i4).startsIn x x1
    obtain ⟨css, b64, m1, m2, m3, -⟩ := map_only_appends h7
    have hlen : css.length < 1073741824 := by
      rw [m2] at hout
      simp only [List.length_append] at hout
      omega
    obtain ⟨b64', maps, marks, n1, n2, n3, n4⟩ := map_exact (source := ⟨b, c, lineStarts c⟩) ⟨rfl, hsize⟩ hin m1 hlen
    rw [h7] at n1
    cases n1
    have he : b64 = b64' := by
      have := List.append_cancel_right m2
      exact (List.append_cancel_left this).symm
    subst he
    refine ⟨ss0, lines, ss'.nodes, css, b64, maps, marks, j1, ?_, rfl, m3, n2, n3, n4⟩
    rw [j2] at hpl
    exact pieces_map (fun x out hx n' hn' => by rw [hx n' hn', setId_ruleSpans]) hpl

/-- C80 for sequential compilations of acyclic imports: every file is parsed once. -/
theorem map_true_seq_partial {env : CEnv} {rank : Bytes → Nat} (hac : Acyclic env rank) {n : Nat} {sh : Shared}
    (h : seqCompile env n = some sh) {a c out : Bytes} (hf : (a, out) ∈ sh.files) (hc : env.read a = some c)
    (hss : ∀ ss lines, parse env.fuel c = .ok ss lines → ss.raws = [] ∧ (env.opts.importRules = .inline → ss.imports = []))
    (hsize : c.length + 2 < 1073741824) (hout : out.length < 1073741824) : MapTrue env.fuel a c out := by
  obtain ⟨st, h1, -, rfl⟩ := seqCompile_reach h
  have hd := seqCompile_distinct h
  obtain ⟨p, c', ss, log, lines, _, _, i3, i4, _⟩ := written_true_distinct_partial h1 hd hf
  cases i4 with
  | mk fileOf logOf k1 k2 k3 k4 k5 k6 k7 k8 =>
    rw [hc] at k3; cases k3
    obtain ⟨ss0, j1, _⟩ := parse_ok_id k4
    exact map_true_partial h1 hd hf hc ((parsed_once hac h).1 hc j1) hss hsize hout

/-! ### Wrong maps -/

theorem split_last {x y r s : Bytes} (hr : 10 ∉ r) (hs : 10 ∉ s) (h : x ++ 10 :: r = y ++ 10 :: s) : x = y ∧ r = s := by
  rcases List.append_eq_append_iff.1 h with ⟨a, h1, h2⟩ | ⟨a, h1, h2⟩
  · cases a with
    | nil => rw [List.append_nil] at h1; exact ⟨h1.symm, (List.cons.inj h2).2⟩
    | cons z a =>
      obtain ⟨_, h3⟩ := List.cons.inj h2
      exact absurd (by rw [h3]; simp) hr
  · cases a with
    | nil => rw [List.append_nil] at h1; exact ⟨h1, (List.cons.inj h2).2.symm⟩
    | cons z a =>
      obtain ⟨_, h3⟩ := List.cons.inj h2
      exact absurd (by rw [h3]; simp) hs

/-- There is one way to read an output. -/
theorem MapTrue.entries {fuel : Nat} {a c css b64 maps : Bytes}
    (h : MapTrue fuel a c (css ++ b!"\n/*# sourceMappingURL=data:application/json;base64," ++ b64 ++ b!" */\n"))
    (h1 : 10 ∉ b64) (h2 : base64Read b64 = some (sourceMapJson a (jsonString c) maps)) :
    ∃ ss lines ns marks, parse fuel c = .ok ss lines ∧
      Pieces (fun n out => ∀ n' ∈ out, n'.ruleSpans = n.ruleSpans) ss.nodes ns ∧ NodesAt [] ns marks css ∧
      decodeMappings maps = some (marks.map (entryFor c)) := by
  obtain ⟨ss, lines, ns, css', b64', maps', marks, i1, i2, i3, i4, i5, i6, i7⟩ := h
  have h1' : 10 ∉ b64' := fun h => by
    rcases i4 10 h with h | h
    · revert h; decide
    · revert h; decide
  have e : css ++ 10 :: (b!"/*# sourceMappingURL=data:application/json;base64," ++ b64 ++ b!" */") =
      css' ++ 10 :: (b!"/*# sourceMappingURL=data:application/json;base64," ++ b64' ++ b!" */") := by
    apply List.append_cancel_right (bs := [10])
    simpa using i3
  obtain ⟨rfl, e2⟩ := split_last (by simpa using h1) (by simpa using h1') e
  have e3 : b64 = b64' := by
    have := List.append_cancel_right e2
    exact List.append_cancel_left this
  subst e3
  rw [h2] at i5
  have e4 : maps = maps' := by
    have := Option.some.inj i5
    unfold sourceMapJson at this
    have := List.append_cancel_right this
    exact List.append_cancel_left this
  subst e4
  exact ⟨ss, lines, ns, marks, i1, i2, i6, i7⟩

/-- Every entry is about a rule. -/
theorem NodesAt.places {before css : Bytes} {ns : List Node} {marks : List (Bytes × Span)} (h : NodesAt before ns marks css) :
    ∀ m ∈ marks, ∃ n ∈ ns, m.2 ∈ n.ruleSpans := by
  have hrules : ∀ {before css : Bytes} {rs : List QRule} {marks : List (Bytes × Span)}, RulesAt before rs marks css →
      ∀ m ∈ marks, m.2 ∈ rs.map QRule.sp := by
    intro before css rs marks h
    induction h with
    | nil => intro m hm; cases hm
    | cons _ _ ih =>
      intro m hm
      rcases List.mem_cons.1 hm with rfl | hm
      · exact List.mem_cons_self ..
      · exact List.mem_cons_of_mem _ (ih m hm)
  induction h with
  | nil => intro m hm; cases hm
  | rule _ _ ih =>
    intro m hm
    rcases List.mem_cons.1 hm with rfl | hm
    · exact ⟨_, List.mem_cons_self .., List.mem_cons_self ..⟩
    · obtain ⟨n, h1, h2⟩ := ih m hm
      exact ⟨n, List.mem_cons_of_mem _ h1, h2⟩
  | flat _ _ _ ih =>
    intro m hm
    rcases List.mem_cons.1 hm with rfl | hm
    · exact ⟨_, List.mem_cons_self .., List.mem_cons_self ..⟩
    · obtain ⟨n, h1, h2⟩ := ih m hm
      exact ⟨n, List.mem_cons_of_mem _ h1, h2⟩
  | nested hb _ hi _ ih =>
    intro m hm
    rcases List.mem_cons.1 hm with rfl | hm
    · exact ⟨_, List.mem_cons_self .., List.mem_cons_self ..⟩
    · rcases List.mem_append.1 hm with hm | hm
      · refine ⟨_, List.mem_cons_self .., ?_⟩
        unfold Node.ruleSpans
        dsimp only
        rw [hb]
        exact List.mem_cons_of_mem _ (hrules hi m hm)
      · obtain ⟨n, h1, h2⟩ := ih m hm
        exact ⟨n, List.mem_cons_of_mem _ h1, h2⟩

/-- The same file is given as two entries. -/
def twiceGiven : CEnv := exEnv [b!"a", b!"a"] .passthrough [(b!"/a", b!"x{y:z}")]

/-- C80 is false.  Two goroutines parse the same source, so that its line table is made twice; the map of a file with
one line points to its second line. -/
theorem map_true_twice_refuted : ∃ st out, Reached twiceGiven st ∧ st.main = .done ∧ Distinct st.sh ∧ st.sh.errors = [] ∧
    st.sh.files = [(b!"/a", out)] ∧ ¬ MapTrue twiceGiven.fuel b!"/a" b!"x{y:z}" out := by
  obtain ⟨st, h1, h2⟩ := reach_of_check (env := twiceGiven)
    (cs := [.main] ++ steps 0 9 ++ [.main] ++ steps 1 7 ++ steps 0 40 ++ steps 1 40 ++ [.main, .main, .print 0, .main])
    (f := fun st => decide (st.main = .done ∧ st.sh.sources = [(b!"/a", 0)] ∧ st.sh.errors = [] ∧ st.sh.files =
      [(b!"/a", b!"x{y:z}" ++ b!"\n/*# sourceMappingURL=data:application/json;base64," ++ b!"eyJ2ZXJzaW9uIjogMywiZmlsZSI6Ii9hIiwic291cmNlUm9vdCI6IiIsICJzb3VyY2VzIjogWyJzb3VyY2UuY3NzIl0sICJzb3VyY2VzQ29udGVudCI6WyJ4e3k6en0iXSwibmFtZXMiOltdLCJtYXBwaW5ncyI6IkFBQ0EifQ==" ++ b!" */\n")]))
    (by decide +kernel)
  obtain ⟨h2, h3, h4, h5⟩ := of_decide_eq_true h2
  refine ⟨st, _, h1, h2, by unfold Distinct; rw [h3]; decide, h4, h5, fun h => ?_⟩
  obtain ⟨ss, lines, ns, marks, -, -, -, h6⟩ := h.entries (maps := b!"AACA") (by decide +kernel) (by decide +kernel)
  rw [show decodeMappings b!"AACA" = some [⟨0, 0, 0, 1, 0⟩] by decide +kernel] at h6
  have h6 := Option.some.inj h6
  cases marks with
  | nil => cases h6
  | cons m marks =>
    have h7 : 1 = (lineOf b!"x{y:z}" m.2.start : Int) - 1 := congrArg MapEntry.origLine (List.cons.inj h6).1
    have h8 : (b!"x{y:z}".take m.2.start).count 10 = 0 :=
      List.count_eq_zero.2 fun h => by
        have := List.mem_of_mem_take h
        revert this; decide
    unfold lineOf at h7
    omega

/-- One file is inlined into another. -/
def mapInline : CEnv := exEnv [b!"m"] .inline [(b!"/m", b!"@import \"a\";"), (b!"/a", b!"\n\nx{y:z}")]

/-- C80 is false with inlined imports: places in the imported file are given as places in the importing one, here
inside of the word `@import`. -/
theorem map_true_inline_refuted : ∃ sh out, seqCompile mapInline 10 = some sh ∧ sh.errors = [] ∧
    sh.files = [(b!"/m", out)] ∧ ¬ MapTrue mapInline.fuel b!"/m" b!"@import \"a\";" out := by
  have h : ((seqCompile mapInline 10).map fun sh => (sh.errors, sh.files)) = some ([],
      [(b!"/m", b!"x{y:z}" ++ b!"\n/*# sourceMappingURL=data:application/json;base64," ++ b!"eyJ2ZXJzaW9uIjogMywiZmlsZSI6Ii9tIiwic291cmNlUm9vdCI6IiIsICJzb3VyY2VzIjogWyJzb3VyY2UuY3NzIl0sICJzb3VyY2VzQ29udGVudCI6WyJAaW1wb3J0IFwiYVwiOyJdLCJuYW1lcyI6W10sIm1hcHBpbmdzIjoiQUFBRSJ9" ++ b!" */\n")]) := by
    decide +kernel
  obtain ⟨sh, h1, h2⟩ := Option.map_eq_some_iff.1 h
  obtain ⟨h2, h3⟩ := Prod.mk.inj h2
  refine ⟨sh, _, h1, h2, h3, fun h => ?_⟩
  obtain ⟨ss, lines, ns, marks, h4, h5, h6, h7⟩ := h.entries (maps := b!"AAAE") (by decide +kernel) (by decide +kernel)
  rw [show decodeMappings b!"AAAE" = some [⟨0, 0, 0, 0, 2⟩] by decide +kernel] at h7
  have h7 := Option.some.inj h7
  have hall : ((parse mapInline.fuel b!"@import \"a\";").sheet?.map fun x => x.1.nodes.all fun n => n.ruleSpans.all fun sp => sp.start == 0) =
      some true := by decide +kernel
  rw [h4] at hall
  have hall := Option.some.inj hall
  cases marks with
  | nil => cases h7
  | cons m marks =>
    obtain ⟨n, n1, n2⟩ := h6.places m (List.mem_cons_self ..)
    obtain ⟨x, x1, o, x2, x3⟩ := h5.exists n n1
    have hx := List.all_eq_true.1 (List.all_eq_true.1 hall x x1) m.2 (by rw [← x2 _ x3]; exact n2)
    have h8 : 2 = (colOf b!"@import \"a\";" m.2.start : Int) - 1 := congrArg MapEntry.origCol (List.cons.inj h7).1
    rw [beq_iff_eq.1 hx] at h8
    revert h8; decide

/-- A declaration that is kept as text, and a rule behind it. -/
def mapRaw : CEnv := exEnv [b!"a"] .passthrough [(b!"/a", b!"a{e f\n;}g{h:i}")]

/-- C80 is false with declarations that are kept as text (C08): the map points to the third of two lines. -/
theorem map_true_raw_refuted : ∃ sh out, seqCompile mapRaw 10 = some sh ∧ sh.errors = [] ∧
    sh.files = [(b!"/a", out)] ∧ ¬ MapTrue mapRaw.fuel b!"/a" b!"a{e f\n;}g{h:i}" out := by
  have h : ((seqCompile mapRaw 10).map fun sh => (sh.errors, sh.files)) = some ([],
      [(b!"/a", b!"a{e f\n;}g{h:i}" ++ b!"\n/*# sourceMappingURL=data:application/json;base64," ++ b!"eyJ2ZXJzaW9uIjogMywiZmlsZSI6Ii9hIiwic291cmNlUm9vdCI6IiIsICJzb3VyY2VzIjogWyJzb3VyY2UuY3NzIl0sICJzb3VyY2VzQ29udGVudCI6WyJhe2UgZlxuO31ne2g6aX0iXSwibmFtZXMiOltdLCJtYXBwaW5ncyI6IkFBQUE7RUFFRSJ9" ++ b!" */\n")]) := by
    decide +kernel
  obtain ⟨sh, h1, h2⟩ := Option.map_eq_some_iff.1 h
  obtain ⟨h2, h3⟩ := Prod.mk.inj h2
  refine ⟨sh, _, h1, h2, h3, fun h => ?_⟩
  obtain ⟨ss, lines, ns, marks, -, -, -, h7⟩ := h.entries (maps := b!"AAAA;EAEE") (by decide +kernel) (by decide +kernel)
  rw [show decodeMappings b!"AAAA;EAEE" = some [⟨0, 0, 0, 0, 0⟩, ⟨1, 2, 0, 2, 2⟩] by decide +kernel] at h7
  have h7 := Option.some.inj h7
  match marks, h7 with
  | [], h7 => cases h7
  | [_], h7 => cases (List.cons.inj h7).2
  | _ :: m :: _, h7 =>
    have h8 : 2 = (lineOf b!"a{e f\n;}g{h:i}" m.2.start : Int) - 1 :=
      congrArg MapEntry.origLine (List.cons.inj (List.cons.inj h7).2).1
    have h9 : (b!"a{e f\n;}g{h:i}".take m.2.start).count 10 ≤ 1 :=
      Nat.le_trans ((List.take_sublist _ _).count_le 10) (by decide)
    unfold lineOf at h8
    omega

/-! ### A map that is right -/

/-- Two files, the second one followed, with rules on several lines. -/
def mapFollow : CEnv := exEnv [b!"m"] .follow
  [(b!"/m", b!"@import \"a\";\nx{y:z}\n@media p{\nu{v:w}}"), (b!"/a", b!"\n\nx{y:z}")]

example : ∃ sh m a, seqCompile mapFollow 10 = some sh ∧ sh.files = [(b!"/m", m), (b!"/a", a)] ∧
    MapTrue mapFollow.fuel b!"/m" b!"@import \"a\";\nx{y:z}\n@media p{\nu{v:w}}" m ∧
    MapTrue mapFollow.fuel b!"/a" b!"\n\nx{y:z}" a := by
  have hac : Acyclic mapFollow (fun a => if a = b!"/m" then 1 else 0) :=
    acyclic_of_test (env := mapFollow) (rank := fun a => if a = b!"/m" then 1 else 0) (files := [(b!"/m", b!"@import \"a\";\nx{y:z}\n@media p{\nu{v:w}}"), (b!"/a", b!"\n\nx{y:z}")])
      rfl (by decide +kernel)
  have h : ((seqCompile mapFollow 10).map fun sh => sh.files.map fun kv => (kv.1, decide (kv.2.length < 1000))) =
      some [(b!"/m", true), (b!"/a", true)] := by decide +kernel
  obtain ⟨sh, h1, h2⟩ := Option.map_eq_some_iff.1 h
  match hf : sh.files, h2 with
  | [], h2 => cases h2
  | [_], h2 => cases (List.cons.inj h2).2
  | _ :: _ :: _ :: _, h2 => cases (List.cons.inj (List.cons.inj h2).2).2
  | [(k1, m), (k2, a)], h2 =>
    obtain ⟨e1, e2⟩ := List.cons.inj h2
    have e2 := (List.cons.inj e2).1
    have hk1 : k1 = b!"/m" := congrArg Prod.fst e1
    have hk2 : k2 = b!"/a" := congrArg Prod.fst e2
    have hm : m.length < 1000 := of_decide_eq_true (congrArg Prod.snd e1)
    have ha : a.length < 1000 := of_decide_eq_true (congrArg Prod.snd e2)
    subst hk1 hk2
    have hraw : ∀ c, ((parse mapFollow.fuel c).sheet?.map fun x => x.1.raws) = some [] → ∀ ss lines,
        parse mapFollow.fuel c = .ok ss lines → ss.raws = [] ∧ (mapFollow.opts.importRules = .inline → ss.imports = []) := by
      intro c h ss lines hp
      rw [hp] at h
      exact ⟨Option.some.inj h, fun h => by cases h⟩
    refine ⟨sh, m, a, h1, hf, ?_, ?_⟩
    · exact map_true_seq_partial hac h1 (by rw [hf]; simp) (by decide) (hraw _ (by decide +kernel)) (by decide) (by omega)
    · exact map_true_seq_partial hac h1 (by rw [hf]; simp) (by decide) (hraw _ (by decide +kernel)) (by decide) (by omega)

end Cssc
