import Verif.Proofs.LineTable
import Verif.Props.Parser
import Verif.Props.Printer

/-!
# The line table after parsing: C08

The specification is `lineStarts` (`Props/Lexer.lean`): 0 and every offset after a newline, in order.
-/

namespace Cssc

/-- The state in which the parser starts. -/
theorem newLexer_lines {src : Bytes} {id : Nat} {s : St} (h : newLexer (St.init src id) = .ok () s) : RunInv src s :=
  run_inv (.start h)

theorem parse_table {n : Nat} {src : Bytes} {id : Nat} {ss : Stylesheet} {lines : List Nat}
    (h : parse n src id = .ok ss lines) : ∃ s s', RunInv src s ∧ s'.lex.pos = src.length ∧ s'.lines = lines ∧ Wide s s' ∧
      (NoRaw ss.items → Fwd0 s s') := by
  unfold parse at h
  split at h
  · cases h
  · cases h
  · cases h
  · rename_i s hs
    split at h
    · rename_i ss' s' ht
      cases h
      have hr := newLexer_lines hs
      obtain ⟨_, hp, hcur⟩ := wp_ok (parse_wp n hs) ht
      obtain ⟨_, l, hl, hw, hf⟩ := wp_ok (topLoop_ex n _ (.refl hr.inv)) ht
      refine ⟨s, s', hr, ?_, rfl, hw, fun hn => hf ?_⟩
      · have h1 := hp.more.eof hcur
        have h2 := hp.start_le
        have h3 := hp.end_le
        have h4 := hp.inv.pos_le
        rw [hp.srcEq] at h4
        omega
      · unfold Stylesheet.items at hn
        rw [hl] at hn
        exact hn
    · cases h
    · cases h
    · cases h

/-- **C08, partial**: if the stylesheet that `Parse` returns contains no raw declaration, the line table is
exactly the sorted table of line starts.  Missing from the full statement: texts with a declaration that only
parses as raw text, for which it is false (`line_table_refuted`). -/
theorem line_table_partial {n : Nat} {src : Bytes} {id : Nat} {ss : Stylesheet} {lines : List Nat}
    (h : parse n src id = .ok ss lines) (hr : ss.raws = []) : lines = lineStarts src := by
  obtain ⟨s, s', hi, hp, hl, hw, hf⟩ := parse_table h
  have hn : NoRaw ss.items := by
    intro sp v hm
    have : (sp, v) ∈ ss.raws := by
      unfold Stylesheet.raws
      rw [List.mem_filterMap]
      exact ⟨_, hm, rfl⟩
    rw [hr] at this
    cases this
  have h1 := (hf hn).lines
  rw [hl, hi.lines, hi.srcEq, hp, List.cons_append, nls_append _ (Nat.zero_le _) (by rw [← hp]; exact hw.pos)] at h1
  rw [h1, lineStarts_eq]

/-- **C08, partial**, for every text that parses: the line table contains every line start and nothing else.
Missing from the full statement: that each is entered only once. -/
theorem line_table_members_partial {n : Nat} {src : Bytes} {id : Nat} {ss : Stylesheet} {lines : List Nat}
    (h : parse n src id = .ok ss lines) (x : Nat) : x ∈ lines ↔ x ∈ lineStarts src := by
  obtain ⟨s, s', hi, hp, hl, hw, _⟩ := parse_table h
  obtain ⟨l, e, a, b⟩ := hw.lines
  rw [hi.srcEq, hp] at b
  rw [hi.srcEq] at a
  have hpos : s.lex.pos ≤ src.length := by rw [← hp]; exact hw.pos
  rw [← hl, e, hi.lines, lineStarts_eq, ← nls_append src (Nat.zero_le s.lex.pos) hpos, List.cons_append,
    List.mem_cons, List.mem_cons, List.mem_append, List.mem_append]
  constructor
  · rintro (h | h | h)
    · exact .inl h
    · exact .inr (.inl h)
    · have := a x h
      rw [← nls_append src (Nat.zero_le s.lex.pos) hpos, List.mem_append] at this
      exact .inr this
  · rintro (h | h | h)
    · exact .inl h
    · exact .inr (.inl h)
    · exact .inr (.inr (b x h))

/-- What a failed parse leaves in the line table are line starts, among them the first. -/
theorem line_table_error_partial {n : Nat} {src : Bytes} {id : Nat} {e : LexErr} {lines : List Nat}
    (h : parse n src id = .error e lines) : 0 ∈ lines ∧ ∀ x ∈ lines, x ∈ lineStarts src := by
  unfold parse at h
  split at h
  · cases h
  · cases h
  · cases h
  · rename_i s hs
    split at h
    · cases h
    · rename_i e' s' ht
      cases h
      have hi := newLexer_lines hs
      have hw : Wide s s' := wp_err (topLoop_ex n _ (.refl hi.inv)) ht
      obtain ⟨l, e, a, _⟩ := hw.lines
      rw [e, hi.lines, lineStarts_eq]
      rw [hi.srcEq] at a
      refine ⟨by simp, fun x hx => ?_⟩
      rw [List.cons_append, List.mem_cons, List.mem_append] at hx
      rw [List.mem_cons]
      rcases hx with h | h | h
      · exact .inl h
      · exact .inr (nls_sub h)
      · exact .inr (a x h)
    · cases h
    · cases h

theorem table_example : ((parse 60 b!"a{\n b : c\n;\nd:e(\n1)}\n@media\nprint{}\n").sheet?.map fun x => (x.1.raws, x.2)) =
    some ([], [0, 3, 10, 12, 17, 21, 28, 36]) := by decide +kernel

/-- A text of several lines without raw declarations. -/
example : ∃ ss lines, parse 60 b!"a{\n b : c\n;\nd:e(\n1)}\n@media\nprint{}\n" = .ok ss lines ∧ ss.raws = [] := by
  obtain ⟨ss, lines, h, e⟩ := parsed (f := fun ss lines => (ss.raws, lines)) table_example
  exact ⟨ss, lines, h, (Prod.ext_iff.1 e).1⟩

/-- A text with a raw declaration over several lines. -/
example : ∃ ss lines, parse 60 b!"a{b c\n d;d:e\n}" = .ok ss lines ∧ lines = [0, 6, 6, 13] := by
  have h : ((parse 60 b!"a{b c\n d;d:e\n}").sheet?.map fun x => x.2) = some [0, 6, 6, 13] := by decide +kernel
  exact parsed (f := fun _ lines => lines) h

/-- A text that does not parse. -/
example : ∃ e lines, parse 60 b!"a{}\nb" = .error e lines := by
  have h : (parse 60 b!"a{}\nb").err?.map (·.span) = some ⟨5, 5⟩ := by decide +kernel
  obtain ⟨e, l, h, _⟩ := err?_some h
  exact ⟨e, l, h⟩

/-! ### C04: positions found with the table that the parser leaves -/

/-- **C04** for the table that `Parse` leaves in the source: if the stylesheet contains no raw declaration, the
source map printed with that table is exact. -/
theorem map_exact_parser_table {n : Nat} {src path : Bytes} {id : Nat} {ss : Stylesheet} {lines : List Nat}
    (h : parse n src id = .ok ss lines) (hr : ss.raws = []) (hsize : src.length + 2 < 1073741824) {css : Bytes}
    (hp : print none ss = .ok css) (hlen : css.length < 1073741824) :
    ∃ b64 maps marks,
      print (some ⟨path, src, lines⟩) ss =
        .ok (css ++ b!"\n/*# sourceMappingURL=data:application/json;base64," ++ b64 ++ b!" */\n") ∧
      base64Read b64 = some (sourceMapJson path (jsonString src) maps) ∧
      NodesAt [] ss.nodes marks css ∧ decodeMappings maps = some (marks.map (entryFor src)) := by
  rw [line_table_partial h hr]
  exact map_exact_parsed h hsize hp hlen

example : ∃ ss lines css, parse 60 b!"a{\n b : c\n;\nd:e(\n1)}\n@media\nprint{}\n" = .ok ss lines ∧ ss.raws = [] ∧
    print none ss = .ok css ∧ css.length < 1073741824 := by
  have h : ((parse 60 b!"a{\n b : c\n;\nd:e(\n1)}\n@media\nprint{}\n").sheet?.map fun x =>
      (x.1.raws, print none x.1)) = some ([], .ok b!"a{b:c;d:e(1)}@media print{}") := by decide +kernel
  obtain ⟨ss, lines, h, e⟩ := parsed (f := fun ss _ => (ss.raws, print none ss)) h
  obtain ⟨e1, e2⟩ := Prod.ext_iff.1 e
  refine ⟨ss, lines, _, h, e1, e2, by decide⟩

end Cssc
