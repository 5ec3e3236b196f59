import Verif.Proofs.PrintMap
import Verif.Proofs.PrintBad
import Verif.Props.Parser
import Verif.Proofs.PrintLines

/-!
# The printer (C04, C05, C28)
-/

namespace Cssc

/-! ### Specification: reading base64 -/

/-- The bytes of a base64 text (RFC 4648, with padding). -/
def base64Read : Bytes → Option Bytes
  | [] => some []
  | a :: b :: c :: d :: rest => do
    let x ← digitValue a
    let y ← digitValue b
    if d = 61 then
      if rest ≠ [] then none
      else if c = 61 then some [UInt8.ofNat ((x * 64 + y) / 16)]
      else do
        let z ← digitValue c
        let v := (x * 64 + y) * 64 + z
        some [UInt8.ofNat (v / 1024), UInt8.ofNat (v / 4 % 256)]
    else do
      let z ← digitValue c
      let w ← digitValue d
      let v := ((x * 64 + y) * 64 + z) * 64 + w
      let more ← base64Read rest
      some (UInt8.ofNat (v / 65536) :: UInt8.ofNat (v / 256 % 256) :: UInt8.ofNat (v % 256) :: more)
  | _ => none

theorem b64_ne_pad : ∀ c : Fin 64, b64 c.val ≠ 61 := by decide +kernel

theorem b64_ne_pad' {c : Nat} (h : c < 64) : b64 c ≠ 61 := b64_ne_pad ⟨c, h⟩

theorem ofNat_toNat {b : UInt8} {n : Nat} (h : n = b.toNat) : UInt8.ofNat n = b := by
  subst h; exact UInt8.ofNat_toNat

/-- The encoder of `printMapping` is undone by the base64 reader. -/
theorem base64_read : ∀ (n : Nat) (bs : Bytes), bs.length ≤ n → base64Read (base64Std bs) = some bs
  | n, [], _ => rfl
  | n, [a], _ => by
    have ha : a.toNat < 256 := a.toNat_lt
    unfold base64Std base64Read
    simp only [digitValue_b64' (Nat.mod_lt _ (by decide : 0 < 64)), Option.bind_eq_bind, Option.bind_some, ↓reduceIte,
      ne_eq, not_true_eq_false]
    congr 2
    exact ofNat_toNat (by omega)
  | n, [a, b], _ => by
    have ha : a.toNat < 256 := a.toNat_lt
    have hb : b.toNat < 256 := b.toNat_lt
    unfold base64Std base64Read
    simp only [digitValue_b64' (Nat.mod_lt _ (by decide : 0 < 64)), Option.bind_eq_bind, Option.bind_some, ↓reduceIte,
      ne_eq, not_true_eq_false, b64_ne_pad' (Nat.mod_lt _ (by decide : 0 < 64))]
    congr 2
    · exact ofNat_toNat (by omega)
    · congr 1
      exact ofNat_toNat (by omega)
  | n + 1, a :: b :: c :: rest, h => by
    have ha : a.toNat < 256 := a.toNat_lt
    have hb : b.toNat < 256 := b.toNat_lt
    have hc : c.toNat < 256 := c.toNat_lt
    unfold base64Std base64Read
    simp only [digitValue_b64' (Nat.mod_lt _ (by decide : 0 < 64)), Option.bind_eq_bind, Option.bind_some, ↓reduceIte,
      b64_ne_pad' (Nat.mod_lt _ (by decide : 0 < 64)),
      base64_read n rest (by simp only [List.length_cons] at h; omega)]
    congr 2
    · exact ofNat_toNat (by omega)
    · congr 1
      · exact ofNat_toNat (by omega)
      · congr 1
        exact ofNat_toNat (by omega)
  | 0, _ :: _ :: _ :: _, h => by simp at h

theorem base64Std_alphabet : ∀ (n : Nat) (bs : Bytes), bs.length ≤ n → ∀ b ∈ base64Std bs, isB64 b = true ∨ b = 61
  | n, [], _ => by simp [base64Std]
  | n, [a], _ => by
    intro b hb
    simp only [base64Std, List.mem_cons, List.not_mem_nil, or_false] at hb
    rcases hb with rfl | rfl | rfl | rfl
    all_goals first | exact .inr rfl | exact .inl (b64_isB64 (Nat.mod_lt _ (by decide)))
  | n, [a, c], _ => by
    intro b hb
    simp only [base64Std, List.mem_cons, List.not_mem_nil, or_false] at hb
    rcases hb with rfl | rfl | rfl | rfl
    all_goals first | exact .inr rfl | exact .inl (b64_isB64 (Nat.mod_lt _ (by decide)))
  | n + 1, a :: c :: d :: rest, h => by
    intro b hb
    simp only [base64Std, List.mem_cons] at hb
    rcases hb with rfl | rfl | rfl | rfl | hb
    · exact .inl (b64_isB64 (Nat.mod_lt _ (by decide)))
    · exact .inl (b64_isB64 (Nat.mod_lt _ (by decide)))
    · exact .inl (b64_isB64 (Nat.mod_lt _ (by decide)))
    · exact .inl (b64_isB64 (Nat.mod_lt _ (by decide)))
    · exact base64Std_alphabet n rest (by simp only [List.length_cons] at h; omega) b hb
  | 0, _ :: _ :: _ :: _, h => by simp at h

/-! ### C05: a source map does not change the CSS -/

/-- **C05.** If printing with a source succeeds, so does printing without, and the output with a source is the
output without one, followed by a single comment (the text between its ends is base64, so it cannot close
the comment). -/
theorem map_only_appends {source : Source} {ss : Stylesheet} {out : Bytes} (h : print (some source) ss = .ok out) :
    ∃ css b64, print none ss = .ok css ∧
      out = css ++ b!"\n/*# sourceMappingURL=data:application/json;base64," ++ b64 ++ b!" */\n" ∧
      (∀ b ∈ b64, isB64 b = true ∨ b = 61) ∧ 42 ∉ b64 := by
  have hsim := printNodes_sameText (some source) ss.nodes PrSt.init PrSt.init rfl
  unfold print at h
  rcases hm : printNodes (some source) ss.nodes PrSt.init with ⟨_, st⟩ | _ | _
  · rw [hm] at hsim
    obtain ⟨st0, h0, hs⟩ := hsim
    rw [Pr.bind_ok hm] at h
    have he : st.s ++ mapComment source st.maps = out := by simpa [printMapping] using h
    have hal : ∀ b ∈ base64Std (mapJson source st.maps), isB64 b = true ∨ b = 61 :=
      base64Std_alphabet _ _ (Nat.le_refl _)
    refine ⟨st.s, base64Std (mapJson source st.maps), ?_, ?_, hal, fun h42 => ?_⟩
    · unfold print
      rw [Pr.bind_ok h0, ← hs]; rfl
    · rw [← he]; unfold mapComment; simp
    · rcases hal 42 h42 with h | h
      · revert h; decide
      · revert h; decide
  · rw [Pr.bind_error hm] at h; cases h
  · rw [Pr.bind_panic hm] at h; cases h

/-! ### C04: the source map says where every rule comes from -/

/-- The JSON text of a source map for one file. -/
def sourceMapJson (path content mappings : Bytes) : Bytes :=
  b!"{\"version\": 3,\"file\":\"" ++ path ++
  b!"\",\"sourceRoot\":\"\", \"sources\": [\"source.css\"], \"sourcesContent\":[" ++ content ++
  b!"],\"names\":[],\"mappings\":\"" ++ mappings ++ b!"\"}"

/-- **C04.** For every stylesheet that can be printed, every source with its line table and sizes below
2^30: printing with the source succeeds, the comment at the end is the base64 text of a source map, and its
mappings, read as the format prescribes, are one entry for each rule and at-rule in print order: the line
and the column (in runes) at which the rule begins in the output, source 0, and the line and column at which
it begins in the source. -/
theorem map_exact {source : Source} (hs : SourceOk source) {ss : Stylesheet}
    (hin : ∀ n ∈ ss.nodes, n.startsIn source.content.length) {css : Bytes} (hp : print none ss = .ok css)
    (hlen : css.length < 1073741824) :
    ∃ b64 maps marks,
      print (some source) ss =
        .ok (css ++ b!"\n/*# sourceMappingURL=data:application/json;base64," ++ b64 ++ b!" */\n") ∧
      base64Read b64 = some (sourceMapJson source.path (jsonString source.content) maps) ∧
      NodesAt [] ss.nodes marks css ∧
      decodeMappings maps = some (marks.map (entryFor source.content)) := by
  have hw := writes_of_print_none hp
  obtain ⟨st, ls, l, marks, e1, e2, hat, hinv⟩ := nodes_step hs ss.nodes hin hw MapInv.init (.inl rfl)
    (fun h => absurd rfl h) (by simpa [PrSt.init] using hlen)
  have e2 : st.s = css := by simpa [PrSt.init] using e2
  refine ⟨base64Std (mapJson source st.maps), st.maps, marks, ?_, base64_read _ _ (Nat.le_refl _), ?_, ?_⟩
  · unfold print
    rw [Pr.bind_ok e1]
    simp [printMapping, mapComment, e2]
  · rw [← e2]; exact hat
  · unfold decodeMappings
    rw [hinv.maps, lines_read _ (by simp) hinv.segs]
    dsimp only
    have := addLines_eq _ _ _ _ hinv.sum
    simpa using this

/-- The rules of a parsed stylesheet begin inside the text. -/
theorem SheetOk.startsIn {src : Bytes} {ss : Stylesheet} (h : SheetOk src ss) :
    ∀ n ∈ ss.nodes, n.startsIn src.length := by
  intro n hn
  have := h.nodes n hn
  cases n with
  | rule r => exact Nat.le_trans this.1.1 this.1.2
  | «at» a =>
    refine ⟨Nat.le_trans this.1.1 this.1.2, fun sp rs hb r hr => ?_⟩
    have hbk := this.2.2.2.1
    rw [hb] at hbk
    have := (hbk.2.2 r hr).1
    exact Nat.le_trans this.1 this.2

/-- **C04** for a parsed stylesheet. -/
theorem map_exact_parsed {n : Nat} {src path : Bytes} {id : Nat} {ss : Stylesheet} {lines : List Nat}
    (h : parse n src id = .ok ss lines) (hsize : src.length + 2 < 1073741824) {css : Bytes}
    (hp : print none ss = .ok css) (hlen : css.length < 1073741824) :
    ∃ b64 maps marks,
      print (some ⟨path, src, lineStarts src⟩) ss =
        .ok (css ++ b!"\n/*# sourceMappingURL=data:application/json;base64," ++ b64 ++ b!" */\n") ∧
      base64Read b64 = some (sourceMapJson path (jsonString src) maps) ∧
      NodesAt [] ss.nodes marks css ∧ decodeMappings maps = some (marks.map (entryFor src)) :=
  map_exact (source := ⟨path, src, lineStarts src⟩) ⟨rfl, hsize⟩ (parse_sheetOk h).startsIn hp hlen

/-- The source used in the examples. -/
def mapExample : Bytes := b!"a{b:c}\n@media p{\nd{e f\n;}g{}}"

/-- What is printed for a source text, and its mappings. -/
def mapRun (src : Bytes) (lines : List Nat) : Option (Bytes × Option (List MapEntry)) :=
  (parse 100 src).sheet?.bind fun x =>
    match printNodes (some ⟨b!"f", src, lines⟩) x.1.nodes PrSt.init with
    | .ok _ st => some (st.s, decodeMappings st.maps)
    | _ => none

/-- Four rules, one of them printed on a second line. -/
example : mapRun mapExample (lineStarts mapExample) = some (b!"a{b:c}@media p{d{e f\n;}g{}}",
    some [⟨0, 0, 0, 0, 0⟩, ⟨0, 6, 0, 1, 0⟩, ⟨0, 15, 0, 2, 0⟩, ⟨1, 2, 0, 3, 2⟩]) := by decide +kernel

/-- With the line table that `Parse` leaves (C08) the map can be wrong: `g` is on the second line of this text,
and the map says the third. -/
theorem map_parser_table_refuted : ∃ ss lines, parse 100 b!"a{e f\n;}g{}" = .ok ss lines ∧
    mapRun b!"a{e f\n;}g{}" lines = some (b!"a{e f\n;}g{}", some [⟨0, 0, 0, 0, 0⟩, ⟨1, 2, 0, 2, 2⟩]) := by
  have h : ((parse 100 b!"a{e f\n;}g{}").sheet?.map fun x => x.2) = some [0, 6, 6] := by decide +kernel
  obtain ⟨ss, lines, h, e⟩ := parsed (f := fun _ lines => lines) h
  exact ⟨ss, lines, h, by rw [e]; decide +kernel⟩

/-! ### C28: problems are reported as errors -/

theorem print_none_error {ss : Stylesheet} :
    (∃ css, print none ss = .ok css) ↔ ∀ n ∈ ss.nodes, Node.whole n := by
  rw [← fine_nodes]
  exact ⟨fun ⟨css, h⟩ => ⟨css, writes_of_print_none h⟩, fun ⟨t, h⟩ => ⟨t, print_none_of_writes h⟩⟩

/-- `Print` panics only if the nodes do. -/
theorem print_np {src : Option Source} {ss : Stylesheet} (h : NoPanic (printNodes src ss.nodes)) :
    print src ss ≠ .panic := by
  intro hp
  unfold print at hp
  rcases hm : printNodes src ss.nodes PrSt.init with ⟨_, st⟩ | _ | _
  · rw [Pr.bind_ok hm] at hp
    unfold printMapping at hp
    cases src <;> simp at hp
  · rw [Pr.bind_error hm] at hp; cases hp
  · exact h _ hm

/-- **C28.** Printing what `Parse` returned never panics; it fails exactly if the tree contains an empty
media query list, a rule without a selector or an empty parenthesised expression. -/
theorem print_parsed {n : Nat} {src : Bytes} {id : Nat} {ss : Stylesheet} {lines : List Nat}
    (h : parse n src id = .ok ss lines) :
    (∀ source, print source ss ≠ .panic) ∧
    (print none ss = .error ↔ ∃ it ∈ ss.items, it.bad) ∧
    ((∃ css, print none ss = .ok css) ↔ ∀ it ∈ ss.items, ¬ it.bad) := by
  have hok := parse_sheetOk h
  have hnp : ∀ source, NoPanic (printNodes source ss.nodes) := fun source => printNodes_np source _ hok.noParens
  have hiff := print_none_error.trans hok.noBad
  refine ⟨fun source => print_np (hnp source), ?_, hiff⟩
  constructor
  · intro he
    refine Classical.byContradiction fun hc => ?_
    obtain ⟨css, hcss⟩ := hiff.2 fun it hit hb => hc ⟨it, hit, hb⟩
    rw [he] at hcss; cases hcss
  · rintro ⟨it, hit, hb⟩
    rcases hp : print none ss with css | _ | _
    · exact absurd hb (hiff.1 ⟨css, hp⟩ it hit)
    · rfl
    · exact absurd hp (print_np (hnp none))

/-- The same with a source map, for the source whose line table is right. -/
theorem print_parsed_map {n : Nat} {src path : Bytes} {id : Nat} {ss : Stylesheet} {lines : List Nat}
    (h : parse n src id = .ok ss lines) (hsize : src.length + 2 < 1073741824)
    (hlen : ∀ css, print none ss = .ok css → css.length < 1073741824) :
    (print (some ⟨path, src, lineStarts src⟩) ss = .error ↔ ∃ it ∈ ss.items, it.bad) := by
  have hpp := print_parsed h
  rw [← hpp.2.1]
  constructor
  · intro he
    rcases hp : print none ss with css | _ | _
    · obtain ⟨_, _, _, e, _⟩ := map_exact_parsed (path := path) h hsize hp (hlen css hp)
      rw [he] at e; cases e
    · rfl
    · exact absurd hp (hpp.1 none)
  · intro he
    rcases hp : print (some ⟨path, src, lineStarts src⟩) ss with out | _ | _
    · obtain ⟨css, _, hc, _⟩ := map_only_appends hp
      rw [he] at hc; cases hc
    · rfl
    · exact absurd hp (hpp.1 _)

/-- The same for sources and outputs of any size, with any line table that begins with 0, such as the one that the
parser has made of this text (`parse_ok_head`) or, with raw declarations, a table with lines that are listed twice. -/
theorem print_parsed_lines {n : Nat} {src : Bytes} {id : Nat} {ss : Stylesheet} {lines : List Nat}
    (h : parse n src id = .ok ss lines) {source : Source} (hl : source.lines.head? = some 0) :
    (print (some source) ss = .error ↔ ∃ it ∈ ss.items, it.bad) ∧
    ((∃ out, print (some source) ss = .ok out) ↔ ∀ it ∈ ss.items, ¬ it.bad) := by
  have hpp := print_parsed h
  rw [← hpp.2.1, ← hpp.2.2]
  refine ⟨⟨fun he => print_any_lines hl he, fun he => ?_⟩, fun ⟨out, ho⟩ => ?_, fun ⟨css, hc⟩ => print_any_ok hl hc⟩
  · rcases hp : print (some source) ss with out | _ | _
    · obtain ⟨css, _, hc, _⟩ := map_only_appends hp
      rw [he] at hc; cases hc
    · rfl
    · exact absurd hp (hpp.1 _)
  · obtain ⟨css, _, hc, _⟩ := map_only_appends ho
    exact ⟨css, hc⟩

/-- The three ways to fail, and a text that is printed. -/
example : (["{}", "@media{}", "a{b:calc(())}", "a{b:c}@media (min-width:1px){d{e:f}}"].map fun (t : String) =>
    (parse 100 t.toUTF8.toList).sheet?.map fun x => print none x.1) =
    [some .error, some .error, some .error, some (.ok b!"a{b:c}@media (min-width:1px){d{e:f}}")] := by
  decide +kernel

end Cssc
