import Verif.Proofs.Mappings
import Verif.Proofs.PrintFine

/-!
# Printing with a source map

Printing with a usable source succeeds whenever printing without one does, and leaves one entry per rule.
-/

namespace Cssc

/-- A text written by a sequence is written by its two halves. -/
theorem Writes.split {m n : Pr Unit} {t : Bytes} (p : Plain m) (q : Plain n) (h : Writes (do m; n) t) :
    ∃ a b, Writes m a ∧ Writes n b ∧ t = a ++ b := by
  obtain ⟨⟨a, ha⟩, ⟨b, hb⟩⟩ := (fine_bind p q).1 ⟨t, h⟩
  exact ⟨a, b, ha, hb, h.unique (ha.bind hb)⟩

theorem writes_none {sp : Span} {m : Pr Unit} {t : Bytes} (p : Plain m) (h : Writes (do addMapping none sp; m) t) :
    Writes m t := by
  obtain ⟨a, b, ha, hb, e⟩ := h.split (.inl ⟨_, addMapping_none sp⟩) p
  rw [ha.unique (addMapping_none sp), List.nil_append] at e
  rw [e]; exact hb

theorem printMapping_none : Writes (printMapping none) [] := fun st => by
  show PrRes.ok () st = _; rw [List.append_nil]

theorem print_none_of_writes {ss : Stylesheet} {t : Bytes} (h : Writes (printNodes none ss.nodes) t) :
    print none ss = .ok t := by
  unfold print
  rw [(h.bind printMapping_none) PrSt.init]
  simp [PrSt.init]

theorem writes_of_print_none {ss : Stylesheet} {t : Bytes} (h : print none ss = .ok t) :
    Writes (printNodes none ss.nodes) t := by
  rcases printNodes_none ss.nodes with ⟨u, hu⟩ | hu | hu
  · have := print_none_of_writes hu
    rw [h] at this; cases this; exact hu
  · unfold print at h; rw [Pr.bind_error (hu _)] at h; cases h
  · unfold print at h; rw [Pr.bind_panic (hu _)] at h; cases h

theorem nodeText_of_writes {n : Node} {t : Bytes} (h : Writes (printNode none n) t) : nodeText n = some t := by
  have : Writes (printNodes none [n]) t := by
    have := h.bind writes_pure
    rw [List.append_nil] at this; exact this
  unfold nodeText
  rw [print_none_of_writes (ss := ⟨[n], []⟩) this]

theorem AsciiEnd.brace (t : Bytes) : AsciiEnd (t ++ b!"}") := .inr ⟨t, 125, rfl, by decide⟩
theorem AsciiEnd.open (t : Bytes) : AsciiEnd (t ++ b!"{") := .inr ⟨t, 123, rfl, by decide⟩
theorem AsciiEnd.semi (t : Bytes) : AsciiEnd (t ++ b!";") := .inr ⟨t, 59, rfl, by decide⟩

theorem ruleBody_end {r : QRule} {t : Bytes} (h : Writes (ruleBody r) t) : ∃ u, t = u ++ b!"}" := by
  obtain ⟨a, b, _, hb, rfl⟩ := h.split (printPrelude_plain _)
    ((Plain.write _).bind ((printBlock_plain _).bind (Plain.write _)))
  obtain ⟨c, d, _, hd, rfl⟩ := hb.split (Plain.write _) ((printBlock_plain _).bind (Plain.write _))
  obtain ⟨e, f, _, hf, rfl⟩ := hd.split (printBlock_plain _) (Plain.write _)
  rw [hf.unique (writes_write _)]
  exact ⟨a ++ (c ++ e), by simp⟩

/-- One rule. -/
theorem rule_step {source : Source} (hs : SourceOk source) {r : QRule} (hsp : r.sp.start ≤ source.content.length)
    {t : Bytes} (hw : Writes (printRule none r) t) {st : PrSt} {es : List MapEntry} {ls l} (h : MapInv st es ls l)
    (ha : AsciiEnd st.s) (hlen : (st.s ++ t).length < 1073741824) (hne : es ≠ [] → st.s ≠ []) :
    ∃ st' ls' l', printRule (some source) r st = .ok () st' ∧ st'.s = st.s ++ t ∧ AsciiEnd st'.s ∧ st'.s ≠ [] ∧
      MapInv st' (es ++ [entryFor source.content (st.s, r.sp)]) ls' l' := by
  have hb : Writes (ruleBody r) t := writes_none (ruleBody_plain r) hw
  obtain ⟨u, rfl⟩ := ruleBody_end hb
  obtain ⟨st1, ls1, l1, e1, e2, h1⟩ := addMapping_step hs hsp h ha (by rw [List.length_append] at hlen; omega) hne
  refine ⟨{ st1 with s := st1.s ++ (u ++ b!"}") }, ls1, l1, ?_, by rw [e2], ?_, by simp, h1.write (by simp) _⟩
  · rw [printRule_eq, Pr.bind_ok e1, hb]
  · show AsciiEnd (st1.s ++ (u ++ b!"}"))
    rw [← List.append_assoc]; exact AsciiEnd.brace _

/-- A run of rules. -/
theorem rules_step {source : Source} (hs : SourceOk source) : ∀ (rs : List QRule),
    (∀ r ∈ rs, r.sp.start ≤ source.content.length) → ∀ {t : Bytes}, Writes (printRules none rs) t →
    ∀ {st : PrSt} {es : List MapEntry} {ls l}, MapInv st es ls l → AsciiEnd st.s → es ≠ [] →
    (st.s ++ t).length < 1073741824 → st.s ≠ [] →
    ∃ st' ls' l' marks, printRules (some source) rs st = .ok () st' ∧ st'.s = st.s ++ t ∧ AsciiEnd st'.s ∧
      RulesAt st.s rs marks st'.s ∧ MapInv st' (es ++ marks.map (entryFor source.content)) ls' l'
  | [], _, t, hw, st, es, ls, l, h, ha, _, _, _ => by
    have : t = [] := hw.unique writes_pure
    subst this
    exact ⟨st, ls, l, [], rfl, by simp, ha, .nil _, by simpa using h⟩
  | r :: rs, hsp, t, hw, st, es, ls, l, h, ha, hes, hlen, hne => by
    obtain ⟨a, b, hwa, hwb, rfl⟩ := hw.split (printRule_none r) (printRules_none rs)
    obtain ⟨st1, ls1, l1, e1, e2, ha1, hn1, h1⟩ := rule_step hs (hsp r (by simp)) hwa h ha
      (by simp only [List.length_append] at hlen ⊢; omega) fun _ => hne
    obtain ⟨st2, ls2, l2, marks, e3, e4, ha2, hr, h2⟩ := rules_step hs rs (fun x hx => hsp x (by simp [hx])) hwb h1 ha1
      (by simp) (by rw [e2]; simpa using hlen) hn1
    refine ⟨st2, ls2, l2, (st.s, r.sp) :: marks, ?_, by rw [e4, e2]; simp, ha2, ?_, by simpa using h2⟩
    · show (do printRule (some source) r; printRules (some source) rs : Pr Unit) st = _
      rw [Pr.bind_ok e1, e3]
    · exact .cons (nodeText_of_writes hwa) (by rw [← e2]; exact hr)

theorem atHead_block (a : AtRule) (b : Block) : atHead { a with block := b } = atHead a := rfl

/-- The starts of the rules of a node are inside the content. -/
def Node.startsIn (n : Nat) : Node → Prop
  | .rule r => r.sp.start ≤ n
  | .at a => a.sp.start ≤ n ∧ ∀ sp rs, a.block = .rules sp rs → ∀ r ∈ rs, r.sp.start ≤ n

/-- The whole stylesheet. -/
theorem nodes_step {source : Source} (hs : SourceOk source) : ∀ (ns : List Node),
    (∀ n ∈ ns, n.startsIn source.content.length) → ∀ {t : Bytes}, Writes (printNodes none ns) t →
    ∀ {st : PrSt} {es : List MapEntry} {ls l}, MapInv st es ls l → AsciiEnd st.s → (es ≠ [] → st.s ≠ []) →
    (st.s ++ t).length < 1073741824 →
    ∃ st' ls' l' marks, printNodes (some source) ns st = .ok () st' ∧ st'.s = st.s ++ t ∧
      NodesAt st.s ns marks st'.s ∧ MapInv st' (es ++ marks.map (entryFor source.content)) ls' l'
  | [], _, t, hw, st, es, ls, l, h, ha, _, _ => by
    have : t = [] := hw.unique writes_pure
    subst this
    exact ⟨st, ls, l, [], rfl, by simp, .nil _, by simpa using h⟩
  | .rule r :: ns, hsp, t, hw, st, es, ls, l, h, ha, hne, hlen => by
    obtain ⟨a, b, hwa, hwb, rfl⟩ := hw.split (printNode_none (.rule r)) (printNodes_none ns)
    obtain ⟨st1, ls1, l1, e1, e2, ha1, hn1, h1⟩ := rule_step hs (hsp (.rule r) (by simp)) hwa h ha
      (by simp only [List.length_append] at hlen ⊢; omega) hne
    obtain ⟨st2, ls2, l2, marks, e3, e4, hr, h2⟩ := nodes_step hs ns (fun x hx => hsp x (by simp [hx])) hwb h1 ha1
      (fun _ => hn1) (by rw [e2]; simpa using hlen)
    refine ⟨st2, ls2, l2, (st.s, r.sp) :: marks, ?_, by rw [e4, e2]; simp, ?_, by simpa using h2⟩
    · show (do printRule (some source) r; printNodes (some source) ns : Pr Unit) st = _
      rw [Pr.bind_ok e1, e3]
    · exact .rule (nodeText_of_writes hwa) (by rw [← e2]; exact hr)
  | .at a :: ns, hsp, t, hw, st, es, ls, l, h, ha, hne, hlen => by
    obtain ⟨u, b, hwa, hwb, rfl⟩ := hw.split (printNode_none (.at a)) (printNodes_none ns)
    have hsa := hsp (.at a) (by simp)
    have hwa' : Writes (do addMapping none a.sp; atHead a; printAtBlock none a.block : Pr Unit) u := by
      have : Writes (printAtRule none a) u := hwa
      rw [printAtRule_eq] at this; exact this
    obtain ⟨hd, bl, w1, w2, rfl⟩ := (writes_none ((atHead_plain a).bind (printAtBlock_none _)) hwa').split
      (atHead_plain a) (printAtBlock_none _)
    obtain ⟨st1, ls1, l1, e1, e2, h1⟩ := addMapping_step hs hsa.1 h ha
      (by simp only [List.length_append] at hlen; omega) hne
    have h1' := h1.write (by simp) hd
    by_cases hb : ∃ sp rs, a.block = .rules sp rs
    · obtain ⟨sp, rs, hb⟩ := hb
      rw [hb] at w2
      obtain ⟨x1, x2, w3, w4, rfl⟩ := w2.split (Plain.write _) ((printRules_none rs).bind (Plain.write _))
      obtain ⟨x3, x4, w5, w6, rfl⟩ := w4.split (printRules_none rs) (Plain.write _)
      have : x1 = b!"{" := w3.unique (writes_write _)
      subst this
      have : x4 = b!"}" := w6.unique (writes_write _)
      subst this
      have h2 := h1'.write (by simp) b!"{"
      obtain ⟨st3, ls3, l3, inner, e3, e4, ha3, hr3, h3⟩ := rules_step hs rs (fun r hr => hsa.2 sp rs hb r hr) w5 h2
        (AsciiEnd.open _) (by simp) (by simp only [List.length_append, e2] at hlen ⊢; omega) (by simp)
      have h4 := h3.write (by simp) b!"}"
      obtain ⟨st5, ls5, l5, marks, e5, e6, hr5, h5⟩ := nodes_step hs ns (fun x hx => hsp x (by simp [hx])) hwb h4
        (AsciiEnd.brace _) (fun _ => by simp)
        (by simp only [e4, List.length_append, e2] at hlen ⊢; omega)
      refine ⟨st5, ls5, l5, (st.s, a.sp) :: (inner ++ marks), ?_, ?_, ?_, by simpa using h5⟩
      · show (do printAtRule (some source) a; printNodes (some source) ns : Pr Unit) st = _
        rw [printAtRule_eq, Pr.bind_assoc, Pr.bind_ok e1, Pr.bind_assoc, Pr.bind_ok (w1 st1), hb]
        have : printAtBlock (some source) (.rules sp rs) { st1 with s := st1.s ++ hd } =
            .ok () { st3 with s := st3.s ++ b!"}" } := by
          show (do write b!"{"; printRules (some source) rs; write b!"}" : Pr Unit) _ = _
          rw [Pr.bind_ok (writes_write b!"{" _), Pr.bind_ok e3]; rfl
        rw [Pr.bind_ok this, e5]
      · rw [e6]; dsimp only; rw [e4]; dsimp only; rw [e2]; simp
      · refine .nested hb ?_ (head := hd ++ b!"{") (mid := st3.s) ?_ hr5
        · apply nodeText_of_writes
          show Writes (printAtRule none { a with block := .rules sp [] }) _
          rw [printAtRule_eq, atHead_block]
          have : Writes (printAtBlock none (.rules sp [])) (b!"{" ++ ([] ++ b!"}")) :=
            (writes_write _).bind (writes_pure.bind (writes_write _))
          have := (addMapping_none a.sp).bind (w1.bind this)
          simpa using this
        · rw [← List.append_assoc, ← e2]; exact hr3
    · have hend : ∃ v c, bl = v ++ [c] ∧ c.toNat < 128 := by
        cases hbk : a.block with
        | none =>
          rw [hbk] at w2
          exact ⟨[], 59, w2.unique (writes_write _), by decide⟩
        | decls d =>
          rw [hbk] at w2
          obtain ⟨x1, x2, w3, w4, rfl⟩ := w2.split (Plain.write _) ((printDecls_plain d.decls).bind (Plain.write _))
          obtain ⟨x3, x4, w5, w6, rfl⟩ := w4.split (printDecls_plain d.decls) (Plain.write _)
          have : x4 = b!"}" := w6.unique (writes_write _)
          subst this
          exact ⟨x1 ++ x3, 125, by simp, by decide⟩
        | rules sp rs => exact absurd ⟨sp, rs, hbk⟩ hb
      have hsame : Writes (printAtBlock (some source) a.block) bl := by
        cases hbk : a.block with
        | none => rw [hbk] at w2; exact w2
        | decls d => rw [hbk] at w2; exact w2
        | rules sp rs => exact absurd ⟨sp, rs, hbk⟩ hb
      obtain ⟨v, c, rfl, hc⟩ := hend
      have h2 := h1'.write (by simp) (v ++ [c])
      obtain ⟨st5, ls5, l5, marks, e5, e6, hr5, h5⟩ := nodes_step hs ns (fun x hx => hsp x (by simp [hx])) hwb h2
        (.inr ⟨st1.s ++ hd ++ v, c, by simp, hc⟩) (fun _ => by simp)
        (by simp only [List.length_append, e2] at hlen ⊢; omega)
      refine ⟨st5, ls5, l5, (st.s, a.sp) :: marks, ?_, ?_, ?_, by simpa using h5⟩
      · show (do printAtRule (some source) a; printNodes (some source) ns : Pr Unit) st = _
        rw [printAtRule_eq, Pr.bind_assoc, Pr.bind_ok e1, Pr.bind_assoc, Pr.bind_ok (w1 st1),
          Pr.bind_ok (hsame _), e5]
      · rw [e6]; dsimp only; rw [e2]; simp
      · refine .flat (nodeText_of_writes hwa) (fun sp rs e => hb ⟨sp, rs, e⟩) ?_
        rw [← List.append_assoc, ← e2]; exact hr5

end Cssc
