import Verif.Proofs.Print
import Verif.Props.Sources
import Verif.Props.Vlq

/-!
# The printer with any line table

If the line table of a source begins with 0, adding mappings does not fail.
-/

namespace Cssc

theorem lineAndCol_head {s : Source} (h1 : s.lines.head? = some 0) (sp : Span) : s.lineAndCol sp ≠ none := by
  have hlen : 1 ≤ s.lines.length := by
    cases e : s.lines with
    | nil => rw [e] at h1; cases h1
    | cons a l => simp
  have hf0 : decide (sp.start < s.lines.getD 0 0) = false := by
    cases e : s.lines with
    | nil => simp
    | cons a l => rw [e] at h1; cases h1; simp
  have hs := searchLoop_any (f := fun i => decide (sp.start < s.lines.getD i 0)) hf0 s.lines.length 0 s.lines.length
    (by omega) hlen (by omega) (.inl rfl)
  unfold Source.lineAndCol sortSearch
  generalize searchLoop (fun i => decide (sp.start < s.lines.getD i 0)) s.lines.length 0 s.lines.length = line at hs
  obtain ⟨g1, g2, g3⟩ := hs
  have hst : s.lines[line - 1]? = some s.lines[line - 1] := List.getElem?_eq_getElem (by omega)
  dsimp only
  rw [if_neg (by omega), hst]
  exact fun h => by cases h

/-- The text that has been looked at by `addMapping` is not longer than the text, and there are mappings. -/
def PrSt.Mapped (st : PrSt) : Prop := st.lastWritten ≤ st.s.length ∧ st.maps ≠ []

/-- … or nothing has been written yet. -/
def PrSt.Fresh (st : PrSt) : Prop := st.lastWritten ≤ st.s.length ∧ (st.s = [] ∨ st.maps ≠ [])

/-- Wherever `m0` succeeds, so does `m1`, which writes the same; where it panics, so does `m1`. -/
def Follows (P Q : PrSt → Prop) (m0 m1 : Pr Unit) : Prop :=
  ∀ st0 st1, st0.s = st1.s → P st1 →
    (∀ st0', m0 st0 = .ok () st0' → ∃ st1', m1 st1 = .ok () st1' ∧ st0'.s = st1'.s ∧ Q st1') ∧ (m0 st0 = .panic → m1 st1 = .panic)

theorem Follows.bind {P Q R : PrSt → Prop} {m0 m1 n0 n1 : Pr Unit} (h1 : Follows P Q m0 m1) (h2 : Follows Q R n0 n1) :
    Follows P R (do m0; n0) (do m1; n1) := by
  intro st0 st1 e hp
  refine ⟨fun st0' h => ?_, fun h => ?_⟩
  · obtain ⟨_, st2, a1, a2⟩ := Pr.bind_eq_ok h
    obtain ⟨st3, b1, b2, b3⟩ := (h1 st0 st1 e hp).1 st2 a1
    obtain ⟨st4, c1, c2, c3⟩ := (h2 st2 st3 b2 b3).1 st0' a2
    exact ⟨st4, by rw [Pr.bind_ok b1]; exact c1, c2, c3⟩
  · rcases hm : m0 st0 with ⟨_, st2⟩ | _ | _
    · rw [Pr.bind_ok hm] at h
      obtain ⟨st3, b1, b2, b3⟩ := (h1 st0 st1 e hp).1 st2 hm
      rw [Pr.bind_ok b1]
      exact (h2 st2 st3 b2 b3).2 h
    · rw [Pr.bind_error hm] at h; cases h
    · exact Pr.bind_panic ((h1 st0 st1 e hp).2 hm)

theorem Plain.follows {m : Pr Unit} (h : Plain m) : Follows PrSt.Mapped PrSt.Mapped m m := by
  intro st0 st1 e hp
  refine ⟨fun st0' h' => ?_, fun h' => ?_⟩
  · obtain ⟨t, h1, rfl⟩ := h.ok h'
    exact ⟨_, h1 st1, by simp [e], by simp only [List.length_append]; exact Nat.le_add_right_of_le hp.1, hp.2⟩
  · rcases h with ⟨t, h⟩ | h | h
    · rw [h] at h'; cases h'
    · rw [h] at h'; cases h'
    · exact h st1

theorem Follows.weaken {P P' Q Q' : PrSt → Prop} {m0 m1 : Pr Unit} (h : Follows P Q m0 m1) (h1 : ∀ st, P' st → P st)
    (h2 : ∀ st, Q st → Q' st) : Follows P' Q' m0 m1 := by
  intro st0 st1 e hp
  refine ⟨fun st0' h' => ?_, (h st0 st1 e (h1 _ hp)).2⟩
  obtain ⟨st1', a1, a2, a3⟩ := (h st0 st1 e (h1 _ hp)).1 st0' h'
  exact ⟨st1', a1, a2, h2 _ a3⟩

theorem PrSt.Mapped.fresh {st : PrSt} (h : st.Mapped) : st.Fresh := ⟨h.1, .inr h.2⟩

theorem mapScan_ne : ∀ (rs : List Int) {maps : Bytes} {last new : Int}, maps ≠ [] → (mapScan rs maps last new).1 ≠ []
  | [], _, _, _, h => h
  | r :: rs, maps, last, new, h => by
    unfold mapScan
    split
    · exact mapScan_ne rs (by simp)
    · exact mapScan_ne rs h

theorem addMapping_follows {source : Source} (hs : source.lines.head? = some 0) (sp : Span) :
    Follows PrSt.Fresh PrSt.Mapped (addMapping none sp) (addMapping (some source) sp) := by
  intro st0 st1 e hp
  refine ⟨fun st0' h => ?_, fun h => by cases h⟩
  cases h
  have hemit : ∀ (m : Bytes) (a b c d : Int), m ++ vlqEncode a ++ vlqEncode b ++ vlqEncode c ++ vlqEncode d ≠ [] := by
    intro m a b c d h
    exact vlqEncode_ne_nil d (List.append_eq_nil_iff.1 h).2
  unfold addMapping
  dsimp only
  rcases hl : source.lineAndCol sp with _ | ⟨line, col⟩
  · exact absurd hl (lineAndCol_head hs sp)
  dsimp only
  rw [if_neg (by have := hp.1; omega)]
  split
  · rename_i hpos
    have hne : st1.maps ≠ [] := hp.2.resolve_left fun h => by rw [h] at hpos; simp at hpos
    have hne2 := mapScan_ne (runes (st1.s.drop st1.lastWritten)) (last := st1.genCol) (new := st1.genCol) hne
    split
    · rename_i hn
      exact absurd (List.getLast?_eq_none_iff.1 hn) hne2
    · split
      · exact ⟨_, rfl, e, Nat.le_refl _, hemit _ _ _ _ _⟩
      · exact ⟨_, rfl, e, Nat.le_refl _, hemit _ _ _ _ _⟩
  · exact ⟨_, rfl, e, Nat.le_refl _, hemit _ _ _ _ _⟩

section
variable {source : Source} (hs : source.lines.head? = some 0)
include hs

theorem printRule_follows (r : QRule) : Follows PrSt.Fresh PrSt.Mapped (printRule none r) (printRule (some source) r) :=
  (addMapping_follows hs r.sp).bind (ruleBody_plain r).follows

theorem printRules_follows : ∀ rs, Follows PrSt.Mapped PrSt.Mapped (printRules none rs) (printRules (some source) rs)
  | [] => Plain.pure.follows
  | r :: rs => ((printRule_follows hs r).weaken (fun _ h => h.fresh) fun _ h => h).bind (printRules_follows rs)

theorem printAtBlock_follows : ∀ b, Follows PrSt.Mapped PrSt.Mapped (printAtBlock none b) (printAtBlock (some source) b)
  | .none => (Plain.write _).follows
  | .decls _ => (printAtBlock_none (.decls _)).follows
  | .rules _ rs => (Plain.write _).follows.bind ((printRules_follows hs rs).bind (Plain.write _).follows)

theorem printNode_follows : ∀ n, Follows PrSt.Fresh PrSt.Mapped (printNode none n) (printNode (some source) n)
  | .rule r => printRule_follows hs r
  | .at a => by
    show Follows _ _ (printAtRule none a) (printAtRule (some source) a)
    rw [printAtRule_eq, printAtRule_eq]
    exact (addMapping_follows hs a.sp).bind ((atHead_plain a).follows.bind (printAtBlock_follows hs _))

theorem printNodes_follows : ∀ ns, Follows PrSt.Fresh PrSt.Fresh (printNodes none ns) (printNodes (some source) ns)
  | [] => fun st0 st1 e hp => ⟨fun st0' h => by cases h; exact ⟨st1, rfl, e, hp⟩, fun h => by cases h⟩
  | n :: ns => ((printNode_follows hs n).weaken (fun _ h => h) fun _ h => h.fresh).bind (printNodes_follows ns)

/-- Printing with a source map fails only if printing without one does. -/
theorem print_any_ok {ss : Stylesheet} {css : Bytes} (h : print none ss = .ok css) :
    ∃ out, print (some source) ss = .ok out := by
  unfold print at h ⊢
  rcases hm : printNodes none ss.nodes PrSt.init with ⟨_, st⟩ | _ | _
  · obtain ⟨st1, a1, _, _⟩ := (printNodes_follows hs ss.nodes PrSt.init PrSt.init rfl ⟨Nat.le_refl _, .inl rfl⟩).1 st hm
    rw [Pr.bind_ok a1]
    exact ⟨_, rfl⟩
  · rw [Pr.bind_error hm] at h; cases h
  · rw [Pr.bind_panic hm] at h; cases h

theorem print_any_lines {ss : Stylesheet} (h : print (some source) ss = .error) : print none ss = .error := by
  rcases hn : print none ss with css | _ | _
  · obtain ⟨out, ho⟩ := print_any_ok hs hn
    rw [h] at ho; cases ho
  · rfl
  · unfold print at h hn
    rcases hm : printNodes none ss.nodes PrSt.init with ⟨_, st⟩ | _ | _
    · rw [Pr.bind_ok hm] at hn; cases hn
    · rw [Pr.bind_error hm] at hn; cases hn
    · have := (printNodes_follows hs ss.nodes PrSt.init PrSt.init rfl ⟨Nat.le_refl _, .inl rfl⟩).2 hm
      rw [Pr.bind_panic this] at h; cases h

end

end Cssc
