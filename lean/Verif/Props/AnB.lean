import Verif.Props.Printer
import Verif.Proofs.AnbText

/-!
# An+B (C29)
-/

namespace Cssc

/-- What is printed for An+B. -/
def anbText (a op b : Bytes) : Option Bytes :=
  match printANB a op b PrSt.init with
  | .ok () st => some st.s
  | _ => none

/-! ### The claim -/

/-- The text that `printANB` writes. -/
def anbOut (a op b : Bytes) : Bytes :=
  (if a ≠ [] ∧ a ≠ b!"1" ∧ a ≠ b!"0" then
    (if a = b!"-1" then b!"-" else if hasPrefix a b!"+" then a.drop 1 else a) else []) ++
  ((if a ≠ b!"0" then b!"n" else []) ++
   (if b ≠ [] ∧ b ≠ b!"0" then (if a ≠ b!"0" then op else []) ++ b else []))

theorem printANB_writes (a op b : Bytes) : Writes (printANB a op b) (anbOut a op b) := by
  unfold printANB anbOut
  refine Writes.bind ?_ (Writes.bind ?_ ?_)
  · have : Writes (if a = b!"-1" then write b!"-" else if hasPrefix a b!"+" then write (a.drop 1) else write a)
        (if a = b!"-1" then b!"-" else if hasPrefix a b!"+" then a.drop 1 else a) := by
      split
      · exact writes_write _
      · split <;> exact writes_write _
    have := Writes.when (c := (decide (a ≠ [] ∧ a ≠ b!"1" ∧ a ≠ b!"0")) = true) fun _ => this
    simpa only [decide_eq_true_eq] using this
  · have := Writes.when (c := (decide (a ≠ b!"0")) = true) fun _ => writes_write b!"n"
    simpa only [decide_eq_true_eq] using this
  · refine Writes.when fun _ => Writes.bind ?_ (writes_write b)
    have := Writes.when (c := (decide (a ≠ [] ∧ a ≠ b!"1" ∧ a ≠ b!"0") || decide (a ≠ b!"0")) = true) fun _ => writes_write op
    have e : ((decide (a ≠ [] ∧ a ≠ b!"1" ∧ a ≠ b!"0") || decide (a ≠ b!"0")) = true) ↔ a ≠ b!"0" := by
      simp only [Bool.or_eq_true, decide_eq_true_eq]
      exact ⟨fun h => h.elim (fun h => h.2.2) id, .inr⟩
    simpa only [e] using this

theorem anbText_eq (a op b : Bytes) : anbText a op b = some (anbOut a op b) := by
  unfold anbText
  rw [printANB_writes]
  simp [PrSt.init]

/-- What the coefficient is printed as still means the coefficient. -/
theorem coef_printed {a : Bytes} {x : Int} (h : (if a = [] then some 1 else intVal a) = some x) (h0 : a ≠ b!"0") :
    coefVal (if a ≠ [] ∧ a ≠ b!"1" ∧ a ≠ b!"0" then
      (if a = b!"-1" then b!"-" else if hasPrefix a b!"+" then a.drop 1 else a) else []) = some x ∧
    110 ∉ (if a ≠ [] ∧ a ≠ b!"1" ∧ a ≠ b!"0" then
      (if a = b!"-1" then b!"-" else if hasPrefix a b!"+" then a.drop 1 else a) else []) := by
  by_cases ha : a = []
  · subst ha; cases h; exact ⟨rfl, by simp⟩
  rw [if_neg ha] at h
  by_cases h1 : a = b!"1"
  · subst h1
    have : intVal b!"1" = some 1 := by decide +kernel
    rw [this] at h; cases h; exact ⟨rfl, by simp⟩
  rw [if_pos ⟨ha, h1, h0⟩]
  by_cases hm : a = b!"-1"
  · subst hm
    have : intVal b!"-1" = some (-1) := by decide +kernel
    rw [this] at h; cases h; exact ⟨rfl, by simp⟩
  rw [if_neg hm]
  have key : ∀ t, t ≠ [] → intVal t = some x → t ≠ b!"+" → t ≠ b!"-" → coefVal t = some x ∧ 110 ∉ t := by
    intro t h1 h2 h3 h4
    refine ⟨?_, intVal_no_n h2⟩
    unfold coefVal
    rw [if_neg (by simp [h1, h3]), if_neg h4, h2]
  have hnp : ∀ {t : Bytes} {n : Nat}, decVal t = some n → t ≠ b!"+" ∧ t ≠ b!"-" := by
    intro t n ht
    have h1 : decVal b!"+" = none := by decide +kernel
    have h2 : decVal b!"-" = none := by decide +kernel
    constructor <;> rintro rfl
    · rw [h1] at ht; cases ht
    · rw [h2] at ht; cases ht
  rcases intVal_shape h with ⟨d, n, rfl, hd, rfl⟩ | ⟨d, n, rfl, hd, rfl⟩ | ⟨n, hd, rfl⟩
  · rw [if_pos (by simp [hasPrefix])]
    exact key d (decVal_digits hd).1 (intVal_of_decVal hd) (hnp hd).1 (hnp hd).2
  · rw [if_neg (by simp [hasPrefix])]
    refine key _ (by simp) h (by simp) ?_
    intro e
    exact (decVal_digits hd).1 (List.cons.inj e).2
  · have : ¬ hasPrefix a b!"+" = true := by
      intro hp
      cases a with
      | nil => exact ha rfl
      | cons c t =>
        simp only [hasPrefix, Bool.and_true, beq_iff_eq] at hp
        subst hp
        exact decVal_ne hd (c := 43) (by decide) (by simp)
    rw [if_neg this]
    exact key a ha h (hnp hd).1 (hnp hd).2

/-- **C29, partial.** What is printed for an An+B node means what its fields mean, except when the
coefficient is written `0` and the offset is negative or zero. -/
theorem anb_meaning_partial {a op b : Bytes} {x y : Int} (h : fieldsVal a op b = some (x, y))
    (hex : a = b!"0" → op ≠ b!"-" ∧ b ≠ [] ∧ b ≠ b!"0") :
    ∃ t, anbText a op b = some t ∧ anbVal t = some (x, y) := by
  refine ⟨_, anbText_eq a op b, ?_⟩
  unfold fieldsVal at h
  split at h
  case h_2 => cases h
  rename_i x' y' hx hy
  have hzero : ∀ {v : Int}, intVal b!"0" = some v → v = 0 := by
    intro v hv
    have : intVal b!"0" = some 0 := by decide +kernel
    rw [this] at hv; exact (Option.some.inj hv).symm
  -- the offset, in the form in which it is printed after `n`
  have hoff : ∀ {z : Int}, (b = [] → op = [] ∧ z = 0) → (b ≠ [] → ∃ n : Nat, decVal b = some n ∧
      ((op = b!"+" ∧ z = n) ∨ (op = b!"-" ∧ z = -(n : Int)))) →
      offsetVal (if b ≠ [] ∧ b ≠ b!"0" then op ++ b else []) = some z := by
    intro z h1 h2
    by_cases hb : b = []
    · rw [if_neg (by simp [hb]), (h1 hb).2]; rfl
    · obtain ⟨n, hn, hop⟩ := h2 hb
      by_cases hb0 : b = b!"0"
      · subst hb0
        have : decVal b!"0" = some 0 := by decide +kernel
        rw [this] at hn; cases hn
        rw [if_neg (by simp)]
        rcases hop with ⟨_, rfl⟩ | ⟨_, rfl⟩ <;> rfl
      · rw [if_pos ⟨hb, hb0⟩]
        unfold offsetVal intVal
        rcases hop with ⟨rfl, rfl⟩ | ⟨rfl, rfl⟩ <;> simp [hn]
  by_cases ha : a = b!"0"
  · obtain ⟨h1, h2, h3⟩ := hex ha
    rw [if_neg h1] at h
    split at h
    case isFalse => cases h
    cases h
    subst ha
    rw [if_neg (by simp)] at hx
    rw [hzero hx]
    rw [if_neg h2] at hy
    obtain ⟨n, hn, rfl⟩ := Option.map_eq_some_iff.1 hy
    unfold anbOut
    rw [if_neg (by simp), if_neg (by simp), if_pos ⟨h2, h3⟩, if_neg (by simp)]
    simp only [List.nil_append]
    unfold anbVal
    rw [if_neg (decVal_ne hn (by decide)), intVal_of_decVal hn]
    rfl
  · obtain ⟨hc1, hc2⟩ := coef_printed hx ha
    have hz : ∃ z, y = z ∧ x' = x ∧ (b = [] → op = [] ∧ z = 0) ∧ (b ≠ [] → ∃ n : Nat, decVal b = some n ∧
      ((op = b!"+" ∧ z = n) ∨ (op = b!"-" ∧ z = -(n : Int)))) := by
      by_cases hb : b = []
      · rw [if_pos hb] at hy
        by_cases hop : op = []
        · rw [if_pos hop] at hy; cases hy
          rw [if_neg (by simp [hop]), if_pos (.inr ⟨hop, .inr hb⟩)] at h
          cases h
          exact ⟨0, rfl, rfl, fun _ => ⟨hop, rfl⟩, fun hb' => absurd hb hb'⟩
        · rw [if_neg hop] at hy; cases hy
      · rw [if_neg hb] at hy
        obtain ⟨n, hn, rfl⟩ := Option.map_eq_some_iff.1 hy
        by_cases hm : op = b!"-"
        · rw [if_pos hm] at h; cases h
          exact ⟨_, rfl, rfl, fun hb' => absurd hb' hb, fun _ => ⟨n, hn, .inr ⟨hm, rfl⟩⟩⟩
        · rw [if_neg hm] at h
          split at h
          case isFalse => cases h
          rename_i hop
          cases h
          have hp : op = b!"+" := by
            rcases hop with hop | ⟨_, h1 | h1⟩
            · exact hop
            · exact absurd h1 ha
            · exact absurd h1 hb
          exact ⟨_, rfl, rfl, fun hb' => absurd hb' hb, fun _ => ⟨n, hn, .inl ⟨hp, rfl⟩⟩⟩
    obtain ⟨z, rfl, rfl, hz1, hz2⟩ := hz
    unfold anbOut
    rw [if_pos ha, if_pos ha]
    exact anbVal_n hc2 hc1 (hoff hz1 hz2)

/-- A node that meets the hypotheses. -/
example : fieldsVal b!"-2" b!"+" b!"13" = some (-2, 13) ∧ anbText b!"-2" b!"+" b!"13" = some b!"-2n+13" ∧
    anbVal b!"-2n+13" = some (-2, 13) := by decide +kernel

/-! ### From the source -/

/-- **C29, the parser's side**: if the text of an An+B argument of a parsed stylesheet, without white space, is
An+B, then the fields of its node mean what the text means. -/
theorem anb_parsed {n : Nat} {src : Bytes} {id : Nat} {ss : Stylesheet} {lines : List Nat}
    (h : parse n src id = .ok ss lines) {name a op b : Bytes} {sp : Span} (hm : .args name (.anb sp a op b) ∈ ss.items)
    {x y : Int} (ht : anbVal (unspaced (textAt src sp)) = some (x, y)) : fieldsVal a op b = some (x, y) :=
  ((parse_sheetOk h).items _ hm).2.2.2.1.1 x y ht

/-- **C22, the operator of An+B**: where a parsed argument has an operator, it has a number behind it, unless the text has
one of the sequences that the lexer reads as an empty token.  Missing: those texts. -/
theorem anb_operand_partial {n : Nat} {src : Bytes} {id : Nat} {ss : Stylesheet} {lines : List Nat}
    (h : parse n src id = .ok ss lines) {name a op b : Bytes} {sp : Span} (hm : .args name (.anb sp a op b) ∈ ss.items)
    (hop : op ≠ []) (hs : ∀ t ∈ [b!"-->", b!"<!--", b!".+", b!".-", b!".."], ¬ SliceOf src t) : b ≠ [] := by
  rcases ((parse_sheetOk h).items _ hm).2.2.2.1.2 hop with h | h | h | h | h | h
  · exact h
  all_goals exact absurd h (hs _ (by simp))

/-- **C29, partial, from the source to the output**: what is printed for an An+B argument means what its source
means, except when the coefficient is missing or written `0` and the offset is negative or zero. -/
theorem anb_source_partial {n : Nat} {src : Bytes} {id : Nat} {ss : Stylesheet} {lines : List Nat}
    (h : parse n src id = .ok ss lines) {name a op b : Bytes} {sp : Span} (hm : .args name (.anb sp a op b) ∈ ss.items)
    {x y : Int} (ht : anbVal (unspaced (textAt src sp)) = some (x, y))
    (hex : a = b!"0" → op ≠ b!"-" ∧ b ≠ [] ∧ b ≠ b!"0") :
    ∃ t, anbText a op b = some t ∧ anbVal t = some (x, y) :=
  anb_meaning_partial (anb_parsed h hm ht) hex

/-- The An+B arguments of a stylesheet. -/
def Stylesheet.anbs (ss : Stylesheet) : List (Span × Bytes × Bytes × Bytes) :=
  ss.items.filterMap fun | .args _ (.anb sp a op b) => some (sp, a, op, b) | _ => none

theorem anb_nodes : ((parse 60 b!"a:nth-child(-2n + 13),b:nth-of-type(3n-1),:nth-child(-n+0007){}").sheet?.map fun x => x.1.anbs) =
    some [(⟨12, 20⟩, b!"-2", b!"+", b!"13"), (⟨36, 40⟩, b!"3", b!"-", b!"1"), (⟨53, 60⟩, b!"-1", b!"+", b!"0007")] := by
  decide +kernel

example : ∃ ss lines name, parse 60 b!"a:nth-child(-2n + 13),b:nth-of-type(3n-1),:nth-child(-n+0007){}" = .ok ss lines ∧
    .args name (.anb ⟨12, 20⟩ b!"-2" b!"+" b!"13") ∈ ss.items ∧
    anbVal (unspaced (textAt b!"a:nth-child(-2n + 13),b:nth-of-type(3n-1),:nth-child(-n+0007){}" ⟨12, 20⟩)) = some (-2, 13) := by
  obtain ⟨ss, lines, h, e⟩ := parsed (f := fun ss _ => ss.anbs) anb_nodes
  have hm : (⟨12, 20⟩, b!"-2", b!"+", b!"13") ∈ ss.anbs := by rw [e]; decide
  unfold Stylesheet.anbs at hm
  rw [List.mem_filterMap] at hm
  obtain ⟨it, hit, e⟩ := hm
  split at e
  · simp only [Option.some.injEq, Prod.mk.injEq] at e
    obtain ⟨rfl, rfl, rfl, rfl⟩ := e
    exact ⟨ss, lines, _, h, hit, by decide +kernel⟩
  · cases e

/-- An operator without a number is rejected. -/
example : (parse 60 b!":nth-child(2n-){}").sheet?.isNone = true ∧ (parse 60 b!":nth-child(2n+){}").sheet?.isNone = true := by
  decide +kernel

/-- A text that is no An+B can be accepted all the same; the later offset wins. -/
example : ((parse 60 b!":nth-child(2n-1 +3){}").sheet?.map fun x => x.1.anbs) = some [(⟨11, 18⟩, b!"2", b!"+", b!"3")] ∧
    anbVal (unspaced b!"2n-1 +3") = none := by
  decide +kernel

/-- **C29, refuted as stated**: `:nth-child(-3)` selects nothing, but is printed as `:nth-child(3)`. -/
theorem anb_meaning_refuted : ¬ ∀ (a op b : Bytes) (x y : Int), fieldsVal a op b = some (x, y) →
    ∃ t x' y', anbText a op b = some t ∧ anbVal t = some (x', y') ∧ ∀ i, Selects x y i ↔ Selects x' y' i := by
  intro h
  obtain ⟨t, x', y', h1, h2, h3⟩ := h b!"0" b!"-" b!"3" 0 (-3) (by decide +kernel)
  have : anbText b!"0" b!"-" b!"3" = some b!"3" := by decide +kernel
  rw [this] at h1; cases h1
  have : anbVal b!"3" = some (0, 3) := by decide +kernel
  rw [this] at h2; cases h2
  obtain ⟨_, n, hn⟩ := (h3 3).2 ⟨by decide, 0, by decide⟩
  omega

/-- The source text behind the refutation. -/
example : ((parse 60 b!":nth-child(-3){}").sheet?.map fun x => print none x.1) = some (.ok b!":nth-child(3){}") := by
  decide +kernel

end Cssc
