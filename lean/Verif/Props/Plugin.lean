import Verif.Plugin
import Verif.Props.Sources

/-!
# Properties of the esbuild plugin: C52, C53, C55
-/

namespace Cssc

/-- A location in a file that the parser has read: exact line table, span inside the text. -/
structure GoodLoc (s : Source) (sp : Span) : Prop where
  lines : s.lines = lineStarts s.content
  order : sp.start ≤ sp.stop
  inside : sp.stop ≤ s.content.length
  size : s.content.length + 1 < 2147483648

/-- An error whose location can be rendered. -/
def SafeErr : CErr → Prop
  | .located s sp _ => SafeLoc s sp
  | .wrapped s sp _ => SafeLoc s sp
  | .plain _ => True

/-- Does the error have a `Location` method? -/
def CErr.hasLoc : CErr → Bool
  | .located .. => true
  | _ => false

theorem SafeErr.text : ∀ {e : CErr}, SafeErr e → ∃ t, e.text = some t
  | .located .., h => locationError_any h _
  | .wrapped .., h => locationError_any h _
  | .plain t, _ => ⟨t, rfl⟩

theorem msgLoc_any {s : Source} {sp : Span} (h : SafeLoc s sp) : ∃ l, msgLoc s sp = some l := by
  obtain ⟨line, start, _, _, _, h4⟩ := lineAndCol_any h
  obtain ⟨a, b, h5, h6, h7, h8⟩ := fullLine_any h
  unfold msgLoc
  rw [h4, h5]
  simp only [Option.bind_eq_bind, Option.bind_some]
  rw [if_neg (by omega)]
  exact ⟨_, rfl⟩

/-! ### C52 -/

/-- **C52, partial**: `toEsbuild` does not fail on errors with locations inside their files; the messages without
location are, in order, exactly one for each error, with the text of that error; and if no error has a `Location`
method, as is the case for those of the parser, these are all messages.  Missing from the full statement: errors with
that method give two messages (next theorem). -/
theorem toEsbuild_partial : ∀ {es : List CErr}, (∀ e ∈ es, SafeErr e) →
    ∃ ms, toEsbuild es = some ms ∧
      (ms.filter fun m => m.location.isNone).map (fun m => some m.text) = es.map CErr.text ∧
      ms.length = es.length + es.countP CErr.hasLoc ∧
      ((∀ e ∈ es, e.hasLoc = false) → ms.map (fun m => some m.text) = es.map CErr.text)
  | [], _ => ⟨[], rfl, rfl, rfl, fun _ => rfl⟩
  | e :: es, h => by
    obtain ⟨ms, h1, h2, h3, h4⟩ := toEsbuild_partial fun e he => h e (List.mem_cons_of_mem _ he)
    have he := h e (List.mem_cons_self ..)
    obtain ⟨t, ht⟩ := he.text
    have once : e.hasLoc = false → errMessages e = some [⟨t, none⟩] := by
      intro hl
      cases e with
      | located => cases hl
      | wrapped s sp inner => rw [errMessages, ht]; rfl
      | plain u => rw [errMessages, ht]; rfl
    cases hl : e.hasLoc with
    | false =>
      refine ⟨⟨t, none⟩ :: ms, ?_, ?_, ?_, fun hp => ?_⟩
      · rw [toEsbuild, h1, once hl]; rfl
      · simp only [Option.isNone_none, List.filter_cons_of_pos, List.map_cons, h2, ht]
      · rw [List.length_cons, List.length_cons, h3, List.countP_cons_of_neg (by simp [hl])]
        omega
      · rw [List.map_cons, List.map_cons, h4 fun e he => hp e (List.mem_cons_of_mem _ he), ht]
    | true =>
      cases e with
      | wrapped => cases hl
      | plain => cases hl
      | located s sp inner =>
        obtain ⟨l, hm⟩ := msgLoc_any (show SafeLoc s sp from he)
        refine ⟨⟨t, some l⟩ :: ⟨t, none⟩ :: ms, ?_, ?_, ?_, fun hp => ?_⟩
        · rw [toEsbuild, h1, errMessages, hm, ht]
          rfl
        · simp only [Option.isNone_some, Option.isNone_none, Bool.false_eq_true, not_false_eq_true,
            List.filter_cons_of_neg, List.filter_cons_of_pos, List.map_cons, h2, ht]
        · rw [List.length_cons, List.length_cons, List.length_cons, h3, List.countP_cons_of_pos rfl]
          omega
        · have := hp _ (List.mem_cons_self ..)
          cases this

/-- An error in `a{b` at the `{`. -/
def sampleErr : CErr := .located ⟨b!"x.css", b!"\na{b", [0, 1]⟩ ⟨2, 3⟩ b!"oops"

/-- **C52, refuted as stated**: an error with a location is reported twice. -/
theorem toEsbuild_refuted : ¬ ∀ (es : List CErr), (∀ e ∈ es, SafeErr e) →
    ∃ ms, toEsbuild es = some ms ∧ ms.length = es.length := by
  intro hall
  obtain ⟨ms, h, hl⟩ := hall [sampleErr] (by
    intro e he
    rw [List.mem_singleton] at he
    subst he
    exact ⟨by decide, by decide, by decide, by decide, by decide⟩)
  have : (toEsbuild [sampleErr]).map List.length = some 2 := by decide +kernel
  rw [h] at this
  have this : some ms.length = some 2 := this
  rw [hl] at this
  cases this

/-- An error of the parser in the same place. -/
def sampleParseErr : CErr := .wrapped ⟨b!"x.css", b!"\na{b", [0, 1]⟩ ⟨2, 3⟩ b!"oops"

example : SafeErr sampleErr ∧ SafeErr sampleParseErr ∧ ∀ t, SafeErr (.plain t) :=
  ⟨⟨by decide, by decide, by decide, by decide, by decide⟩, ⟨by decide, by decide, by decide, by decide, by decide⟩,
    fun _ => trivial⟩

/-! ### C53 -/

/-- **C53**: if `OnLoad` returns contents, the compilation reported nothing, no error is returned, and the
contents are the output for the requested path; conversely, with nothing reported and an output for the path,
these contents are returned; and whatever is reported or missing leads to an error. -/
theorem onLoad_contents {es : List CErr} {files : List (Bytes × Bytes)} {path : Bytes} {r : OnLoadRes}
    (h : onLoad es files path = some r) :
    (∀ f, r.contents = some f ↔ es = [] ∧ files.lookup path = some f) ∧
    (r.contents.isSome = true → r.errors = [] ∧ r.err = false) ∧
    (r.contents = none → r.errors ≠ [] ∨ r.err = true) := by
  unfold onLoad at h
  cases es with
  | nil =>
    rw [if_neg (by simp)] at h
    cases hf : files.lookup path with
    | none =>
      rw [hf] at h
      cases h
      simp
    | some f =>
      rw [hf] at h
      cases h
      simp
  | cons e es =>
    rw [if_pos (by simp)] at h
    cases hm : toEsbuild (e :: es) with
    | none => rw [hm] at h; cases h
    | some ms =>
      rw [hm] at h
      cases h
      refine ⟨by simp, by simp, fun _ => .inl ?_⟩
      rw [toEsbuild] at hm
      cases he : errMessages e with
      | none => rw [he] at hm; cases hm
      | some a =>
        rw [he] at hm
        cases ht : toEsbuild es with
        | none => rw [ht] at hm; cases hm
        | some b =>
          rw [ht] at hm
          cases hm
          have : a ≠ [] := by
            unfold errMessages at he
            split at he
            · rename_i source span inner
              cases hl : msgLoc source span with
              | none => rw [hl] at he; cases he
              | some l =>
                cases htx : (CErr.located source span inner).text with
                | none => rw [hl, htx] at he; cases he
                | some t =>
                  rw [hl, htx] at he
                  cases he
                  simp
            · obtain ⟨t, ht, he⟩ := Option.bind_eq_some_iff.1 he
              cases he
              simp
            · cases he
              simp
          simp [this]

example : onLoad [] [(b!"/a.css", b!"x{}")] b!"/a.css" = some ⟨[], some b!"x{}", false⟩ ∧
    onLoad [.plain b!"e"] [(b!"/a.css", b!"x{}")] b!"/a.css" = some ⟨[⟨b!"e", none⟩], none, false⟩ ∧
    onLoad [] [] b!"/a.css" = some ⟨[], none, true⟩ := by decide

/-! ### C55 -/

/-- **C55, partial**: the location that the plugin gives to esbuild names the file, the (one-based) column and
the text and length of the line of the error.  Missing from the full statement: the line number (next
theorem). -/
theorem msgLoc_partial {s : Source} {sp : Span} (h : GoodLoc s sp) :
    ∃ l, msgLoc s sp = some l ∧ l.file = s.path ∧ l.column = colOf s.content sp.start ∧
      l.lineText = lineText s.content sp.start ∧ l.length = l.lineText.length := by
  obtain ⟨g1, g2, g3, g4⟩ := h
  have hfl := firstLine_length_le (s.content.drop sp.start)
  have hcl := lastLine_length_le (s.content.take sp.start)
  rw [List.length_take] at hcl
  rw [List.length_drop] at hfl
  have ho : sp.start ≤ s.content.length := by omega
  unfold msgLoc
  rw [lineAndCol_exact g1 ho g4, fullLine_exact g1 ho g4]
  simp only [Option.bind_eq_bind, Option.bind_some]
  rw [if_neg (by omega)]
  refine ⟨_, rfl, rfl, rfl, line_slice ho, ?_⟩
  simp only [sub, List.length_take, List.length_drop]
  omega

/-- **C55, refuted as stated**: `Line` is the byte offset of the line, not its number. -/
theorem msgLoc_refuted : ¬ ∀ (s : Source) (sp : Span), GoodLoc s sp →
    ∃ l, msgLoc s sp = some l ∧ l.line = lineOf s.content sp.start := by
  intro hall
  obtain ⟨l, h, hl⟩ := hall ⟨b!"x.css", b!"aaaa\nb", [0, 5]⟩ ⟨5, 6⟩
    ⟨by decide +kernel, by decide, by decide, by decide⟩
  have : (msgLoc ⟨b!"x.css", b!"aaaa\nb", [0, 5]⟩ ⟨5, 6⟩).map (·.line) = some 5 := by decide +kernel
  rw [h] at this
  have this : some l.line = some 5 := this
  rw [hl] at this
  revert this
  decide +kernel

/-- **C55, refuted as stated**, in another way: the message for an error of the parser has no location at all, since
`Parse` returns it inside a `lexer.Error`. -/
theorem parseErr_no_location (s : Source) (sp : Span) (inner : Bytes) {ms : List Msg}
    (h : errMessages (.wrapped s sp inner) = some ms) : ∀ m ∈ ms, m.location = none := by
  obtain ⟨t, _, h⟩ := Option.bind_eq_some_iff.1 h
  cases h
  simp

example : errMessages sampleParseErr = some [⟨b!"x.css:2:2\noops:\n\ta{b\n\t ~", none⟩] := by decide +kernel

example : GoodLoc ⟨b!"x.css", b!"aaaa\nb", [0, 5]⟩ ⟨5, 6⟩ ∧ lineOf b!"aaaa\nb" 5 = 2 :=
  ⟨⟨by decide +kernel, by decide, by decide, by decide⟩, by decide +kernel⟩

end Cssc
