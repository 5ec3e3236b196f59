import Verif.Proofs.Laid
import Verif.Props.Comments

/-!
# Other spellings and layouts

C68: two texts that differ in a way that has no meaning in CSS (the quotes of a string, the letter case of a keyword,
white space between tokens outside selectors, a `;` behind the last declaration, comments, the form of an address) are
parsed alike.  What a text may look like is `Spelling`, `Respaced` and `Laid` (`Spec/Printable.lean`).
-/

namespace Cssc

/-! ### A checker -/

/-- A computable version of `Spaced`, for concrete cases. -/
def spacedB : Nat → PTok → List PTok → List PTok → Bool
  | 0, _, _, _ => false
  | _ + 1, _, [], [] => true
  | n + 1, t, [], v :: us => v.isWs && (t.isBound || !InSelector []) && spacedB n t [] us
  | n + 1, t, u :: ts, [] => u.isWs && (t.isBound || !InSelector ts) && spacedB n t ts []
  | n + 1, t, u :: ts, v :: us =>
    if u = v ∨ u.isWs = true ∧ v.isWs = true then spacedB n u ts us
    else if v.isWs then (t.isBound || !InSelector (u :: ts)) && spacedB n t (u :: ts) us
    else u.isWs && (t.isBound || !InSelector ts) && spacedB n t ts (v :: us)

theorem loose_of {t : PTok} {ts : List PTok} (h : (t.isBound || !InSelector ts) = true) : Loose t ts := by
  rcases Bool.or_eq_true _ _ ▸ h with h | h
  · exact .inl h
  · exact .inr (by simpa using h)

theorem isWs_eq {t : PTok} (h : t.isWs = true) : ∃ w, t = .ws w := by
  cases t with
  | ws w => exact ⟨w, rfl⟩
  | _ => cases h

theorem spacedB_sound : ∀ (n : Nat) {t : PTok} {ts us : List PTok}, spacedB n t ts us = true → Spaced t ts us
  | 0, _, _, _, h => by cases h
  | _ + 1, _, [], [], _ => .nil
  | n + 1, t, [], v :: us, h => by
    simp only [spacedB, Bool.and_eq_true] at h
    obtain ⟨w, rfl⟩ := isWs_eq h.1.1
    exact .add (loose_of h.1.2) (spacedB_sound n h.2)
  | n + 1, t, u :: ts, [], h => by
    simp only [spacedB, Bool.and_eq_true] at h
    obtain ⟨w, rfl⟩ := isWs_eq h.1.1
    exact .drop (loose_of h.1.2) (spacedB_sound n h.2)
  | n + 1, t, u :: ts, v :: us, h => by
    rw [spacedB] at h
    split at h
    · rename_i hc
      rcases hc with rfl | ⟨h1, h2⟩
      · exact .tok (spacedB_sound n h)
      · obtain ⟨w, rfl⟩ := isWs_eq h1
        obtain ⟨x, rfl⟩ := isWs_eq h2
        exact .blank (spacedB_sound n h)
    · split at h
      · rename_i hv
        obtain ⟨w, rfl⟩ := isWs_eq hv
        rw [Bool.and_eq_true] at h
        exact .add (loose_of h.1) (spacedB_sound n h.2)
      · simp only [Bool.and_eq_true] at h
        obtain ⟨w, rfl⟩ := isWs_eq h.1.1
        exact .drop (loose_of h.1.2) (spacedB_sound n h.2)

/-! ### C68 -/

/-- The text is a way of writing the stylesheet: its tokens, in some spelling, with white space added, changed and left
out where it has no meaning, and with comments. -/
def Spells (sp : Spelling) (ss : Stylesheet) (text : Bytes) : Prop :=
  ∃ tl us, (∀ t ∈ tl, t.isWs = true) ∧ Respaced (@nodesToks sp ss.nodes ++ tl) us ∧ Laid us text

/-- **C68**, the part that holds: a text that writes a stylesheet in some spelling and some layout is parsed as that
stylesheet.  What is missing is the spellings that the code does not accept or does not take for the same, see
`spelling_refuted`. -/
theorem spelling_partial {sp : Spelling} {ss : Stylesheet} (hs : ∀ n ∈ ss.nodes, n.Shape)
    (hi : ss.imports.map ImportSpec.value = importValues ss.nodes) {text : Bytes} (hw : Spells sp ss text) (id : Nat) :
    ∃ k ss' lines, (∀ n, k ≤ n → parse n text id = .ok ss' lines) ∧ ss'.Same ss := by
  obtain ⟨tl, us, ht, hr, hl⟩ := hw
  obtain ⟨k, ss', lines, hp, hn, hv⟩ := @parse_spaced sp _ hs _ _ ht _ hr hl id
  exact ⟨k, ss', lines, hp, hn, by rw [hv, hi]⟩

/-- Two ways of writing one stylesheet are parsed alike. -/
theorem spellings_agree {sp sp' : Spelling} {ss : Stylesheet} (hs : ∀ n ∈ ss.nodes, n.Shape)
    (hi : ss.imports.map ImportSpec.value = importValues ss.nodes) {text text' : Bytes} (hw : Spells sp ss text)
    (hw' : Spells sp' ss text') {id id' n n' : Nat} {a b : Stylesheet} {l l' : List Nat} (h : parse n text id = .ok a l)
    (h' : parse n' text' id' = .ok b l') : a.Same b := by
  have key : ∀ {sp : Spelling} {text : Bytes} {id n : Nat} {a : Stylesheet} {l : List Nat}, Spells sp ss text →
      parse n text id = .ok a l → a.Same ss := by
    intro sp text id n a l hw h
    obtain ⟨k, c, lc, hc, sc⟩ := spelling_partial hs hi hw id
    have hc := hc k (Nat.le_refl k)
    have := parse_deterministic (n := n) (m := k) (by rw [h]; simp) (by rw [hc]; simp)
    rw [h, hc] at this
    cases this
    exact sc
  have ha := key hw h
  have hb := key hw' h'
  exact ⟨ha.nodes.trans hb.nodes.symm, ha.imports.trans hb.imports.symm⟩

/-- Printing does away with the differences: whatever way a stylesheet is written, the output is the same. -/
theorem spellings_output {sp sp' : Spelling} {ss : Stylesheet} (hs : ∀ n ∈ ss.nodes, n.Shape)
    (hi : ss.imports.map ImportSpec.value = importValues ss.nodes) {text text' : Bytes} (hw : Spells sp ss text)
    (hw' : Spells sp' ss text') {id id' n n' : Nat} {a b : Stylesheet} {l l' : List Nat} (h : parse n text id = .ok a l)
    (h' : parse n' text' id' = .ok b l') : print none a = print none b :=
  print_positions (spellings_agree hs hi hw hw' h h')

/-! ### A case -/

/-- `@import "x.css";a,b>c{d:"e f",url(g)!important;h:calc(1px+2em)}@media (i<=5px){j{k:l}}`, with a position for each
choice. -/
def spelled : Stylesheet :=
  ⟨[.at ⟨0, ⟨1, 1⟩, b!"import", [.str ⟨2, 2⟩ b!"x.css"], .none⟩,
    .rule ⟨⟨3, 3⟩, .sels ⟨⟨4, 4⟩, [.mk ⟨5, 5⟩ [.type ⟨6, 6⟩ b!"a"],
        .mk ⟨7, 7⟩ [.type ⟨8, 8⟩ b!"b", .comb ⟨9, 9⟩ b!">", .type ⟨10, 10⟩ b!"c"]]⟩,
      some ⟨⟨11, 11⟩, [
        .decl ⟨12, 12⟩ b!"d" [.str ⟨13, 13⟩ b!"e f", .comma ⟨14, 14⟩, .func ⟨15, 15⟩ b!"url" [.ident ⟨16, 16⟩ b!"g"]] true,
        .decl ⟨17, 17⟩ b!"h" [.func ⟨18, 18⟩ b!"calc" [.math ⟨19, 19⟩ b!"+" (.dim ⟨20, 20⟩ b!"1" b!"px")
          (.dim ⟨21, 21⟩ b!"2" b!"em")]] false]⟩⟩,
    .at ⟨0, ⟨22, 22⟩, b!"media", [.mql (some ⟨⟨23, 23⟩, [⟨⟨24, 24⟩,
        [.range ⟨25, 25⟩ ⟨26, 26⟩ b!"i" .nil b!"<=" (.dim ⟨27, 27⟩ b!"5" b!"px")]⟩]⟩)],
      .rules ⟨28, 28⟩ [⟨⟨29, 29⟩, .sels ⟨⟨30, 30⟩, [.mk ⟨31, 31⟩ [.type ⟨32, 32⟩ b!"j"]]⟩,
        some ⟨⟨33, 33⟩, [.decl ⟨34, 34⟩ b!"k" [.ident ⟨35, 35⟩ b!"l"] false]⟩⟩]⟩],
    [⟨b!"x.css", ⟨0, 1⟩⟩]⟩

/-- A spelling unlike the printer's. -/
@[instance_reducible] def otherwise : Spelling where
  mark _ := 39
  urlWord _ := b!"uRl"
  address _ := .url b!"URL"
  important _ := b!"Important"
  semicolon _ := true
  lead sp := if sp.start = 7 then b!"\n" else []
  trail sp := if sp.start = 5 ∨ sp.start = 7 then b!" " else []
  important_eq _ := by decide

/-- The tokens of `spelledText`. -/
def spelledToks : List PTok :=
  let sp := PTok.ws b!" "
  let nl := PTok.ws b!"\n"
  [.at b!"import", sp, .url b!"URL" b!"x.css", .punct 59, nl, .ident b!"a", sp, .punct 44, nl, .ident b!"b", .delim 62,
    .ident b!"c", sp, .punct 123, .ws b!"\n  ", .ident b!"d", sp, .punct 58, sp, .string 39 b!"e f", sp, .punct 44, sp,
    .url b!"uRl" b!"g", sp, .delim 33, sp, .ident b!"Important", sp, .punct 59, .ws b!"\n  ", .ident b!"h", .punct 58,
    sp, .func b!"calc", sp, .dimension b!"1" b!"px", sp, .delim 43, sp, .dimension b!"2" b!"em", sp, .punct 41,
    .punct 59, nl, .punct 125, nl, .at b!"media", .ws b!"\t", .punct 40, .ident b!"i", sp, .delim 60, .delim 61, sp,
    .dimension b!"5" b!"px", .punct 41, sp, .punct 123, .ws b!"\n  ", .ident b!"j", .punct 123, sp, .ident b!"k", .punct 58,
    sp, .ident b!"l", .punct 59, sp, .punct 125, nl, .punct 125, nl]

def spelledText : Bytes :=
  b!"@import URL(x.css);\na ,\nb>c {\n  d : 'e f' , uRl(g) ! Important ;\n  h: calc( 1px + 2em );\n}\n@media\t(i <= 5px) {\n  j{ k: l; }\n}\n"

theorem spelled_spells : Spells otherwise spelled spelledText := by
  refine ⟨[], spelledToks, by simp, spacedB_sound 200 (by decide +kernel), ?_⟩
  have h := (layB_sound (ts := spelledToks) (by decide +kernel)).laid
  have e : texts spelledToks = spelledText := by decide +kernel
  rwa [e] at h

/-- The tokens of `plainText`. -/
def plainToks : List PTok :=
  let sp := PTok.ws b!" "
  [.at b!"import", .string 34 b!"x.css", .punct 59, .ident b!"a", .punct 44, .ident b!"b", .delim 62, .ident b!"c", .punct 123,
    .ident b!"d", .punct 58, .string 34 b!"e f", .punct 44, .url b!"url" b!"g", .delim 33, .ident b!"important", .punct 59,
    .ident b!"h", .punct 58, .func b!"calc", .dimension b!"1" b!"px", sp, .delim 43, sp, .dimension b!"2" b!"em", .punct 41,
    .punct 125, .at b!"media", .punct 40, .ident b!"i", .delim 60, .delim 61, .dimension b!"5" b!"px", .punct 41,
    .punct 123, .ident b!"j", .punct 123, .ident b!"k", .punct 58, .ident b!"l", .punct 125, .punct 125]

def plainText : Bytes :=
  b!"@import\"x.css\";a,b>c{d:\"e f\",url(g)!important;h:calc(1px + 2em)}@media(i<=5px){j{k:l}}"

theorem spelled_plain : Spells .printed spelled plainText := by
  refine ⟨[], plainToks, by simp, spacedB_sound 200 (by decide +kernel), ?_⟩
  have h := (layB_sound (ts := plainToks) (by decide +kernel)).laid
  have e : texts plainToks = plainText := by decide +kernel
  rwa [e] at h

/-- Two ways of writing one stylesheet. -/
example : (∀ n ∈ spelled.nodes, n.Shape) ∧ spelled.imports.map ImportSpec.value = importValues spelled.nodes ∧
    Spells otherwise spelled spelledText ∧ Spells .printed spelled plainText := by
  have hp : spelled.nodes.all Node.shapeB = true := by decide +kernel
  exact ⟨fun n hn => Node.shapeB_sound (List.all_eq_true.1 hp n hn), by decide +kernel, spelled_spells, spelled_plain⟩

/-- What the printer writes is one of the ways. -/
theorem print_spells {ss : Stylesheet} {out : Bytes} (h : ss.Printable) (hp : print none ss = .ok out) : Spells .printed ss out := by
  rw [print_texts h.shape] at hp
  cases hp
  exact ⟨[], _, by simp, by rw [List.append_nil]; exact Spaced.refl _ _, h.lay.laid⟩

example : abc.Printable ∧ print none abc = .ok b!"a{b:c}" :=
  ⟨Stylesheet.printableB_sound (by decide +kernel), by decide +kernel⟩

/-! ### What is missing -/

/-- Tokens that are the same but for the letter case of at-keywords and function names. -/
inductive CaseAlike : List PTok → List PTok → Prop where
  | nil : CaseAlike [] []
  | same {t : PTok} {ts us : List PTok} : CaseAlike ts us → CaseAlike (t :: ts) (t :: us)
  | at {v w : Bytes} {ts us : List PTok} : v.map lowerCase = w.map lowerCase → CaseAlike ts us → CaseAlike (.at v :: ts) (.at w :: us)
  | func {v w : Bytes} {ts us : List PTok} : v.map lowerCase = w.map lowerCase → CaseAlike ts us →
      CaseAlike (.func v :: ts) (.func w :: us)

/-- The tokens of `@media print{a{b:c;}}`, with the given at-keyword. -/
def mediaToks (w : Bytes) : List PTok :=
  [.at w, .ws b!" ", .ident b!"print", .punct 123, .ident b!"a", .punct 123, .ident b!"b", .punct 58, .ident b!"c", .punct 59, .punct 125, .punct 125]

/-- The tokens of `a{b:calc(1px + 2em);}`, with the given function. -/
def callToks (w : Bytes) : List PTok :=
  [.ident b!"a", .punct 123, .ident b!"b", .punct 58, .func w, .dimension b!"1" b!"px", .ws b!" ", .delim 43, .ws b!" ",
    .dimension b!"2" b!"em", .punct 41, .punct 59, .punct 125]

/-- The tokens of `a:nth-child(2n){b:c}`, with the given white space. -/
def nthToks (ws : List PTok) : List PTok :=
  [.ident b!"a", .punct 58, .func b!"nth-child"] ++ ws ++ [.dimension b!"2" b!"n", .punct 41, .punct 123, .ident b!"b", .punct 58, .ident b!"c", .punct 125]

/-- Texts of which the first is accepted and the second is not are not parsed alike. -/
theorem not_accepted {x y : Bytes} (h0 : (parse 100 x).sheet?.isSome = true) (h1 : (parse 100 y).err?.isSome = true) :
    ¬ ∀ n ss lines, parse n x = .ok ss lines → ∃ m ss' lines', parse m y = .ok ss' lines' ∧ ss.Same ss' := by
  intro h
  cases hs : (parse 100 x).sheet? with
  | none => rw [hs] at h0; cases h0
  | some a =>
    obtain ⟨m, ss', lines', hm, _⟩ := h _ _ _ (sheet?_some hs)
    have := parse_deterministic (n := m) (m := 100) (src := y) (id := 0) (by rw [hm]; simp) (by
      intro e; rw [e] at h1; cases h1)
    rw [← this, hm] at h1
    cases h1

/-- Letter case is not ignored as CSS has it: `@MEDIA` is not taken for `@media`, and the text is not accepted. -/
theorem spelling_refuted : ¬ ∀ ts us, CaseAlike ts us → LayoutIgnored ts us := by
  intro h
  refine not_accepted (x := b!"@media print{a{b:c;}}") (y := b!"@MEDIA print{a{b:c;}}") (by decide +kernel) (by decide +kernel) ?_
  refine h (mediaToks b!"media") (mediaToks b!"MEDIA") ?_ _ _ (layB_sound (ts := mediaToks b!"media") (by decide +kernel)).laid
    (layB_sound (ts := mediaToks b!"MEDIA") (by decide +kernel)).laid
  refine .at (by decide) ?_
  repeat first | exact .nil | refine .same ?_

/-- Likewise `CALC` and `calc`: the argument of `CALC` is taken to end at `+`, and the rest is kept as text behind it. -/
theorem spelling_call_refuted : ¬ LayoutIgnored (callToks b!"calc") (callToks b!"CALC") := by
  intro h
  refine not_alike (x := b!"a{b:calc(1px + 2em);}") (y := b!"a{b:CALC(1px + 2em);}") (p := .ok b!"a{b:calc(1px+2em)}")
    (q := .ok b!"a{b:CALC(1px) + 2em;);}") (by decide +kernel) (by decide +kernel) (by decide) ?_
  exact h _ _ (layB_sound (ts := callToks b!"calc") (by decide +kernel)).laid (layB_sound (ts := callToks b!"CALC") (by decide +kernel)).laid

/-- White space is not allowed before An+B. -/
theorem spelling_nth_refuted : ¬ LayoutIgnored (nthToks []) (nthToks [.ws b!" "]) := by
  intro h
  refine not_accepted (x := b!"a:nth-child(2n){b:c}") (y := b!"a:nth-child( 2n){b:c}") (by decide +kernel) (by decide +kernel) ?_
  exact h _ _ (layB_sound (ts := nthToks []) (by decide +kernel)).laid (layB_sound (ts := nthToks [.ws b!" "]) (by decide +kernel)).laid

/-- Is some declaration of a style rule important? -/
def anyImportant (ss : Stylesheet) : Bool := ss.nodes.any fun n => match n with
  | .rule r => match r.block with
    | none => false
    | some b => b.decls.any fun d => match d with | .decl _ _ _ i => i | .raw _ _ => false
  | .at _ => false

/-- The word `important` is not asked to be a name: a string behind `!` counts as well. -/
theorem important_name_refuted : ¬ ∀ ts text n ss lines, Laid ts text → parse n text = .ok ss lines → anyImportant ss = true →
    ∃ w, PTok.ident w ∈ ts ∧ w.map lowerCase = b!"important" := by
  intro h
  have hq : (parse 100 b!"a{b:c!\"important\"}").sheet?.map (fun x => anyImportant x.1) = some true := by decide +kernel
  cases hs : (parse 100 b!"a{b:c!\"important\"}").sheet? with
  | none => rw [hs] at hq; cases hq
  | some a =>
    rw [hs, Option.map_some, Option.some.injEq] at hq
    obtain ⟨w, hw, e⟩ := h [.ident b!"a", .punct 123, .ident b!"b", .punct 58, .ident b!"c", .delim 33, .string 34 b!"important",
      .punct 125] _ _ _ _ (layB_sound (by decide +kernel)).laid (sheet?_some hs) hq
    simp only [List.mem_cons, PTok.ident.injEq, reduceCtorEq, List.not_mem_nil, or_false, false_or] at hw
    rcases hw with rfl | rfl | rfl <;> cases e

end Cssc
