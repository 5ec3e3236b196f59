import Verif.Proofs.Laid
import Verif.Proofs.TwinsLaid
import Verif.Props.RoundTrip
import Verif.Props.Printer

/-!
# Comments between tokens

C63: what a text with comments is parsed as, and C26 for text printed with a source map, which ends in a
comment.  `Laid ts text` (`Spec/Printable.lean`) says that the text consists of the tokens `ts` with
comments between them.
-/

namespace Cssc

/-! ### C63: comments and white space -/

/-- Two texts that consist of the same tokens, with comments here or there and with more or less white space where
there is some, are parsed alike. -/
def LayoutIgnored (ts us : List PTok) : Prop :=
  ∀ text text', Laid ts text → Laid us text' → ∀ n ss lines, parse n text = .ok ss lines →
    ∃ m ss' lines', parse m text' = .ok ss' lines' ∧ ss.Same ss'

/-- The tokens of `a{b:c!;}`. -/
def bangToks : List PTok := [.ident b!"a", .punct 123, .ident b!"b", .punct 58, .ident b!"c", .delim 33, .punct 59, .punct 125]

/-- The tokens of `a{b c;}`. -/
def rawToks : List PTok := [.ident b!"a", .punct 123, .ident b!"b", .ws b!" ", .ident b!"c", .punct 59, .punct 125]

/-- The same with more white space. -/
def rawToks' : List PTok := [.ident b!"a", .punct 123, .ident b!"b", .ws b!"  ", .ident b!"c", .punct 59, .punct 125]

/-- The tokens of `a[b 5='c']{}`. -/
def attrToks : List PTok :=
  [.ident b!"a", .punct 91, .ident b!"b", .ws b!" ", .number b!"5", .delim 61, .string 39 b!"c", .punct 93, .punct 123, .punct 125]

theorem laid_tok {t : PTok} {ts : List PTok} {r : Bytes} (h1 : t.wfB = true) (h2 : t.followB r = true) (h3 : Laid ts r) :
    Laid (t :: ts) (t.text ++ r) :=
  .tok (PTok.wfB_sound h1) (PTok.followB_sound h2) h3

theorem bang_laid : Laid bangToks b!"a{b:c!;}" ∧ Laid bangToks b!"a{b:c!/*important*/;}" := by
  refine ⟨(layB_sound (ts := bangToks) (by decide +kernel)).laid, ?_⟩
  refine laid_tok (t := .ident b!"a") (by decide +kernel) (by decide +kernel) (r := b!"{b:c!/*important*/;}") ?_
  refine laid_tok (t := .punct 123) (by decide +kernel) (by decide +kernel) (r := b!"b:c!/*important*/;}") ?_
  refine laid_tok (t := .ident b!"b") (by decide +kernel) (by decide +kernel) (r := b!":c!/*important*/;}") ?_
  refine laid_tok (t := .punct 58) (by decide +kernel) (by decide +kernel) (r := b!"c!/*important*/;}") ?_
  refine laid_tok (t := .ident b!"c") (by decide +kernel) (by decide +kernel) (r := b!"!/*important*/;}") ?_
  refine laid_tok (t := .delim 33) (by decide +kernel) (by decide +kernel) (r := b!"/*important*/;}") ?_
  refine .comment (body := b!"important") ⟨by decide +kernel, by decide +kernel⟩ ?_
  exact (layB_sound (ts := [.punct 59, .punct 125]) (by decide +kernel)).laid

theorem attr_laid : Laid attrToks b!"a[b 5='c']{}" ∧ Laid attrToks b!"a[b /*^*/5='c']{}" := by
  refine ⟨(layB_sound (ts := attrToks) (by decide +kernel)).laid, ?_⟩
  refine laid_tok (t := .ident b!"a") (by decide +kernel) (by decide +kernel) (r := b!"[b /*^*/5='c']{}") ?_
  refine laid_tok (t := .punct 91) (by decide +kernel) (by decide +kernel) (r := b!"b /*^*/5='c']{}") ?_
  refine laid_tok (t := .ident b!"b") (by decide +kernel) (by decide +kernel) (r := b!" /*^*/5='c']{}") ?_
  refine laid_tok (t := .ws b!" ") (by decide +kernel) (by decide +kernel) (r := b!"/*^*/5='c']{}") ?_
  refine .comment (body := b!"^") ⟨by decide +kernel, by decide +kernel⟩ ?_
  exact (layB_sound (ts := attrToks.drop 4) (by decide +kernel)).laid

/-- Texts that are parsed, but printed differently afterwards, are not parsed alike. -/
theorem not_alike {x y : Bytes} {p q : PrintRes} (h0 : (parse 100 x).sheet?.map (fun x => print none x.1) = some p)
    (h1 : (parse 100 y).sheet?.map (fun x => print none x.1) = some q) (hpq : p ≠ q) :
    ¬ ∀ n ss lines, parse n x = .ok ss lines → ∃ m ss' lines', parse m y = .ok ss' lines' ∧ ss.Same ss' := by
  intro h
  cases hs : (parse 100 x).sheet? with
  | none => rw [hs] at h0; cases h0
  | some a =>
    rw [hs, Option.map_some, Option.some.injEq] at h0
    obtain ⟨m, ss', lines', hm, hsame⟩ := h _ _ _ (sheet?_some hs)
    cases ht : (parse 100 y).sheet? with
    | none => rw [ht] at h1; cases h1
    | some c =>
      rw [ht, Option.map_some, Option.some.injEq] at h1
      have := parse_deterministic (n := m) (m := 100) (by rw [hm]; simp) (by rw [sheet?_some ht]; simp)
      rw [hm, sheet?_some ht] at this
      injection this with e1 e2
      subst e1
      rw [← print_positions hsame, h0] at h1
      exact hpq h1

/-- Comments are not always ignored: after `!` the parser compares the last text it has seen with `important`, and the
text of a comment counts.  Without it the declaration is kept as text. -/
theorem comments_refuted : ¬ ∀ ts us, Alike ts us → LayoutIgnored ts us := by
  intro h
  refine not_alike (x := b!"a{b:c!/*important*/;}") (y := b!"a{b:c!;}") (p := .ok b!"a{b:c!important}") (q := .ok b!"a{b:c!;}")
    (by decide +kernel) (by decide +kernel) (by decide) ?_
  refine h bangToks bangToks ?_ _ _ bang_laid.2 bang_laid.1
  repeat first | exact .nil | refine .cons (.inl rfl) ?_

/-- The other place where the text of a comment counts: after a name in an attribute selector.  `a[b /*^*/5='c']{}` is
accepted, `a[b 5='c']{}` is not. -/
theorem comments_attr_refuted : Laid attrToks b!"a[b 5='c']{}" ∧ Laid attrToks b!"a[b /*^*/5='c']{}" ∧
    (parse 100 b!"a[b 5='c']{}").err?.isSome = true ∧ (parse 100 b!"a[b /*^*/5='c']{}").sheet?.isSome = true :=
  ⟨attr_laid.1, attr_laid.2, by decide +kernel, by decide +kernel⟩

/-- Declarations that are kept as text are kept with their white space. -/
theorem layout_raw_refuted : Named rawToks ∧ ¬ LayoutIgnored rawToks rawToks' := by
  refine ⟨?_, fun h => ?_⟩
  · simp [Named, rawToks]
  · refine not_alike (x := b!"a{b c;}") (y := b!"a{b  c;}") (p := .ok b!"a{b c;}") (q := .ok b!"a{b  c;}")
      (by decide +kernel) (by decide +kernel) (by decide) ?_
    exact h _ _ (layB_sound (ts := rawToks) (by decide +kernel)).laid (layB_sound (ts := rawToks') (by decide +kernel)).laid

/-- **C63**: if a text is parsed, and no declaration is kept as text, then every text that consists of the same tokens,
with other comments and with more or less white space where there is some, is parsed as the same stylesheet up to
positions, provided that `!` is followed by a token that has a text (such as a name), and likewise the name in an
attribute selector. -/
theorem layout_ignored_partial {ts us : List PTok} (ha : Alike ts us) (hn : Named ts) {text text' : Bytes} (hl : Laid ts text)
    (hl' : Laid us text') {n id : Nat} {ss : Stylesheet} {lines : List Nat} (hp : parse n text id = .ok ss lines)
    (hc : ∀ x ∈ ss.nodes, x.clean) : ∃ ss' lines', parse n text' id = .ok ss' lines' ∧ ss.Same ss' :=
  parse_twins ha hn hl hl' hp hc

/-- A rule with an attribute selector and an important declaration. -/
def layoutToks : List PTok :=
  [.ident b!"a", .punct 91, .ident b!"b", .punct 93, .ws b!" ", .ident b!"p", .punct 123, .ident b!"b", .punct 58, .ident b!"c",
    .ws b!" ", .delim 33, .ident b!"important", .punct 125]

/-- The same with more white space. -/
def layoutToks' : List PTok :=
  [.ident b!"a", .punct 91, .ident b!"b", .punct 93, .ws b!"\n", .ident b!"p", .punct 123, .ident b!"b", .punct 58, .ident b!"c",
    .ws b!"  ", .delim 33, .ident b!"important", .punct 125]

/-- No declaration is kept as text, computed. -/
def cleanB (ss : Stylesheet) : Bool := ss.nodes.all fun n => match n with
  | .rule r => match r.block with | none => true | some b => b.decls.all fun d => !d.asText
  | .at _ => false

theorem cleanB_sound {ss : Stylesheet} (h : cleanB ss = true) : ∀ x ∈ ss.nodes, x.clean := by
  intro x hx
  have := List.all_eq_true.1 h x hx
  cases x with
  | «at» a => cases this
  | rule r =>
    intro b hb d hd
    dsimp only at this
    rw [hb] at this
    have := List.all_eq_true.1 this d hd
    simpa using this

example : Alike layoutToks layoutToks' ∧ Named layoutToks ∧ Laid layoutToks b!"a[b] p{b:c !important}" ∧
    Laid layoutToks' b!"a[b]\np{b:c  !important}" ∧
    ∃ ss lines, parse 100 b!"a[b] p{b:c !important}" = .ok ss lines ∧ ∀ x ∈ ss.nodes, x.clean := by
  refine ⟨?_, ?_, (layB_sound (ts := layoutToks) (by decide +kernel)).laid, (layB_sound (ts := layoutToks') (by decide +kernel)).laid, ?_⟩
  · repeat first | exact .nil | refine .cons (.inl rfl) ?_ | refine .cons (.inr ⟨rfl, rfl⟩) ?_
  · simp [Named, layoutToks, NextHasText, List.dropWhile, PTok.isWs, PTok.str]
  · have h : (parse 100 b!"a[b] p{b:c !important}").sheet?.map (fun x => cleanB x.1) = some true := by decide +kernel
    cases hs : (parse 100 b!"a[b] p{b:c !important}").sheet? with
    | none => rw [hs] at h; cases h
    | some x =>
      rw [hs, Option.map_some, Option.some.injEq] at h
      exact ⟨x.1, x.2, sheet?_some hs, cleanB_sound h⟩

/-- A text that consists of the tokens of a stylesheet that has the shape of the grammar, with comments
anywhere and white space at the end, is parsed as that stylesheet. -/
theorem comments_partial {ss : Stylesheet} (hs : ∀ n ∈ ss.nodes, n.Shape) (hi : ss.imports.map ImportSpec.value = importValues ss.nodes)
    {tl : List PTok} (ht : ∀ t ∈ tl, t.isWs = true) {text : Bytes} (hl : Laid (nodesToks ss.nodes ++ tl) text) (id : Nat) :
    ∃ k ss' lines, (∀ n, k ≤ n → parse n text id = .ok ss' lines) ∧ ss'.Same ss := by
  obtain ⟨k, ss', lines, hp, hn, hv⟩ := parse_laid hs ht hl id
  exact ⟨k, ss', lines, hp, hn, by rw [hv, hi]⟩

/-- A rule `a{b:c}`. -/
def abc : Stylesheet := ⟨[.rule ⟨⟨0, 0⟩, .sels ⟨⟨0, 0⟩, [.mk ⟨0, 0⟩ [.type ⟨0, 0⟩ b!"a"]]⟩,
  some ⟨⟨0, 0⟩, [.decl ⟨0, 0⟩ b!"b" [.ident ⟨0, 0⟩ b!"c"] false]⟩⟩], []⟩

example : abc.Printable ∧ Laid (nodesToks abc.nodes ++ []) b!"a/*x*/{b/*{*/:c/***/}" := by
  refine ⟨Stylesheet.printableB_sound (by decide +kernel), ?_⟩
  refine laid_tok (t := .ident b!"a") (by decide +kernel) (by decide +kernel) (r := b!"/*x*/{b/*{*/:c/***/}") ?_
  refine .comment (body := b!"x") ⟨by decide +kernel, by decide +kernel⟩ ?_
  refine laid_tok (t := .punct 123) (by decide +kernel) (by decide +kernel) (r := b!"b/*{*/:c/***/}") ?_
  refine laid_tok (t := .ident b!"b") (by decide +kernel) (by decide +kernel) (r := b!"/*{*/:c/***/}") ?_
  refine .comment (body := b!"{") ⟨by decide +kernel, by decide +kernel⟩ ?_
  refine laid_tok (t := .punct 58) (by decide +kernel) (by decide +kernel) (r := b!"c/***/}") ?_
  refine laid_tok (t := .ident b!"c") (by decide +kernel) (by decide +kernel) (r := b!"/***/}") ?_
  refine .comment (body := b!"*") ⟨by decide +kernel, by decide +kernel⟩ ?_
  exact (layB_sound (ts := [.punct 125]) (by decide +kernel)).laid

/-! ### C26 with a source map -/

/-- The comment that holds a source map contains no `*`. -/
theorem mapBody_comment {b64 : Bytes} (h : 42 ∉ b64) :
    IsCommentBody (b!"# sourceMappingURL=data:application/json;base64," ++ b64 ++ [32]) := by
  have hn : (42 : UInt8) ∉ b!"# sourceMappingURL=data:application/json;base64," ++ b64 ++ [32] := by
    simp only [List.mem_append, not_or]
    exact ⟨⟨by decide, h⟩, by decide⟩
  exact ⟨fun hi => hn (hi.mem (List.mem_cons_self ..)), fun hi => hn (hi.mem (List.mem_cons_self ..))⟩

/-- If a printable stylesheet is printed with a source map, then parsing the text gives the stylesheet back,
up to positions: the map does not change what the text means. -/
theorem print_map_parse {source : Source} {ss : Stylesheet} {out : Bytes} (h : ss.Printable)
    (hp : print (some source) ss = .ok out) (id : Nat) :
    ∃ k ss' lines, (∀ n, k ≤ n → parse n out id = .ok ss' lines) ∧ ss'.Same ss := by
  obtain ⟨css, b64, hc, rfl, _, hb⟩ := map_only_appends hp
  rw [print_texts h.shape] at hc
  cases hc
  have hnl : Laid [.ws [10]] [10] := (layB_sound (ts := [.ws [10]]) (by decide +kernel)).laid
  have hcm := Laid.comment (mapBody_comment hb) hnl
  have hq : Laid [.ws [10], .ws [10]] (10 :: (47 :: 42 :: ((b!"# sourceMappingURL=data:application/json;base64," ++ b64 ++ [32]) ++ 42 :: 47 :: [10]))) :=
    .tok (t := .ws [10]) (PTok.wfB_sound (by decide +kernel)) (.inr ⟨_, _, rfl, by decide, by decide⟩) hcm
  have hl := Lay.laid_newline hq h.lay (by
    intro w hw
    rcases nodesToks_last ss.nodes with e | ⟨ts, c, e⟩
    · rw [e] at hw; cases hw
    · rw [e, List.getLast?_append] at hw; cases hw)
  refine comments_partial h.shape h.imports (tl := [.ws [10], .ws [10]]) (by decide) (text := _) ?_ id
  convert hl using 1
  simp [List.append_assoc]

/-- Whether printing succeeded. -/
def printed : PrintRes → Bool
  | .ok _ => true
  | _ => false

example : abc.Printable ∧ ∃ out, print (some ⟨b!"a.css", b!"a{b:c}", [0]⟩) abc = .ok out := by
  refine ⟨Stylesheet.printableB_sound (by decide +kernel), ?_⟩
  have h : printed (print (some ⟨b!"a.css", b!"a{b:c}", [0]⟩) abc) = true := by decide +kernel
  rcases e : print (some ⟨b!"a.css", b!"a{b:c}", [0]⟩) abc with out | _ | _
  · exact ⟨out, rfl⟩
  · rw [e] at h; cases h
  · rw [e] at h; cases h

end Cssc
