import Verif.Proofs.Items
import Verif.Proofs.ParseRules
import Verif.Props.Lexer

/-!
# Properties of the parser: C08, C17, C18, C19, C20, C21, C22, C23, C24, C25

The specification side is `Spec/Tree.lean` (well-formed trees of a text) and `Spec/Items.lean` (every span,
literal and node in a tree).
-/

namespace Cssc

/-! ### Supporting facts -/

/-- The state in which the parser starts. -/
theorem newLexer_pi {src : Bytes} {id : Nat} {s : St} (h : newLexer (St.init src id) = .ok () s) : PI src id s := by
  obtain ⟨s1, e, hi, hsrc, hl, _, _, _, hid, _⟩ := first_step src id
  rw [newLexer_eq e] at h
  obtain ⟨t, d⟩ := wp_ok (next_full hi hsrc) h
  have hs : s.src = src := t.adv.src.trans hsrc
  refine ⟨hs, t.adv.id.trans hid, t.adv.inv, t.tok.start_le, ?_, ?_, ?_, ?_, ?_, ?_, d⟩
  · intro e; rw [t.tok.ident e, hs]
  · intro e; rw [t.tok.delim e, hs]
  · intro e; rw [t.tok.number e, hs]
  · intro e; rw [t.tok.dimension e, hs]
  · intro e; rw [← hs]; exact t.tok.lit e
  · intro e; rw [← hs]; exact t.tok.pct e

theorem parse_wp {src : Bytes} {id : Nat} {s : St} (n : Nat) (h : newLexer (St.init src id) = .ok () s) :
    wp (topLoop n ⟨[], []⟩) (fun r s' => SheetOk src r ∧ PI src id s' ∧ s'.lex.cur = .eof) (PX (PanicIn src) src id) s :=
  topLoop_pi (fun h => h) n (newLexer_pi h) (fun x hx => by cases hx) (Nat.zero_le _) rfl

/-- The stylesheet that a parse returns is well formed. -/
theorem parse_sheetOk {n : Nat} {src : Bytes} {id : Nat} {ss : Stylesheet} {lines : List Nat}
    (h : parse n src id = .ok ss lines) : SheetOk src ss := by
  unfold parse at h
  split at h
  · cases h
  · cases h
  · cases h
  · rename_i s hs
    split at h
    · rename_i ss' s' ht
      cases h
      exact (wp_ok (parse_wp n hs) ht).1
    · cases h
    · cases h
    · cases h

/-- The literals of a stylesheet, in order. -/
def Stylesheet.lits (ss : Stylesheet) : List Bytes :=
  ss.items.filterMap fun | .lit t => some t | _ => none

/-- The spans of a stylesheet, in order. -/
def Stylesheet.spans (ss : Stylesheet) : List Span :=
  ss.items.filterMap fun | .span sp => some sp | _ => none

theorem mem_lits {ss : Stylesheet} {t : Bytes} : t ∈ ss.lits ↔ Item.lit t ∈ ss.items := by
  unfold Stylesheet.lits
  rw [List.mem_filterMap]
  constructor
  · rintro ⟨it, h, e⟩
    cases it <;> cases e
    exact h
  · exact fun h => ⟨_, h, rfl⟩

theorem mem_spans {ss : Stylesheet} {sp : Span} : sp ∈ ss.spans ↔ Item.span sp ∈ ss.items := by
  unfold Stylesheet.spans
  rw [List.mem_filterMap]
  constructor
  · rintro ⟨it, h, e⟩
    cases it <;> cases e
    exact h
  · exact fun h => ⟨_, h, rfl⟩

/-- The stylesheet and line table that a parse returns. -/
def ParseRes.sheet? : ParseRes → Option (Stylesheet × List Nat)
  | .ok ss lines => some (ss, lines)
  | _ => none

theorem sheet?_some {r : ParseRes} {x : Stylesheet × List Nat} (h : r.sheet? = some x) : r = .ok x.1 x.2 := by
  cases r <;> cases h
  rfl

/-- The error that a parse returns. -/
def ParseRes.err? : ParseRes → Option LexErr
  | .error e _ => some e
  | _ => none

theorem err?_some {α : Type} {r : ParseRes} {f : LexErr → α} {a : α} (h : r.err?.map f = some a) :
    ∃ e lines, r = .error e lines ∧ f e = a := by
  cases r <;> cases h
  exact ⟨_, _, rfl, rfl⟩

def ParseRes.isPanic : ParseRes → Bool
  | .panic => true
  | _ => false

theorem isPanic_eq {r : ParseRes} (h : r.isPanic = true) : r = .panic := by
  cases r <;> cases h
  rfl

/-- The state in which a computation returns. -/
def Res.st? : Res α → Option St
  | .ok _ s => some s
  | _ => none

theorem st?_some {r : Res Unit} {β : Type} {f : St → β} {b : β} (h : r.st?.map f = some b) :
    ∃ s, r = .ok () s ∧ f s = b := by
  cases r <;> cases h
  exact ⟨_, rfl, rfl⟩

def Res.errSt? : Res α → Option St
  | .err _ s => some s
  | _ => none

theorem errSt?_some {r : Res α} {β : Type} {f : St → β} {b : β} (h : r.errSt?.map f = some b) :
    ∃ e s, r = .err e s ∧ f s = b := by
  cases r <;> cases h
  exact ⟨_, _, rfl, rfl⟩

/-- From a computed fact about the stylesheet to the run that returned it. -/
theorem parsed {α : Type} {r : ParseRes} {f : Stylesheet → List Nat → α} {a : α}
    (h : (r.sheet?.map fun x => f x.1 x.2) = some a) : ∃ ss lines, r = .ok ss lines ∧ f ss lines = a := by
  rw [Option.map_eq_some_iff] at h
  obtain ⟨x, hx, e⟩ := h
  exact ⟨x.1, x.2, sheet?_some hx, e⟩

/-! ### C19: spans -/

/-- **C19**: if `Parse` succeeds, every span of the tree lies inside the text, the top-level nodes are in
document order without overlap, and in every rule — at the top level or inside an at-rule — the prelude and
the block lie inside the rule's span, in this order. -/
theorem parse_spans {n : Nat} {src : Bytes} {id : Nat} {ss : Stylesheet} {lines : List Nat}
    (h : parse n src id = .ok ss lines) :
    (∀ sp ∈ ss.spans, SpOk src sp) ∧
    Ordered 0 src.length (ss.nodes.map Node.loc) ∧
    (∀ r, .rule r ∈ ss.nodes →
      ∃ b, r.block = some b ∧ Ordered r.sp.start r.sp.stop (r.prelude.sp?.toList ++ [b.sp])) ∧
    (∀ a, .at a ∈ ss.nodes →
      Ordered a.sp.start a.sp.stop (a.preludes.filterMap AtPrelude.sp? ++ a.block.sp?.toList) ∧
      ∀ sp rs, a.block = .rules sp rs → Ordered sp.start sp.stop (rs.map QRule.sp) ∧ ∀ r ∈ rs,
        ∃ b, r.block = some b ∧ Ordered r.sp.start r.sp.stop (r.prelude.sp?.toList ++ [b.sp])) := by
  have hs := parse_sheetOk h
  refine ⟨fun sp hsp => (hs.items _ (mem_spans.1 hsp)).1 sp rfl, hs.order, fun r hr => ?_, fun a ha => ?_⟩
  · obtain ⟨_, _, b, hb, _, ho⟩ := show RuleOk src false r from hs.nodes _ hr
    exact ⟨b, hb, ho⟩
  · obtain ⟨_, _, _, h4, h5, _⟩ := show AtOk src a from hs.nodes _ ha
    refine ⟨h5, fun sp rs e => ?_⟩
    rw [e] at h4
    refine ⟨h4.2.1, fun r hr => ?_⟩
    obtain ⟨_, _, b, hb, _, ho⟩ := h4.2.2 r hr
    exact ⟨b, hb, ho⟩

/-- The error that a parse returns is located inside the text. -/
theorem parse_error_span {n : Nat} {src : Bytes} {id : Nat} {e : LexErr} {lines : List Nat}
    (h : parse n src id = .error e lines) : SpOk src e.span := by
  unfold parse at h
  split at h
  · cases h
  · cases h
  · cases h
  · rename_i s hs
    split at h
    · cases h
    · rename_i e' s' ht
      cases h
      exact (wp_err (parse_wp n hs) ht).2.2
    · cases h
    · cases h

/-- A text with rules, a comment, an at-rule with rules inside and an import. -/
def sample : Bytes := b!"@import \"x.css\";\n.a > b:nth-child(2n+1), #c{/**/width:calc(1px + 2*3px)!important; color:#fff}
@media (min-width: 3px) { a[href=\"x\"] { b: url(x) } }"

theorem sample_spans : ((parse 60 sample).sheet?.map fun x => (x.1.nodes.map Node.loc, x.1.spans.length)) =
    some ([⟨0, 15⟩, ⟨17, 94⟩, ⟨95, 148⟩], 41) := by decide +kernel

example : ∃ ss lines, parse 60 sample = .ok ss lines ∧ ss.spans.length = 41 := by
  obtain ⟨ss, lines, h, e⟩ := parsed (f := fun ss _ => (ss.nodes.map Node.loc, ss.spans.length)) sample_spans
  exact ⟨ss, lines, h, (Prod.ext_iff.1 e).2⟩

example : ∃ e lines, parse 60 b!"a{} b" = .error e lines := by
  have h : (parse 60 b!"a{} b").err?.map (·.span) = some ⟨5, 5⟩ := by decide +kernel
  obtain ⟨e, l, h, _⟩ := err?_some h
  exact ⟨e, l, h⟩

/-! ### C20: literals -/

/-- **C20, refuted as stated**: in `a{* b:c}` the property name is `*b`, which is not a slice of the text
and not one of the parser's own strings. -/
theorem literals_verbatim_refuted : ¬ ∀ (n : Nat) (src : Bytes) (ss : Stylesheet) (lines : List Nat),
    parse n src = .ok ss lines → ∀ t ∈ ss.lits, SliceOf src t ∨ t ∈ fixedLits := by
  intro hall
  have h : ((parse 60 b!"a{* b:c}").sheet?.map fun x => x.1.lits) = some [b!"a", b!"*b", b!"c"] := by
    decide +kernel
  obtain ⟨ss, lines, h, e⟩ := parsed (f := fun ss _ => ss.lits) h
  rcases hall 60 _ ss lines h b!"*b" (by rw [e]; decide) with ⟨i, j, h1, h2, h3⟩ | h
  · have : ∀ i ≤ 8, ∀ j ≤ 8, b!"*b" ≠ sub b!"a{* b:c}" i j := by decide +kernel
    have h2' : j ≤ 8 := h2
    exact this i (by omega) j h2' h3
  · revert h; decide

/-- **C20, partial**: if `Parse` succeeds, every literal of the tree is a slice of the text, one of the
strings the parser itself supplies, or `*` followed by a slice of the text.  Missing from the full statement:
the last case, which occurs for a property name with a gap between `*` and the name. -/
theorem literals_verbatim_partial {n : Nat} {src : Bytes} {id : Nat} {ss : Stylesheet} {lines : List Nat}
    (h : parse n src id = .ok ss lines) :
    ∀ t ∈ ss.lits, SliceOf src t ∨ t ∈ fixedLits ∨ ∃ u, SliceOf src u ∧ t = 42 :: u :=
  fun t ht => ((parse_sheetOk h).items _ (mem_lits.1 ht)).2.1 t rfl

theorem sample_lits : ((parse 60 sample).sheet?.map fun x => x.1.lits.take 9) =
    some [b!"import", b!"x.css", b!"a", b!">", b!"b", b!"nth-child", b!"2", b!"+", b!"1"] := by decide +kernel

example : ∃ ss lines, parse 60 sample = .ok ss lines ∧ b!"x.css" ∈ ss.lits := by
  obtain ⟨ss, lines, h, e⟩ := parsed (f := fun ss _ => ss.lits.take 9) sample_lits
  exact ⟨ss, lines, h, List.mem_of_mem_take (by rw [e]; decide)⟩

/-! ### C21: imports -/

/-- **C21**: if `Parse` succeeds, `Imports` lists, in order, exactly the `@import` rules among the nodes, each
with the text of the string that is the rule's first prelude; and every `@import` rule has such a string. -/
theorem imports_exact {n : Nat} {src : Bytes} {id : Nat} {ss : Stylesheet} {lines : List Nat}
    (h : parse n src id = .ok ss lines) :
    ss.imports = importsOf ss.nodes ∧
    (∀ a, .at a ∈ ss.nodes → a.name = b!"import" → ∃ sp v ps, a.preludes = .str sp v :: ps ∧ TextIn src sp v) ∧
    ss.imports.length = (ss.nodes.filter fun | .at a => a.name == b!"import" | .rule _ => false).length := by
  have hs := parse_sheetOk h
  have hstr : ∀ a, .at a ∈ ss.nodes → a.name = b!"import" →
      ∃ sp v ps, a.preludes = .str sp v :: ps ∧ TextIn src sp v := by
    intro a ha hn
    obtain ⟨_, _, h3, _, _, h6, _⟩ := show AtOk src a from hs.nodes _ ha
    unfold AtShape at h6
    rw [if_pos hn] at h6
    obtain ⟨⟨sp, v, h6 | ⟨l, h6⟩⟩, _⟩ := h6
    · exact ⟨sp, v, _, h6, (show AtPreludeOk src (.str sp v) from h3 _ (by rw [h6]; simp)).2.1⟩
    · exact ⟨sp, v, _, h6, (show AtPreludeOk src (.str sp v) from h3 _ (by rw [h6]; simp)).2.1⟩
  refine ⟨hs.imports, hstr, ?_⟩
  rw [hs.imports]
  clear hs h
  generalize ss.nodes = nodes at hstr
  induction nodes with
  | nil => rfl
  | cons x l ih =>
    have ih := ih fun a ha => hstr a (List.mem_cons_of_mem _ ha)
    unfold importsOf at ih ⊢
    cases x with
    | rule r => simpa using ih
    | «at» a =>
      by_cases hn : a.name = b!"import"
      · obtain ⟨sp, v, ps, hp, _⟩ := hstr a (List.mem_cons_self ..) hn
        simp [hn, hp, ih]
      · simp [hn, ih]

theorem two_imports : ((parse 60 b!"@import \"x\" print;a{}@import \"y\";").sheet?.map fun x => x.1.imports) =
    some [⟨b!"x", ⟨0, 0⟩⟩, ⟨b!"y", ⟨0, 21⟩⟩] := by decide +kernel

example : ∃ ss lines, parse 60 b!"@import \"x\" print;a{}@import \"y\";" = .ok ss lines ∧ ss.imports.length = 2 := by
  obtain ⟨ss, lines, h, e⟩ := parsed (f := fun ss _ => ss.imports) two_imports
  exact ⟨ss, lines, h, by rw [e]; rfl⟩

/-! ### C22: structure -/

/-- C22 as stated: `Shape`, and the arguments of `nth-*` are there. -/
def FullShape (it : Item) : Prop := Shape it ∧ ∀ name, it = .args name .nil → name ∉ nthNames

/-- The names of pseudo classes without arguments. -/
def Stylesheet.nilArgs (ss : Stylesheet) : List Bytes :=
  ss.items.filterMap fun | .args name .nil => some name | _ => none

/-- **C22, refuted as stated**: `:nth-child(){}` is accepted, without arguments. -/
theorem structure_refuted : ¬ ∀ (n : Nat) (src : Bytes) (ss : Stylesheet) (lines : List Nat),
    parse n src = .ok ss lines → ∀ it ∈ ss.items, FullShape it := by
  intro hall
  have h : ((parse 60 b!":nth-child(){}").sheet?.map fun x => x.1.nilArgs) = some [b!"nth-child"] := by
    decide +kernel
  obtain ⟨ss, lines, h, e⟩ := parsed (f := fun ss _ => ss.nilArgs) h
  have hm : b!"nth-child" ∈ ss.nilArgs := by rw [e]; decide
  unfold Stylesheet.nilArgs at hm
  rw [List.mem_filterMap] at hm
  obtain ⟨it, hit, e⟩ := hm
  have := (hall 60 _ ss lines h it hit).2 b!"nth-child"
  split at e
  · cases e
    exact this rfl (by decide)
  · cases e

/-- **C22, partial**: if `Parse` succeeds, every node of the tree has the shape that C22 asks for.  Missing
from the full statement: a pseudo class `nth-*` may have no arguments at all (`:nth-child()`). -/
theorem structure_partial {n : Nat} {src : Bytes} {id : Nat} {ss : Stylesheet} {lines : List Nat}
    (h : parse n src id = .ok ss lines) :
    (∀ it ∈ ss.items, Shape it) ∧
    ∀ a, .at a ∈ ss.nodes → AtShape a.name a.preludes a.block := by
  have hs := parse_sheetOk h
  refine ⟨fun it hit => (hs.items _ hit).2.2.1, fun a ha => ?_⟩
  obtain ⟨_, _, _, _, _, h6, _⟩ := show AtOk src a from hs.nodes _ ha
  exact h6

/-! ### C59: the syntax of literals -/

/-- The numbers of a stylesheet and their units. -/
def Stylesheet.numbers (ss : Stylesheet) : List (Bytes × Bytes) :=
  ss.items.filterMap fun | .value (.dim _ num unit) => some (num, unit) | _ => none

theorem Stylesheet.mem_numbers {ss : Stylesheet} {num unit : Bytes} (h : (num, unit) ∈ ss.numbers) :
    ∃ sp, .value (.dim sp num unit) ∈ ss.items := by
  unfold Stylesheet.numbers at h
  rw [List.mem_filterMap] at h
  obtain ⟨it, hit, e⟩ := h
  split at e
  · cases e
    exact ⟨_, hit⟩
  · cases e

/-- **C59, refuted as stated**: not every unit of a parsed stylesheet is an identifier; in `a{b:1-2;}` the number `1`
has the unit `-2`. -/
theorem literals_refuted : ¬ ∀ (n : Nat) (src : Bytes) (ss : Stylesheet) (lines : List Nat),
    parse n src = .ok ss lines → ∀ sp num unit, .value (.dim sp num unit) ∈ ss.items → Clean unit →
      unit = [] ∨ unit = b!"%" ∨ IsIdent unit := by
  intro hall
  have h : ((parse 60 b!"a{b:1-2;}").sheet?.map fun x => x.1.numbers) = some [(b!"1", b!"-2")] := by
    decide +kernel
  obtain ⟨ss, lines, h, e⟩ := parsed (f := fun ss _ => ss.numbers) h
  obtain ⟨sp, hm⟩ := Stylesheet.mem_numbers (ss := ss) (num := b!"1") (unit := b!"-2") (by rw [e]; simp)
  have := hall 60 _ ss lines h _ _ _ hm (by decide)
  rcases this with h | h | ⟨_, ⟨b, t, h, hb⟩ | ⟨b, t, h, hb, _⟩ | ⟨b, t, h, hb⟩ | ⟨b, t, h, hb, _⟩ | ⟨b, t, h⟩⟩
  · cases h
  · cases h
  · cases h; exact absurd hb (by decide)
  · cases h; exact absurd hb (by decide)
  · cases h; exact absurd hb (by decide)
  · cases h; exact absurd hb (by decide)
  · cases h

/-- **C59, partial**: in a parsed stylesheet every literal without escapes, carriage returns and (in numbers, units and
delimiters) non-ASCII characters has the syntax of its kind, and every value is of a kind that may stand in its place.  Missing from the full statement:
units and the names of at-rules may be words like `-2` that are not identifiers, and the word in `url(...)` may contain
white space. -/
theorem literals_partial {n : Nat} {src : Bytes} {id : Nat} {ss : Stylesheet} {lines : List Nat}
    (h : parse n src id = .ok ss lines) : ∀ it ∈ ss.items, Form it :=
  fun it hit => ((parse_sheetOk h).items _ hit).2.2.2.2

/-- What the theorem says of some literals: identifiers, classes, numbers and strings. -/
example {n : Nat} {src : Bytes} {id : Nat} {ss : Stylesheet} {lines : List Nat} (h : parse n src id = .ok ss lines)
    {sp : Span} {v : Bytes} (hm : .part (.cls sp v) ∈ ss.items) (hc : NoEsc v) : IsIdent v :=
  literals_partial h _ hm hc

theorem literal_case : ((parse 60 b!"a{c:.5e3px;}").sheet?.map fun x => x.1.numbers) = some [(b!".5e3", b!"px")] := by
  decide +kernel

example : ∃ ss lines, parse 60 b!"a{c:.5e3px;}" = .ok ss lines ∧ (∃ sp, .value (.dim sp b!".5e3" b!"px") ∈ ss.items) ∧
    Clean b!".5e3" ∧ IsNum b!".5e3" ∧ Clean b!"px" ∧ IsWord b!"px" := by
  obtain ⟨ss, lines, h, e⟩ := parsed (f := fun ss _ => ss.numbers) literal_case
  obtain ⟨sp, hm⟩ := Stylesheet.mem_numbers (ss := ss) (num := b!".5e3") (unit := b!"px") (by rw [e]; simp)
  have hl : DimLit _ _ := literals_partial h _ hm
  have c1 : Clean b!".5e3" := by decide
  have c2 : Clean b!"px" := by decide
  exact ⟨ss, lines, h, ⟨sp, hm⟩, c1, (hl.1 c1).resolve_left (by simp), c2,
    (((hl.2 c2).resolve_left (by simp)).resolve_left (by decide)).1⟩

/-! ### C23: precedence and associativity -/

/-- **C23**: every arithmetic node of a parsed stylesheet has one of the operators `+ - * /`; an operand of
`*` or `/` is not an unparenthesised sum, and no right operand is an unparenthesised expression of the same
level. -/
theorem math_shape {n : Nat} {src : Bytes} {id : Nat} {ss : Stylesheet} {lines : List Nat}
    (h : parse n src id = .ok ss lines) {sp : Span} {op : Bytes} {l r : Value}
    (hm : .value (.math sp op l r) ∈ ss.items) :
    ((op = b!"+" ∨ op = b!"-") ∧ r.isSum = false) ∨
    ((op = b!"*" ∨ op = b!"/") ∧ l.isSum = false ∧ r.isMath = false) :=
  ((parse_sheetOk h).items _ hm).2.2.2.1

/-- The operators of a stylesheet with the spans of their operands. -/
def Stylesheet.ops (ss : Stylesheet) : List (Bytes × Span × Span) :=
  ss.items.filterMap fun | .value (.math _ op l r) => some (op, l.sp, r.sp) | _ => none

/-- `1 - 2 - 3*4/5 + (6 + 7)` is `(((1 - 2) - ((3*4)/5)) + (6 + 7))`. -/
theorem math_ops : ((parse 60 b!"a{b:calc(1 - 2 - 3*4/5 + (6 + 7))}").sheet?.map fun x => x.1.ops) =
    some [(b!"+", ⟨9, 22⟩, ⟨25, 32⟩), (b!"-", ⟨9, 14⟩, ⟨17, 22⟩), (b!"-", ⟨9, 10⟩, ⟨13, 14⟩),
      (b!"/", ⟨17, 20⟩, ⟨21, 22⟩), (b!"*", ⟨17, 18⟩, ⟨19, 20⟩), (b!"+", ⟨26, 27⟩, ⟨30, 31⟩)] := by decide +kernel

example : ∃ ss lines sp l r, parse 60 b!"a{b:calc(1 - 2 - 3*4/5 + (6 + 7))}" = .ok ss lines ∧
    .value (.math sp b!"/" l r) ∈ ss.items := by
  obtain ⟨ss, lines, h, e⟩ := parsed (f := fun ss _ => ss.ops) math_ops
  have hm : (b!"/", ⟨17, 20⟩, ⟨21, 22⟩) ∈ ss.ops := by rw [e]; decide
  unfold Stylesheet.ops at hm
  rw [List.mem_filterMap] at hm
  obtain ⟨it, hit, e⟩ := hm
  split at e
  · rename_i sp op l r
    simp only [Option.some.injEq, Prod.mk.injEq] at e
    rw [e.1] at hit
    exact ⟨ss, lines, _, _, _, h, hit⟩
  · cases e

/-! ### C17: panics -/

/-- **C17, refuted as stated**: an unclosed comment at the start of the text panics out of `Parse`, because
the first token is read before the `recover` is installed. -/
theorem parse_no_panic_refuted : ¬ ∀ (n : Nat) (src : Bytes), parse n src ≠ .panic := by
  intro hall
  have h : (parse 60 b!"/*").isPanic = true := by decide +kernel
  exact hall 60 b!"/*" (isPanic_eq h)

/-- The other way to panic: run-time panics while parsing are raised again. -/
theorem parse_no_panic_refuted' : ¬ ∀ (n : Nat) (src : Bytes), (∃ s, newLexer (St.init src) = .ok () s) →
    parse n src ≠ .panic := by
  intro hall
  have h : (parse 60 b!"@custom-media --x;").isPanic = true := by decide +kernel
  have h' : (newLexer (St.init b!"@custom-media --x;")).st?.map (fun _ => ()) = some () := by decide +kernel
  obtain ⟨s, h', _⟩ := st?_some h'
  exact hall 60 b!"@custom-media --x;" ⟨s, h'⟩ (isPanic_eq h)

/-- A math function without its operand panics in a media query and in an attribute selector; in a declaration the panic
is recovered. -/
theorem parse_math_panics : (parse 60 b!"@media (a:calc(1 + )){}").isPanic = true ∧
    (parse 60 b!"@import 'a' (a:calc(1 + ));").isPanic = true ∧ (parse 60 b!"a[b=calc(1 + )]{}").isPanic = true ∧
    (parse 60 b!"a{b:calc(1 + );}").isPanic = false := by
  decide +kernel

/-- **C17, partial**: if the first token of the text can be read, and the text does not contain `@custom-media`, nor a
call of a math function (`calc(`, `min(`, `max(` or `clamp(`, possibly with a carriage return before the parenthesis)
together with one of `@media`, `@import` and `[`, then `Parse` does not panic.  (A panic while a declaration is parsed is
recovered.)  Missing from the full statement: the ways to panic that these conditions exclude. -/
theorem parse_no_panic_partial {n : Nat} {src : Bytes} {id : Nat} {s : St}
    (hl : newLexer (St.init src id) = .ok () s) (hc : ¬ SliceOf src b!"@custom-media")
    (hm : (∀ t, isMathName t = true → ¬ SliceOf src (t ++ b!"(") ∧ ¬ SliceOf src (t ++ b!"\r(")) ∨
      ¬ SliceOf src b!"@media" ∧ ¬ SliceOf src b!"@import" ∧ ¬ SliceOf src b!"[") : parse n src id ≠ .panic := by
  intro h
  unfold parse at h
  rw [hl] at h
  have w := parse_wp n hl
  unfold wp at w
  dsimp only at h
  split at h
  · cases h
  · cases h
  · rename_i s' ht
    rw [ht] at w
    rcases w.2.2 with h1 | ⟨⟨t, h1, h2⟩, h3⟩
    · exact hc h1
    · rcases hm with hm | ⟨m1, m2, m3⟩
      · exact h2.elim (hm t h1).1 (hm t h1).2
      · rcases h3 with h3 | h3 | h3
        · exact m1 h3
        · exact m2 h3
        · exact m3 h3
  · cases h

/-- All slices of a text. -/
theorem not_slice {src t : Bytes} (h : (List.range (src.length + 1)).all (fun i => (src.drop i).take t.length != t) = true) :
    ¬ SliceOf src t := by
  rintro ⟨i, j, h1, h2, h3⟩
  rw [List.all_eq_true] at h
  have := h i (List.mem_range.2 (by omega))
  rw [bne_iff_ne] at this
  apply this
  rw [h3]
  unfold sub
  rw [List.length_take, List.length_drop, Nat.min_eq_left (by omega)]

/-- The names of math functions may occur, as long as they are not called. -/
example : ∃ s, newLexer (St.init b!"@media (min-width:1px)b{} a{b:c(max)") = .ok () s ∧
    (∀ t, isMathName t = true → ¬ SliceOf b!"@media (min-width:1px)b{} a{b:c(max)" (t ++ b!"(") ∧
      ¬ SliceOf b!"@media (min-width:1px)b{} a{b:c(max)" (t ++ b!"\r(")) ∧
    ¬ SliceOf b!"@media (min-width:1px)b{} a{b:c(max)" b!"@custom-media" := by
  have h : (newLexer (St.init b!"@media (min-width:1px)b{} a{b:c(max)")).st?.map (fun _ => ()) = some () := by decide +kernel
  obtain ⟨s, h, _⟩ := st?_some h
  refine ⟨s, h, fun t ht => ?_, not_slice (by decide +kernel)⟩
  simp only [isMathName, Bool.or_eq_true, beq_iff_eq] at ht
  rcases ht with ((ht | ht) | ht) | ht <;> subst ht <;>
    exact ⟨not_slice (by decide +kernel), not_slice (by decide +kernel)⟩

/-- A math function in a declaration. -/
example : ∃ s, newLexer (St.init b!"a{b:calc(1 + );}") = .ok () s ∧ ¬ SliceOf b!"a{b:calc(1 + );}" b!"@custom-media" ∧
    ¬ SliceOf b!"a{b:calc(1 + );}" b!"@media" ∧ ¬ SliceOf b!"a{b:calc(1 + );}" b!"@import" ∧
    ¬ SliceOf b!"a{b:calc(1 + );}" b!"[" := by
  have h : (newLexer (St.init b!"a{b:calc(1 + );}")).st?.map (fun _ => ()) = some () := by decide +kernel
  obtain ⟨s, h, _⟩ := st?_some h
  exact ⟨s, h, not_slice (by decide +kernel), not_slice (by decide +kernel), not_slice (by decide +kernel),
    not_slice (by decide +kernel)⟩

/-! ### C18: termination -/

theorem topLoop_stuck {s : St} {ss : Stylesheet} (hc : s.lex.cur = .cdo) (hn : next s = .ok () s) :
    ∀ n, topLoop n ss s = .timeout
  | 0 => rfl
  | n + 1 => by
    have : topLoop (n + 1) ss s = topLoop n ss s := by
      rw [topLoop]
      show P.bind getCur _ s = _
      unfold P.bind getCur
      rw [hc]
      show P.bind next _ s = _
      unfold P.bind
      rw [hn]
    rw [this, topLoop_stuck hc hn n]

/-- **C18, refuted as stated**: `Parse` never returns on the text `<!--`, however many steps it is given. -/
theorem parse_terminates_refuted : ¬ ∀ (src : Bytes), ∃ n, parse n src ≠ .timeout := by
  intro hall
  obtain ⟨n, hn⟩ := hall b!"<!--"
  apply hn
  obtain ⟨s, hs, hc, hx⟩ : ∃ s, newLexer (St.init b!"<!--") = .ok () s ∧ s.lex.cur = .cdo ∧ next s = .ok () s := by
    have h : (newLexer (St.init b!"<!--")).st?.map (fun s => decide (s.lex.cur = .cdo ∧ next s = .ok () s)) =
        some true := by decide +kernel
    obtain ⟨s, h, h'⟩ := st?_some h
    exact ⟨s, h, of_decide_eq_true h'⟩
  unfold parse
  rw [hs]
  dsimp only
  rw [topLoop_stuck hc hx]

/-! ### C25: the result does not depend on the number of steps -/

/-- **C25**: once a parse has reached a result, giving it more steps does not change it; so any two parses of
the same text that end, end in the same stylesheet (with the same line table), error or panic. -/
theorem parse_deterministic {n m : Nat} {src : Bytes} {id : Nat} (hn : parse n src id ≠ .timeout)
    (hm : parse m src id ≠ .timeout) : parse n src id = parse m src id := by
  have key : ∀ {n m : Nat}, n ≤ m → parse n src id ≠ .timeout → parse n src id = parse m src id := by
    intro n m hnm hn
    unfold parse at hn ⊢
    cases hl : newLexer (St.init src id) with
    | ok a s =>
      rw [hl] at hn
      dsimp only at hn ⊢
      rcases fuel_le (f := fun n => topLoop n ⟨[], []⟩) (fun n => topLoop_fuel n _) hnm s with h | h
      · rw [h] at hn
        exact absurd rfl hn
      · rw [h]
    | err e s => rfl
    | crash s => rfl
    | timeout => rfl
  rcases Nat.le_total n m with h | h
  · exact key h hn
  · exact (key h hm).symm

example : parse 60 sample ≠ .timeout := by
  obtain ⟨ss, lines, h, _⟩ := parsed (f := fun ss _ => (ss.nodes.map Node.loc, ss.spans.length)) sample_spans
  rw [h]
  exact fun h => by cases h

/-! ### C24: malformed declarations -/

/-- Calls of `Next` from `s` up to the first semicolon, which is the current token of `s'`. -/
inductive Skips : St → St → Prop where
  | done {s : St} : s.lex.cur = .semicolon → Skips s s
  | next {s s1 s' : St} : s.lex.cur ≠ .semicolon → next s = .ok () s1 → Skips s1 s' → Skips s s'

/-- A declaration cannot be parsed: `parseDeclaration` panics, leaving the state `s1`. -/
def DeclFails (n : Nat) (s s1 : St) : Prop :=
  (∃ e, parseDeclaration n s = .err e s1) ∨ parseDeclaration n s = .crash s1

theorem rawLoop_of_skips {s s' : St} (h : Skips s s') : ∃ n0, ∀ n ≥ n0, rawLoop n s = .ok () s' := by
  induction h with
  | @done s hc =>
    refine ⟨1, fun n hn => ?_⟩
    obtain ⟨n, rfl⟩ : ∃ k, n = k + 1 := ⟨n - 1, by omega⟩
    rw [rawLoop]
    show P.bind getCur _ s = _
    unfold P.bind getCur
    dsimp only
    rw [if_pos hc]
    rfl
  | @next s s1 s' hc hn _ ih =>
    obtain ⟨n0, ih⟩ := ih
    refine ⟨n0 + 1, fun n hn' => ?_⟩
    obtain ⟨n, rfl⟩ : ∃ k, n = k + 1 := ⟨n - 1, by omega⟩
    rw [rawLoop]
    show P.bind getCur _ s = _
    unfold P.bind getCur
    dsimp only
    rw [if_neg hc]
    show P.bind next _ s = _
    unfold P.bind
    rw [hn]
    exact ih n (by omega)

theorem skips_of_rawLoop : ∀ {n : Nat} {s s' : St}, rawLoop n s = .ok () s' → Skips s s'
  | 0, _, _, h => by cases h
  | n + 1, s, s', h => by
    rw [rawLoop] at h
    change P.bind getCur _ s = _ at h
    unfold P.bind getCur at h
    dsimp only at h
    split at h
    · rename_i hc
      cases h
      exact .done hc
    · rename_i hc
      change P.bind next _ s = _ at h
      unfold P.bind at h
      split at h
      · rename_i s1 hn
        exact .next hc hn (skips_of_rawLoop h)
      · cases h
      · cases h
      · cases h

theorem Skips.le {src : Bytes} {id : Nat} {s s' : St} (h : Skips s s') (hp : PI src id s) :
    PI src id s' ∧ s.lex.lastPos ≤ s'.lex.lastPos := by
  induction h with
  | done _ => exact ⟨hp, Nat.le_refl _⟩
  | next _ hn _ ih =>
    obtain ⟨h1, l1⟩ := wp_ok (next_pi (C := True) hp) hn
    obtain ⟨h2, l2⟩ := ih h1
    have := h1.start_le
    exact ⟨h2, by omega⟩

theorem PI.restore {src : Bytes} {id : Nat} {s s1 : St} (h : PI src id s) (h1 : s1.src = src) (h2 : s1.id = id) :
    PI src id { s1 with lex := s.lex } := by
  refine ⟨h1, h2, ⟨?_, ?_, ?_⟩, h.start_le, h.ident, h.delim, h.number, h.dimension, h.lit, h.pct, h.more⟩
  · have := h.inv.le; rw [h.srcEq] at this; rw [h1]; exact this
  · have := h.inv.ch; rw [h.srcEq] at this; rw [h1]; exact this
  · have := h.inv.pos; rw [h.srcEq] at this; rw [h1]; exact this

theorem DeclFails.restore {src : Bytes} {id n : Nat} {s s1 : St} (h : PI src id s) (hf : DeclFails n s s1) :
    PI src id { s1 with lex := s.lex } := by
  have w := parseDeclaration_pi (C := True) (n := n) (fun _ => trivial) h
  unfold wp at w
  rcases hf with ⟨e, hf⟩ | hf
  · rw [hf] at w; exact h.restore w.1 w.2.1
  · rw [hf] at w; exact h.restore w.1 w.2.1

theorem fallback_of_fails {n : Nat} {s s1 : St} (hf : DeclFails n s s1) :
    parseDeclarationOrFallback n s = parseRaw n { s1 with lex := s.lex } := by
  unfold parseDeclarationOrFallback
  rcases hf with ⟨e, hf⟩ | hf <;> rw [hf]

theorem DeclFails.mono {n m : Nat} {s s1 : St} (hf : DeclFails n s s1) (h : n ≤ m) : DeclFails m s s1 := by
  rcases fuel_le (f := parseDeclaration) parseDeclaration_fuel h s with h | h
  · rcases hf with ⟨e, hf⟩ | hf <;> rw [hf] at h <;> cases h
  · unfold DeclFails
    rw [← h]
    exact hf

theorem parseRaw_eq {src : Bytes} {id n : Nat} {s s2 s3 : St} (hp : PI src id s) (hsk : Skips s s2)
    (hr : rawLoop n s = .ok () s2) (hn : next s2 = .ok () s3) :
    parseRaw n s = .ok (.raw ⟨s.lex.start, s2.lex.lastPos⟩ (sub src s.lex.start s2.lex.lastPos)) s3 := by
  obtain ⟨h2, l2⟩ := hsk.le hp
  obtain ⟨h3, l3⟩ := wp_ok (next_pi (C := True) h2) hn
  have := hp.start_le
  have := h2.end_le
  unfold parseRaw
  show P.bind tokenSpan _ s = _
  unfold P.bind tokenSpan
  dsimp only
  show P.bind (rawLoop n) _ s = _
  unfold P.bind
  rw [hr]
  show P.bind tokenEnd _ s2 = _
  unfold P.bind tokenEnd
  dsimp only
  show P.bind next _ s2 = _
  unfold P.bind
  rw [hn]
  show P.bind (slice _ _) _ s3 = _
  unfold P.bind slice
  rw [if_pos ⟨by omega, by rw [h3.srcEq]; omega⟩, h3.srcEq]
  rfl

/-- **C24** (a malformed declaration is kept): if the declaration at the current token cannot be parsed, the
next semicolon token can be reached from where it started, and the token after that semicolon can be read, then
the result is a raw declaration whose text is the source from the start of the declaration up to and including
that semicolon, and the parser goes on with the token after the semicolon. -/
theorem malformed_declaration_kept {src : Bytes} {id n : Nat} {s s1 s2 s3 : St} (hp : PI src id s)
    (hf : DeclFails n s s1) (hsk : Skips { s1 with lex := s.lex } s2) (hn : next s2 = .ok () s3) :
    ∃ m0, ∀ m ≥ m0, parseDeclarationOrFallback m s =
      .ok (.raw ⟨s.lex.start, s2.lex.lastPos⟩ (sub src s.lex.start s2.lex.lastPos)) s3 := by
  obtain ⟨n0, hr⟩ := rawLoop_of_skips hsk
  refine ⟨max n n0, fun m hm => ?_⟩
  rw [fallback_of_fails (hf.mono (show n ≤ m by omega))]
  exact parseRaw_eq (hf.restore hp) hsk (hr m (by omega)) hn

/-- Results of a computation that returns satisfy `Q`. -/
def Ret (Q : α → Prop) (m : P α) : Prop := ∀ s a s', m s = .ok a s' → Q a

theorem Ret.bind {Q : β → Prop} {m : P α} {f : α → P β} (h : ∀ a, Ret Q (f a)) : Ret Q (m >>= f) := by
  intro s b s' e
  change P.bind m f s = _ at e
  unfold P.bind at e
  split at e
  · exact h _ _ _ _ e
  · cases e
  · cases e
  · cases e

theorem Ret.ite {Q : α → Prop} {c : Prop} [Decidable c] {m m' : P α} (h : Ret Q m) (h' : Ret Q m') :
    Ret Q (if c then m else m') := by split <;> assumption

theorem Ret.pure {Q : α → Prop} {a : α} (h : Q a) : Ret Q (pure a : P α) := fun _ _ _ e => by cases e; exact h
theorem Ret.errorf {Q : α → Prop} {msg : String} : Ret Q (errorf msg) := fun _ _ _ e => by cases e

def Decl.isRaw : Decl → Bool
  | .raw _ _ => true
  | .decl _ _ _ _ => false

theorem declLoop_ret : ∀ (n : Nat) (prop : Bytes) (sp : Span) (vals : List Value) (imp : Bool),
    Ret (fun d => d.isRaw = false) (declLoop n prop sp vals imp)
  | 0, _, _, _, _ => fun _ _ _ e => by cases e
  | n + 1, prop, sp, vals, imp => by
    have ih := declLoop_ret n
    rw [declLoop]
    refine .bind fun _ => .bind fun _ => .bind fun t => ?_
    split
    · exact .errorf
    · exact .bind fun _ => ih _ _ _ _
    · exact .ite (.bind fun _ => ih _ _ _ _)
        (.bind fun _ => .bind fun _ => .ite .errorf (.bind fun _ => .bind fun _ => ih _ _ _ _))
    · refine .bind fun v => ?_
      split
      · split
        · exact .errorf
        · exact .bind fun _ => .pure rfl
      · exact ih _ _ _ _

theorem parseDeclaration_ret (n : Nat) : Ret (fun d => d.isRaw = false) (parseDeclaration n) := by
  rw [parseDeclaration]
  exact .bind fun _ => .bind fun _ => .bind fun _ => .bind fun _ => .bind fun _ => .bind fun _ => .bind fun _ =>
    declLoop_ret n _ _ _ _

/-- **C24** (only malformed declarations): a raw declaration in a block comes from a declaration that cannot
be parsed, and its text is exactly the source from where it started up to and including the next semicolon; the
parser then stands at the token after the semicolon. -/
theorem raw_declaration_malformed {src : Bytes} {id n : Nat} {s s3 : St} {sp : Span} {v : Bytes} (hp : PI src id s)
    (h : parseDeclarationOrFallback n s = .ok (.raw sp v) s3) :
    ∃ s1 s2, DeclFails n s s1 ∧ Skips { s1 with lex := s.lex } s2 ∧ next s2 = .ok () s3 ∧
      sp = ⟨s.lex.start, s2.lex.lastPos⟩ ∧ v = sub src s.lex.start s2.lex.lastPos := by
  have key : ∀ s1, DeclFails n s s1 → ∃ s1 s2, DeclFails n s s1 ∧ Skips { s1 with lex := s.lex } s2 ∧
      next s2 = .ok () s3 ∧ sp = ⟨s.lex.start, s2.lex.lastPos⟩ ∧ v = sub src s.lex.start s2.lex.lastPos := by
    intro s1 hf
    have hr := h
    rw [fallback_of_fails hf] at hr
    have h1 := hf.restore hp
    cases h2 : rawLoop n { s1 with lex := s.lex } with
    | ok a s2 =>
      have hsk := skips_of_rawLoop h2
      cases h3 : next s2 with
      | ok a s4 =>
        rw [parseRaw_eq h1 hsk h2 h3] at hr
        cases hr
        exact ⟨s1, s2, hf, hsk, h3, rfl, rfl⟩
      | _ =>
        exfalso
        unfold parseRaw at hr
        simp only [bind, P.bind, tokenSpan, tokenEnd, h2, h3] at hr
        cases hr
    | _ =>
      exfalso
      unfold parseRaw at hr
      simp only [bind, P.bind, tokenSpan, tokenEnd, h2] at hr
      cases hr
  cases hd : parseDeclaration n s with
  | ok d s' =>
    have := parseDeclaration_ret n _ _ _ hd
    unfold parseDeclarationOrFallback at h
    rw [hd] at h
    cases h
    cases this
  | err e s1 => exact key s1 (.inl ⟨e, hd⟩)
  | crash s1 => exact key s1 (.inr hd)
  | timeout =>
    unfold parseDeclarationOrFallback at h
    rw [hd] at h
    cases h

/-- **C24, refuted as stated**: a malformed declaration can make `Parse` fail: skipping to the semicolon reads
tokens, and an unclosed string among them is an error. -/
theorem malformed_declaration_contained_refuted : ∃ e lines, parse 60 b!"a{b c \"x\n;}" = .error e lines ∧
    e.msg = "unclosed string: unexpected newline" ∧
    ∃ s s1, stateAfter b!"a{b c \"x\n;}" 2 = some s ∧ DeclFails 60 s s1 := by
  have h : (parse 60 b!"a{b c \"x\n;}").err?.map (·.msg) = some "unclosed string: unexpected newline" := by
    decide +kernel
  have h2 : ((stateAfter b!"a{b c \"x\n;}" 2).map fun s => (parseDeclaration 60 s).errSt?.map fun _ => ()) =
      some (some ()) := by decide +kernel
  rw [Option.map_eq_some_iff] at h2
  obtain ⟨s, hs, h2⟩ := h2
  obtain ⟨e, s1, hd, _⟩ := errSt?_some h2
  obtain ⟨e', l, h, hm⟩ := err?_some h
  exact ⟨e', l, h, hm, s, s1, hs, .inl ⟨e, hd⟩⟩

/-- The raw declarations of a stylesheet. -/
def Stylesheet.raws (ss : Stylesheet) : List (Span × Bytes) :=
  ss.items.filterMap fun | .decl (.raw sp v) => some (sp, v) | _ => none

/-- The hypotheses of `malformed_declaration_kept` are met in this text, and the rest of the block is parsed. -/
example : ((parse 60 b!"a{b c{};d:e}").sheet?.map fun x => (x.1.raws, x.1.lits)) =
    some ([(⟨2, 8⟩, b!"b c{};")], [b!"a", b!"b c{};", b!"d", b!"e"]) := by decide +kernel

/-! ### C08: the line table -/

/-- **C08, refuted as stated**: falling back to a raw declaration rewinds the lexer but not the line table, so
the newline after `c` is entered twice. -/
theorem line_table_refuted : ¬ ∀ (n : Nat) (src : Bytes) (ss : Stylesheet) (lines : List Nat),
    parse n src = .ok ss lines → lines = lineStarts src := by
  intro hall
  have h : ((parse 60 b!"a{b c\n d;d:e\n}").sheet?.map fun x => x.2) = some [0, 6, 6, 13] := by decide +kernel
  obtain ⟨ss, lines, h, e⟩ := parsed (f := fun _ lines => lines) h
  have := hall 60 _ ss lines h
  rw [e] at this
  revert this
  decide +kernel

end Cssc
