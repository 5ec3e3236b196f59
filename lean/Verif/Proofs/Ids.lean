import Verif.Parser

/-!
# The identity of a parse does not influence it

`St.id` is only copied into the at-rules of the result, so parsing the same text again gives the same stylesheet up
to the identity of its at-rules.
-/

namespace Cssc

/-- The state of a parse with another identity. -/
def St.setId (s : St) (i : Nat) : St := { s with id := i }

/-- The outcome with another identity, the value changed by `f`. -/
def Res.setId (f : α → α) (i : Nat) : Res α → Res α
  | .ok a s => .ok (f a) (s.setId i)
  | .err e s => .err e (s.setId i)
  | .crash s => .crash (s.setId i)
  | .timeout => .timeout

/-- The computation does the same under every identity. -/
def IdFree (m : P α) : Prop := ∀ s i, m (s.setId i) = (m s).setId id i

theorem IdFree.pure {a : α} : IdFree (pure a : P α) := fun _ _ => rfl
theorem IdFree.timeout : IdFree (P.timeout : P α) := fun _ _ => rfl
theorem IdFree.crash : IdFree (P.crash : P α) := fun _ _ => rfl
theorem IdFree.errorf {msg : String} : IdFree (errorf msg : P α) := fun _ _ => rfl
theorem IdFree.tokenSpan : IdFree tokenSpan := fun _ _ => rfl
theorem IdFree.tokenEnd : IdFree tokenEnd := fun _ _ => rfl
theorem IdFree.getCh : IdFree getCh := fun _ _ => rfl
theorem IdFree.getLastPos : IdFree getLastPos := fun _ _ => rfl
theorem IdFree.getCur : IdFree getCur := fun _ _ => rfl
theorem IdFree.getStr : IdFree getStr := fun _ _ => rfl
theorem IdFree.getNum : IdFree getNum := fun _ _ => rfl
theorem IdFree.setCur {t} : IdFree (setCur t) := fun _ _ => rfl
theorem IdFree.setStr {t} : IdFree (setStr t) := fun _ _ => rfl
theorem IdFree.setNum {t} : IdFree (setNum t) := fun _ _ => rfl
theorem IdFree.setRetainWS {t} : IdFree (setRetainWS t) := fun _ _ => rfl
theorem IdFree.modLex {f} : IdFree (P.modLex f) := fun _ _ => rfl
theorem IdFree.lexFuel : IdFree lexFuel := fun _ _ => rfl
theorem IdFree.peek {n} : IdFree (peek n) := fun _ _ => rfl

theorem IdFree.bind {m : P α} {f : α → P β} (h : IdFree m) (hf : ∀ a, IdFree (f a)) : IdFree (m >>= f) := by
  intro s i
  show P.bind m f (s.setId i) = (P.bind m f s).setId id i
  unfold P.bind
  rw [h s i]
  cases m s with
  | ok a s' => exact hf a s' i
  | err e s' => rfl
  | crash s' => rfl
  | timeout => rfl

theorem IdFree.get {f : St → P β} (h1 : ∀ s i, f (s.setId i) = f s) (hf : ∀ a, IdFree (f a)) : IdFree (P.get >>= f) := by
  intro s i
  show f (s.setId i) (s.setId i) = (f s s).setId id i
  rw [h1]
  exact hf s s i

theorem IdFree.ite {c : Prop} [Decidable c] {a b : P α} (h1 : IdFree a) (h2 : IdFree b) : IdFree (if c then a else b) := by
  by_cases h : c
  · rw [if_pos h]; exact h1
  · rw [if_neg h]; exact h2

theorem IdFree.whenP {c : Prop} [Decidable c] {a : P Unit} (h1 : IdFree a) : IdFree (whenP c a) := by
  unfold Cssc.whenP
  exact .ite h1 .pure

theorem IdFree.withRetain {b : Bool} {m : P α} (h : IdFree m) : IdFree (withRetain b m) := by
  intro s i
  unfold Cssc.withRetain
  have := h { s with lex := { s.lex with retainWS := b } } i
  dsimp only [St.setId] at this ⊢
  rw [this]
  cases m { s with lex := { s.lex with retainWS := b } } <;> rfl

theorem IdFree.slice {a b} : IdFree (slice a b) := by
  intro s i
  unfold Cssc.slice
  simp only [apply_ite (Res.setId id i)]
  rfl

theorem IdFree.step : IdFree step := by
  intro s i
  unfold Cssc.step
  simp only [apply_ite (Res.setId id i)]
  rfl

theorem IdFree.locate {v} : IdFree (locate v) := by
  unfold Cssc.locate
  split
  · exact .pure
  · exact .crash

macro "idf" : tactic => `(tactic| repeat' (intros; first
  | with_reducible assumption
  | with_reducible exact IdFree.pure
  | with_reducible exact IdFree.timeout
  | with_reducible exact IdFree.crash
  | with_reducible exact IdFree.errorf
  | with_reducible exact IdFree.tokenSpan
  | with_reducible exact IdFree.tokenEnd
  | with_reducible exact IdFree.getCh
  | with_reducible exact IdFree.getLastPos
  | with_reducible exact IdFree.getCur
  | with_reducible exact IdFree.getStr
  | with_reducible exact IdFree.getNum
  | with_reducible exact IdFree.setCur
  | with_reducible exact IdFree.setStr
  | with_reducible exact IdFree.setNum
  | with_reducible exact IdFree.setRetainWS
  | with_reducible exact IdFree.modLex
  | with_reducible exact IdFree.lexFuel
  | with_reducible exact IdFree.peek
  | with_reducible exact IdFree.slice
  | with_reducible exact IdFree.step
  | with_reducible exact IdFree.locate
  | with_reducible refine IdFree.get (fun _ _ => rfl) ?_
  | with_reducible refine IdFree.bind ?_ ?_
  | with_reducible refine IdFree.ite ?_ ?_
  | with_reducible refine IdFree.whenP ?_
  | with_reducible refine IdFree.withRetain ?_
  | with_reducible apply_assumption))

/-- The same, with a case distinction on up to two results. -/
macro "idfc" : tactic => `(tactic| (idf <;> (intro x; cases x <;> idf <;> (intro y; cases y <;> idf))))

theorem idf_digits : ∀ n, IdFree (digitsLoop n)
  | 0 => .timeout
  | n + 1 => by have h := idf_digits n; rw [digitsLoop]; idf
theorem idf_nextNumber : IdFree nextNumber := by have := idf_digits; unfold nextNumber; idf
theorem idf_nextDelim : IdFree nextDelimToken := by unfold nextDelimToken; idf
theorem idf_escaped : ∀ n, IdFree (escapedLoop n)
  | 0 => .pure
  | n + 1 => by have h := idf_escaped n; rw [escapedLoop]; idf
theorem idf_nextEscaped : IdFree nextEscaped := by have := idf_escaped; unfold nextEscaped; idf
theorem idf_name : ∀ n, IdFree (nameLoop n)
  | 0 => .timeout
  | n + 1 => by have h := idf_name n; have := idf_nextEscaped; rw [nameLoop]; idf
theorem idf_nextName : IdFree nextName := by have := idf_name; unfold nextName; idf
theorem idf_nextNumeric : IdFree nextNumericToken := by
  have := idf_nextName; have := idf_nextNumber; unfold nextNumericToken; idf
theorem idf_urlWs : ∀ n, IdFree (urlWsLoop n)
  | 0 => .pure
  | n + 1 => by have h := idf_urlWs n; rw [urlWsLoop]; idf
theorem idf_url : ∀ a n, IdFree (urlLoop a n)
  | _, 0 => .timeout
  | a, n + 1 => by
    have h := idf_url a n; have := idf_nextEscaped; have := idf_urlWs; rw [urlLoop]; idf
theorem idf_identLike : IdFree nextIdentLikeToken := by
  have := idf_nextName; have := idf_url; have := idf_urlWs; unfold nextIdentLikeToken; idf
theorem idf_comment : ∀ n, IdFree (commentLoop n)
  | 0 => .timeout
  | n + 1 => by have h := idf_comment n; rw [commentLoop]; idf
theorem idf_string : ∀ a n, IdFree (stringLoop a n)
  | _, 0 => .timeout
  | a, n + 1 => by have h := idf_string a n; have := idf_nextEscaped; rw [stringLoop]; idf
theorem idf_ws : ∀ n, IdFree (wsLoop n)
  | 0 => .timeout
  | n + 1 => by have h := idf_ws n; rw [wsLoop]; idf
theorem idf_nextLoop : ∀ n, IdFree (nextLoop n)
  | 0 => .timeout
  | n + 1 => by
    have h := idf_nextLoop n
    have := idf_nextName; have := idf_identLike; have := idf_comment; have := idf_string; have := idf_ws
    have := idf_nextNumeric; have := idf_nextDelim; have := idf_nextEscaped
    rw [nextLoop]; idf
theorem idf_next : IdFree next := by have := idf_nextLoop; unfold next; idf
theorem idf_expect {t} : IdFree (expect t) := by have := idf_next; unfold expect; idf
theorem idf_newLexer : IdFree newLexer := by have := idf_next; unfold newLexer; idf

/-- All functions of the value parser at once. -/
structure ValueIds (n : Nat) : Prop where
  value : IdFree (parseValue n)
  brackets : ∀ a b, IdFree (bracketsLoop n a b)
  args : ∀ a b c, IdFree (argsLoop n a b c)
  sum : IdFree (parseMathSum n)
  sumL : ∀ a, IdFree (sumLoop n a)
  prod : IdFree (parseMathProduct n)
  prodL : ∀ a, IdFree (productLoop n a)
  paren : IdFree (parseMathParen n)

theorem valueIds : ∀ n, ValueIds n
  | 0 => ⟨.timeout, fun _ _ => .timeout, fun _ _ _ => .timeout, .timeout, fun _ => .timeout, .timeout,
      fun _ => .timeout, .timeout⟩
  | n + 1 => by
    obtain ⟨h1, h2, h3, h4, h5, h6, h7, h8⟩ := valueIds n
    have hn := idf_next
    have he : ∀ t, IdFree (expect t) := fun _ => idf_expect
    refine ⟨?_, ?_, ?_, ?_, ?_, ?_, ?_, ?_⟩
    · rw [parseValue]; idfc
    · intro a b; rw [bracketsLoop]; idfc
    · intro a b c; rw [argsLoop]; idfc
    · rw [parseMathSum]; idf
    · intro a; rw [sumLoop]; idf
    · rw [parseMathProduct]; idf
    · intro a; rw [productLoop]; idf
    · rw [parseMathParen]; idf

theorem idf_raw : ∀ n, IdFree (rawLoop n)
  | 0 => .timeout
  | n + 1 => by have h := idf_raw n; have := idf_next; rw [rawLoop]; idf
theorem idf_parseRaw {n} : IdFree (parseRaw n) := by have := idf_raw; have := idf_next; unfold parseRaw; idf
theorem idf_declLoop : ∀ n a b c d, IdFree (declLoop n a b c d)
  | 0, _, _, _, _ => .timeout
  | n + 1, a, b, c, d => by
    have h := idf_declLoop n; have hn := idf_next; have := (valueIds n).value; rw [declLoop]; idfc
    all_goals (dsimp only; cases c.getLast? <;> idf)
theorem idf_declaration {n} : IdFree (parseDeclaration n) := by
  have := idf_declLoop; have := idf_next; have he : ∀ t, IdFree (expect t) := fun _ => idf_expect
  unfold parseDeclaration; idf
theorem idf_fallback {n} : IdFree (parseDeclarationOrFallback n) := by
  intro s i
  unfold parseDeclarationOrFallback
  rw [idf_declaration s i]
  cases parseDeclaration n s with
  | ok d s' => rfl
  | err e s' => exact idf_parseRaw { s' with lex := s.lex } i
  | crash s' => exact idf_parseRaw { s' with lex := s.lex } i
  | timeout => rfl
theorem idf_decls : ∀ n a, IdFree (declsLoop n a)
  | 0, _ => .timeout
  | n + 1, a => by
    have h := idf_decls n; have := idf_next; have := @idf_fallback n; rw [declsLoop]; idf
theorem idf_block {n} : IdFree (parseDeclarationBlock n) := by
  have := idf_decls n; have := idf_next; unfold parseDeclarationBlock; idf

theorem idf_anb : IdFree parseANPlusB := by
  have := idf_next
  have he : ∀ t, IdFree (expect t) := fun _ => idf_expect
  have h1 : IdFree anbFirst := by unfold anbFirst; idf
  have h2 : ∀ a b, IdFree (anbSecond a b) := by intro a b; obtain ⟨_, _, _, _⟩ := b; unfold anbSecond; idf
  unfold parseANPlusB; idf
theorem idf_attr {n} : IdFree (parseAttributeSelector n) := by
  have := idf_next
  have he : ∀ t, IdFree (expect t) := fun _ => idf_expect
  have := (valueIds n).value
  unfold parseAttributeSelector; idfc
theorem idf_nth : IdFree parseNthArgs := by
  have := idf_next
  have he : ∀ t, IdFree (expect t) := fun _ => idf_expect
  have := idf_anb
  unfold parseNthArgs; idfc

/-- The selector parser. -/
structure SelIds (n : Nat) : Prop where
  listL : ∀ a, IdFree (selListLoop n a)
  list : IdFree (parseSelectorList n)
  sel : IdFree (parseSelector n)
  selL : ∀ a b, IdFree (selLoop n a b)
  pseudo : ∀ a, IdFree (parsePseudo n a)
  pname : ∀ a, IdFree (parsePseudoName n a)

theorem selIds : ∀ n, SelIds n
  | 0 => ⟨fun _ => .timeout, .timeout, .timeout, fun _ _ => .timeout, fun _ => .timeout, fun _ => .timeout⟩
  | n + 1 => by
    obtain ⟨h1, h2, h3, h4, h5, h6⟩ := selIds n
    have hn := idf_next
    have he : ∀ t, IdFree (expect t) := fun _ => idf_expect
    have ha := @idf_attr n
    have hb := idf_nth
    have hv := (valueIds n).value
    refine ⟨?_, ?_, ?_, ?_, ?_, ?_⟩
    · intro a; rw [selListLoop]; idf
    · rw [parseSelectorList]; idf
      intro l; cases l.getLast? <;> idf
    · rw [parseSelector]; idf
    · intro a b; rw [selLoop]; idfc
      all_goals (dsimp only; cases b.getLast? <;> idf)
    · intro a; rw [parsePseudo]; idf
    · intro a; rw [parsePseudoName]; idfc

theorem idf_ks : ∀ n a, IdFree (ksLoop n a)
  | 0, _ => .timeout
  | n + 1, a => by have h := idf_ks n; have := idf_next; rw [ksLoop]; idfc
theorem idf_ksList {n} : IdFree (parseKeyframeSelectorList n) := by
  have := idf_ks n; unfold parseKeyframeSelectorList; idf
  intro l; cases l.getLast? <;> idf
theorem idf_ruleLoop : ∀ b n a c, IdFree (ruleLoop b n a c)
  | _, 0, _, _ => .timeout
  | b, n + 1, a, c => by
    have h := idf_ruleLoop b n; have := @idf_block n; have := @idf_ksList n; have := (selIds n).list
    rw [ruleLoop]; idfc
theorem idf_rule {b n} : IdFree (parseQualifiedRule b n) := by
  have := idf_ruleLoop b n; unfold parseQualifiedRule; idf
theorem idf_rangeOp : IdFree parseMediaRangeOperator := by have := idf_next; unfold parseMediaRangeOperator; idf
theorem idf_range {n a v} : IdFree (mediaRange n a v) := by
  have := idf_rangeOp; have := (valueIds n).value; have := idf_next
  have he : ∀ t, IdFree (expect t) := fun _ => idf_expect
  unfold mediaRange; cases v <;> idfc
theorem idf_feature {n} : IdFree (parseMediaFeature n) := by
  have hr : ∀ a v, IdFree (mediaRange n a v) := fun _ _ => idf_range
  have := (valueIds n).value; have := idf_next
  have he : ∀ t, IdFree (expect t) := fun _ => idf_expect
  unfold parseMediaFeature
  refine .bind (by idf) fun _ => .bind (by idf) fun _ => .bind (by idf) fun v => ?_
  cases v <;> idfc
theorem idf_mq : ∀ n a b, IdFree (mqLoop n a b)
  | 0, _, _ => .timeout
  | n + 1, a, b => by
    have h := idf_mq n; have := idf_next; have := @idf_feature n; have := (valueIds n).value
    rw [mqLoop]; cases b.getLast? <;> idfc
theorem idf_query {n} : IdFree (parseMediaQuery n) := by have := idf_mq n; unfold parseMediaQuery; idfc
theorem idf_mql : ∀ n a, IdFree (mqlLoop n a)
  | 0, _ => .timeout
  | n + 1, a => by have h := idf_mql n; have := idf_next; have := @idf_query n; rw [mqlLoop]; idfc
theorem idf_queries {n} : IdFree (parseMediaQueryList n) := by
  have := idf_mql n; unfold parseMediaQueryList; idfc
theorem idf_rules : ∀ b n a, IdFree (rulesLoop b n a)
  | _, 0, _ => .timeout
  | b, n + 1, a => by have h := idf_rules b n; have := idf_next; have := @idf_rule b n; rw [rulesLoop]; idfc

/-! ### At-rules and stylesheets -/

/-- The at-rule with another identity. -/
def Node.setId (i : Nat) : Node → Node
  | .at a => .at { a with src := i }
  | n => n

/-- The import with another identity. -/
def ImportSpec.setId (i : Nat) (x : ImportSpec) : ImportSpec := { x with rule := { x.rule with src := i } }

/-- The stylesheet with another identity. -/
def Stylesheet.setId (i : Nat) (ss : Stylesheet) : Stylesheet :=
  ⟨ss.nodes.map (Node.setId i), ss.imports.map (ImportSpec.setId i)⟩

/-- The same for what the at-rule parsers return. -/
def setIds (i : Nat) (x : Node × List ImportSpec) : Node × List ImportSpec :=
  (x.1.setId i, x.2.map (ImportSpec.setId i))

/-- The computation puts the identity in its result, and does nothing else with it. -/
def IdMap (f : Nat → α → α) (m : P α) : Prop := ∀ s i, m (s.setId i) = (m s).setId (f i) i

theorem IdFree.bindMap {m : P α} {f : α → P β} {g : Nat → β → β} (h : IdFree m) (hf : ∀ a, IdMap g (f a)) :
    IdMap g (m >>= f) := by
  intro s i
  show P.bind m f (s.setId i) = (P.bind m f s).setId (g i) i
  unfold P.bind
  rw [h s i]
  cases m s with
  | ok a s' => exact hf a s' i
  | err e s' => rfl
  | crash s' => rfl
  | timeout => rfl

/-- Running `m` with the identity it starts with, where `m i` uses `i` only in its result. -/
theorem idMap_start {m : Nat → P α} {g : Nat → α → α}
    (h : ∀ j s i, m i (s.setId i) = (m j s).setId (g i) i) : IdMap g (fun s => m s.id s) := by
  intro s i
  exact h s.id s i

theorem idBind {m : P α} {f f' : α → P β} {g : β → β} {s : St} {i : Nat} (h : IdFree m)
    (hf : ∀ a s', f a (s'.setId i) = (f' a s').setId g i) :
    (m >>= f) (s.setId i) = ((m >>= f') s).setId g i := by
  show P.bind m f (s.setId i) = (P.bind m f' s).setId g i
  unfold P.bind
  rw [h s i]
  cases m s with
  | ok a s' => exact hf a s'
  | err e s' => rfl
  | crash s' => rfl
  | timeout => rfl

theorem idm_import {n} : IdMap setIds (parseImportAtRule n) := by
  have hn := idf_next
  have he : ∀ t, IdFree (expect t) := fun _ => idf_expect
  have hq := @idf_queries n
  intro s i
  unfold parseImportAtRule
  refine idBind .tokenSpan fun _ _ => idBind .getStr fun _ _ => idBind hn fun _ _ => idBind .tokenSpan fun _ _ =>
    idBind .getStr fun _ _ => idBind (by idfc) fun x _ => ?_
  obtain ⟨_, _⟩ := x
  exact idBind hq fun _ _ => rfl

theorem idm_keyframes {n} : IdMap setIds (parseKeyframes n) := by
  have hn := idf_next
  intro s i
  unfold parseKeyframes
  refine idBind .tokenSpan fun _ _ => idBind .getStr fun _ _ => idBind hn fun _ _ => idBind .tokenSpan fun _ _ =>
    idBind .getStr fun _ _ => idBind (by idfc) fun x _ => idBind hn fun _ _ => idBind .tokenSpan fun _ _ =>
    idBind idf_expect fun _ _ => idBind (idf_rules _ _ _) fun x _ => ?_
  obtain ⟨_, _⟩ := x
  rfl

theorem idm_media {n} : IdMap setIds (parseMediaAtRule n) := by
  have hn := idf_next
  intro s i
  unfold parseMediaAtRule
  refine idBind .tokenSpan fun _ _ => idBind .getStr fun _ _ => idBind hn fun _ _ => idBind idf_queries fun _ _ =>
    idBind .tokenSpan fun _ _ => idBind idf_expect fun _ _ => idBind (idf_rules _ _ _) fun x _ => ?_
  obtain ⟨_, _⟩ := x
  rfl

theorem idm_custom {n} : IdMap setIds (parseCustomMediaAtRule n) := by
  intro s i
  unfold parseCustomMediaAtRule
  refine idBind .tokenSpan fun _ _ => idBind .getStr fun _ _ => idBind idf_next fun _ _ =>
    idBind (valueIds n).value fun v _ => ?_
  cases v
  all_goals first
    | rfl
    | skip
  refine idBind idf_queries fun q _ => ?_
  match q with
  | none => rfl
  | some ⟨_, []⟩ => rfl
  | some ⟨_, [q]⟩ => rfl
  | some ⟨_, _ :: _ :: _⟩ => rfl

theorem idm_generic {n} : IdMap setIds (parseGenericAtRule n) := by
  intro s i
  unfold parseGenericAtRule
  exact idBind .tokenSpan fun _ _ => idBind .getStr fun _ _ => idBind idf_next fun _ _ =>
    idBind idf_block fun v _ => rfl

theorem IdMap.ite {c : Prop} [Decidable c] {f : Nat → α → α} {a b : P α} (h1 : IdMap f a) (h2 : IdMap f b) :
    IdMap f (if c then a else b) := by
  by_cases h : c
  · rw [if_pos h]; exact h1
  · rw [if_neg h]; exact h2

theorem idm_at {n} : IdMap setIds (parseAtRule n) := by
  unfold parseAtRule
  exact IdFree.getStr.bindMap fun _ =>
    .ite idm_import (.ite idm_media (.ite idm_keyframes (.ite idm_custom idm_generic)))

theorem idMapBind {m : P α} {f f' : α → P β} {g : β → β} {k : Nat → α → α} {s : St} {i : Nat} (h : IdMap k m)
    (hf : ∀ a s', f (k i a) (s'.setId i) = (f' a s').setId g i) :
    (m >>= f) (s.setId i) = ((m >>= f') s).setId g i := by
  show P.bind m f (s.setId i) = (P.bind m f' s).setId g i
  unfold P.bind
  rw [h s i]
  cases m s with
  | ok a s' => exact hf a s'
  | err e s' => rfl
  | crash s' => rfl
  | timeout => rfl

theorem topLoop_ids : ∀ n ss s i,
    topLoop n (ss.setId i) (s.setId i) = (topLoop n ss s).setId (Stylesheet.setId i) i
  | 0, _, _, _ => rfl
  | n + 1, ss, s, i => by
    have h := topLoop_ids n
    rw [topLoop, topLoop]
    refine idBind .getCur fun t s' => ?_
    cases t
    all_goals first
      | rfl
      | exact idBind idf_next fun _ _ => h _ _ _
      | skip
    case «at» =>
      refine idMapBind idm_at fun x s'' => ?_
      obtain ⟨node, imports⟩ := x
      have := h ⟨ss.nodes ++ [node], ss.imports ++ imports⟩ s'' i
      rw [← this]
      simp [Stylesheet.setId, setIds]
    all_goals
      refine idBind idf_rule fun r s'' => ?_
      have := h ⟨ss.nodes ++ [.rule r], ss.imports⟩ s'' i
      rw [← this]
      simp [Stylesheet.setId, Node.setId]

/-- Parsing with another identity. -/
theorem parse_id (n : Nat) (src : Bytes) (i : Nat) :
    parse n src i = match parse n src 0 with
      | .ok ss lines => .ok (ss.setId i) lines
      | r => r := by
  unfold parse
  have h := idf_newLexer (St.init src 0) i
  have h0 : (St.init src 0).setId i = St.init src i := rfl
  rw [h0] at h
  rw [h]
  cases newLexer (St.init src 0) with
  | ok a s =>
    have ht := topLoop_ids n ⟨[], []⟩ s i
    have h1 : Stylesheet.setId i ⟨[], []⟩ = ⟨[], []⟩ := rfl
    rw [h1] at ht
    dsimp only [Res.setId]
    rw [ht]
    cases topLoop n ⟨[], []⟩ s <;> rfl
  | err e s => rfl
  | crash s => rfl
  | timeout => rfl

end Cssc
