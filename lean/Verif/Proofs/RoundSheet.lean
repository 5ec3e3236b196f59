import Verif.Proofs.RoundMedia
import Verif.Props.Lexer

/-!
# Reading stylesheets back
-/

namespace Cssc

variable [Spelling]

omit [Spelling] in
theorem importValues_cons (n : Node) (ns : List Node) : importValues (n :: ns) = importValues [n] ++ importValues ns := by
  unfold importValues
  rw [← List.filterMap_append]; rfl

/-- One node of a stylesheet, with the `;` behind it. -/
def NodeReread (nd : Node) : Prop := ∀ (s : St) (acc : Stylesheet) (ts : List PTok), At false s (nd.toks ++ ts) →
  ∃ nd' imps s', nd'.bare = nd.bare ∧ imps.map ImportSpec.value = importValues [nd] ∧ At false s' (skipWs false ts) ∧
    ∀ x s'', Yields (topLoop · ⟨acc.nodes ++ [nd'], acc.imports ++ imps⟩) s' x s'' → Yields (topLoop · acc) s x s''

theorem ruleNode_reread {r : QRule} (h : r.Shape) : NodeReread (.rule r) := by
  intro s acc ts a
  have a : At false s (r.toks ++ ts) := a
  obtain ⟨t, u, e, _, e3⟩ := h.head
  have hc : isSelTok s.lex.cur = true := by
    have a := a
    rw [e] at a
    rw [a.cur]; exact e3
  obtain ⟨r', s1, ⟨k, y⟩, b1, a1⟩ := rule_reread h a
  refine ⟨.rule r', [], s1, by simp [Node.bare, b1], rfl, a1, fun x s'' ⟨k2, y2⟩ => ⟨k + k2 + 1, fun n hn => ?_⟩⟩
  obtain ⟨n, rfl⟩ : ∃ m, n = m + 1 := ⟨n - 1, by omega⟩
  have h2 := y2 n (by omega)
  rw [List.append_nil] at h2
  beta_reduce
  rw [topLoop]
  prun []
  cases hcur : s.lex.cur <;> rw [hcur] at hc <;> first | (simp [isSelTok] at hc; done) |
    (prun [y n (by omega)]; exact h2)

omit [Spelling] in
/-- An at-rule with a block. -/
theorem atNode_block {at0 : AtRule} {s s1 : St} {at' : AtRule} (hc : s.lex.cur = .at)
    (hy : Yields parseAtRule s (.at at', []) s1) (hb : at'.bare = at0.bare) (hi : importValues [.at at0] = []) {ts : List PTok}
    (a1 : At false s1 (skipWs false ts)) (acc : Stylesheet) :
    ∃ nd' imps s', nd'.bare = (Node.at at0).bare ∧ imps.map ImportSpec.value = importValues [.at at0] ∧ At false s' (skipWs false ts) ∧
    ∀ x s'', Yields (topLoop · ⟨acc.nodes ++ [nd'], acc.imports ++ imps⟩) s' x s'' → Yields (topLoop · acc) s x s'' := by
  obtain ⟨k, y⟩ := hy
  refine ⟨.at at', [], s1, by simp [Node.bare, hb], by rw [hi]; rfl, a1, fun x s'' ⟨k2, y2⟩ => ⟨k + k2 + 1, fun n hn => ?_⟩⟩
  obtain ⟨n, rfl⟩ : ∃ m, n = m + 1 := ⟨n - 1, by omega⟩
  beta_reduce
  rw [topLoop]
  prun [hc, y n (by omega)]
  exact y2 n (by omega)

omit [Spelling] in
/-- An at-rule with a `;`. -/
theorem atNode_semi {at0 : AtRule} {s s1 : St} {at' : AtRule} {imps : List ImportSpec} (hc : s.lex.cur = .at)
    (hy : Yields parseAtRule s (.at at', imps) s1) (hb : at'.bare = at0.bare)
    (hi : imps.map ImportSpec.value = importValues [.at at0]) {ts : List PTok}
    (a1 : At false s1 (.punct 59 :: ts)) (acc : Stylesheet) :
    ∃ nd' imps s', nd'.bare = (Node.at at0).bare ∧ imps.map ImportSpec.value = importValues [.at at0] ∧ At false s' (skipWs false ts) ∧
    ∀ x s'', Yields (topLoop · ⟨acc.nodes ++ [nd'], acc.imports ++ imps⟩) s' x s'' → Yields (topLoop · acc) s x s'' := by
  obtain ⟨k, y⟩ := hy
  obtain ⟨s2, n2, a2⟩ := a1.next
  refine ⟨.at at', imps, s2, by simp [Node.bare, hb], hi, a2, fun x s'' ⟨k2, y2⟩ => ⟨k + k2 + 2, fun n hn => ?_⟩⟩
  obtain ⟨n, rfl⟩ : ∃ m, n = m + 2 := ⟨n - 2, by omega⟩
  have hc1 : s1.lex.cur = .semicolon := a1.cur
  beta_reduce
  rw [topLoop]
  prun [hc, y (n + 1) (by omega)]
  rw [topLoop]
  prun [hc1, n2]
  exact y2 n (by omega)

omit [Spelling] in
theorem kf_ne {name : Bytes} (h : isKeyframesName name) : name ≠ b!"import" ∧ name ≠ b!"media" := by
  rcases h with rfl | rfl | rfl <;> decide

/-- The rules inside `@keyframes name { }` -/
theorem keyframes_reread {name : Bytes} (hn : isKeyframesName name) {rs : List QRule} (hrs : ∀ r ∈ rs, r.FrameShape)
    {s : St} {t : PTok} {ts : List PTok} (pr : Span → AtPrelude) (tw : t.isWs = false)
    (ht : (∃ v, t = .ident v ∧ pr = fun sp => .ident sp v) ∨ (∃ m v, t = .string m v ∧ pr = fun sp => .str sp v))
    (a : At false s (.at name :: .space :: t :: .punct 123 :: (rulesToks rs ++ (.punct 125 :: ts)))) :
    ∃ sp psp bsp rs' s', Yields parseAtRule s (.at ⟨s.id, sp, name, [pr psp], .rules bsp rs'⟩, []) s' ∧
      rs'.map QRule.bare = rs.map QRule.bare ∧ At false s' (skipWs false ts) := by
  obtain ⟨s1, n1, a1⟩ := a.next
  rw [skipWs_space, skipWs_cons tw] at a1
  obtain ⟨s2, n2, a2⟩ := a1.next
  rw [skipWs_cons rfl] at a2
  obtain ⟨s3, n3, a3⟩ := a2.expect (k := .lcurly) rfl
  have hd : ∀ r : QRule, r.FrameShape → ∃ t u, r.toks = t :: u ∧ t.isWs = false ∧ t.tok ≠ .eof ∧ t.tok ≠ .rcurly := by
    intro r hr
    obtain ⟨t, u, e1, e2, e3⟩ := hr.head
    exact ⟨t, u, e1, e2, by rcases e3 with h | h <;> rw [h] <;> simp, by rcases e3 with h | h <;> rw [h] <;> simp⟩
  have hsk : skipWs false (rulesToks rs ++ (.punct 125 :: ts)) = rulesToks rs ++ (.punct 125 :: ts) := by
    cases rs with
    | nil => rfl
    | cons r rs =>
      obtain ⟨t, u, e, hw, _⟩ := hd r (hrs r (by simp))
      rw [rulesToks, e]; exact skipWs_cons hw
  rw [hsk] at a3
  obtain ⟨rs', e, s4, ⟨k, y⟩, b4, a4⟩ := rules_reread (kf := true) QRule.FrameShape hd (fun r hr s ts => frame_reread hr) rs hrs s3 [] ts a3
  refine ⟨⟨s.lex.start, e⟩, ⟨s1.lex.start, s1.lex.lastPos⟩, ⟨s2.lex.start, e⟩, rs', s4, ⟨k, fun n hn' => ?_⟩, b4, a4⟩
  have hk := kf_ne hn
  unfold parseAtRule
  prun [a.str rfl]
  rw [if_neg hk.1, if_neg hk.2, if_pos (show _ ∨ _ ∨ _ from hn)]
  unfold parseKeyframes
  have hy := y n hn'
  rw [List.nil_append] at hy
  prun [a.str rfl, n1]
  rcases ht with ⟨v, rfl, rfl⟩ | ⟨m, v, rfl, rfl⟩
  · have hc : s1.lex.cur = .ident := a1.cur
    prun [hc, a1.str rfl, n2, n3, hy]
  · have hc : s1.lex.cur = .string := a1.cur
    prun [hc, a1.str rfl, n2, n3, hy]

theorem media_reread {l : MQList} (hl : l.Shape) {rs : List QRule} (hrs : ∀ r ∈ rs, r.Shape) {s : St} {ts : List PTok}
    (a : At false s (.at b!"media" :: .space :: (mqsToks l.queries ++ (.punct 123 :: (rulesToks rs ++ (.punct 125 :: ts)))))) :
    ∃ sp l' bsp rs' s', Yields parseAtRule s (.at ⟨s.id, sp, b!"media", [.mql (some l')], .rules bsp rs'⟩, []) s' ∧
      l'.bare = l.bare ∧ rs'.map QRule.bare = rs.map QRule.bare ∧ At false s' (skipWs false ts) := by
  obtain ⟨s1, n1, a1⟩ := a.next
  have a1 : At false s1 (mqsToks l.queries ++ (.punct 123 :: (rulesToks rs ++ (.punct 125 :: ts)))) := by
    obtain ⟨t, r, e, hw⟩ := mql_head hl
    rw [e, skipWs_space, List.cons_append, skipWs_cons hw] at a1
    rw [e]; exact a1
  obtain ⟨l', s2, ⟨k2, y2⟩, b2, a2⟩ := mql_reread hl (.inr rfl) a1
  obtain ⟨s3, n3, a3⟩ := a2.expect (k := .lcurly) rfl
  have hd : ∀ r : QRule, r.Shape → ∃ t u, r.toks = t :: u ∧ t.isWs = false ∧ t.tok ≠ .eof ∧ t.tok ≠ .rcurly := by
    intro r hr
    obtain ⟨t, u, e1, e2, e3⟩ := hr.head
    refine ⟨t, u, e1, e2, ?_, ?_⟩ <;> intro h <;> rw [h] at e3 <;> cases e3
  have hsk : skipWs false (rulesToks rs ++ (.punct 125 :: ts)) = rulesToks rs ++ (.punct 125 :: ts) := by
    cases rs with
    | nil => rfl
    | cons r rs =>
      obtain ⟨t, u, e, hw, _⟩ := hd r (hrs r (by simp))
      rw [rulesToks, e]; exact skipWs_cons hw
  rw [hsk] at a3
  obtain ⟨rs', e, s4, ⟨k, y⟩, b4, a4⟩ := rules_reread (kf := false) QRule.Shape hd (fun r hr s ts => rule_reread hr) rs hrs s3 [] ts a3
  refine ⟨⟨s.lex.start, e⟩, l', ⟨s2.lex.start, e⟩, rs', s4, ⟨k + k2, fun n hn' => ?_⟩, b2, b4, a4⟩
  unfold parseAtRule
  have hy := y n (by omega)
  rw [List.nil_append] at hy
  prun [a.str rfl]
  rw [if_neg (by decide), if_pos trivial]
  unfold parseMediaAtRule
  prun [a.str rfl, n1, y2 n (by omega), n3, hy]

/-- The optional media queries of `@import`. -/
def mqTail : Option MQList → List PTok
  | none => []
  | some l => .space :: mqsToks l.queries

/-- The forms of an address. -/
def IsAddress (v : Bytes) (ts : List PTok) : Prop :=
  (∃ m, ts = [.string m v]) ∨ (∃ w, ts = [.url w v]) ∨ ∃ m, ts = [.func b!"url", .string m v, .punct 41]

theorem address_toks (sp : Span) (v : Bytes) : IsAddress v ((AtPrelude.str sp v).toks b!"import") := by
  rw [AtPrelude.toks, if_pos rfl]
  split
  · exact .inl ⟨_, rfl⟩
  · exact .inr (.inl ⟨_, rfl⟩)
  · exact .inr (.inr ⟨_, rfl⟩)

theorem import_reread {v : Bytes} {addr : List PTok} (ha : IsAddress v addr) {mq : Option MQList} (hm : ∀ l, mq = some l → l.Shape) {s : St} {ts : List PTok}
    (a : At false s (.at b!"import" :: .space :: (addr ++
      (mqTail mq ++ (.punct 59 :: ts))))) :
    ∃ (sp psp : Span) (id : AtId) (mq' : Option MQList) (s' : St), Yields parseAtRule s (.at ⟨s.id, sp, b!"import", .str psp v :: mq'.toList.map fun l => .mql (some l), .none⟩, [⟨v, id⟩]) s' ∧
      mq'.map MQList.bare = mq.map MQList.bare ∧ At false s' (.punct 59 :: ts) := by
  obtain ⟨s1, n1, a1⟩ := a.next
  rw [skipWs_space] at a1
  obtain ⟨psp, s2, hrd, a2⟩ : ∃ (psp : Span) (s2 : St), (∀ n, parseImportAtRule n s = (do
      let mq ← parseMediaQueryList n
      let preludes := AtPrelude.str psp v :: mq.toList.map fun l => AtPrelude.mql (some l)
      let rule : AtRule := ⟨s.id, ⟨s.lex.start, importEnd psp mq⟩, b!"import", preludes, .none⟩
      pure (.at rule, [⟨v, rule.id⟩]) : P (Node × List ImportSpec)) s2) ∧
      At false s2 (skipWs false (mqTail mq ++ (.punct 59 :: ts))) := by
    rcases ha with ⟨m, rfl⟩ | ⟨w, rfl⟩ | ⟨m, rfl⟩
    · have a1 : At false s1 (.string m v :: (mqTail mq ++ (.punct 59 :: ts))) := a1
      obtain ⟨s2, n2, a2⟩ := a1.expect (k := .string) rfl
      have hc : s1.lex.cur = .string := a1.cur
      refine ⟨⟨s1.lex.start, s1.lex.lastPos⟩, s2, fun n => ?_, a2⟩
      unfold parseImportAtRule
      prun [a.str rfl, n1, hc, n2, a1.str rfl]
    · have a1 : At false s1 (.url w v :: (mqTail mq ++ (.punct 59 :: ts))) := a1
      obtain ⟨s2, n2, a2⟩ := a1.next
      have hc : s1.lex.cur = .url := a1.cur
      refine ⟨⟨s1.lex.start, s1.lex.lastPos⟩, s2, fun n => ?_, a2⟩
      unfold parseImportAtRule
      prun [a.str rfl, n1, hc, n2, a1.str rfl]
    · have a1 : At false s1 (.func b!"url" :: .string m v :: .punct 41 :: (mqTail mq ++ (.punct 59 :: ts))) := a1
      obtain ⟨s2, n2, a2⟩ := a1.next
      rw [skipWs_cons rfl] at a2
      obtain ⟨s3, n3, a3⟩ := a2.expect (k := .string) rfl
      rw [skipWs_cons rfl] at a3
      obtain ⟨s4, n4, a4⟩ := a3.expect (k := .rparen) rfl
      have hc : s1.lex.cur = .functionStart := a1.cur
      refine ⟨⟨s1.lex.start, s3.lex.lastPos⟩, s4, fun n => ?_, a4⟩
      unfold parseImportAtRule
      prun [a.str rfl, n1, hc, n2, a1.str rfl]
      rw [if_neg (by simp)]
      prun [n3, n4, a2.str rfl]
  have key : ∃ (mq' : Option MQList) (s3 : St), Yields parseMediaQueryList s2 mq' s3 ∧ mq'.map MQList.bare = mq.map MQList.bare ∧ At false s3 (.punct 59 :: ts) := by
    cases mq with
    | none =>
      have a2 : At false s2 (.punct 59 :: ts) := a2
      exact ⟨none, s2, mql_none a2, rfl, a2⟩
    | some l =>
      have hl := hm l rfl
      have a2 : At false s2 (mqsToks l.queries ++ (.punct 59 :: ts)) := by
        have a2 : At false s2 (skipWs false (.space :: (mqsToks l.queries ++ (.punct 59 :: ts)))) := a2
        obtain ⟨t, r, e, hw⟩ := mql_head hl
        rw [e, skipWs_space, List.cons_append, skipWs_cons hw] at a2
        rw [e]; exact a2
      obtain ⟨l', s3, y, b3, a3⟩ := mql_reread hl (.inl rfl) a2
      exact ⟨some l', s3, y, by simp [b3], a3⟩
  obtain ⟨mq', s3, ⟨k, y⟩, b3, a3⟩ := key
  refine ⟨⟨s.lex.start, importEnd psp mq'⟩, psp, ⟨s.id, s.lex.start⟩, mq', s3, ⟨k, fun n hn => ?_⟩, b3, a3⟩
  unfold parseAtRule
  prun [a.str rfl]
  rw [if_pos trivial, hrd]
  prun [y n hn]
  rfl

theorem customMedia_reread {v : Bytes} {q : MQ} (hq : q.Shape) {s : St} {ts : List PTok}
    (a : At false s (.at b!"custom-media" :: .space :: .ident v :: .space :: (mqPartsToks q.parts ++ (.punct 59 :: ts)))) :
    ∃ sp psp q' s', Yields parseAtRule s (.at ⟨s.id, sp, b!"custom-media", [.ident psp v, .mq q'], .none⟩, []) s' ∧
      q'.bare = q.bare ∧ At false s' (.punct 59 :: ts) := by
  obtain ⟨s1, n1, a1⟩ := a.next
  rw [skipWs_space, skipWs_cons rfl] at a1
  obtain ⟨isp, s2, ⟨k2, y2⟩, a2⟩ := identVal_reread a1
  have a2 : At false s2 (mqsToks [q] ++ (.punct 59 :: ts)) := by
    obtain ⟨t, r, e, hw, _⟩ := mq_head hq
    rw [e, skipWs_space, List.cons_append, skipWs_cons hw] at a2
    rw [mqsToks, e]; simpa using a2
  obtain ⟨l', s3, ⟨k3, y3⟩, b3, a3⟩ := mql_reread (l := ⟨⟨0, 0⟩, [q]⟩) ⟨by simp, by simpa using hq⟩ (.inl rfl) a2
  obtain ⟨lsp, qs'⟩ := l'
  have hb : qs'.map MQ.bare = [q.bare] := by simpa [MQList.bare] using b3
  match qs', hb with
  | [q'], hb =>
    refine ⟨⟨s.lex.start, q'.sp.stop⟩, isp, q', s3, ⟨k2 + k3, fun n hn => ?_⟩, by simpa using hb, a3⟩
    unfold parseAtRule
    prun [a.str rfl]
    rw [if_neg (by decide), if_neg (by decide), if_neg (by decide), if_pos trivial]
    unfold parseCustomMediaAtRule
    prun [a.str rfl, n1, y2 n (by omega), y3 n (by omega)]
  | [], hb => cases hb
  | _ :: _ :: _, hb => simp at hb

theorem generic_reread {name : Bytes} {b : DeclBlock} (h1 : name ≠ b!"import") (h2 : name ≠ b!"media") (h3 : ¬ isKeyframesName name)
    (h4 : name ≠ b!"custom-media") (hb : b.Shape) {s : St} {ts : List PTok}
    (a : At false s (.at name :: .punct 123 :: (declsToks b.decls ++ (.punct 125 :: ts)))) :
    ∃ sp b' s', Yields parseAtRule s (.at ⟨s.id, sp, name, [], .decls b'⟩, []) s' ∧ b'.bare = b.bare ∧ At false s' (skipWs false ts) := by
  obtain ⟨s1, n1, a1⟩ := a.next
  rw [skipWs_cons rfl] at a1
  obtain ⟨b', s2, ⟨k, y⟩, b2, a2⟩ := block_reread hb a1
  refine ⟨⟨s.lex.start, b'.sp.stop⟩, b', s2, ⟨k, fun n hn => ?_⟩, b2, a2⟩
  unfold parseAtRule
  prun [a.str rfl]
  rw [if_neg h1, if_neg h2, if_neg (show ¬ (_ ∨ _ ∨ _) from h3), if_neg h4]
  unfold parseGenericAtRule
  prun [a.str rfl, n1, y n hn]

theorem at_reread {at0 : AtRule} (h : at0.Shape) : NodeReread (.at at0) := by
  intro s acc ts a
  have a : At false s (at0.toks ++ ts) := a
  have hc : s.lex.cur = .at := by unfold AtRule.toks at a; exact a.cur
  cases h with
  | @«import» src sp psp v =>
    obtain ⟨sp', psp', id, mq', s1, y, b1, a1⟩ := import_reread (address_toks psp v) (mq := none) (by simp) (ts := ts)
      (by simpa [AtRule.toks, preludesToks, Block.toks, mqTail] using a)
    have hm : mq' = none := by cases mq' <;> simp at b1 ⊢
    subst hm
    exact atNode_semi hc y rfl rfl a1 acc
  | @importMedia src sp psp v l hl =>
    have a : At false s (.at b!"import" :: .space :: ((AtPrelude.str psp v).toks b!"import" ++
      (mqTail (some l) ++ (.punct 59 :: ts)))) := by
      have e : (AtPrelude.mql (some l)).toks b!"import" = mqsToks l.queries := rfl
      simpa [AtRule.toks, preludesToks, Block.toks, mqTail, e] using a
    obtain ⟨sp', psp', id, mq', s1, y, b1, a1⟩ := import_reread (address_toks psp v) (mq := some l) (by rintro _ ⟨⟩; exact hl) (ts := ts) a
    cases mq' with
    | none => simp at b1
    | some l' =>
      have hb : l'.bare = l.bare := by simpa using b1
      exact atNode_semi hc y (by simp [AtRule.bare, AtPrelude.bare, hb]) rfl a1 acc
  | @media src sp l bsp rs hl hrs =>
    obtain ⟨sp', l', bsp', rs', s1, y, b1, b2, a1⟩ := media_reread hl hrs (s := s) (ts := ts)
      (by simpa [AtRule.toks, preludesToks, AtPrelude.toks, Block.toks] using a)
    exact atNode_block hc y (by simp [AtRule.bare, AtPrelude.bare, Block.bare, b1, b2]) rfl a1 acc
  | @keyframes src sp name psp v bsp rs hn hrs =>
    obtain ⟨sp', psp', bsp', rs', s1, y, b1, a1⟩ := keyframes_reread hn hrs (s := s) (ts := ts) (t := .ident v) (fun sp => .ident sp v)
      rfl (.inl ⟨v, rfl, rfl⟩) (by simpa [AtRule.toks, preludesToks, AtPrelude.toks, Block.toks] using a)
    exact atNode_block hc y (by simp [AtRule.bare, AtPrelude.bare, Block.bare, b1]) rfl a1 acc
  | @keyframesStr src sp name psp v bsp rs hn hrs =>
    obtain ⟨sp', psp', bsp', rs', s1, y, b1, a1⟩ := keyframes_reread hn hrs (s := s) (ts := ts) (t := .string (Spelling.mark psp) v) (fun sp => .str sp v)
      rfl (.inr ⟨_, v, rfl, rfl⟩) (by simpa [AtRule.toks, preludesToks, AtPrelude.toks, Block.toks, (kf_ne hn).1] using a)
    exact atNode_block hc y (by simp [AtRule.bare, AtPrelude.bare, Block.bare, b1]) (by simp [importValues, Node.importValue, (kf_ne hn).1]) a1 acc
  | @customMedia src sp psp v q hq =>
    obtain ⟨sp', psp', q', s1, y, b1, a1⟩ := customMedia_reread hq (s := s) (ts := ts) (v := v)
      (by simpa [AtRule.toks, preludesToks, AtPrelude.toks, Block.toks] using a)
    exact atNode_semi hc y (by simp [AtRule.bare, AtPrelude.bare, Block.bare, b1]) rfl a1 acc
  | @generic src sp name b h1 h2 h3 h4 hb =>
    obtain ⟨sp', b', s1, y, b1, a1⟩ := generic_reread h1 h2 h3 h4 hb (s := s) (ts := ts)
      (by simpa [AtRule.toks, preludesToks, AtPrelude.toks, Block.toks] using a)
    exact atNode_block hc y (by simp [AtRule.bare, Block.bare, b1]) rfl a1 acc

theorem node_reread {nd : Node} (h : nd.Shape) : NodeReread nd := by
  cases nd with
  | rule r => exact ruleNode_reread h
  | «at» a => exact at_reread h

theorem node_head {nd : Node} (h : nd.Shape) : ∃ t r, nd.toks = t :: r ∧ t.isWs = false := by
  cases nd with
  | rule r =>
    obtain ⟨t, u, e1, e2, _⟩ := QRule.Shape.head h
    exact ⟨t, u, e1, e2⟩
  | «at» a => exact ⟨_, _, rfl, rfl⟩

/-- Only white space. -/
def blank (ts : List PTok) : Prop := ∀ t ∈ ts, t.isWs = true

omit [Spelling] in
theorem blank_skip : ∀ {ts : List PTok}, blank ts → skipWs false ts = []
  | [], _ => rfl
  | t :: ts, h => by
    have ht := h t (by simp)
    cases t <;> cases ht
    exact blank_skip (ts := ts) fun x hx => h x (by simp [hx])

theorem nodesToks_skip {ns : List Node} (h : ∀ n ∈ ns, n.Shape) {tl : List PTok} (ht : blank tl) :
    skipWs false (nodesToks ns ++ tl) = nodesToks ns ++ if ns = [] then [] else tl := by
  cases ns with
  | nil => exact blank_skip ht
  | cons n ns =>
    obtain ⟨t, r, e, hw⟩ := node_head (h n (by simp))
    rw [nodesToks, e]; exact skipWs_cons hw

/-- The nodes of a stylesheet, up to the end of the text. -/
theorem nodes_reread {tl : List PTok} (ht : blank tl) : ∀ (ns : List Node), (∀ n ∈ ns, n.Shape) → ∀ (s : St) (acc : Stylesheet),
    At false s (nodesToks ns ++ if ns = [] then [] else tl) →
    ∃ ns' imps s', Yields (topLoop · acc) s ⟨acc.nodes ++ ns', acc.imports ++ imps⟩ s' ∧ ns'.map Node.bare = ns.map Node.bare ∧
      imps.map ImportSpec.value = importValues ns
  | [], _, s, acc, a => by
    refine ⟨[], [], s, ⟨1, fun n hn => ?_⟩, rfl, rfl⟩
    obtain ⟨n, rfl⟩ : ∃ m, n = m + 1 := ⟨n - 1, by omega⟩
    have hc : s.lex.cur = .eof := a.eof
    beta_reduce
    rw [topLoop]
    prun [hc]
    simp
  | nd :: ns, hs, s, acc, a => by
    obtain ⟨nd', im, s1, b1, i1, a1, y1⟩ := node_reread (hs nd (by simp)) s acc (nodesToks ns ++ tl) (by
      simpa [nodesToks] using a)
    rw [nodesToks_skip (fun n hn => hs n (by simp [hn])) ht] at a1
    obtain ⟨ns', im', s2, y2, b2, i2⟩ := nodes_reread ht ns (fun n hn => hs n (by simp [hn])) s1 _ a1
    refine ⟨nd' :: ns', im ++ im', s2, ?_, by simp [b1, b2], by rw [List.map_append, i1, i2, ← importValues_cons]⟩
    have := y1 _ _ y2
    simpa using this

/-- Reading a text of tokens and comments, with any white space where it has no meaning. -/
theorem parse_spaced {ns : List Node} (hs : ∀ n ∈ ns, n.Shape) {tl us : List PTok} (ht : blank tl) {text : Bytes}
    (hsp : Respaced (nodesToks ns ++ tl) us) (hl : Laid us text) (id : Nat) :
    ∃ k ss lines, (∀ n, k ≤ n → parse n text id = .ok ss lines) ∧
      ss.nodes.map Node.bare = ns.map Node.bare ∧ ss.imports.map ImportSpec.value = importValues ns := by
  obtain ⟨s1, e1, hi, hsrc, _, hlp, hf1, hf2, _⟩ := first_step text id
  have o : On s1 text := ⟨hi, by rw [hsrc, hlp]; rfl⟩
  obtain ⟨s2, e2, a2⟩ := on_next hsp hl o hf1 hf2 (fun h => by cases h)
  rw [nodesToks_skip hs ht] at a2
  obtain ⟨ns', imps, s3, ⟨k, y⟩, b3, i3⟩ := nodes_reread ht ns hs s2 ⟨[], []⟩ a2
  refine ⟨k, ⟨ns', imps⟩, s3.lines, fun n hn => ?_, b3, i3⟩
  unfold parse
  rw [newLexer_eq e1, e2]
  simp only
  have := y n hn
  simp only [List.nil_append] at this
  rw [this]

/-- Reading a text of tokens and comments, with white space at the end. -/
theorem parse_laid {ns : List Node} (hs : ∀ n ∈ ns, n.Shape) {tl : List PTok} (ht : blank tl) {text : Bytes}
    (hl : Laid (nodesToks ns ++ tl) text) (id : Nat) :
    ∃ k ss lines, (∀ n, k ≤ n → parse n text id = .ok ss lines) ∧
      ss.nodes.map Node.bare = ns.map Node.bare ∧ ss.imports.map ImportSpec.value = importValues ns :=
  parse_spaced hs ht (Spaced.refl _ _) hl id

/-- Reading a text of tokens. -/
theorem parse_reread {ns : List Node} (hs : ∀ n ∈ ns, n.Shape) (hl : Lay (nodesToks ns)) (id : Nat) :
    ∃ k ss lines, (∀ n, k ≤ n → parse n (texts (nodesToks ns)) id = .ok ss lines) ∧
      ss.nodes.map Node.bare = ns.map Node.bare ∧ ss.imports.map ImportSpec.value = importValues ns :=
  parse_laid hs (tl := []) (by simp [blank]) (by simpa using hl.laid) id

end Cssc
