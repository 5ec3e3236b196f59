import Verif.Proofs.ParseSel

/-!
# What the parser builds: declarations, rules, media queries, at-rules and stylesheets
-/

namespace Cssc

/-! ### Declarations -/

theorem rawLoop_pi {C : Prop} {src : Bytes} {id : Nat} : ∀ (n : Nat) {s : St}, PI src id s →
    wp (rawLoop n) (fun _ s' => PI src id s' ∧ s.lex.start ≤ s'.lex.start) (PX C src id) s
  | 0, _, _ => trivial
  | n + 1, s, h => by
    rw [rawLoop]
    wpb
    refine wp_ite (fun _ => ?_) fun _ => ?_
    · wpb
      exact ⟨h, Nat.le_refl _⟩
    · refine wp_seq (next_pi h) fun _ s1 ⟨h1, l1⟩ => ?_
      have := h.start_le
      exact wp_mono (rawLoop_pi n h1) fun _ s2 ⟨h2, l2⟩ => ⟨h2, by omega⟩

/-- A declaration was built at or after the old position. -/
def DeclParsed (src : Bytes) (id : Nat) (s : St) (d : Decl) (s' : St) : Prop :=
  PI src id s' ∧ DeclOk src d ∧ s.lex.start ≤ d.loc.start ∧ d.loc.stop ≤ s'.lex.start

theorem DeclOk.spOk {src : Bytes} {d : Decl} (h : DeclOk src d) : SpOk src d.loc := by
  cases d <;> exact h.1

theorem parseRaw_pi {C : Prop} {src : Bytes} {id n : Nat} {s : St} (h : PI src id s) :
    wp (parseRaw n) (DeclParsed src id s) (PX C src id) s := by
  rw [parseRaw]
  wpb
  refine wp_seq (rawLoop_pi n h) fun _ s1 ⟨h1, l1⟩ => ?_
  have hle := h1.start_le
  wpb
  refine wp_seq (next_pi h1) fun _ s2 ⟨h2, l2⟩ => ?_
  rw [wpb_slice (by dom) (by rw [h2.srcEq]; exact h1.end_le)]
  wpb
  refine ⟨h2, ⟨⟨by dom, h1.end_le⟩, ?_⟩, Nat.le_refl _, l2⟩
  rw [h2.srcEq]
  rfl

theorem declLoop_pi {C : Prop} {src : Bytes} (hC : MathIn src → C) {id : Nat} : ∀ (n : Nat) {s : St} {prop : Bytes} {sp : Span} {vals : List Value}
    {imp : Bool} {e : Nat}, PI src id s → sp.start ≤ sp.stop → sp.stop ≤ s.lex.start → e ≤ sp.stop →
    (prop = sub src sp.start e ∨ prop = 42 :: sub src sp.start e) → IdentLit (sub src sp.start e) → VsOk src vals →
    (∀ v ∈ vals, (v.isComp || v.isSep || v.isRaw) = true) →
    Ordered sp.start s.lex.start (vals.map Value.sp) →
    wp (declLoop n prop sp vals imp) (fun d s' => PI src id s' ∧ DeclOk src d ∧ d.loc.start = sp.start ∧
      d.loc.stop ≤ s'.lex.start) (PX C src id) s
  | 0, _, _, _, _, _, _, _, _, _, _, _, _, _, _, _ => trivial
  | n + 1, s, prop, sp, vals, imp, e, h, hsp, hst, he, hprop, hlit, hv, hpl, ho => by
    have hle := h.start_le
    have hend := h.end_le
    rw [declLoop]
    wpb
    split
    · exact errorf_pi h _
    · refine wp_seq (next_pi h) fun _ s1 ⟨h1, l1⟩ => ?_
      refine declLoop_pi hC n h1 hsp (by omega) he hprop hlit (hv.snoc (v := .comma _) h.span) (mem_snoc hpl rfl) ?_
      rw [List.map_append]
      exact ho.snoc (Nat.le_refl _) hle l1
    · rename_i hc
      refine wp_ite (fun hb => ?_) fun _ => ?_
      · refine wp_seq (next_pi h) fun _ s1 ⟨h1, l1⟩ => ?_
        refine declLoop_pi hC n h1 hsp (by omega) he hprop hlit
          (hv.snoc (v := .raw _ _) ⟨h.span, h.delim hc, h.delimLit hc, hb⟩) (mem_snoc hpl rfl) ?_
        rw [List.map_append]
        exact ho.snoc (Nat.le_refl _) hle l1
      · refine wp_seq (next_pi h) fun _ s1 ⟨h1, l1⟩ => ?_
        wpb
        refine wp_ite (fun _ => errorf_pi h1 _) fun _ => ?_
        wpb
        refine wp_seq (next_pi h1) fun _ s2 ⟨h2, l2⟩ => ?_
        have hle1 := h1.start_le
        exact declLoop_pi hC n (sp := ⟨sp.start, s1.lex.lastPos⟩) h2 (by dom) l2 (by dom) hprop hlit hv hpl
          (ho.mono (Nat.le_refl _) (by omega))
    · refine wp_seq ((valueSpec src id hC n).value h) fun v s1 ⟨⟨h1, hvv⟩, hm⟩ => ?_
      rcases hvv with ⟨rfl, rfl⟩ | ⟨hvv, g1, g2, g3, _⟩
      · cases hlast : vals.getLast? with
        | none => exact errorf_pi h1 _
        | some last =>
          obtain ⟨a, b, c, d⟩ := ho.last (sp := last.sp) (by rw [List.getLast?_map, hlast]; rfl)
          refine wp_seq (locate_wp (Q := fun lsp s' => lsp = last.sp ∧ s' = s1) (fun _ => ⟨rfl, rfl⟩)
            fun e => absurd e (hv.mem (List.mem_of_getLast? hlast)).ne) fun lsp s' ⟨e1, e2⟩ => ?_
          subst e1 e2
          wpb
          have hmax : (if sp.stop < last.sp.stop then last.sp.stop else sp.stop) ≤ s'.lex.start ∧
              last.sp.stop ≤ (if sp.stop < last.sp.stop then last.sp.stop else sp.stop) ∧
              sp.stop ≤ (if sp.stop < last.sp.stop then last.sp.stop else sp.stop) := by
            split <;> omega
          refine ⟨h1, ⟨⟨by dom, by dom⟩, ⟨e, by dom, hprop, hlit⟩, ?_, a.mono (Nat.le_refl _) (by dom), hv, hpl⟩,
            by trivial, hmax.1⟩
          rintro rfl
          cases hlast
      · have hvsp := hvv.spOk
        have step : ∀ imp, wp (declLoop n prop sp (vals ++ [v]) imp) (fun d s' => PI src id s' ∧ DeclOk src d ∧
            d.loc.start = sp.start ∧ d.loc.stop ≤ s'.lex.start) (PX C src id) s1 := by
          intro imp
          refine declLoop_pi hC n h1 hsp (by omega) he hprop hlit (hv.snoc hvv)
            (mem_snoc hpl (by rw [hm.resolve_left hvv.ne]; rfl)) ?_
          rw [List.map_append]
          exact ho.snoc g1 hvsp.1 g2
        cases v <;> first | exact absurd rfl hvv.ne | exact step imp

theorem parseDeclaration_pi {C : Prop} {src : Bytes} (hC : MathIn src → C) {id n : Nat} {s : St} (h : PI src id s) :
    wp (parseDeclaration n) (DeclParsed src id s) (PX C src id) s := by
  rw [parseDeclaration]
  wpb
  have hle := h.start_le
  refine wp_seq (R := fun _ s' => PI src id s' ∧ s.lex.start ≤ s'.lex.start) ?_ fun _ s1 ⟨h1, l1⟩ => ?_
  · refine wp_whenP (fun _ => ?_) fun _ => ⟨h, Nat.le_refl _⟩
    exact wp_mono (next_pi h) fun _ s1 ⟨h1, l1⟩ => ⟨h1, by omega⟩
  wpb
  refine wp_seq (expect_pi h1 _) fun _ s2 ⟨h2, l2, hid⟩ => ?_
  refine wp_seq (expect_pi h2 _) fun _ s3 ⟨h3, l3, _⟩ => ?_
  have hle1 := h1.start_le
  have hle2 := h2.start_le
  have hlit := h1.identLit hid
  rw [h1.ident hid] at hlit
  refine wp_mono (declLoop_pi hC n (e := s1.lex.lastPos) h3 hle1 (by dom) (Nat.le_refl _) ?_ hlit (by trivial) (by simp)
    (show _ ≤ _ by dom)) fun d s4 ⟨h4, hd, g1, g2⟩ => ⟨h4, hd, by dom, g2⟩
  have hname := h1.ident hid
  by_cases hp : s.lex.cur = .delim ∧ s.lex.str = b!"*"
  · right
    simp only [hp, and_self, decide_true, if_true]
    rw [hname]
    rfl
  · left
    simp only [hp, decide_false, Bool.false_eq_true, if_false]
    exact hname

theorem parseDeclarationOrFallback_pi {C : Prop} {src : Bytes} {id n : Nat} {s : St} (h : PI src id s) :
    wp (parseDeclarationOrFallback n) (DeclParsed src id s) (PX C src id) s := by
  have hd := parseDeclaration_pi (n := n) (C := MathIn src) (fun h => h) h
  have back : ∀ s' : St, s'.src = src → s'.id = id → PI src id { s' with lex := s.lex } := by
    intro s' e1 e2
    refine ⟨e1, e2, ⟨?_, ?_, ?_⟩, h.start_le, h.ident, h.delim, h.number, h.dimension, h.lit, h.pct, h.more⟩
    · have := h.inv.le; rw [h.srcEq] at this; rw [e1]; exact this
    · have := h.inv.ch; rw [h.srcEq] at this; rw [e1]; exact this
    · have := h.inv.pos; rw [h.srcEq] at this; rw [e1]; exact this
  have raw : ∀ s' : St, s'.src = src → s'.id = id →
      wp (parseRaw n) (DeclParsed src id s) (PX C src id) { s' with lex := s.lex } := by
    intro s' e1 e2
    exact parseRaw_pi (back s' e1 e2)
  unfold wp at hd
  unfold wp parseDeclarationOrFallback
  cases hr : parseDeclaration n s with
  | ok d s' => rw [hr] at hd; exact hd
  | err e s' => rw [hr] at hd; exact raw s' hd.1 hd.2.1
  | crash s' => rw [hr] at hd; exact raw s' hd.1 hd.2.1
  | timeout => trivial

theorem declsLoop_pi {C : Prop} {src : Bytes} {id : Nat} : ∀ (n : Nat) {s : St} {ds : List Decl} {lo : Nat}, PI src id s →
    (∀ d ∈ ds, DeclOk src d) → Ordered lo s.lex.start (ds.map Decl.loc) →
    wp (declsLoop n ds) (fun ds' s' => PI src id s' ∧ (∀ d ∈ ds', DeclOk src d) ∧
      Ordered lo s'.lex.start (ds'.map Decl.loc) ∧ s'.lex.cur = .rcurly) (PX C src id) s
  | 0, _, _, _, _, _, _ => trivial
  | n + 1, s, ds, lo, h, hd, ho => by
    rw [declsLoop]
    wpb
    refine wp_ite (fun hc => ?_) fun _ => ?_
    · wpb
      exact ⟨h, hd, ho, hc⟩
    · refine wp_seq (parseDeclarationOrFallback_pi h) fun d s1 ⟨h1, hd1, g1, g2⟩ => ?_
      wpb
      refine wp_seq (R := fun _ s' => PI src id s' ∧ s1.lex.start ≤ s'.lex.start) ?_ fun _ s2 ⟨h2, l2⟩ => ?_
      · refine wp_whenP (fun _ => ?_) fun _ => ⟨h1, Nat.le_refl _⟩
        have := h1.start_le
        exact wp_mono (next_pi h1) fun _ s2 ⟨h2, l2⟩ => ⟨h2, by omega⟩
      · refine declsLoop_pi n h2 (mem_snoc hd hd1) ?_
        rw [List.map_append]
        exact ho.snoc g1 hd1.spOk.1 (by omega)

theorem parseDeclarationBlock_pi {C : Prop} {src : Bytes} {id n : Nat} {s : St} (h : PI src id s) :
    wp (parseDeclarationBlock n) (fun b s' => PI src id s' ∧ DeclBlockOk src b ∧ b.sp.start = s.lex.start ∧
      b.sp.stop ≤ s'.lex.start) (PX C src id) s := by
  rw [parseDeclarationBlock]
  wpb
  have hle := h.start_le
  refine wp_seq (next_pi h) fun _ s1 ⟨h1, l1⟩ => ?_
  refine wp_seq (declsLoop_pi n (ds := []) (lo := s.lex.start) h1 (by simp) (show _ ≤ _ by omega))
    fun ds s2 ⟨h2, hd, ho, _⟩ => ?_
  wpb
  refine wp_seq (next_pi h2) fun _ s3 ⟨h3, l3⟩ => ?_
  have hle2 := h2.start_le
  have hol := ho.le
  wpb
  exact ⟨h3, ⟨⟨by dom, h2.end_le⟩, ho.mono (Nat.le_refl _) hle2, hd⟩, by trivial, l3⟩

/-! ### Qualified rules -/

theorem KSelOk.spOk {src : Bytes} {k : KSel} (h : KSelOk src k) : SpOk src k.loc := by cases k <;> exact h.1

theorem ksLoop_pi {C : Prop} {src : Bytes} {id : Nat} : ∀ (n : Nat) {s : St} {acc : List KSel} {lo : Nat}, PI src id s →
    (∀ k ∈ acc, KSelOk src k) → Ordered lo s.lex.start (acc.map KSel.loc) →
    wp (ksLoop n acc) (fun l s' => PI src id s' ∧ (∀ k ∈ l, KSelOk src k) ∧
      Ordered lo s'.lex.start (l.map KSel.loc)) (PX C src id) s
  | 0, _, _, _, _, _, _ => trivial
  | n + 1, s, acc, lo, h, hk, ho => by
    have hle := h.start_le
    have add : ∀ k : KSel, KSelOk src k → k.loc = ⟨s.lex.start, s.lex.lastPos⟩ →
        wp (do
          next
          if (← getCur) = .comma then
            next
            ksLoop n (acc ++ [k])
          else pure (acc ++ [k])) (fun l s' => PI src id s' ∧ (∀ k ∈ l, KSelOk src k) ∧
            Ordered lo s'.lex.start (l.map KSel.loc)) (PX C src id) s := by
      intro k hok hloc
      refine wp_seq (next_pi h) fun _ s1 ⟨h1, l1⟩ => ?_
      have hle1 := h1.start_le
      wpb
      refine wp_ite (fun _ => ?_) fun _ => ?_
      · refine wp_seq (next_pi h1) fun _ s2 ⟨h2, l2⟩ => ?_
        refine ksLoop_pi n h2 (mem_snoc hk hok) ?_
        rw [List.map_append]
        refine ho.snoc (sp := k.loc) ?_ ?_ ?_ <;> rw [hloc] <;> dom
      · wpb
        refine ⟨h1, mem_snoc hk hok, ?_⟩
        rw [List.map_append]
        refine ho.snoc (sp := k.loc) ?_ ?_ ?_ <;> rw [hloc] <;> dom
    rw [ksLoop]
    wpb
    split
    · exact errorf_pi h _
    · rename_i hc
      exact add (.pct _ _) ⟨h.span, h.pct hc, h.pctLit hc⟩ rfl
    · rename_i hc
      refine wp_ite (fun _ => errorf_pi h _) fun hn => add (.ident _ _) ⟨h.span, h.ident hc, ?_⟩ rfl
      by_cases he : s.lex.str = b!"from"
      · exact .inl he
      · by_cases ho : s.lex.str = b!"to"
        · exact .inr ho
        · exact absurd ⟨he, ho⟩ hn
    · exact errorf_pi h _

/-- A prelude was built between the old and the new position. -/
def PreludeParsed (src : Bytes) (id : Nat) (kf : Bool) (s : St) (p : Prelude) (s' : St) : Prop :=
  PI src id s' ∧ PreludeOk src kf p ∧ ∃ sp, p.sp? = some sp ∧ sp.start = s.lex.start ∧ sp.start ≤ sp.stop ∧
    sp.stop ≤ s'.lex.start

theorem parseKeyframeSelectorList_pi {C : Prop} {src : Bytes} {id n : Nat} {s : St} (h : PI src id s) :
    wp (parseKeyframeSelectorList n) (PreludeParsed src id true s) (PX C src id) s := by
  rw [parseKeyframeSelectorList]
  wpb
  refine wp_seq (ksLoop_pi n (acc := []) (lo := s.lex.start) h (by simp) (Nat.le_refl _)) fun l s1 ⟨h1, hk, ho⟩ => ?_
  have hle := h1.start_le
  have hend := h1.end_le
  cases hlast : l.getLast? with
  | none => exact errorf_pi h1 _
  | some last =>
    obtain ⟨a, b, c, d⟩ := ho.last (sp := last.loc) (by rw [List.getLast?_map, hlast]; rfl)
    show wp (pure _) _ _ _
    wpb
    refine ⟨h1, ⟨rfl, ⟨by dom, by dom⟩, ?_, a, hk⟩, _, rfl, rfl, by dom, b⟩
    rintro rfl
    cases hlast

theorem ruleLoop_pi {C : Prop} {src : Bytes} (hC : MathAttr src → C) {id : Nat} {kf : Bool} : ∀ (n : Nat) {s : St} {sp : Span} {p : Prelude},
    PI src id s → PreludeOk src kf p → Ordered sp.start s.lex.start p.sp?.toList →
    wp (ruleLoop kf n sp p) (fun r s' => PI src id s' ∧ RuleOk src kf r ∧ r.sp.start = sp.start ∧
      r.sp.stop ≤ s'.lex.start) (PX C src id) s
  | 0, _, _, _, _, _, _ => trivial
  | n + 1, s, sp, p, h, hp, ho => by
    have hol := ho.le
    rw [ruleLoop]
    wpb
    split
    · exact errorf_pi h _
    · refine wp_seq (parseDeclarationBlock_pi h) fun b s1 ⟨h1, hb, g1, g2⟩ => ?_
      have hbs := hb.1
      have hbs1 := hbs.1
      wpb
      refine ⟨h1, ⟨⟨by dom, hbs.2⟩, hp, b, by trivial, hb, ?_⟩, by trivial, g2⟩
      exact ho.snoc (by omega) hbs1 (Nat.le_refl _)
    · refine wp_ite (fun hk => ?_) fun hk => ?_
      · refine wp_seq (parseKeyframeSelectorList_pi h) fun q s1 ⟨h1, hq, qsp, e, g1, g2, g3⟩ => ?_
        refine ruleLoop_pi hC n h1 (by rw [hk]; exact hq) ?_
        rw [e]
        exact ⟨by omega, g2, g3⟩
      · refine wp_seq ((selSpec src id hC n).list h) fun l s1 ⟨h1, hl, g1, g2⟩ => ?_
        have := hl.1.1
        exact ruleLoop_pi hC n h1 ⟨by simpa using hk, hl⟩ ⟨by omega, this, g2⟩

theorem parseQualifiedRule_pi {C : Prop} {src : Bytes} (hC : MathAttr src → C) {id n : Nat} {kf : Bool} {s : St} (h : PI src id s) :
    wp (parseQualifiedRule kf n) (fun r s' => PI src id s' ∧ RuleOk src kf r ∧ r.sp.start = s.lex.start ∧
      r.sp.stop ≤ s'.lex.start) (PX C src id) s := by
  rw [parseQualifiedRule]
  wpb
  exact ruleLoop_pi hC n h (by trivial) (Nat.le_refl _)

/-! ### Media queries -/

theorem parseMediaRangeOperator_pi {C : Prop} {src : Bytes} {id : Nat} {s : St} (h : PI src id s) :
    wp parseMediaRangeOperator (fun op s' => PI src id s' ∧ s.lex.lastPos ≤ s'.lex.start ∧
      op ∈ [b!"<", b!"<=", b!">", b!">="]) (PX C src id) s := by
  rw [parseMediaRangeOperator]
  wpb
  refine wp_seq (next_pi h) fun _ s1 ⟨h1, l1⟩ => ?_
  wpb
  have := h1.start_le
  refine wp_ite (fun _ => ?_) fun _ => ?_
  · wpb
    refine wp_ite (fun _ => errorf_pi h1 _) fun _ => ?_
    refine wp_seq (next_pi h1) fun _ s2 ⟨h2, l2⟩ => ?_
    refine wp_ite (fun _ => ?_) fun _ => wp_ite (fun _ => ?_) fun _ => errorf_pi h2 _
    · exact ⟨h2, by omega, by simp⟩
    · exact ⟨h2, by omega, by simp⟩
  · refine wp_ite (fun _ => ?_) fun _ => wp_ite (fun _ => ?_) fun _ => errorf_pi h1 _
    · exact ⟨h1, by omega, by simp⟩
    · exact ⟨h1, by omega, by simp⟩

/-- A part of a media query was built between the old and the new position. -/
def MQPartParsed (src : Bytes) (id start : Nat) (p : MQPart) (s' : St) : Prop :=
  PI src id s' ∧ MQPartOk src p ∧ p.loc.start = start ∧ p.loc.stop ≤ s'.lex.start

theorem MQPartOk.spOk {src : Bytes} {p : MQPart} (h : MQPartOk src p) : SpOk src p.loc := by
  cases p <;> first | exact h.1 | exact absurd h id

/-- A parsed value lies in any range around it. -/
theorem Parsed.opt {src : Bytes} {id lo hi : Nat} {s s' : St} {v : Value} (p : Parsed src id s v s')
    (hc : v = .nil ∨ v.isComp = true) (h1 : lo ≤ s.lex.start) (h2 : s'.lex.start ≤ hi) : OptVOk src lo hi v := by
  rcases p.2 with ⟨rfl, _⟩ | ⟨hv, g1, g2, g3⟩
  · exact .inl rfl
  · exact .inr ⟨hv, ⟨by omega, hv.spOk.1, by omega⟩, hc.resolve_left hv.ne⟩

theorem Parsed.le {src : Bytes} {id : Nat} {s s' : St} {v : Value} (p : Parsed src id s v s') (h : PI src id s) :
    s.lex.start ≤ s'.lex.start := by
  have := h.start_le
  rcases p.2 with ⟨_, rfl⟩ | ⟨_, _, _, _⟩ <;> omega

theorem mediaRange_pi {C : Prop} {src : Bytes} (hC : MathIn src → C) {id n start : Nat} {first : Value} {s : St} (h : PI src id s)
    (hs : start ≤ s.lex.start) (hf : OptVOk src start s.lex.start first) :
    wp (mediaRange n start first) (MQPartParsed src id start) (PX C src id) s := by
  rw [mediaRange]
  have hle := h.start_le
  refine wp_seq (parseMediaRangeOperator_pi h) fun op s1 ⟨h1, l1, hop⟩ => ?_
  refine wp_seq ((valueSpec src id hC n).value h1) fun second s2 ⟨p2, c2⟩ => ?_
  have h2 := p2.1
  have l2 := p2.le h1
  have hle1 := h1.start_le
  have hle2 := h2.start_le
  have hend2 := h2.end_le
  have other : (∀ sp v, second ≠ .ident sp v) →
      wp (match first with
        | .ident psp prop => do
          let e ← tokenEnd
          expect .rparen
          pure (.range ⟨start, e⟩ psp prop .nil op second)
        | _ => errorf "expected identifier") (MQPartParsed src id start) (PX C src id) s2 := by
    intro _
    cases first with
    | ident psp prop =>
      rcases hf with hf | ⟨⟨hf1, hf2, hf3⟩, ⟨g1, g2, g3⟩, _⟩
      · cases hf
      · simp only [Value.sp, Value.loc?, Option.getD_some] at g1 g2 g3
        wpb
        refine wp_seq (expect_pi h2 _) fun _ s3 ⟨h3, l3, _⟩ => ?_
        wpb
        exact ⟨h3, ⟨⟨by dom, hend2⟩, ⟨g1, g2, by dom⟩, hf2, .inl rfl, p2.opt c2 (by omega) hle2, hop, hf3⟩, rfl, l3⟩
    | _ => exact errorf_pi h2 _
  cases second with
  | ident psp prop =>
    rcases p2.2 with ⟨e, _⟩ | ⟨⟨hv1, hv2, hv3⟩, g1, g2, g3, _⟩
    · cases e
    simp only [Value.sp, Value.loc?, Option.getD_some] at g1 g2
    have hv11 := hv1.1
    refine wp_seq (R := fun right s3 => PI src id s3 ∧ s2.lex.start ≤ s3.lex.start ∧
      OptVOk src psp.stop s3.lex.start right) ?_ fun right s3 ⟨h3, l3, hr⟩ => ?_
    · wpb
      refine wp_ite (fun _ => ?_) fun _ => ?_
      · refine wp_seq (parseMediaRangeOperator_pi h2) fun op2 s3 ⟨h3, l3, _⟩ => ?_
        refine wp_ite (fun _ => errorf_pi h3 _) fun _ => ?_
        refine wp_mono ((valueSpec src id hC n).value h3) fun v s4 ⟨p4, c4⟩ => ?_
        have := p4.le h3
        exact ⟨p4.1, by omega, p4.opt c4 (by omega) (Nat.le_refl _)⟩
      · wpb
        exact ⟨h2, Nat.le_refl _, .inl rfl⟩
    · have hle3 := h3.start_le
      wpb
      refine wp_seq (expect_pi h3 _) fun _ s4 ⟨h4, l4, _⟩ => ?_
      wpb
      refine ⟨h4, ⟨⟨by dom, h3.end_le⟩, ⟨by dom, hv11, by dom⟩, hv2, ?_, ?_, hop, hv3⟩, rfl, l4⟩
      · rcases hf with hf | ⟨hf, ⟨f1, f2, f3⟩, f4⟩
        · exact .inl hf
        · exact .inr ⟨hf, ⟨f1, f2, by omega⟩, f4⟩
      · rcases hr with hr | ⟨hr, ⟨f1, f2, f3⟩, f4⟩
        · exact .inl hr
        · exact .inr ⟨hr, ⟨f1, f2, by dom⟩, f4⟩
  | _ => exact other (by simp)

theorem parseMediaFeature_pi {C : Prop} {src : Bytes} (hC : MathIn src → C) {id n : Nat} {s : St} (h : PI src id s) :
    wp (parseMediaFeature n) (MQPartParsed src id s.lex.start) (PX C src id) s := by
  rw [parseMediaFeature]
  wpb
  have hle := h.start_le
  refine wp_seq (expect_pi h _) fun _ s1 ⟨h1, l1, _⟩ => ?_
  refine wp_seq ((valueSpec src id hC n).value h1) fun first s2 ⟨p2, c2⟩ => ?_
  have h2 := p2.1
  have l2 := p2.le h1
  have hle1 := h1.start_le
  have hle2 := h2.start_le
  wpb
  split
  · wpb
    refine wp_seq (next_pi h2) fun _ s3 ⟨h3, l3⟩ => ?_
    cases first with
    | ident psp prop =>
      rcases p2.2 with ⟨e, _⟩ | ⟨⟨hv1, hv2, hv3⟩, g1, g2, g3, _⟩
      · cases e
      simp only [Value.sp, Value.loc?, Option.getD_some] at g1 g2
      have hv11 := hv1.1
      show wp (pure _) _ _ _
      wpb
      exact ⟨h3, ⟨⟨by dom, h2.end_le⟩, ⟨by dom, hv11, by dom⟩, hv2, .inl rfl, hv3⟩, rfl, l3⟩
    | _ => exact errorf_pi h3 _
  · refine wp_seq (next_pi h2) fun _ s3 ⟨h3, l3⟩ => ?_
    cases first with
    | ident psp prop =>
      rcases p2.2 with ⟨e, _⟩ | ⟨⟨hv1, hv2, hv3⟩, g1, g2, g3, _⟩
      · cases e
      simp only [Value.sp, Value.loc?, Option.getD_some] at g1 g2
      have hv11 := hv1.1
      refine wp_seq ((valueSpec src id hC n).value h3) fun second s4 ⟨p4, c4⟩ => ?_
      have h4 := p4.1
      have l4 := p4.le h3
      have hle4 := h4.start_le
      wpb
      refine wp_seq (expect_pi h4 _) fun _ s5 ⟨h5, l5, _⟩ => ?_
      wpb
      exact ⟨h5, ⟨⟨by dom, h4.end_le⟩, ⟨by dom, hv11, by dom⟩, hv2, p4.opt c4 (by omega) hle4, hv3⟩, rfl, l5⟩
    | _ => exact errorf_pi h3 _
  · exact mediaRange_pi hC h2 (by omega) (p2.opt c2 (by omega) (Nat.le_refl _))
  · exact errorf_pi h2 _

theorem mqLoop_pi {C : Prop} {src : Bytes} (hC : MathIn src → C) {id : Nat} : ∀ (n : Nat) {s : St} {sp : Span} {parts : List MQPart}, PI src id s →
    (∀ p ∈ parts, MQPartOk src p) → Ordered sp.start s.lex.start (parts.map MQPart.loc) →
    wp (mqLoop n sp parts) (fun r s' => PI src id s' ∧ s.lex.start ≤ s'.lex.start ∧
      ∀ q, r = some q → MQOk src q ∧ q.sp.start = sp.start ∧ q.sp.stop ≤ s'.lex.start) (PX C src id) s
  | 0, _, _, _, _, _, _ => trivial
  | n + 1, s, sp, parts, h, hp, ho => by
    have hle := h.start_le
    have more : ∀ {p : MQPart} {s1 : St}, PI src id s1 → MQPartOk src p → s.lex.start ≤ p.loc.start →
        p.loc.stop ≤ s1.lex.start → s.lex.start ≤ s1.lex.start →
        wp (mqLoop n sp (parts ++ [p])) (fun r s' => PI src id s' ∧ s.lex.start ≤ s'.lex.start ∧
          ∀ q, r = some q → MQOk src q ∧ q.sp.start = sp.start ∧ q.sp.stop ≤ s'.lex.start) (PX C src id) s1 := by
      intro p s1 h1 hpo g1 g2 l1
      refine wp_mono (mqLoop_pi hC n h1 (mem_snoc hp hpo) ?_) fun r s2 ⟨h2, l2, hr⟩ => ⟨h2, by omega, hr⟩
      rw [List.map_append]
      exact ho.snoc g1 hpo.spOk.1 g2
    rw [mqLoop]
    wpb
    split
    · exact errorf_pi h _
    · refine wp_seq (parseMediaFeature_pi hC h) fun p s1 ⟨h1, hpo, g1, g2⟩ => ?_
      have := hpo.spOk.1
      exact more h1 hpo (by omega) g2 (by omega)
    · rename_i hc
      refine wp_seq (parseValue_ident h hc n) fun v s1 ⟨⟨h1, hv⟩, isp, t, e⟩ => ?_
      subst e
      rcases hv with ⟨e, _⟩ | ⟨hv, g1, g2, g3⟩
      · cases e
      · exact more h1 hv g1 g2 (by omega)
    · cases hlast : parts.getLast? with
      | none =>
        show wp (pure _) _ _ _
        wpb
        exact ⟨h, Nat.le_refl _, fun q e => by cases e⟩
      | some last =>
        obtain ⟨a, b, c, d⟩ := ho.last (sp := last.loc) (by rw [List.getLast?_map, hlast]; rfl)
        have := h.end_le
        show wp (pure _) _ _ _
        wpb
        refine ⟨h, Nat.le_refl _, fun q e => ?_⟩
        cases e
        refine ⟨⟨⟨by dom, by dom⟩, ?_, a, hp⟩, rfl, b⟩
        rintro rfl
        cases hlast

theorem mqlLoop_pi {C : Prop} {src : Bytes} (hC : MathIn src → C) {id : Nat} : ∀ (n : Nat) {s : St} {acc : List MQ} {lo : Nat}, PI src id s →
    (∀ q ∈ acc, MQOk src q) → Ordered lo s.lex.start (acc.map MQ.sp) →
    wp (mqlLoop n acc) (fun l s' => PI src id s' ∧ (∀ q ∈ l, MQOk src q) ∧ s.lex.start ≤ s'.lex.start ∧
      Ordered lo s'.lex.start (l.map MQ.sp)) (PX C src id) s
  | 0, _, _, _, _, _, _ => trivial
  | n + 1, s, acc, lo, h, hq, ho => by
    rw [mqlLoop]
    wpb
    refine wp_ite (fun _ => errorf_pi h _) fun _ => ?_
    rw [parseMediaQuery]
    rw [wpb_assoc]
    wpb
    refine wp_seq (mqLoop_pi hC n (parts := []) h (by simp) (Nat.le_refl _)) fun r s1 ⟨h1, l1, hr⟩ => ?_
    have acc1 : (∀ q ∈ acc ++ r.toList, MQOk src q) ∧ Ordered lo s1.lex.start ((acc ++ r.toList).map MQ.sp) := by
      cases r with
      | none =>
        simp only [Option.toList_none, List.append_nil]
        exact ⟨hq, ho.mono (Nat.le_refl _) l1⟩
      | some q =>
        obtain ⟨a, b, c⟩ := hr q rfl
        simp only [Option.toList_some, List.map_append, List.map_cons, List.map_nil]
        exact ⟨mem_snoc hq a, ho.snoc (by dom) a.1.1 c⟩
    wpb
    refine wp_ite (fun _ => ?_) fun _ => ?_
    · refine wp_seq (next_pi h1) fun _ s2 ⟨h2, l2⟩ => ?_
      have := h1.start_le
      exact wp_mono (mqlLoop_pi hC n h2 acc1.1 (acc1.2.mono (Nat.le_refl _) (by omega)))
        fun l s3 ⟨a, b, c, d⟩ => ⟨a, b, by omega, d⟩
    · wpb
      exact ⟨h1, acc1.1, l1, acc1.2⟩

theorem parseMediaQueryList_pi {C : Prop} {src : Bytes} (hC : MathIn src → C) {id n : Nat} {s : St} (h : PI src id s) :
    wp (parseMediaQueryList n) (fun r s' => PI src id s' ∧ s.lex.start ≤ s'.lex.start ∧
      ∀ l, r = some l → MQListOk src l ∧ l.sp.start = s.lex.start ∧ l.sp.stop ≤ s'.lex.start) (PX C src id) s := by
  rw [parseMediaQueryList]
  wpb
  refine wp_seq (mqlLoop_pi hC n (acc := []) (lo := s.lex.start) h (by simp) (Nat.le_refl _))
    fun l s1 ⟨h1, hq, l1, ho⟩ => ?_
  cases hlast : l.getLast? with
  | none =>
    show wp (pure _) _ _ _
    wpb
    exact ⟨h1, l1, fun q e => by cases e⟩
  | some last =>
    obtain ⟨a, b, c, d⟩ := ho.last (sp := last.sp) (by rw [List.getLast?_map, hlast]; rfl)
    have := h1.end_le
    have := h1.start_le
    show wp (pure _) _ _ _
    wpb
    refine ⟨h1, l1, fun q e => ?_⟩
    cases e
    refine ⟨⟨⟨by dom, by dom⟩, ?_, a, hq⟩, rfl, b⟩
    rintro rfl
    cases hlast

/-! ### At-rules -/

/-- A node was built between the old and the new position. -/
def NodeParsed (src : Bytes) (id : Nat) (s : St) (r : Node × List ImportSpec) (s' : St) : Prop :=
  PI src id s' ∧ NodeOk src r.1 ∧ r.2 = importsOf [r.1] ∧ r.1.loc.start = s.lex.start ∧
    r.1.loc.stop ≤ s'.lex.start

theorem RuleOk.spOk {src : Bytes} {kf : Bool} {r : QRule} (h : RuleOk src kf r) : SpOk src r.sp := h.1

theorem NodeOk.spOk {src : Bytes} {n : Node} (h : NodeOk src n) : SpOk src n.loc := by cases n <;> exact h.1

theorem rulesLoop_pi {C : Prop} {src : Bytes} (hC : MathAttr src → C) {id : Nat} {kf : Bool} : ∀ (n : Nat) {s : St} {acc : List QRule} {lo : Nat},
    PI src id s → (∀ r ∈ acc, RuleOk src kf r) → Ordered lo s.lex.start (acc.map QRule.sp) →
    wp (rulesLoop kf n acc) (fun x s' => PI src id s' ∧ (∀ r ∈ x.1, RuleOk src kf r) ∧
      Ordered lo x.2 (x.1.map QRule.sp) ∧ s.lex.start ≤ x.2 ∧ x.2 ≤ s'.lex.start ∧ x.2 ≤ src.length) (PX C src id) s
  | 0, _, _, _, _, _, _ => trivial
  | n + 1, s, acc, lo, h, hr, ho => by
    have hle := h.start_le
    rw [rulesLoop]
    wpb
    split
    · exact errorf_pi h _
    · wpb
      refine wp_seq (next_pi h) fun _ s1 ⟨h1, l1⟩ => ?_
      wpb
      exact ⟨h1, hr, ho.mono (Nat.le_refl _) hle, hle, l1, h.end_le⟩
    · refine wp_seq (parseQualifiedRule_pi hC h) fun r s1 ⟨h1, hr1, g1, g2⟩ => ?_
      have := hr1.1.1
      refine wp_mono (rulesLoop_pi hC n h1 (mem_snoc hr hr1) ?_) fun x s2 ⟨a, b, c, d, e, f⟩ => ⟨a, b, c, by omega, e, f⟩
      rw [List.map_append]
      exact ho.snoc (by omega) this g2

theorem TextIn.of_start {src t : Bytes} {s : St} {e : Nat} (h : TextIn src ⟨s.lex.start, s.lex.lastPos⟩ t)
    (he : s.lex.lastPos ≤ e) : TextIn src ⟨s.lex.start, e⟩ t := h.mono (Nat.le_refl _) he

/-- What the text contains if parsing it ends with a run-time panic. -/
def PanicIn (src : Bytes) : Prop :=
  SliceOf src b!"@custom-media" ∨ MathIn src ∧ (SliceOf src b!"@media" ∨ SliceOf src b!"@import" ∨ SliceOf src b!"[")

theorem PanicIn.attr {src : Bytes} (h : MathAttr src) : PanicIn src := .inr ⟨h.1, .inr (.inr h.2)⟩

theorem parseImportAtRule_pi {C : Prop} {src : Bytes} (hC : PanicIn src → C) {id n : Nat} {s : St} (h : PI src id s) (hat : s.lex.cur = .at)
    (hn : s.lex.str = b!"import") :
    wp (parseImportAtRule n) (NodeParsed src id s) (PX C src id) s := by
  have himp : SliceOf src b!"@import" := by have := h.more.atRule hat; rwa [hn] at this
  have hname := h.lit (by rw [hat]; rfl)
  have hle := h.start_le
  show wp (do
    let sp ← tokenSpan
    let name ← getStr
    next
    let psp ← tokenSpan
    let str ← getStr
    let (psp, value) ← (do
      match ← getCur with
      | .url =>
        next
        pure (psp, str)
      | .functionStart =>
        if str ≠ b!"url" then errorf "@import target must be a url or string"
        else
          next
          let v ← getStr
          expect .string
          let e ← tokenEnd
          expect .rparen
          pure (⟨psp.start, e⟩, v)
      | .string =>
        expect .string
        pure (psp, str)
      | _ => errorf "unexpected import specifier" : P (Span × Bytes))
    let mq ← parseMediaQueryList n
    let preludes := AtPrelude.str psp value :: mq.toList.map fun l => AtPrelude.mql (some l)
    let rule : AtRule := ⟨s.id, ⟨sp.start, importEnd psp mq⟩, name, preludes, .none⟩
    pure (.at rule, [⟨value, rule.id⟩]) : P (Node × List ImportSpec)) _ _ s
  wpb
  refine wp_seq (next_pi h) fun _ s1 ⟨h1, l1⟩ => ?_
  have hle1 := h1.start_le
  wpb
  refine wp_seq (R := fun r s2 => PI src id s2 ∧ r.1.start = s1.lex.start ∧ SpOk src r.1 ∧ TextIn src r.1 r.2 ∧
    r.1.stop ≤ s2.lex.start ∧ (StrLit r.2 ∨ UrlLit r.2)) ?_ fun r s2 ⟨h2, g1, g2, g3, g4, g5⟩ => ?_
  · wpb
    split
    · rename_i hc
      refine wp_seq (next_pi h1) fun _ s2 ⟨h2, l2⟩ => ?_
      wpb
      exact ⟨h2, trivial, h1.span, h1.lit (by rw [hc]; rfl), l2, .inr (h1.urlLit hc)⟩
    · refine wp_ite (fun _ => errorf_pi h1 _) fun _ => ?_
      refine wp_seq (next_pi h1) fun _ s2 ⟨h2, l2⟩ => ?_
      wpb
      refine wp_seq (expect_pi h2 _) fun _ s3 ⟨h3, l3, hc⟩ => ?_
      wpb
      refine wp_seq (expect_pi h3 _) fun _ s4 ⟨h4, l4, _⟩ => ?_
      have := h2.start_le
      have := h3.start_le
      wpb
      refine ⟨h4, trivial, ⟨by dom, h3.end_le⟩, ?_, l4, .inl (h2.strLit hc)⟩
      exact (h2.lit (by rw [hc]; rfl)).mono (by dom) (by dom)
    · refine wp_seq (expect_pi h1 _) fun _ s2 ⟨h2, l2, hc⟩ => ?_
      wpb
      exact ⟨h2, trivial, h1.span, h1.lit (by rw [hc]; rfl), l2, .inl (h1.strLit hc)⟩
    · exact errorf_pi h1 _
  · obtain ⟨psp, value⟩ := r
    simp only at g1 g2 g3 g4 g5
    have g21 := g2.1
    have g22 := g2.2
    show wp (parseMediaQueryList n >>= _) _ _ _
    refine wp_seq (parseMediaQueryList_pi (fun hm => hC (.inr ⟨hm, .inr (.inl himp)⟩)) h2) fun mq s3 ⟨h3, l3, hmq⟩ => ?_
    wpb
    cases mq with
    | none =>
      refine ⟨h3, ?_, ?_, rfl, ?_⟩
      · refine ⟨⟨?_, g22⟩, hname.of_start ?_, ?_, trivial, ?_, ?_, h.atLit hat⟩
        · simp only [importEnd]; omega
        · simp only [importEnd]; omega
        · intro p hp
          simp only [Option.toList_none, List.map_nil, List.mem_singleton] at hp
          subst hp
          exact ⟨g2, g3, g5⟩
        · refine ⟨?_, g21, Nat.le_refl _⟩
          dom
        · unfold AtShape
          rw [if_pos hn]
          exact ⟨⟨psp, value, .inl rfl⟩, rfl⟩
      · simp only [importsOf, List.filterMap_cons, List.filterMap_nil, hn, if_true]
      · show psp.stop ≤ _
        omega
    | some l =>
      obtain ⟨hl, e1, e2⟩ := hmq l rfl
      have hl1 := hl.1.1
      refine ⟨h3, ?_, ?_, rfl, e2⟩
      · refine ⟨⟨?_, hl.1.2⟩, hname.of_start ?_, ?_, trivial, ?_, ?_, h.atLit hat⟩
        · simp only [importEnd]; omega
        · simp only [importEnd]; omega
        · intro p hp
          simp only [Option.toList_some, List.map_cons, List.map_nil, List.mem_cons, List.not_mem_nil, or_false] at hp
          rcases hp with rfl | rfl
          · exact ⟨g2, g3, g5⟩
          · exact hl
        · refine ⟨?_, g21, ?_, hl1, Nat.le_refl _⟩
          · dom
          · dom
        · unfold AtShape
          rw [if_pos hn]
          exact ⟨⟨psp, value, .inr ⟨l, rfl⟩⟩, rfl⟩
      · simp only [importsOf, List.filterMap_cons, List.filterMap_nil, hn, if_true]

theorem parseKeyframes_pi {C : Prop} {src : Bytes} (hC : MathAttr src → C) {id n : Nat} {s : St} (h : PI src id s) (hat : s.lex.cur = .at)
    (hn : s.lex.str ∈ keyframesNames) :
    wp (parseKeyframes n) (NodeParsed src id s) (PX C src id) s := by
  have hname := h.lit (by rw [hat]; rfl)
  have hle := h.start_le
  have hk : keyframesNames.contains s.lex.str = true := by simpa using hn
  have hn1 : s.lex.str ≠ b!"import" := by
    intro e; rw [e] at hn; exact absurd hn (by decide)
  have hn2 : s.lex.str ≠ b!"media" := by
    intro e; rw [e] at hn; exact absurd hn (by decide)
  show wp (do
    let sp ← tokenSpan
    let name ← getStr
    next
    let psp ← tokenSpan
    let str ← getStr
    let prelude ← (do
      match ← getCur with
      | .string => pure (AtPrelude.str psp str)
      | .ident => pure (AtPrelude.ident psp str)
      | _ => errorf "unexpected token %s, expected string or identifier for keyframes" : P AtPrelude)
    next
    let bsp ← tokenSpan
    expect .lcurly
    let (rules, e) ← rulesLoop true n []
    pure (.at ⟨s.id, ⟨sp.start, e⟩, name, [prelude], .rules ⟨bsp.start, e⟩ rules⟩, []) :
      P (Node × List ImportSpec)) _ _ s
  wpb
  refine wp_seq (next_pi h) fun _ s1 ⟨h1, l1⟩ => ?_
  have hle1 := h1.start_le
  wpb
  refine wp_seq (R := fun p s2 => s2 = s1 ∧ AtPreludeOk src p ∧ p.sp? = some ⟨s1.lex.start, s1.lex.lastPos⟩ ∧
    ∃ sp v, p = .str sp v ∨ p = .ident sp v) ?_ fun p s' ⟨e, g1, g2, g3⟩ => ?_
  · wpb
    split
    · rename_i hc
      exact ⟨rfl, ⟨h1.span, h1.lit (by rw [hc]; rfl), .inl (h1.strLit hc)⟩, rfl, _, _, .inl rfl⟩
    · rename_i hc
      exact ⟨rfl, ⟨h1.span, h1.ident hc, h1.identLit hc⟩, rfl, _, _, .inr rfl⟩
    · exact errorf_pi h1 _
  subst e
  refine wp_seq (next_pi h1) fun _ s2 ⟨h2, l2⟩ => ?_
  have hle2 := h2.start_le
  wpb
  refine wp_seq (expect_pi h2 _) fun _ s3 ⟨h3, l3, _⟩ => ?_
  refine wp_seq (rulesLoop_pi hC n (acc := []) (lo := s2.lex.start) h3 (by simp) (show _ ≤ _ by omega))
    fun x s4 ⟨h4, hr, ho, f1, f2, f3⟩ => ?_
  obtain ⟨rules, e⟩ := x
  simp only at hr ho f1 f2 f3
  show wp (pure _) _ _ _
  wpb
  refine ⟨h4, ?_, ?_, rfl, f2⟩
  · refine ⟨⟨by dom, f3⟩, hname.of_start (by omega), ?_, ?_, ?_, ?_, h.atLit hat⟩
    · intro q hq
      simp only [List.mem_singleton] at hq
      subst hq
      exact g1
    · dsimp only
      rw [hk]
      exact ⟨⟨by dom, f3⟩, ho, hr⟩
    · simp only [List.filterMap_cons, g2, List.filterMap_nil, Block.sp?, Option.toList_some, List.cons_append,
        List.nil_append]
      refine ⟨?_, hle1, l2, ?_, Nat.le_refl _⟩ <;> dom
    · unfold AtShape
      rw [if_neg hn1, if_neg hn2, if_pos hn]
      obtain ⟨sp, v, e | e⟩ := g3
      · exact ⟨⟨sp, v, .inl (by rw [e])⟩, _, _, rfl⟩
      · exact ⟨⟨sp, v, .inr (by rw [e])⟩, _, _, rfl⟩
  · simp only [importsOf, List.filterMap_cons, List.filterMap_nil, hn1, if_false]

theorem parseMediaAtRule_pi {C : Prop} {src : Bytes} (hC : PanicIn src → C) {id n : Nat} {s : St} (h : PI src id s) (hat : s.lex.cur = .at)
    (hn : s.lex.str = b!"media") :
    wp (parseMediaAtRule n) (NodeParsed src id s) (PX C src id) s := by
  have hmed : SliceOf src b!"@media" := by have := h.more.atRule hat; rwa [hn] at this
  have hname := h.lit (by rw [hat]; rfl)
  have hle := h.start_le
  have hk : keyframesNames.contains s.lex.str = false := by rw [hn]; decide
  have hn1 : s.lex.str ≠ b!"import" := by
    rw [hn]; decide
  show wp (do
    let sp ← tokenSpan
    let name ← getStr
    next
    let mql ← parseMediaQueryList n
    let bsp ← tokenSpan
    expect .lcurly
    let (rules, e) ← rulesLoop false n []
    pure (.at ⟨s.id, ⟨sp.start, e⟩, name, [.mql mql], .rules ⟨bsp.start, e⟩ rules⟩, []) :
      P (Node × List ImportSpec)) _ _ s
  wpb
  refine wp_seq (next_pi h) fun _ s1 ⟨h1, l1⟩ => ?_
  have hle1 := h1.start_le
  refine wp_seq (parseMediaQueryList_pi (fun hm => hC (.inr ⟨hm, .inl hmed⟩)) h1) fun mq s2 ⟨h2, l2, hmq⟩ => ?_
  have hle2 := h2.start_le
  wpb
  refine wp_seq (expect_pi h2 _) fun _ s3 ⟨h3, l3, _⟩ => ?_
  refine wp_seq (rulesLoop_pi (fun hm => hC (.attr hm)) n (acc := []) (lo := s2.lex.start) h3 (by simp) (show _ ≤ _ by omega))
    fun x s4 ⟨h4, hr, ho, f1, f2, f3⟩ => ?_
  obtain ⟨rules, e⟩ := x
  simp only at hr ho f1 f2 f3
  show wp (pure _) _ _ _
  wpb
  refine ⟨h4, ?_, ?_, rfl, f2⟩
  · refine ⟨⟨by dom, f3⟩, hname.of_start (by omega), ?_, ?_, ?_, ?_, h.atLit hat⟩
    · intro q hq
      simp only [List.mem_singleton] at hq
      subst hq
      cases mq with
      | none => trivial
      | some l => exact (hmq l rfl).1
    · dsimp only
      rw [hk]
      exact ⟨⟨by dom, f3⟩, ho, hr⟩
    · cases mq with
      | none =>
        simp only [List.filterMap_cons, AtPrelude.sp?, Option.map_none, List.filterMap_nil, Block.sp?,
          Option.toList_some, List.nil_append]
        refine ⟨?_, ?_, Nat.le_refl _⟩ <;> dom
      | some l =>
        obtain ⟨a, b, c⟩ := hmq l rfl
        have := a.1.1
        simp only [List.filterMap_cons, AtPrelude.sp?, Option.map_some, List.filterMap_nil, Block.sp?,
          Option.toList_some, List.cons_append, List.nil_append]
        refine ⟨?_, this, c, ?_, Nat.le_refl _⟩ <;> dom
    · unfold AtShape
      rw [if_neg hn1, if_pos hn]
      exact ⟨⟨mq, rfl⟩, _, _, rfl⟩
  · simp only [importsOf, List.filterMap_cons, List.filterMap_nil, hn1, if_false]

theorem parseCustomMediaAtRule_pi {C : Prop} {src : Bytes} (hC : PanicIn src → C) {id n : Nat} {s : St} (h : PI src id s) (hat : s.lex.cur = .at)
    (hn : s.lex.str = b!"custom-media") :
    wp (parseCustomMediaAtRule n) (NodeParsed src id s) (PX C src id) s := by
  have hcus : SliceOf src b!"@custom-media" := by have := h.more.atRule hat; rwa [hn] at this
  have hname := h.lit (by rw [hat]; rfl)
  have hle := h.start_le
  have hn1 : s.lex.str ≠ b!"import" := by rw [hn]; decide
  have hn2 : s.lex.str ≠ b!"media" := by rw [hn]; decide
  have hn3 : s.lex.str ∉ keyframesNames := by rw [hn]; decide
  show wp (do
    let sp ← tokenSpan
    let name ← getStr
    next
    match ← parseValue n with
    | .ident isp v =>
      match ← parseMediaQueryList n with
      | none => P.crash
      | some ⟨_, [q]⟩ =>
        pure (.at ⟨s.id, ⟨sp.start, q.sp.stop⟩, name, [.ident isp v, .mq q], .none⟩, [])
      | some _ => errorf "@custom-media rule requires a single media query argument"
    | _ => errorf "expected identifier" : P (Node × List ImportSpec)) _ _ s
  wpb
  refine wp_seq (next_pi h) fun _ s1 ⟨h1, l1⟩ => ?_
  have hle1 := h1.start_le
  refine wp_seq ((valueSpec src id (fun _ => hC (.inl hcus)) n).value h1) fun v s2 ⟨p2, _⟩ => ?_
  have h2 := p2.1
  have hle2 := h2.start_le
  cases v with
  | ident isp t =>
    rcases p2.2 with ⟨e, _⟩ | ⟨hv, g1, g2, g3⟩
    · cases e
    simp only [Value.sp, Value.loc?, Option.getD_some] at g1 g2
    have hvs := hv.1
    have hvs1 := hvs.1
    refine wp_seq (parseMediaQueryList_pi (fun _ => hC (.inl hcus)) h2) fun mq s3 ⟨h3, l3, hmq⟩ => ?_
    cases mq with
    | none => exact ⟨h3.srcEq, h3.idEq, hC (.inl hcus)⟩
    | some l =>
      obtain ⟨hl, e1, e2⟩ := hmq l rfl
      obtain ⟨lsp, qs⟩ := l
      match qs, hl with
      | [], hl => exact errorf_pi h3 _
      | [q], hl =>
        have hq := hl.2.2.2 q (by simp)
        have hql := hl.2.2.1
        simp only [List.map_cons, List.map_nil, Ordered] at hql
        simp only at e1 e2
        show wp (pure _) _ _ _
        wpb
        refine ⟨h3, ?_, ?_, rfl, ?_⟩
        · refine ⟨⟨by dom, hq.1.2⟩, hname.of_start (by dom), ?_, trivial, ?_, ?_, h.atLit hat⟩
          · intro p hp
            simp only [List.mem_cons, List.not_mem_nil, or_false] at hp
            rcases hp with rfl | rfl
            · exact hv
            · exact hq
          · refine ⟨?_, hvs1, ?_, hql.2.1, Nat.le_refl _⟩ <;> dom
          · unfold AtShape
            rw [if_neg hn1, if_neg hn2, if_neg hn3, if_pos hn]
            exact ⟨⟨_, _, _, rfl⟩, rfl⟩
        · simp only [importsOf, List.filterMap_cons, List.filterMap_nil, hn1, if_false]
        · show q.sp.stop ≤ _
          omega
      | _ :: _ :: _, hl => exact errorf_pi h3 _
  | _ => exact errorf_pi h2 _

theorem parseGenericAtRule_pi {C : Prop} {src : Bytes} {id n : Nat} {s : St} (h : PI src id s) (hat : s.lex.cur = .at)
    (hn1 : s.lex.str ≠ b!"import") (hn2 : s.lex.str ≠ b!"media") (hn3 : s.lex.str ∉ keyframesNames)
    (hn4 : s.lex.str ≠ b!"custom-media") :
    wp (parseGenericAtRule n) (NodeParsed src id s) (PX C src id) s := by
  have hname := h.lit (by rw [hat]; rfl)
  have hle := h.start_le
  show wp (do
    let sp ← tokenSpan
    let name ← getStr
    next
    let b ← parseDeclarationBlock n
    pure (.at ⟨s.id, ⟨sp.start, b.sp.stop⟩, name, [], .decls b⟩, []) : P (Node × List ImportSpec)) _ _ s
  wpb
  refine wp_seq (next_pi h) fun _ s1 ⟨h1, l1⟩ => ?_
  refine wp_seq (parseDeclarationBlock_pi h1) fun b s2 ⟨h2, hb, g1, g2⟩ => ?_
  have hb1 := hb.1.1
  wpb
  refine ⟨h2, ?_, ?_, rfl, g2⟩
  · refine ⟨⟨by dom, hb.1.2⟩, hname.of_start (by dom), by simp, hb, ?_, ?_, h.atLit hat⟩
    · refine ⟨?_, hb1, Nat.le_refl _⟩
      dom
    · unfold AtShape
      rw [if_neg hn1, if_neg hn2, if_neg hn3, if_neg hn4]
      exact ⟨rfl, b, rfl⟩
  · simp only [importsOf, List.filterMap_cons, List.filterMap_nil, hn1, if_false]

theorem parseAtRule_pi {C : Prop} {src : Bytes} (hC : PanicIn src → C) {id n : Nat} {s : St} (h : PI src id s) (hat : s.lex.cur = .at) :
    wp (parseAtRule n) (NodeParsed src id s) (PX C src id) s := by
  rw [parseAtRule]
  wpb
  refine wp_ite (fun hn => parseImportAtRule_pi hC h hat hn) fun hn1 => wp_ite (fun hn => parseMediaAtRule_pi hC h hat hn)
    fun hn2 => wp_ite (fun hn => parseKeyframes_pi (fun hm => hC (.attr hm)) h hat ?_) fun hn3 => wp_ite
    (fun hn => parseCustomMediaAtRule_pi hC h hat hn) fun hn4 => parseGenericAtRule_pi h hat hn1 hn2 ?_ hn4
  · simpa [keyframesNames] using hn
  · simpa [keyframesNames] using hn3

/-! ### Stylesheets -/

theorem importsOf_append (a b : List Node) : importsOf (a ++ b) = importsOf a ++ importsOf b :=
  List.filterMap_append

theorem topLoop_pi {C : Prop} {src : Bytes} (hC : PanicIn src → C) {id : Nat} : ∀ (n : Nat) {s : St} {ss : Stylesheet}, PI src id s →
    (∀ x ∈ ss.nodes, NodeOk src x) → Ordered 0 s.lex.start (ss.nodes.map Node.loc) → ss.imports = importsOf ss.nodes →
    wp (topLoop n ss) (fun r s' => SheetOk src r ∧ PI src id s' ∧ s'.lex.cur = .eof) (PX C src id) s
  | 0, _, _, _, _, _, _ => trivial
  | n + 1, s, ss, h, hs, ho, hi => by
    have hle := h.start_le
    have hend := h.end_le
    have skip : wp (next >>= fun _ => topLoop n ss) (fun r s' => SheetOk src r ∧ PI src id s' ∧ s'.lex.cur = .eof)
        (PX C src id) s :=
      wp_seq (next_pi h) fun _ s1 ⟨h1, l1⟩ => topLoop_pi hC n h1 hs (ho.mono (Nat.le_refl _) (by omega)) hi
    rw [topLoop]
    wpb
    split
    · rename_i hc
      exact ⟨⟨hs, ho.mono (Nat.le_refl _) (by omega), hi⟩, h, hc⟩
    · rename_i hc
      refine wp_seq (parseAtRule_pi hC h hc) fun r s1 ⟨h1, hn, him, g1, g2⟩ => ?_
      obtain ⟨node, imports⟩ := r
      simp only at hn him g1 g2
      refine topLoop_pi hC n h1 (mem_snoc hs hn) ?_ ?_
      · simp only [List.map_append, List.map_cons, List.map_nil]
        exact ho.snoc (by omega) hn.spOk.1 g2
      · simp only [importsOf_append, hi, him]
    · exact skip
    · exact skip
    · exact skip
    · refine wp_seq (parseQualifiedRule_pi (fun hm => hC (.attr hm)) h) fun r s1 ⟨h1, hr, g1, g2⟩ => ?_
      refine topLoop_pi hC n h1 (mem_snoc hs (show NodeOk src (.rule r) from hr)) ?_ ?_
      · simp only [List.map_append, List.map_cons, List.map_nil]
        exact ho.snoc (by simp only [Node.loc]; omega) hr.1.1 g2
      · simp only [importsOf_append, hi]
        simp [importsOf]

end Cssc
