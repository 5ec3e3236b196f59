import Verif.Proofs.Keeps

/-!
# Stylesheets without lossy constructs are printable: declarations, selectors, rules, media queries
-/

namespace Cssc

/-! ### Declarations -/

/-- What stands behind a delimiter of a declaration. -/
def stopByte (b : UInt8) : Bool := b == 32 || b == 44 || b == 59 || b == 125

theorem HeadIs.stop_calm {rest : Bytes} (h : HeadIs stopByte rest) : Calm rest :=
  (h.imp (q := calmByte) (by decide +kernel)).calm

/-- A delimiter in front of a byte that no delimiter runs into. -/
theorem delim_follow {b c : UInt8} {t : Bytes} (hw : (PTok.delim b).Wf) (hc : c = 32 ∨ c = 44 ∨ c = 59 ∨ c = 125 ∨ c = 33)
    (hb : ∀ u, c :: t ≠ 33 :: 45 :: 45 :: u) : (PTok.delim b).Follow (c :: t) := by
  have c1 : c.toNat < 0x80 ∧ isNameByte c = false ∧ c ≠ 46 ∧ c ≠ 92 ∧ c ≠ 43 ∧ c ≠ 45 ∧ c ≠ 42 ∧ isAD c = false := by
    rcases hc with rfl | rfl | rfl | rfl | rfl <;> decide
  obtain ⟨k1, k2, k3, k4, k5, k6, k7, k8⟩ := c1
  have ns : ¬ StartsNum (c :: t) := startsNum_head k1 k8 k3 k5 k6
  rcases hw with h | h | h | h | h | h | h | h
  · exact .inl h
  · exact .inr (.inl ⟨h, fun hs => ns (.inl hs)⟩)
  · exact .inr (.inr (.inl ⟨h, .inr ⟨c, t, rfl, k1, k2, k3, k4⟩⟩))
  · exact .inr (.inr (.inr (.inl ⟨h, ns⟩)))
  · exact .inr (.inr (.inr (.inr (.inl ⟨h, fun u e => k7 (List.cons.inj e).1⟩))))
  · exact .inr (.inr (.inr (.inr (.inr (.inl ⟨h, hb⟩)))))
  · exact .inr (.inr (.inr (.inr (.inr (.inr ⟨.inl h, .inr ⟨c, t, rfl, k1, k2, k4⟩⟩)))))
  · exact .inr (.inr (.inr (.inr (.inr (.inr ⟨.inr h, .inr ⟨c, t, rfl, k1, k2, k4⟩⟩)))))

theorem delim_stop {b : UInt8} {rest : Bytes} (hw : (PTok.delim b).Wf) (h : HeadIs stopByte rest) : (PTok.delim b).Follow rest := by
  obtain ⟨c, t, rfl, hc⟩ := h
  refine delim_follow hw ?_ (by rintro u e; cases e; exact absurd hc (by decide))
  simp only [stopByte, Bool.or_eq_true, beq_iff_eq] at hc
  rcases hc with ((h | h) | h) | h <;> simp [h]

/-- A value of a declaration. -/
def DKeep (v : Value) : Prop :=
  VKeep v ∧ (v.isSep = true ∨ v.isComp = true ∨ ∃ sp b, v = .raw sp [b] ∧ (PTok.delim b).Wf ∧ b ≠ 33)

theorem raw_toks (sp : Span) (b : UInt8) : (Value.raw sp [b]).toks = [.delim b] := by simp [Value.toks]

theorem DKeep.lay {v : Value} (h : DKeep v) {rest : Bytes} (hr : Calm rest)
    (hd : ∀ sp b, v = .raw sp [b] → (PTok.delim b).Follow rest) : LayR v.toks rest := by
  obtain ⟨hk, hs | hc | ⟨sp, b, rfl, hw, _⟩⟩ := h
  · exact hk.lay (Value.sep_notRaw hs) rest (.inr hr)
  · exact hk.lay (Value.term_notRaw (Value.comp_term hc)) rest (.inr hr)
  · rw [raw_toks]
    exact ⟨hw, hd sp b rfl, trivial⟩

theorem delim_wf_ink {b : UInt8} (h : (PTok.delim b).Wf) : inkByte b = true := by
  rcases h with h | h | h | h | h | h | h | h
  · exact byte_all (p := isLoneDelim) (by decide +kernel) b h
  all_goals subst h; decide

theorem DKeep.head {v : Value} (h : DKeep v) : HeadIs inkByte (texts v.toks) := by
  obtain ⟨hk, hs | hc | ⟨sp, b, rfl, hw, _⟩⟩ := h
  · cases v <;> simp [Value.isSep] at hs
    exact ⟨44, [], by simp [Value.toks, texts, PTok.text], by decide⟩
  · exact (hk.head (Value.comp_term hc)).imp (by decide +kernel)
  · rw [raw_toks]
    exact ⟨b, [], rfl, delim_wf_ink hw⟩

theorem DKeep.inDecl {v : Value} (h : DKeep v) : v.InDecl := by
  obtain ⟨hk, hs | hc | ⟨sp, b, rfl, hw, hb⟩⟩ := h
  · cases v <;> simp [Value.isSep] at hs
    trivial
  · have := hk.val hc
    cases v <;> simp [Value.isComp] at hc <;> exact this
  · exact ⟨b, rfl, hb⟩

theorem declToks_head : ∀ {vs : List Value}, (∀ v ∈ vs, DKeep v) → vs ≠ [] → HeadIs inkByte (texts (declToks vs))
  | [v], h, _ => (h v (by simp)).head
  | v :: w :: vs, h, _ => by
    unfold declToks
    rw [texts_append]
    exact (h v (by simp)).head.append _

theorem gap_cases (v w : Value) : (v.isSep = true ∧ gapToks v w = []) ∨ ((∃ sp, w = .comma sp) ∧ gapToks v w = []) ∨
    gapToks v w = [.space] := by
  by_cases hv : ∃ sp, v = .comma sp
  · obtain ⟨sp, rfl⟩ := hv
    exact .inl ⟨rfl, rfl⟩
  · by_cases hw : ∃ sp, w = .comma sp
    · obtain ⟨sp, rfl⟩ := hw
      exact .inr (.inl ⟨⟨sp, rfl⟩, by cases v <;> rfl⟩)
    · refine .inr (.inr ?_)
      unfold gapToks
      split
      · exact absurd ⟨_, rfl⟩ hv
      · exact absurd ⟨_, rfl⟩ hw
      · rfl

theorem declToks_lay : ∀ {vs : List Value}, (∀ v ∈ vs, DKeep v) → ∀ {rest : Bytes}, Calm rest →
    (∀ sp b, vs.getLast? = some (.raw sp [b]) → (PTok.delim b).Follow rest) → LayR (declToks vs) rest
  | [], _, _, _, _ => trivial
  | [v], h, rest, hr, hl => (h v (by simp)).lay hr fun sp b e => hl sp b (by simp [e])
  | v :: w :: vs, h, rest, hr, hl => by
    unfold declToks
    have hw : ∀ x ∈ w :: vs, DKeep x := fun x hx => h x (by simp [List.mem_cons.mp hx])
    have ih := declToks_lay hw hr fun sp b e => hl sp b (by rw [List.getLast?_cons_cons]; exact e)
    have hv := h v (by simp)
    rcases gap_cases v w with ⟨hs, e⟩ | ⟨⟨sp, rfl⟩, e⟩ | e
    · rw [e, List.nil_append]
      refine layR_append ?_ ih
      cases v <;> simp [Value.isSep] at hs
      exact hv.1.lay rfl _ (.inl rfl)
    · rw [e, List.nil_append]
      refine layR_append ?_ ih
      have e2 : ∃ t, texts (declToks (.comma sp :: vs)) ++ rest = 44 :: t := by
        cases vs with
        | nil => exact ⟨_, by simp [declToks, Value.toks, texts, PTok.text]; rfl⟩
        | cons x vs => exact ⟨_, by simp [declToks, Value.toks, texts, PTok.text]; rfl⟩
      obtain ⟨t, e2⟩ := e2
      rw [e2]
      refine hv.lay (calm_cons (by decide)) fun sp b e3 => ?_
      rcases hv.2 with h | h | ⟨_, _, h, hwf, _⟩
      · rw [e3] at h; cases h
      · rw [e3] at h; cases h
      · rw [e3] at h
        cases h
        exact delim_stop hwf ⟨44, t, rfl, by decide⟩
    · rw [e, List.singleton_append]
      refine layR_append ?_ (layR_space ((declToks_head hw (by simp)).append _) ih)
      refine hv.lay (calm_cons (b := 32) (by decide)) fun sp b e3 => ?_
      rcases hv.2 with h | h | ⟨_, _, h, hwf, _⟩
      · rw [e3] at h; cases h
      · rw [e3] at h; cases h
      · rw [e3] at h
        cases h
        exact delim_stop hwf ⟨32, _, rfl, by decide⟩

theorem vsLit_mem : ∀ {vs : List Value} {v : Value}, VsLit vs → v ∈ vs → VLit v
  | w :: vs, v, h, hv => by
    unfold VsLit at h
    rcases List.mem_cons.mp hv with rfl | hv
    · exact h.1
    · exact vsLit_mem h.2 hv

/-- The values of a parsed declaration. -/
theorem decl_vals {vals : List Value} (h : VsLit vals) (hk : ∀ it ∈ Value.itemsL vals, it.Keeps)
    (hc : ∀ v ∈ vals, (v.isComp || v.isSep || v.isRaw) = true) : ∀ v ∈ vals, DKeep v := by
  intro v hv
  refine ⟨values_keeps h hk v hv, ?_⟩
  have hc := hc v hv
  have ho := vsLit_mem h hv
  simp only [Bool.or_eq_true] at hc
  rcases hc with (hc | hc) | hc
  · exact .inr (.inl hc)
  · exact .inl hc
  · refine .inr (.inr ?_)
    cases v with
    | raw sp w =>
      have hcl : Clean w := hk (.value (.raw sp w)) (mem_itemsL hv (by simp [Value.items]))
      unfold VLit at ho
      obtain ⟨b, rfl, hb⟩ := ho.1 hcl
      exact ⟨sp, b, rfl, hb, fun e => ho.2 (by rw [e])⟩
    | _ => simp [Value.isRaw] at hc

theorem decl_keeps {d : Decl} (h : DeclLit d) (hk : ∀ it ∈ d.items, it.Keeps) :
    d.Shape ∧ ∀ {rest : Bytes}, HeadIs stopByte rest → LayR d.toks rest := by
  cases d with
  | raw sp v =>
    have : Item.Keeps (.decl (.raw sp v)) := hk _ (by simp [Decl.items])
    exact this.elim
  | decl sp prop vals important =>
    have hcl : NoEsc prop :=
      hk (.decl (.decl sp prop vals important)) (by simp [Decl.items])
    obtain ⟨⟨w, hprop, hid⟩, hne, hvs, hc⟩ := h
    have hd := decl_vals hvs (fun it hi => hk it (by simp [Decl.items, hi])) hc
    refine ⟨⟨hne, fun v hv => (hd v hv).inDecl⟩, fun {rest} hrest => ?_⟩
    unfold Decl.toks
    refine layR_append (b := .punct 58 :: _) ?_ (layR_punct rfl (layR_append ?_ ?_))
    · rcases hprop with hp | hp
      · rw [← hp] at hid
        obtain ⟨b, t, rfl, hb⟩ := (hid hcl).head
        have : propToks (b :: t) = [.ident (b :: t)] := by
          unfold propToks
          split
          · rename_i e; cases e; exact absurd hb (by decide)
          · rfl
        rw [this]
        exact layR_ident (hid hcl) (calm_cons (b := 58) (by decide))
      · rw [hp]
        have : NoEsc w := fun b hb => hcl b (by rw [hp]; exact List.mem_cons_of_mem _ hb)
        exact ⟨.inl (by decide), .inl (by decide), layR_ident (hid this) (calm_cons (b := 58) (by decide))⟩
    · cases important with
      | false =>
        refine declToks_lay hd hrest.stop_calm fun sp b e => ?_
        have hm := hd _ (List.mem_of_getLast? e)
        rcases hm.2 with h | h | ⟨_, _, h, hwf, _⟩
        · cases h
        · cases h
        · cases h; exact delim_stop hwf hrest
      | true =>
        refine declToks_lay hd (calm_cons (b := 33) (by decide)) fun sp b e => ?_
        have hm := hd _ (List.mem_of_getLast? e)
        rcases hm.2 with h | h | ⟨_, _, h, hwf, _⟩
        · cases h
        · cases h
        · cases h
          exact delim_follow (c := 33) hwf (by simp) fun u e => by cases e
    · cases important with
      | false => exact trivial
      | true =>
        show LayR [.delim 33, .ident b!"important"] _
        exact ⟨.inl (by decide), .inl (by decide), layR_ident ⟨by decide, .inl ⟨105, _, rfl, by decide⟩⟩ hrest.stop_calm⟩

theorem decls_keeps : ∀ {ds : List Decl}, (∀ d ∈ ds, DeclLit d) → (∀ d ∈ ds, ∀ it ∈ d.items, it.Keeps) →
    ∀ {rest : Bytes}, HeadIs stopByte rest → LayR (declsToks ds) rest
  | [], _, _, _, _ => trivial
  | [d], h, hk, _, hr => by
    rw [declsToks, printed_lastToks, List.append_nil]
    exact (decl_keeps (h d (by simp)) (hk d (by simp))).2 hr
  | d :: e :: ds, h, hk, rest, hr => by
    unfold declsToks
    exact layR_append ((decl_keeps (h d (by simp)) (hk d (by simp))).2 ⟨59, _, rfl, by decide⟩)
      (layR_punct rfl (decls_keeps (fun x hx => h x (by simp [List.mem_cons.mp hx]))
        (fun x hx => hk x (by simp [List.mem_cons.mp hx])) hr))

theorem block_keeps {b : DeclBlock} (h : DeclBlockLit b) (hk : ∀ it ∈ b.items, it.Keeps) :
    b.Shape ∧ ∀ rest, LayR (.punct 123 :: (declsToks b.decls ++ [.punct 125])) rest := by
  have hk' : ∀ d ∈ b.decls, ∀ it ∈ d.items, it.Keeps := fun d hd it hi =>
    hk it (List.mem_cons_of_mem _ (List.mem_flatMap.mpr ⟨d, hd, hi⟩))
  refine ⟨fun d hd => (decl_keeps (h d hd) (hk' d hd)).1, fun rest => ?_⟩
  exact layR_punct rfl (layR_append (decls_keeps h hk' ⟨125, rest, rfl, by decide⟩) ⟨rfl, trivial, trivial⟩)

/-! ### Selectors -/

/-- A text that does not run into a word before it. -/
def WordCalm (rest : Bytes) : Prop := WordStop rest ∧ ∀ t, rest ≠ 40 :: t

def wcByte (b : UInt8) : Bool := b.toNat < 0x80 && b != 13 && !isNameByte b && b != 92 && b != 40

theorem HeadIs.wordCalm {rest : Bytes} (h : HeadIs wcByte rest) : WordCalm rest := by
  obtain ⟨b, t, rfl, hb⟩ := h
  simp only [wcByte, Bool.and_eq_true, decide_eq_true_eq, Bool.not_eq_true', bne_iff_ne, ne_eq] at hb
  obtain ⟨⟨⟨⟨h1, h2⟩, h3⟩, h4⟩, h5⟩ := hb
  exact ⟨.inr ⟨b, t, rfl, h1, h2, h3, h4⟩, fun u e => h5 (List.cons.inj e).1⟩

/-- What stands behind a selector. -/
def endByte (b : UInt8) : Bool := b == 44 || b == 41 || b == 123

/-- What is known about a part of a selector without lossy constructs. -/
structure PKeep (p : SelPart) : Prop where
  shape : p.Shape
  lay : ∀ rest, (p.wordy = true → WordCalm rest) → (p.isWs = true → HeadIs inkByte rest) → ¬ StartsUnsigned rest → LayR p.toks rest
  head : p.isWs = false → HeadIs inkByte (texts p.toks)
  next : (∀ sp n, p = .type sp n → n = b!"*") → HeadIs wcByte (texts p.toks)
  tame : ∀ rest, LayR p.toks rest → ¬ StartsUnsigned (texts p.toks ++ rest)

theorem parts_next : ∀ {ps : List SelPart}, (∀ p ∈ ps, PKeep p) → ps ≠ [] → Spacing ps → ∀ {rest : Bytes}, HeadIs endByte rest →
    (∃ q ∈ ps.head?, texts (partsToks ps) ++ rest = rest ∧ q.isWs = true ∨
      ps.head? = some q ∧ ∃ t, texts (partsToks ps) ++ rest = texts q.toks ++ t ∧
        (LayR (partsToks ps) rest → LayR q.toks t))
  | p :: ps, h, _, hs, rest, hr => by
    by_cases he : (ps.isEmpty && p.isWs) = true
    · refine ⟨p, rfl, .inl ⟨?_, by simp_all⟩⟩
      unfold partsToks
      rw [if_pos he]
      simp only [Bool.and_eq_true, List.isEmpty_iff] at he
      rw [he.1]
      unfold partsToks
      rfl
    · have e : partsToks (p :: ps) = p.toks ++ partsToks ps := by
        conv => lhs; unfold partsToks
        rw [if_neg he]
      refine ⟨p, rfl, .inr ⟨rfl, texts (partsToks ps) ++ rest, ?_, fun hl => ?_⟩⟩
      · rw [e, texts_append, List.append_assoc]
      · rw [e] at hl
        exact layR_left hl

theorem parts_lay : ∀ {ps : List SelPart}, (∀ p ∈ ps, PKeep p) → Spacing ps → Apart ps → ∀ {rest : Bytes}, HeadIs endByte rest →
    LayR (partsToks ps) rest
  | [], _, _, _, _, _ => by unfold partsToks; exact trivial
  | p :: ps, h, hs, ha, rest, hr => by
    have ih : LayR (partsToks ps) rest := parts_lay (fun x hx => h x (by simp [hx])) hs.2 ha.2 hr
    have hp := h p (by simp)
    have rw' : WordCalm rest := (hr.imp (q := wcByte) (by decide +kernel)).wordCalm
    have rt : ¬ StartsUnsigned rest := (hr.imp (q := tameByte) (by decide +kernel)).tame
    unfold partsToks
    refine layR_append ?_ ih
    by_cases he : (ps.isEmpty && p.isWs) = true
    · rw [if_pos he]; exact trivial
    · rw [if_neg he]
      by_cases hn : ps = []
      · subst hn
        have hw : p.isWs = false := by simpa using he
        unfold partsToks
        exact hp.lay _ (fun _ => rw') (fun e => by rw [hw] at e; cases e) rt
      · obtain ⟨q, hq, hc⟩ := parts_next (fun x hx => h x (by simp [hx])) hn hs.2 hr
        have hq : ps.head? = some q := hq
        have hqm : PKeep q := h q (List.mem_cons_of_mem _ (List.mem_of_head? hq))
        rcases hc with ⟨e, hqw⟩ | ⟨_, t, e, hl⟩
        · rw [e]
          refine hp.lay _ (fun _ => rw') (fun hw => ?_) rt
          rw [hs.1 (.inl hw) q hq] at hqw
          cases hqw
        · rw [e]
          refine hp.lay _ (fun hw => ?_) (fun hw => ?_) (hqm.tame t (hl ih))
          · exact ((hqm.next fun sp n e => ha.1 hw sp n (by rw [hq, e])).append _).wordCalm
          · exact (hqm.head (hs.1 (.inl hw) q hq)).append _

/-- The arguments of a pseudo class. -/
structure AKeep (name : Bytes) (a : PArgs) : Prop where
  shape : a.Shape name
  lay : ∀ rest, (a = .nil → WordCalm rest) → LayR (a.toks name) rest

structure SKeep (s : Sel) : Prop where
  shape : s.Shape
  lay : ∀ {rest : Bytes}, HeadIs endByte rest → LayR s.toks rest

theorem sels_lay : ∀ {ss : List Sel}, (∀ s ∈ ss, SKeep s) → ∀ {rest : Bytes}, HeadIs endByte rest → LayR (selsToks ss) rest
  | [], _, _, _ => by unfold selsToks; exact trivial
  | [s], h, rest, hr => by
    unfold selsToks
    simp only [List.isEmpty_nil, if_true, List.append_nil]
    exact (h s (by simp)).lay hr
  | s :: t :: ss, h, rest, hr => by
    unfold selsToks
    simp only [List.isEmpty_cons, Bool.false_eq_true, if_false]
    exact layR_append ((h s (by simp)).lay ⟨44, _, rfl, by decide⟩)
      (layR_punct rfl (sels_lay (fun x hx => h x (by simp [List.mem_cons.mp hx])) hr))

theorem selsShape_of : ∀ {ss : List Sel}, (∀ s ∈ ss, SKeep s) → selsShape ss
  | [], _ => by unfold selsShape; exact trivial
  | s :: ss, h => by
    unfold selsShape
    exact ⟨(h s (by simp)).shape, selsShape_of fun x hx => h x (by simp [hx])⟩

theorem partsShape_of : ∀ {ps : List SelPart}, (∀ p ∈ ps, PKeep p) → partsShape ps
  | [], _ => by unfold partsShape; exact trivial
  | p :: ps, h => by
    unfold partsShape
    exact ⟨(h p (by simp)).shape, partsShape_of fun x hx => h x (by simp [hx])⟩

theorem nthNames_iff (name : Bytes) : nthNames.contains name = true ↔ isNthName name := by
  unfold nthNames isNthName
  simp

/-- An+B in front of the closing parenthesis. -/
theorem anb_lay {a op b : Bytes} (hs : AnbShape a op b) (hw : ∀ t ∈ anbToks a op b, t.Wf) (rest : Bytes) :
    LayR (anbToks a op b) (41 :: rest) := by
  have c41 : Calm (41 :: rest) := calm_cons (by decide)
  have plus : ∀ {x y : PTok}, (∀ t ∈ [x, y], t.Wf) → (∃ d, y = .number (43 :: d)) → x.Follow (y.text ++ 41 :: rest) → LayR [x, y] (41 :: rest) := by
    intro x y h hy hf
    obtain ⟨d, rfl⟩ := hy
    refine ⟨h x (by simp), ?_, h _ (by simp), c41.num, trivial⟩
    show x.Follow ((43 :: d) ++ [] ++ 41 :: rest)
    rw [List.append_nil]
    exact hf
  have w43 : ∀ u, WordCalm (43 :: u) := fun u => HeadIs.wordCalm ⟨43, u, rfl, by decide⟩
  have n110 : ∀ u, NumStop (110 :: u) := fun u =>
    .inr ⟨110, u, rfl, by decide, by decide, by decide, fun e => absurd e (by decide), fun e => absurd e (by decide)⟩
  unfold anbToks at hw ⊢
  cases hs with
  | n => simpa [LayR, texts] using ⟨hw (.ident b!"n") (by simp), c41.word⟩
  | nPlus h1 h2 => exact plus hw ⟨b, rfl⟩ (w43 _)
  | neg => exact ⟨hw (.ident b!"-n") (by simp), c41.word, trivial⟩
  | negPlus h1 h2 => exact plus hw ⟨b, rfl⟩ (w43 _)
  | an h1 h2 h3 h4 h5 =>
    simp only [h1, h2, h4, if_false, or_self, List.nil_eq, reduceCtorEq] at hw ⊢
    exact ⟨hw _ (by simp), ⟨n110 _, c41.word.1⟩, trivial⟩
  | anPlus h1 h2 h3 h4 h5 h6 h7 =>
    simp only [h1, h2, h4, if_false, or_self, if_true, show (b!"+" : Bytes) ≠ b!"-" from by decide] at hw ⊢
    exact plus hw ⟨b, rfl⟩ ⟨n110 _, (w43 _).1⟩
  | anMinus h1 h2 h3 h4 h5 h6 h7 =>
    simp only [h1, h2, h4, if_false, or_self, if_true] at hw ⊢
    exact ⟨hw _ (by simp), ⟨n110 _, c41.word.1⟩, trivial⟩
  | b h1 h2 h3 h4 => exact ⟨hw (.number b) (by simp), c41.num, trivial⟩

/-- An optional component value. -/
theorem optv_keeps {v : Value} (h : OptVLit v) (hk : ∀ it ∈ v.items, it.Keeps) :
    v = .nil ∨ v ≠ .nil ∧ v.isComp = true ∧ VKeep v := by
  rcases h with h | ⟨h, hc⟩
  · exact .inl h
  · exact .inr ⟨by rintro rfl; simp [Value.isComp] at hc, hc, value_keeps h hk⟩

theorem valueAfter_ne {pre : List PTok} {v : Value} (h : v ≠ .nil) : valueAfter pre v = pre ++ v.toks := by
  unfold valueAfter
  split
  · exact absurd rfl h
  · rfl

theorem valueBefore_ne {post : List PTok} {v : Value} (h : v ≠ .nil) : valueBefore post v = v.toks ++ post := by
  unfold valueBefore
  split
  · exact absurd rfl h
  · rfl

/-- A pseudo class or element: `:` and a name with arguments. -/
theorem args_head (name : Bytes) (a : PArgs) (n : Nat) : texts (.punct 58 :: a.toks name) = 58 :: texts (a.toks name) := rfl

mutual

theorem part_keeps : ∀ {p : SelPart}, PartLit p → (∀ it ∈ p.items, it.Keeps) → PKeep p
  | .ws sp, _, _ => by
    have ht : (SelPart.ws sp).toks = [.space] := by rw [SelPart.toks]
    refine ⟨by unfold SelPart.Shape; exact trivial, fun rest _ h2 _ => ?_, by simp [SelPart.isWs], fun _ => ?_, fun rest hl => ?_⟩
    · rw [ht]; exact layR_space (h2 rfl) trivial
    · rw [ht]; exact ⟨32, [], rfl, by decide⟩
    · rw [ht]; exact notUnsigned (b := 32) (by decide) (by decide) (by decide)
  | .type sp name, h, hk => by
    have hc : NoEsc name := hk (.part (.type sp name)) (by simp [SelPart.items])
    unfold PartLit at h
    by_cases hn : name = b!"*"
    · have ht : (SelPart.type sp name).toks = [.delim 42] := by rw [SelPart.toks, if_pos hn]
      refine ⟨by unfold SelPart.Shape; exact trivial, fun rest _ _ _ => ?_, fun _ => ?_, fun _ => ?_, fun rest hl => ?_⟩
      · rw [ht]; exact ⟨.inl (by decide), .inl (by decide), trivial⟩
      · rw [ht]; exact ⟨42, [], rfl, by decide⟩
      · rw [ht]; exact ⟨42, [], rfl, by decide⟩
      · rw [ht]; exact notUnsigned (b := 42) (by decide) (by decide) (by decide)
    · have ht : (SelPart.type sp name).toks = [.ident name] := by rw [SelPart.toks, if_neg hn]
      have hid : IsIdent name := h.resolve_left hn hc
      have hh : HeadIs wordHead (texts (SelPart.type sp name).toks) := by
        rw [ht]; exact hid.head.append _
      refine ⟨by unfold SelPart.Shape; exact trivial, fun rest h1 _ _ => ?_, fun _ => hh.imp (by decide +kernel), fun e => ?_, fun rest hl => ?_⟩
      · rw [ht]; exact ⟨hid, h1 (by simpa [SelPart.wordy] using hn), trivial⟩
      · exact absurd (e sp name rfl) hn
      · rw [ht] at hl ⊢
        show ¬ StartsUnsigned (name ++ [] ++ rest)
        rw [List.append_nil]
        exact hid.notUnsigned hl.2.1.1.ascii
  | .cls sp name, h, hk => by
    have hc : NoEsc name := hk (.part (.cls sp name)) (by simp [SelPart.items])
    unfold PartLit at h
    have hid : IsIdent name := h hc
    have ht : (SelPart.cls sp name).toks = [.delim 46, .ident name] := by rw [SelPart.toks]
    refine ⟨by unfold SelPart.Shape; exact trivial, fun rest h1 _ _ => ?_, fun _ => ?_, fun _ => ?_, fun rest hl => ?_⟩
    · rw [ht]
      refine ⟨.inr (.inr (.inr (.inl rfl))), .inr (.inr (.inr (.inl ⟨rfl, ?_⟩))), hid, h1 rfl, trivial⟩
      show ¬ StartsNum (name ++ [] ++ rest)
      rw [List.append_nil]
      exact hid.notNum (h1 rfl).1.ascii
    · rw [ht]; exact ⟨46, _, rfl, by decide⟩
    · rw [ht]; exact ⟨46, _, rfl, by decide⟩
    · rw [ht] at hl ⊢
      show ¬ StartsUnsigned (46 :: (name ++ [] ++ rest))
      rw [List.append_nil]
      exact hid.notFrac hl.2.2.2.1.1.ascii
  | .id sp name, h, hk => by
    have hc : NoEsc name := hk (.part (.id sp name)) (by simp [SelPart.items])
    unfold PartLit at h
    have ht : (SelPart.id sp name).toks = [.hash name] := by rw [SelPart.toks]
    refine ⟨by unfold SelPart.Shape; exact trivial, fun rest h1 _ _ => ?_, fun _ => ?_, fun _ => ?_, fun rest hl => ?_⟩
    · rw [ht]; exact ⟨h hc, (h1 rfl).1, trivial⟩
    · rw [ht]; exact ⟨35, _, rfl, by decide⟩
    · rw [ht]; exact ⟨35, _, rfl, by decide⟩
    · rw [ht]; exact notUnsigned (b := 35) (by decide) (by decide) (by decide)
  | .comb sp op, h, _ => by
    unfold PartLit at h
    have hop : op = b!"+" ∨ op = b!">" ∨ op = b!"~" ∨ op = b!"|" := by simpa using h
    have ht : ∃ b, op = [b] ∧ (b = 43 ∨ isLoneDelim b = true) := by
      rcases hop with rfl | rfl | rfl | rfl
      · exact ⟨_, rfl, .inl rfl⟩
      all_goals exact ⟨_, rfl, .inr (by decide)⟩
    obtain ⟨b, hb, hbw⟩ := ht
    have ht : (SelPart.comb sp op).toks = [.delim b] := by rw [SelPart.toks, hb]; rfl
    have hcb : inkByte b = true ∧ wcByte b = true ∧ tameByte b = true := by
      rcases hop with rfl | rfl | rfl | rfl <;> (cases hb; decide)
    refine ⟨by unfold SelPart.Shape; exact hop, fun rest _ _ h3 => ?_, fun _ => ?_, fun _ => ?_, fun rest hl => ?_⟩
    · rw [ht]
      rcases hbw with rfl | hbw
      · exact ⟨.inr (.inl rfl), .inr (.inl ⟨rfl, h3⟩), trivial⟩
      · exact ⟨.inl hbw, .inl hbw, trivial⟩
    · rw [ht]; exact ⟨b, [], rfl, hcb.1⟩
    · rw [ht]; exact ⟨b, [], rfl, hcb.2.1⟩
    · rw [ht]; exact HeadIs.tame ⟨b, _, rfl, hcb.2.2⟩
  | .pclass sp name as, h, hk => by
    have hc : NoEsc name := hk (.part (.pclass sp name as)) (by simp [SelPart.items])
    unfold PartLit at h
    have ih := args_keeps h.1 hc (h.2 hc) (hk (.args name as) (by simp [SelPart.items]))
      (fun it hi => hk it (by simp [SelPart.items, hi]))
    have ht : (SelPart.pclass sp name as).toks = .punct 58 :: as.toks name := by rw [SelPart.toks]
    refine ⟨by unfold SelPart.Shape; exact ih.shape, fun rest h1 _ _ => ?_, fun _ => ?_, fun _ => ?_, fun rest hl => ?_⟩
    · rw [ht]; exact layR_punct rfl (ih.lay rest fun e => h1 (by rw [e]; rfl))
    · rw [ht]; exact ⟨58, _, rfl, by decide⟩
    · rw [ht]; exact ⟨58, _, rfl, by decide⟩
    · rw [ht]; exact notUnsigned (b := 58) (by decide) (by decide) (by decide)
  | .pelem sp isp name as, h, hk => by
    have hc : NoEsc name := hk (.part (.pelem sp isp name as)) (by simp [SelPart.items])
    unfold PartLit at h
    have ih := args_keeps h.1 hc (h.2 hc) (hk (.args name as) (by simp [SelPart.items]))
      (fun it hi => hk it (by simp [SelPart.items, hi]))
    have ht : (SelPart.pelem sp isp name as).toks = .punct 58 :: .punct 58 :: as.toks name := by rw [SelPart.toks]
    refine ⟨by unfold SelPart.Shape; exact ih.shape, fun rest h1 _ _ => ?_, fun _ => ?_, fun _ => ?_, fun rest hl => ?_⟩
    · rw [ht]; exact layR_punct rfl (layR_punct rfl (ih.lay rest fun e => h1 (by rw [e]; rfl)))
    · rw [ht]; exact ⟨58, _, rfl, by decide⟩
    · rw [ht]; exact ⟨58, _, rfl, by decide⟩
    · rw [ht]; exact notUnsigned (b := 58) (by decide) (by decide) (by decide)
  | .attr sp prop preOp value modifier, h, hk => by
    obtain ⟨hc, hpre, hmod⟩ : NoEsc prop ∧ preOp = [] ∧ modifier = [] :=
      hk (.part (.attr sp prop preOp value modifier)) (by simp [SelPart.items])
    unfold PartLit at h
    obtain ⟨_, hv, _, _, hid⟩ := h
    have hv := optv_keeps hv (fun it hi => hk it (by simp [SelPart.items, hi]))
    have ht : (SelPart.attr sp prop preOp value modifier).toks =
        .punct 91 :: .ident prop :: (valueAfter [.delim 61] value ++ [.punct 93]) := by rw [SelPart.toks]
    refine ⟨?_, fun rest _ _ _ => ?_, fun _ => ?_, fun _ => ?_, fun rest hl => ?_⟩
    · unfold SelPart.Shape
      exact ⟨hpre, hmod, hv.imp id fun h => h.2.2.val h.2.1⟩
    · rw [ht]
      refine layR_punct rfl ?_
      rcases hv with rfl | ⟨hne, hcomp, hv⟩
      · exact ⟨hid hc, HeadIs.wordCalm ⟨93, rest, rfl, by decide⟩, rfl, trivial, trivial⟩
      · rw [valueAfter_ne hne]
        refine ⟨hid hc, HeadIs.wordCalm ⟨61, _, rfl, by decide⟩, .inl (by decide), .inl (by decide),
          layR_append (hv.lay (Value.term_notRaw (Value.comp_term hcomp)) _ (.inr (calm_punct (by decide)))) ⟨rfl, trivial, trivial⟩⟩
    · rw [ht]; exact ⟨91, _, rfl, by decide⟩
    · rw [ht]; exact ⟨91, _, rfl, by decide⟩
    · rw [ht]; exact notUnsigned (b := 91) (by decide) (by decide) (by decide)

theorem args_keeps {name : Bytes} : ∀ {a : PArgs}, ArgsLit (nthNames.contains name) a → NoEsc name →
    IsIdent name → Item.Keeps (.args name a) → (∀ it ∈ a.items, it.Keeps) → AKeep name a
  | .nil, _, _, hn, _, _ => by
    refine ⟨by unfold PArgs.Shape; exact trivial, fun rest h => ?_⟩
    unfold PArgs.toks
    exact ⟨hn, h rfl, trivial⟩
  | .sels lsp l, h, _, hn, hu, hk => by
    have hu : ¬ IsUrlWord name := hu
    unfold ArgsLit at h
    obtain ⟨hnth, hne, hl⟩ := h
    have ih := sels_keeps hl (fun it hi => hk it (by simp [PArgs.items, hi]))
    refine ⟨?_, fun rest _ => ?_⟩
    · unfold PArgs.Shape
      refine ⟨fun e => ?_, hne, selsShape_of ih⟩
      rw [(nthNames_iff name).mpr e] at hnth
      cases hnth
    · unfold PArgs.toks
      exact ⟨hn, fun e => absurd e hu, layR_append (sels_lay ih ⟨41, rest, rfl, by decide⟩) ⟨rfl, trivial, trivial⟩⟩
  | .ident isp v, h, _, hn, hu, _ => by
    have hu : ¬ IsUrlWord name := hu
    unfold ArgsLit at h
    refine ⟨?_, fun rest _ => ?_⟩
    · unfold PArgs.Shape
      exact ⟨(nthNames_iff name).mp h.1, h.2⟩
    · unfold PArgs.toks
      refine ⟨hn, fun e => absurd e hu, layR_append (a := [.ident v]) (layR_ident ?_ (calm_punct (by decide))) ⟨rfl, trivial, trivial⟩⟩
      rcases h.2 with rfl | rfl
      · exact ⟨by decide, .inl ⟨_, _, rfl, by decide⟩⟩
      · exact ⟨by decide, .inl ⟨_, _, rfl, by decide⟩⟩
  | .anb asp a op b, h, _, hn, hu, _ => by
    obtain ⟨hu, hs, hw⟩ : ¬ IsUrlWord name ∧ AnbShape a op b ∧ ∀ t ∈ anbToks a op b, t.Wf := hu
    unfold ArgsLit at h
    refine ⟨?_, fun rest _ => ?_⟩
    · unfold PArgs.Shape
      exact ⟨(nthNames_iff name).mp h, hs⟩
    · unfold PArgs.toks
      exact ⟨hn, fun e => absurd e hu, layR_append (anb_lay hs hw rest) ⟨rfl, trivial, trivial⟩⟩

theorem sel_keeps : ∀ {s : Sel}, SelLit s → (∀ it ∈ s.items, it.Keeps) → SKeep s
  | .mk sp parts, h, hk => by
    obtain ⟨hs, ha, hne⟩ : Spacing parts ∧ Apart parts ∧ ∃ p ∈ parts, p.isWs = false := hk (.sel (.mk sp parts)) (by simp [Sel.items])
    unfold SelLit at h
    have ih := parts_keeps h.2 (fun it hi => hk it (by simp [Sel.items, hi]))
    refine ⟨?_, fun {rest} hr => ?_⟩
    · unfold Sel.Shape
      exact ⟨partsShape_of ih, hs, hne⟩
    · rw [printed_sel]
      exact parts_lay ih hs ha hr

theorem parts_keeps : ∀ {ps : List SelPart}, PartsLit ps → (∀ it ∈ SelPart.itemsL ps, it.Keeps) → ∀ p ∈ ps, PKeep p
  | [], _, _ => by simp
  | q :: ps, h, hk => by
    unfold PartsLit at h
    have h1 := part_keeps h.1 fun it hi => hk it (by simp [SelPart.itemsL, hi])
    have h2 := parts_keeps h.2 fun it hi => hk it (by simp [SelPart.itemsL, hi])
    intro p hp
    rcases List.mem_cons.mp hp with rfl | hp
    · exact h1
    · exact h2 p hp

theorem sels_keeps : ∀ {ss : List Sel}, SelsLit ss → (∀ it ∈ Sel.itemsL ss, it.Keeps) → ∀ s ∈ ss, SKeep s
  | [], _, _ => by simp
  | q :: ss, h, hk => by
    unfold SelsLit at h
    have h1 := sel_keeps h.1 fun it hi => hk it (by simp [Sel.itemsL, hi])
    have h2 := sels_keeps h.2 fun it hi => hk it (by simp [Sel.itemsL, hi])
    intro p hp
    rcases List.mem_cons.mp hp with rfl | hp
    · exact h1
    · exact h2 p hp

end

/-! ### Rules -/

theorem rule_block {kf : Bool} {r : QRule} (h : RuleLit kf r) (hk : ∀ it ∈ r.items, it.Keeps) :
    ∃ b, r.block = some b ∧ b.Shape ∧ ∀ rest, LayR (.punct 123 :: (declsToks b.decls ++ [.punct 125])) rest := by
  obtain ⟨_, b, hb, hok⟩ := h
  have := block_keeps hok (fun it hi => hk it (by simp [QRule.items, hb, hi]))
  exact ⟨b, hb, this.1, this.2⟩

theorem rule_keeps {r : QRule} (h : RuleLit false r) (hk : ∀ it ∈ r.items, it.Keeps) :
    r.Shape ∧ ∀ rest, LayR r.toks rest := by
  obtain ⟨b, hb, hbs, hbl⟩ := rule_block h hk
  have hr : (∃ l, r.prelude = .sels l ∧ ∀ s ∈ l.sels, s.NoLead) ∨ ∃ sp k, r.prelude = .keyframes sp [k] :=
    hk (.rule r) (by simp [QRule.items])
  have hp := h.1
  rcases hr with ⟨l, e, hlead⟩ | ⟨sp, k, e⟩
  · rw [e] at hp
    obtain ⟨_, hne, hl⟩ := hp
    have ih := sels_keeps hl (fun it hi => hk it (by simp [QRule.items, e, Prelude.items, hi]))
    refine ⟨⟨⟨l, e, hne, selsShape_of ih, hlead⟩, b, hb, hbs⟩, fun rest => ?_⟩
    unfold QRule.toks
    rw [hb, e]
    rw [Prelude.toks, printed_topToks]
    exact layR_append (sels_lay ih ⟨123, _, rfl, by decide⟩) (hbl rest)
  · rw [e] at hp
    exact absurd hp.1 (by decide)

theorem frame_keeps {r : QRule} (h : RuleLit true r) (hk : ∀ it ∈ r.items, it.Keeps) :
    r.FrameShape ∧ ∀ rest, LayR r.toks rest := by
  obtain ⟨b, hb, hbs, hbl⟩ := rule_block h hk
  have hr : (∃ l, r.prelude = .sels l ∧ ∀ s ∈ l.sels, s.NoLead) ∨ ∃ sp k, r.prelude = .keyframes sp [k] :=
    hk (.rule r) (by simp [QRule.items])
  have hp := h.1
  rcases hr with ⟨l, e, hlead⟩ | ⟨sp, k, e⟩
  · rw [e] at hp
    exact absurd hp.1 (by decide)
  · rw [e] at hp
    have hkk : KSelLit k := hp.2.2 k (by simp)
    refine ⟨⟨⟨sp, k, e, fun ksp v hv => ?_⟩, b, hb, hbs⟩, fun rest => ?_⟩
    · rw [hv] at hkk; exact hkk
    · unfold QRule.toks
      rw [hb, e]
      have : Prelude.toks (.keyframes sp [k]) = k.toks := by simp [Prelude.toks]
      rw [this]
      refine layR_append ?_ (hbl rest)
      cases k with
      | pct ksp v =>
        have hc : Clean v := hk (.ksel (.pct ksp v)) (by simp [QRule.items, e, Prelude.items, KSel.items])
        exact ⟨hkk hc, trivial, trivial⟩
      | ident ksp v =>
        refine layR_ident ?_ (calm_cons (b := 123) (by decide))
        rcases hkk with rfl | rfl
        · exact ⟨by decide, .inl ⟨_, _, rfl, by decide⟩⟩
        · exact ⟨by decide, .inl ⟨_, _, rfl, by decide⟩⟩

theorem rules_lay : ∀ {rs : List QRule}, (∀ r ∈ rs, ∀ rest, LayR r.toks rest) → ∀ rest, LayR (rulesToks rs) rest
  | [], _, _ => trivial
  | r :: rs, h, rest => by
    unfold rulesToks
    exact layR_append (h r (by simp) _) (rules_lay (fun x hx => h x (by simp [hx])) rest)

/-! ### Media queries -/

/-- What stands behind a part of a media query or of a prelude. -/
def mqEnd (b : UInt8) : Bool := b == 32 || b == 44 || b == 123 || b == 59

theorem HeadIs.mq_calm {rest : Bytes} (h : HeadIs mqEnd rest) : Calm rest := (h.imp (q := calmByte) (by decide +kernel)).calm

structure MKeep (p : MQPart) : Prop where
  shape : p.Shape
  lay : ∀ {rest : Bytes}, HeadIs mqEnd rest → LayR p.toks rest
  head : HeadIs inkByte (texts p.toks)

/-- A comparison in front of a text that does not start with `!`. -/
theorem range_lay {op : Bytes} (h : isRangeOp op) {ts : List PTok} {rest : Bytes} (hh : HeadIs valueByte (texts ts ++ rest))
    (hl : LayR ts rest) : LayR (op.map .delim ++ ts) rest := by
  have hb : ∀ t, texts ts ++ rest ≠ 33 :: 45 :: 45 :: t := by
    intro t e
    obtain ⟨b, u, e2, hb⟩ := hh
    rw [e2] at e
    rw [(List.cons.inj e).1] at hb
    exact absurd hb (by decide)
  rcases h with rfl | rfl | rfl | rfl
  · exact ⟨.inr (.inr (.inr (.inr (.inr (.inl rfl))))), .inr (.inr (.inr (.inr (.inr (.inl ⟨rfl, hb⟩))))), hl⟩
  · exact ⟨.inl (by decide), .inl (by decide), hl⟩
  · exact ⟨.inr (.inr (.inr (.inr (.inr (.inl rfl))))), .inr (.inr (.inr (.inr (.inr (.inl ⟨rfl, fun t e => by cases e⟩))))),
      .inl (by decide), .inl (by decide), hl⟩
  · exact ⟨.inl (by decide), .inl (by decide), .inl (by decide), .inl (by decide), hl⟩

theorem range_head {op : Bytes} (h : isRangeOp op) (ts : List PTok) (rest : Bytes) :
    HeadIs calmByte (texts (op.map .delim ++ ts) ++ rest) := by
  rcases h with rfl | rfl | rfl | rfl
  · exact ⟨60, _, rfl, by decide⟩
  · exact ⟨62, _, rfl, by decide⟩
  · exact ⟨60, _, rfl, by decide⟩
  · exact ⟨62, _, rfl, by decide⟩

theorem mqpart_keeps {p : MQPart} (h : MQPartLit p) (hk : ∀ it ∈ p.items, it.Keeps) : MKeep p := by
  have close : ∀ rest, LayR [.punct 41] rest := fun rest => ⟨rfl, trivial, trivial⟩
  cases p with
  | ident sp v =>
    have hc : NoEsc v := hk (.mqpart (.ident sp v)) (by simp [MQPart.items])
    exact ⟨trivial, fun hr => layR_ident (h hc) hr.mq_calm, (((h hc).head).imp (by decide +kernel)).append _⟩
  | inParens sp ps => exact h.elim
  | plain sp psp prop value =>
    have hc : NoEsc prop := hk (.mqpart (.plain sp psp prop value)) (by simp [MQPart.items])
    obtain ⟨hv, hid⟩ := h
    have hv := optv_keeps hv (fun it hi => hk it (by simp [MQPart.items, hi]))
    refine ⟨hv.imp id fun h => h.2.2.val h.2.1, fun {rest} _ => ?_, ⟨40, _, rfl, by decide⟩⟩
    refine layR_punct rfl ?_
    rcases hv with rfl | ⟨hne, hcomp, hv⟩
    · exact ⟨hid hc, HeadIs.wordCalm ⟨41, rest, rfl, by decide⟩, close rest⟩
    · rw [valueAfter_ne hne]
      exact ⟨hid hc, HeadIs.wordCalm ⟨58, _, rfl, by decide⟩, layR_punct rfl
        (layR_append (hv.lay (Value.term_notRaw (Value.comp_term hcomp)) _ (.inr (calm_punct (by decide)))) (close rest))⟩
  | range sp psp prop left op right =>
    obtain ⟨hc, hlr⟩ : NoEsc prop ∧ (left = .nil → right ≠ .nil ∧ ∀ sp v, right ≠ .ident sp v) :=
      hk (.mqpart (.range sp psp prop left op right)) (by simp [MQPart.items])
    obtain ⟨hl, hr, hop, hid⟩ := h
    have hop : isRangeOp op := by
      unfold isRangeOp
      simp only [List.mem_cons, List.not_mem_nil, or_false] at hop
      rcases hop with h | h | h | h <;> simp [h]
    have hl := optv_keeps hl (fun it hi => hk it (by simp [MQPart.items, hi]))
    have hr := optv_keeps hr (fun it hi => hk it (by simp [MQPart.items, hi]))
    refine ⟨⟨hop, ?_⟩, fun {rest} _ => ?_, ⟨40, _, rfl, by decide⟩⟩
    · rcases hl with rfl | ⟨_, lc, lk⟩
      · obtain ⟨hne, hni⟩ := hlr rfl
        obtain ⟨_, rc, rk⟩ := hr.resolve_left hne
        exact .inr ⟨rfl, rk.val rc, hni⟩
      · exact .inl ⟨lk.val lc, hr.imp id fun h => h.2.2.val h.2.1⟩
    · have hright : LayR (.ident prop :: (valueAfter (op.map .delim) right ++ [.punct 41])) rest := by
        rcases hr with rfl | ⟨hne, rc, rk⟩
        · exact ⟨hid hc, HeadIs.wordCalm ⟨41, rest, rfl, by decide⟩, close rest⟩
        · rw [valueAfter_ne hne, List.append_assoc]
          refine ⟨hid hc, ((range_head hop _ _).imp (by decide +kernel)).wordCalm, range_lay hop ?_
            (layR_append (rk.lay (Value.term_notRaw (Value.comp_term rc)) _ (.inr (calm_punct (by decide)))) (close rest))⟩
          rw [texts_append]
          exact ((rk.head (Value.comp_term rc)).append _).append _
      unfold MQPart.toks
      refine layR_punct rfl ?_
      rcases hl with rfl | ⟨hne, lc, lk⟩
      · exact hright
      · rw [valueBefore_ne hne, List.append_assoc]
        refine layR_append (lk.lay (Value.term_notRaw (Value.comp_term lc)) _ (.inr (range_head hop _ _).calm)) (range_lay hop ?_ hright)
        rw [texts_cons]
        exact ((((hid hc).head).imp (by decide +kernel)).append _).append _

theorem mqParts_head : ∀ {ps : List MQPart}, (∀ p ∈ ps, MKeep p) → ps ≠ [] → HeadIs inkByte (texts (mqPartsToks ps))
  | p :: ps, h, _ => by
    unfold mqPartsToks
    rw [texts_append]
    exact (h p (by simp)).head.append _

theorem mqParts_lay : ∀ {ps : List MQPart}, (∀ p ∈ ps, MKeep p) → ∀ {rest : Bytes}, HeadIs mqEnd rest → LayR (mqPartsToks ps) rest
  | [], _, _, _ => trivial
  | [p], h, rest, hr => by
    unfold mqPartsToks
    simp only [List.isEmpty_nil, if_true, List.append_nil]
    exact (h p (by simp)).lay hr
  | p :: q :: ps, h, rest, hr => by
    unfold mqPartsToks
    simp only [List.isEmpty_cons, Bool.false_eq_true, if_false]
    have hq : ∀ x ∈ q :: ps, MKeep x := fun x hx => h x (by simp [List.mem_cons.mp hx])
    exact layR_append ((h p (by simp)).lay ⟨32, _, rfl, by decide⟩)
      (layR_space ((mqParts_head hq (by simp)).append _) (mqParts_lay hq hr))

structure QKeep (q : MQ) : Prop where
  shape : q.Shape
  lay : ∀ {rest : Bytes}, HeadIs mqEnd rest → LayR (mqPartsToks q.parts) rest
  head : HeadIs inkByte (texts (mqPartsToks q.parts))

theorem mq_keeps {q : MQ} (h : MQLit q) (hk : ∀ it ∈ q.items, it.Keeps) : QKeep q := by
  have hp : ∀ p ∈ q.parts, MKeep p := fun p hp => mqpart_keeps (h.2 p hp) fun it hi =>
    hk it (List.mem_cons_of_mem _ (List.mem_cons_of_mem _ (List.mem_flatMap.mpr ⟨p, hp, hi⟩)))
  exact ⟨⟨h.1, fun p h => (hp p h).shape⟩, mqParts_lay hp, mqParts_head hp h.1⟩

theorem mqs_head : ∀ {qs : List MQ}, (∀ q ∈ qs, QKeep q) → qs ≠ [] → HeadIs inkByte (texts (mqsToks qs))
  | q :: qs, h, _ => by
    unfold mqsToks
    rw [texts_append]
    exact (h q (by simp)).head.append _

theorem mqs_lay : ∀ {qs : List MQ}, (∀ q ∈ qs, QKeep q) → ∀ {rest : Bytes}, HeadIs mqEnd rest → LayR (mqsToks qs) rest
  | [], _, _, _ => trivial
  | [q], h, rest, hr => by
    unfold mqsToks
    simp only [List.isEmpty_nil, if_true, List.append_nil]
    exact (h q (by simp)).lay hr
  | q :: r :: qs, h, rest, hr => by
    unfold mqsToks
    simp only [List.isEmpty_cons, Bool.false_eq_true, if_false]
    exact layR_append ((h q (by simp)).lay ⟨44, _, rfl, by decide⟩)
      (layR_punct rfl (mqs_lay (fun x hx => h x (by simp [List.mem_cons.mp hx])) hr))

theorem mql_keeps {l : MQList} (h : MQListLit l) (hk : ∀ it ∈ l.items, it.Keeps) :
    l.Shape ∧ (∀ {rest : Bytes}, HeadIs mqEnd rest → LayR (mqsToks l.queries) rest) ∧ HeadIs inkByte (texts (mqsToks l.queries)) := by
  have hq : ∀ q ∈ l.queries, QKeep q := fun q hq => mq_keeps (h.2 q hq) fun it hi =>
    hk it (List.mem_cons_of_mem _ (List.mem_cons_of_mem _ (List.mem_flatMap.mpr ⟨q, hq, hi⟩)))
  exact ⟨⟨h.1, fun q h => (hq q h).shape⟩, mqs_lay hq, mqs_head hq h.1⟩

/-! ### At-rules -/

structure APKeep (p : AtPrelude) : Prop where
  list : ∀ l, p = .mql (some l) → l.Shape
  query : ∀ q, p = .mq q → q.Shape
  lay : ∀ (name : Bytes) {rest : Bytes}, HeadIs mqEnd rest → LayR (p.toks name) rest
  head : ∀ name, HeadIs inkByte (texts (p.toks name))

theorem prelude_keeps {p : AtPrelude} (h : AtPreludeLit p) (hk : ∀ it ∈ p.items, it.Keeps) (hn : p ≠ .mql none)
    (hs : ∀ sp v, p = .str sp v → Quotable v) (hi : ∀ sp v, p = .ident sp v → NoEsc v) : APKeep p := by
  cases p with
  | str sp v =>
    have e : ∀ name, (AtPrelude.str sp v).toks name = [.string 34 v] := fun name => by simp [AtPrelude.toks]
    exact ⟨by simp, by simp, fun name _ _ => by rw [e]; exact layR_string (hs sp v rfl),
      fun name => by rw [e]; exact ⟨34, _, rfl, by decide⟩⟩
  | ident sp v =>
    have hc := hi sp v rfl
    exact ⟨by simp, by simp, fun _ _ hr => layR_ident (h hc) hr.mq_calm, fun _ => (((h hc).head).imp (by decide +kernel)).append _⟩
  | mql l =>
    cases l with
    | none => exact absurd rfl hn
    | some l =>
      have := mql_keeps (l := l) h (fun it hi => hk it (by simp [AtPrelude.items, hi]))
      exact ⟨fun l' e => by cases e; exact this.1, by simp, fun _ => this.2.1, fun _ => this.2.2⟩
  | mq q =>
    have := mq_keeps (q := q) h (fun it hi => hk it (by simp [AtPrelude.items, hi]))
    exact ⟨by simp, fun q' e => by cases e; exact this.shape, fun _ => this.lay, fun _ => this.head⟩

theorem preludes_lay {name : Bytes} : ∀ {ps : List AtPrelude}, (∀ p ∈ ps, APKeep p) → ∀ {rest : Bytes}, HeadIs mqEnd rest → LayR (preludesToks name ps) rest
  | [], _, _, _ => trivial
  | p :: ps, h, rest, hr => by
    have hp := h p (by simp)
    have ih : LayR (preludesToks name ps) rest := preludes_lay (fun x hx => h x (by simp [hx])) hr
    unfold preludesToks
    refine layR_space (((by rw [texts_append]; exact (hp.head name).append _ : HeadIs inkByte (texts (p.toks name ++ preludesToks name ps)))).append _)
      (layR_append (hp.lay name ?_) ih)
    cases ps with
    | nil => exact hr
    | cons q ps => exact ⟨32, _, rfl, by decide⟩

theorem keyframesNames_iff (name : Bytes) : name ∈ keyframesNames ↔ isKeyframesName name := by
  unfold keyframesNames isKeyframesName
  simp

theorem at_keeps {a : AtRule} (h : AtLit a) (hk : ∀ it ∈ a.items, it.Keeps) :
    a.Shape ∧ ∀ rest, LayR a.toks rest := by
  obtain ⟨id, sp, name, ps, blk⟩ := a
  obtain ⟨hc, hnone, hstr, hident⟩ : NoEsc name ∧ ps ≠ [.mql none] ∧ (∀ sp v, AtPrelude.str sp v ∈ ps → Quotable v) ∧
      ∀ sp v, AtPrelude.ident sp v ∈ ps → NoEsc v := hk (.at ⟨id, sp, name, ps, blk⟩) (by simp [AtRule.items])
  obtain ⟨hps, hblk, hshape, hname⟩ := h
  dsimp only at hps hblk hshape hname
  have hpk : (∀ p ∈ ps, p ≠ .mql none) → ∀ p ∈ ps, APKeep p := fun hn p hp =>
    prelude_keeps (hps p hp) (fun it hi => hk it (by
      simp only [AtRule.items, List.mem_cons, List.mem_append, List.mem_flatMap]
      exact .inr (.inr (.inr (.inl ⟨p, hp, hi⟩))))) (hn p hp) (fun sp v e => hstr sp v (e ▸ hp)) (fun sp v e => hident sp v (e ▸ hp))
  have hbk : ∀ it ∈ blk.items, it.Keeps := fun it hi => hk it (by
      simp only [AtRule.items, List.mem_cons, List.mem_append, List.mem_flatMap]
      exact .inr (.inr (.inr (.inr hi))))
  -- the text, once the preludes and the block are known
  have fin : (∀ p ∈ ps, APKeep p) → (∀ rest, LayR blk.toks rest) → ∀ rest, LayR (AtRule.toks ⟨id, sp, name, ps, blk⟩) rest := by
    intro h1 h2 rest
    have hb : HeadIs mqEnd (texts blk.toks ++ rest) := by
      cases blk with
      | none => exact ⟨59, _, rfl, by decide⟩
      | decls b => exact ⟨123, _, rfl, by decide⟩
      | rules bsp rs => exact ⟨123, _, rfl, by decide⟩
    unfold AtRule.toks
    refine ⟨hname hc, ?_, layR_append (preludes_lay h1 hb) (h2 rest)⟩
    have : HeadIs wcByte (texts (preludesToks name ps ++ blk.toks) ++ rest) := by
      cases ps with
      | nil => exact hb.imp (by decide +kernel)
      | cons p ps => exact ⟨32, _, rfl, by decide⟩
    exact this.wordCalm.1
  unfold AtShape at hshape
  split at hshape
  · rename_i hn
    obtain ⟨⟨psp, v, hp⟩, rfl⟩ := hshape
    have hb : ∀ rest, LayR (Block.toks .none) rest := fun rest => ⟨rfl, trivial, trivial⟩
    rcases hp with rfl | ⟨l, rfl⟩
    · have hp := hpk (by simp)
      exact ⟨by subst hn; exact .import, fin hp hb⟩
    · have hp := hpk (by simp)
      exact ⟨by subst hn; exact .importMedia ((hp (.mql (some l)) (by simp)).list l rfl), fin hp hb⟩
  · split at hshape
    · rename_i hn
      obtain ⟨⟨l, rfl⟩, bsp, rs, rfl⟩ := hshape
      cases l with
      | none => exact absurd rfl hnone
      | some l =>
        have hp := hpk (by simp)
        subst hn
        have hrk : ∀ r ∈ rs, r.Shape ∧ ∀ rest, LayR r.toks rest := fun r hr =>
          rule_keeps (hblk r hr) fun it hi => hbk it (List.mem_cons_of_mem _ (List.mem_flatMap.mpr ⟨r, hr, hi⟩))
        refine ⟨.media ((hp (.mql (some l)) (by simp)).list l rfl) fun r hr => (hrk r hr).1, fin hp fun rest => ?_⟩
        exact layR_punct rfl (layR_append (rules_lay (fun r hr => (hrk r hr).2) _) ⟨rfl, trivial, trivial⟩)
    · split at hshape
      · rename_i hn
        obtain ⟨⟨psp, v, hp⟩, bsp, rs, rfl⟩ := hshape
        have hkf : keyframesNames.contains name = true := by simpa using hn
        rw [hkf] at hblk
        have hrk : ∀ r ∈ rs, r.FrameShape ∧ ∀ rest, LayR r.toks rest := fun r hr =>
          frame_keeps (hblk r hr) fun it hi => hbk it (List.mem_cons_of_mem _ (List.mem_flatMap.mpr ⟨r, hr, hi⟩))
        have hb : ∀ rest, LayR (Block.toks (.rules bsp rs)) rest := fun rest =>
          layR_punct rfl (layR_append (rules_lay (fun r hr => (hrk r hr).2) _) ⟨rfl, trivial, trivial⟩)
        rcases hp with rfl | rfl
        · exact ⟨.keyframesStr ((keyframesNames_iff name).mp hn) fun r hr => (hrk r hr).1, fin (hpk (by simp)) hb⟩
        · exact ⟨.keyframes ((keyframesNames_iff name).mp hn) fun r hr => (hrk r hr).1, fin (hpk (by simp)) hb⟩
      · split at hshape
        · rename_i hn
          obtain ⟨⟨psp, v, q, rfl⟩, rfl⟩ := hshape
          have hp := hpk (by simp)
          subst hn
          exact ⟨.customMedia ((hp (.mq q) (by simp)).query q rfl), fin hp fun rest => ⟨rfl, trivial, trivial⟩⟩
        · rename_i h1 h2 h3 h4
          obtain ⟨rfl, b, rfl⟩ := hshape
          have hb := block_keeps (b := b) hblk hbk
          exact ⟨.generic h1 h2 (fun e => h3 ((keyframesNames_iff name).mpr e)) h4 hb.1, fin (hpk (by simp)) hb.2⟩

/-! ### Stylesheets -/

theorem node_keeps {n : Node} (h : NodeLit n) (hk : ∀ it ∈ n.items, it.Keeps) :
    n.Shape ∧ ∀ rest, LayR n.toks rest := by
  cases n with
  | rule r => exact rule_keeps h hk
  | «at» a => exact at_keeps h hk

theorem nodes_lay : ∀ {ns : List Node}, (∀ n ∈ ns, ∀ rest, LayR n.toks rest) → ∀ rest, LayR (nodesToks ns) rest
  | [], _, _ => trivial
  | n :: ns, h, rest => by
    unfold nodesToks
    exact layR_append (h n (by simp) _) (nodes_lay (fun x hx => h x (by simp [hx])) rest)

/-- A well-formed stylesheet of a text, without lossy constructs: the nodes can be written and the tokens do not
run into each other. -/
theorem sheet_keeps {src : Bytes} {ss : Stylesheet} (h : SheetOk src ss) (hk : ss.Keeps) :
    (∀ n ∈ ss.nodes, n.Shape) ∧ Lay (nodesToks ss.nodes) := by
  have hn : ∀ n ∈ ss.nodes, n.Shape ∧ ∀ rest, LayR n.toks rest := fun n hn =>
    node_keeps (h.nodes n hn).lit fun it hi => hk it (List.mem_flatMap.mpr ⟨n, hn, hi⟩)
  exact ⟨fun n h => (hn n h).1, (nodes_lay (fun n h => (hn n h).2) []).lay⟩

end Cssc
