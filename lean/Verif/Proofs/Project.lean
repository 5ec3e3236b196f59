import Verif.Spec.Project
import Verif.Props.Cascade

/-!
# Lemmas for C89: files that are lowered and put together
-/

namespace Cssc

/-! ### Definitions -/

theorem lastDef_or (a b : List (Bytes × α)) (name : Bytes) :
    lastDef (a ++ b) name = (lastDef b name).or (lastDef a name) := by
  unfold lastDef
  rw [List.reverse_append, List.find?_append]
  cases List.find? (fun d => d.1 == name) b.reverse <;> simp

theorem mediaDefs_append (a b : List Node) : mediaDefs (a ++ b) = mediaDefs a ++ mediaDefs b := by
  unfold mediaDefs
  rw [List.filterMap_append]

theorem mediaDefs_cons (n : Node) (b : List Node) : mediaDefs (n :: b) = mediaDefs [n] ++ mediaDefs b := by
  rw [← mediaDefs_append]
  rfl

theorem lastDef_some {defs : List (Bytes × α)} {d : Bytes × α} (h : d ∈ defs) : lastDef defs d.1 ≠ none := by
  unfold lastDef
  intro e
  rw [Option.map_eq_none_iff, List.find?_eq_none] at e
  exact e d (List.mem_reverse.2 h) (by simp)

theorem lastDef_key {defs : List (Bytes × α)} {name : Bytes} {q : α} (h : lastDef defs name = some q) : (name, q) ∈ defs := by
  unfold lastDef at h
  rw [Option.map_eq_some_iff] at h
  obtain ⟨d, h1, h2⟩ := h
  have h3 := List.find?_some h1
  have h4 : d.1 = name := by simpa using h3
  rw [← h4, ← h2]
  exact List.mem_reverse.1 (List.mem_of_find?_eq_some h1)

/-! ### Offers depend on the definitions of the names that are used -/

theorem pieces_self {R : α → List α → Prop} : ∀ {l : List α}, (∀ x ∈ l, R x [x]) → Pieces R l l
  | [], _ => .nil
  | x :: xs, h => by
    have := Pieces.cons (h x (List.mem_cons_self ..)) (pieces_self fun y hy => h y (List.mem_cons_of_mem _ hy))
    exact this

theorem query_congr {B : Browser} {F F' : MQPart → Prop} {ps : List MQPart} (h : ∀ p ∈ ps, F' p ↔ F p) :
    QueryHolds B F' ps ↔ QueryHolds B F ps :=
  query_single (pieces_self fun p hp => ⟨p, rfl, fun _ => rfl, fun hf => ⟨hf, h p hp⟩⟩)

theorem offers_congr {B : Browser} {e : B.doc.Elem} {defs defs' : List (Bytes × MQ)} {n : Node}
    (h : ∀ name, n.Uses name → lastDef defs name = lastDef defs' name) : n.bare.offers B defs e = n.bare.offers B defs' e := by
  cases n with
  | rule r => rfl
  | «at» a =>
    simp only [Node.bare, Node.offers]
    by_cases h1 : a.name = b!"custom-media"
    · rw [if_pos (show a.bare.name = b!"custom-media" from h1), if_pos (show a.bare.name = b!"custom-media" from h1)]
    · rw [if_neg (show ¬ a.bare.name = b!"custom-media" from h1), if_neg (show ¬ a.bare.name = b!"custom-media" from h1)]
      by_cases h2 : a.name = b!"media"
      · rw [if_pos (show a.bare.name = b!"media" from h2), if_pos (show a.bare.name = b!"media" from h2)]
        obtain ⟨src, sp, nm, pre, bl⟩ := a
        dsimp only at h2
        subst h2
        match pre, h with
        | .mql (some l) :: rest, h =>
          show bl.bare.offers B e (MediaHold B defs (l.queries.map MQ.bare)) = bl.bare.offers B e (MediaHold B defs' (l.queries.map MQ.bare))
          congr 1
          refine propext (or_congr_right ?_)
          refine exists_congr fun q => and_congr_right fun hq => query_congr fun p hp => ?_
          obtain ⟨q0, hq0, rfl⟩ := List.mem_map.1 hq
          obtain ⟨p0, hp0, rfl⟩ := List.mem_map.1 (show p ∈ q0.parts.map MQPart.bare from hp)
          unfold Browser.cond
          rw [custom?_bare]
          cases hcus : p0.custom? with
          | none => exact Iff.rfl
          | some name =>
            dsimp only
            rw [h name ⟨_, l, rest, q0, p0, rfl, rfl, rfl, hq0, hp0, hcus⟩]
        | [], _ => rfl
        | .mql none :: rest, _ => rfl
        | .str _ _ :: rest, _ => rfl
        | .ident _ _ :: rest, _ => rfl
        | .mq _ :: rest, _ => rfl
      · rw [if_neg (show ¬ a.bare.name = b!"media" from h2), if_neg (show ¬ a.bare.name = b!"media" from h2)]

/-! ### What is left after lowering -/

/-- Media queries that can be lowered again: with intervals, without `or` and `not (…)`, and without custom media queries
that any file defines. -/
structure MQ.Rest (B : Browser) (env : CEnv) (q : MQ) : Prop where
  interval : ∀ p ∈ q.parts, p.Interval B env.fo
  joinable : q.Joinable
  unknown : ∀ p ∈ q.parts, ∀ name, p.custom? = some name → ∀ a ss, IsFile env a ss → lastDef (mediaDefs ss.nodes) name = none

/-- Nodes that were lowered. -/
structure Rest (B : Browser) (env : CEnv) (ns : List Node) : Prop where
  defs : mediaDefs ns = []
  imports : ∀ n ∈ ns, n.isImport = false
  links : ∀ r l, .rule r ∈ ns → r.prelude = .sels l → ∀ s ∈ l.sels, s.parts.countP SelPart.anyLink ≤ 1
  queries : ∀ a l rest, .at a ∈ ns → a.name = b!"media" → a.preludes = .mql (some l) :: rest → ∀ q ∈ l.queries, q.Rest B env

/-- A query after the definitions `before` becomes one that can be lowered again. -/
theorem mq_rest {B : Browser} {env : CEnv} {o : TOpts} {before defs : List (Bytes × MQ)} {q q' : MQ}
    (h : Pieces (MQPartPiece env.fo o before) q.parts q'.parts) (hc : o.customMediaQueries = true ∨ defs = [])
    (hd : ∀ d ∈ defs, d.2.Definition ∧ ∀ p ∈ d.2.parts, p.Interval B env.fo)
    (hi : ∀ p ∈ q.parts, p.Interval B env.fo) (hj : q.Joinable)
    (hk : ∀ p ∈ q.parts, ∀ name, p.custom? = some name → lastDef before name = lastDef defs name)
    (hu : ∀ p ∈ q.parts, ∀ name, p.custom? = some name → lastDef defs name = none →
      ∀ a ss, IsFile env a ss → lastDef (mediaDefs ss.nodes) name = none) : q'.Rest B env := by
  have hmem : ∀ {ps out : List MQPart}, Pieces (MQPartPiece env.fo o before) ps out → ∀ x ∈ out, ∃ p ∈ ps, ∃ o1, MQPartPiece env.fo o before p o1 ∧ x ∈ o1 := by
    intro ps out h
    induction h with
    | nil => intro x hx; cases hx
    | @cons y ys o1 o2 hy _ ih =>
      intro x hx
      rcases List.mem_append.1 hx with hx | hx
      · exact ⟨y, List.mem_cons_self .., o1, hy, hx⟩
      · obtain ⟨p, hp, k⟩ := ih x hx
        exact ⟨p, List.mem_cons_of_mem _ hp, k⟩
  have hpart : ∀ x ∈ q'.parts, x.Interval B env.fo ∧ x.isOr = false ∧
      ∀ name, x.custom? = some name → ∀ a ss, IsFile env a ss → lastDef (mediaDefs ss.nodes) name = none := by
    intro x hx
    obtain ⟨p, hp, o1, h1, h2⟩ := hmem h x hx
    cases h1 with
    | @custom _ name d _ g1 g2 =>
      rw [hk p hp _ g1] at g2
      obtain ⟨⟨k1, k2⟩, k3⟩ := hd _ (lastDef_key g2)
      refine ⟨k3 x h2, ?_, fun n hn => ?_⟩
      · cases x with
        | ident sp v => rw [chain_words k1 sp v h2]; rfl
        | _ => rfl
      · rw [k2 x h2] at hn; cases hn
    | same g1 g2 =>
      rw [List.mem_singleton] at h2
      subst h2
      refine ⟨hi x hp, hj.1 x hp, fun name hn => hu x hp name hn ?_⟩
      rcases hc with hc | rfl
      · rw [← hk x hp name hn]; exact g1 hc name hn
      · rfl
    | range _ g2 =>
      have key : ∀ {v op : Bytes} {val : Value} {p : MQPart}, op ∈ [b!"<", b!"<=", b!">", b!">="] → BoundPart env.fo v val op p → ∃ nm val, p = .plain ⟨0, 0⟩ ⟨0, 0⟩ nm val ∧ p.custom? = none := by
        intro v op val p hop hb
        have hmin : ∀ {v val p}, IsMin v val p → ∃ nm val, p = .plain ⟨0, 0⟩ ⟨0, 0⟩ nm val ∧ p.custom? = none := by
          rintro v val p rfl
          refine ⟨_, _, rfl, ?_⟩
          cases val <;> simp [MQPart.custom?]
        have hmax : ∀ {v val p}, IsMax v val p → ∃ nm val, p = .plain ⟨0, 0⟩ ⟨0, 0⟩ nm val ∧ p.custom? = none := by
          rintro v val p rfl
          refine ⟨_, _, rfl, ?_⟩
          cases val <;> simp [MQPart.custom?]
        cases hb with
        | le h => exact hmin h
        | ge h => exact hmax h
        | lt _ h => exact hmin h
        | gt _ h => exact hmax h
        | bad h => exact (h hop).elim
      have hops := (hi _ hp).2
      have hop : ∀ {op : Bytes}, (op = b!"<=" ∨ op = b!">=" ∨ (op = b!"<" ∨ op = b!">")) → op ∈ [b!"<", b!"<=", b!">", b!">="] ∧ flipOp op ∈ [b!"<", b!"<=", b!">", b!">="] := by
        rintro op (rfl | rfl | rfl | rfl) <;> decide
      have hok := hop (hops.imp_right (Or.imp_right And.left))
      have done : ∀ {y : MQPart}, (∃ nm val, y = .plain ⟨0, 0⟩ ⟨0, 0⟩ nm val ∧ y.custom? = none) → y.Interval B env.fo ∧ y.isOr = false ∧
          ∀ name, y.custom? = some name → ∀ a ss, IsFile env a ss → lastDef (mediaDefs ss.nodes) name = none := by
        rintro y ⟨nm, val, rfl, hcu⟩
        exact ⟨trivial, rfl, fun name hn => by rw [hcu] at hn; cases hn⟩
      cases g2 with
      | neither => cases h2
      | left _ hb => rw [List.mem_singleton] at h2; subst h2; exact done (key hok.1 hb)
      | right _ hb => rw [List.mem_singleton] at h2; subst h2; exact done (key hok.2 hb)
      | both _ _ hb hb' =>
        rcases List.mem_cons.1 h2 with rfl | h2
        · exact done (key hok.1 hb)
        rcases List.mem_cons.1 h2 with rfl | h2
        · exact ⟨trivial, rfl, fun name hn => by cases hn⟩
        · rw [List.mem_singleton] at h2; subst h2; exact done (key hok.2 hb')
  refine ⟨fun p hp => (hpart p hp).1, ⟨fun p hp => (hpart p hp).2.1, fun sp p e => ?_⟩, fun p hp => (hpart p hp).2.2⟩
  have hl : ∀ p ∈ q.parts, ∀ out, MQPartPiece env.fo o before p out →
      Lowered (B.cond (defs.map fun d => (d.1, d.2.bare))) (B.cond []) p.bare (out.map MQPart.bare) :=
    fun p hp out hR => (part_lowered hR hc (fun d hd' => (hd d hd').1) (hi p hp) (hk p hp)).1
  have hword : ∀ p ∈ q.parts, ∀ out, MQPartPiece env.fo o before p out → out ≠ [] ∧
      (p.isFeature = false → out = [p]) ∧ (p.isFeature = true → ∀ x xs, out = x :: xs → x.isFeature = true) := by
    intro p hp out hR
    have k := hl p hp out hR
    refine ⟨fun e => k.ne (by rw [e]; rfl), fun hf => ?_, fun hf x xs e => ?_⟩
    · obtain ⟨sp, v, rfl⟩ := word_of_not hf
      cases hR with
      | custom _ h _ => cases h
      | same => rfl
    · obtain ⟨y, ys, e2, hy⟩ := chain_head (k.feature (by rw [isFeature_bare, hf])).1
      rw [e, List.map_cons] at e2
      injection e2 with e3 _
      rw [← isFeature_bare, e3, hy]
  rw [e] at h
  generalize hqp : q.parts = qp at h hword hj
  clear hpart hl hmem
  cases h' : p.isFeature with
  | false => rfl
  | true =>
    exfalso
    generalize hout : [MQPart.ident sp b!"not", p] = out at h
    cases h with
    | nil => cases hout
    | @cons x xs o1 o2 hx hxs =>
      obtain ⟨n1, n2, n3⟩ := hword x (List.mem_cons_self ..) o1 hx
      cases hxf : x.isFeature with
      | true =>
        cases o1 with
        | nil => exact n1 rfl
        | cons y ys =>
          have := n3 hxf y ys rfl
          rw [List.cons_append] at hout
          injection hout with e1 _
          rw [← e1] at this
          cases this
      | false =>
        have e1 := n2 hxf
        subst e1
        rw [List.cons_append, List.nil_append] at hout
        injection hout with e1 e2
        cases hxs with
        | nil => cases e2
        | @cons y ys o3 o4 hy hys =>
          obtain ⟨m1, m2, m3⟩ := hword y (by simp) o3 hy
          have e3 : o3 = [p] ∧ o4 = [] := by
            cases o3 with
            | nil => exact (m1 rfl).elim
            | cons z zs =>
              rw [List.cons_append] at e2
              injection e2 with e4 e5
              have := List.append_eq_nil_iff.1 e5.symm
              exact ⟨by rw [e4, this.1], this.2⟩
          have hys0 : ys = [] := by
            cases hys with
            | nil => rfl
            | @cons z zs o5 o6 hz _ =>
              have := List.append_eq_nil_iff.1 e3.2
              exact ((hword z (by simp) o5 hz).1 this.1).elim
          subst hys0
          have hyf : y.isFeature = false := hj.2 sp y (by rw [hqp, ← e1])
          have := m2 hyf
          rw [e3.1] at this
          injection this with e6 _
          rw [e6, hyf] at h'
          cases h'

/-- What a piece of a list of nodes says of its place. -/
theorem pieces_at {fo : FloatOps} {o : TOpts} {pre ns out : List Node} (h : NodePieces fo o pre ns out) :
    ∀ y ∈ out, ∃ p n post o1, ns = p ++ n :: post ∧ NodePiece fo o (pre ++ p) n o1 ∧ y ∈ o1 := by
  induction h with
  | nil => intro y hy; cases hy
  | @cons pre ns o1 o2 n hn _ ih =>
    intro y hy
    rcases List.mem_append.1 hy with hy | hy
    · exact ⟨[], n, ns, o1, rfl, by rw [List.append_nil]; exact hn, hy⟩
    · obtain ⟨p, n', post, o3, rfl, h2, h3⟩ := ih y hy
      exact ⟨n :: p, n', post, o3, rfl, by rw [List.append_assoc] at h2; exact h2, h3⟩

theorem sel_count {o : TOpts} {s : Sel} {out : List Sel} (h : SelPiece o s out) (hc : s.parts.countP SelPart.anyLink ≤ 1) :
    ∀ t ∈ out, t.parts.countP SelPart.anyLink ≤ 1 := by
  cases h with
  | same => intro t ht; rw [List.mem_singleton] at ht; subst ht; exact hc
  | split ho _ h1 _ _ =>
    obtain ⟨sp, parts⟩ := s
    have key : ∀ name, name = b!"link" ∨ name = b!"visited" → ∀ ps : List SelPart, (ps.map (SelPart.linkAs name)).countP SelPart.anyLink ≤ ps.countP SelPart.anyLink := by
      intro name hn ps
      rw [List.countP_map]
      refine List.countP_mono_left fun p _ hp => ?_
      simp only [Function.comp, SelPart.linkAs] at hp
      split at hp
      · assumption
      · exact hp
    intro t ht
    rcases h1 t ht with rfl | rfl
    · exact Nat.le_trans (key _ (.inl rfl) parts) hc
    · exact Nat.le_trans (key _ (.inr rfl) parts) hc

theorem pieces_mem {R : α → List α → Prop} {l out : List α} (h : Pieces R l out) : ∀ y ∈ out, ∃ x ∈ l, ∃ o1, R x o1 ∧ y ∈ o1 := by
  induction h with
  | nil => intro y hy; cases hy
  | @cons x xs o1 o2 hx _ ih =>
    intro y hy
    rcases List.mem_append.1 hy with hy | hy
    · exact ⟨x, List.mem_cons_self .., o1, hx, hy⟩
    · obtain ⟨z, hz, k⟩ := ih y hy
      exact ⟨z, List.mem_cons_of_mem _ hz, k⟩

/-- Nodes that can be lowered each by itself, with the definitions `defs` in them. -/
structure Fore (B : Browser) (env : CEnv) (flat : List Node) : Prop where
  imports : ∀ n ∈ flat, n.isImport = false
  custom : env.opts.customMediaQueries = true ∨ mediaDefs flat = []
  links : ∀ r l, .rule r ∈ flat → r.prelude = .sels l → ∀ s ∈ l.sels, s.parts.countP SelPart.anyLink ≤ 1
  definitions : ∀ d ∈ mediaDefs flat, d.2.Definition ∧ ∀ p ∈ d.2.parts, p.Interval B env.fo
  queries : ∀ pre a post l rest, flat = pre ++ .at a :: post → a.name = b!"media" → a.preludes = .mql (some l) :: rest →
    ∀ q ∈ l.queries, (∀ p ∈ q.parts, p.Interval B env.fo) ∧ q.Joinable ∧
      ∀ p ∈ q.parts, ∀ name, p.custom? = some name → lastDef (mediaDefs pre) name = lastDef (mediaDefs flat) name ∧
        (lastDef (mediaDefs flat) name = none → ∀ a ss, IsFile env a ss → lastDef (mediaDefs ss.nodes) name = none)

theorem Fore.lowerable {B : Browser} {env : CEnv} {flat : List Node} (h : Fore B env flat) : Lowerable B env.fo env.opts flat where
  custom := h.custom
  links := h.links
  definitions d hd := (h.definitions d hd).1
  queries pre a post l rest e hn hp q hq :=
    have k := h.queries pre a post l rest e hn hp q hq
    ⟨k.1, fun p hp name hc => (k.2.2 p hp name hc).1, .inr k.2.1⟩

/-- They become nodes that can be lowered again. -/
theorem Fore.rest {B : Browser} {env : CEnv} {flat out : List Node} (h : Fore B env flat) (hp : NodePieces env.fo env.opts [] flat out) :
    Rest B env out := by
  refine ⟨pieces_noDefs hp, fun y hy => ?_, fun r l hy hl => ?_, fun a l rest hy hn ha => ?_⟩
  · obtain ⟨p, n, post, o1, e, h1, h2⟩ := pieces_at hp y hy
    have hi := h.imports n (by rw [e]; simp)
    cases h1 with
    | emptyRule => cases h2
    | customMedia => cases h2
    | other => rw [List.mem_singleton] at h2; subst h2; exact hi
    | rule => rw [List.mem_singleton] at h2; subst h2; rfl
    | media => rw [List.mem_singleton] at h2; subst h2; rfl
  · obtain ⟨p, n, post, o1, e, h1, h2⟩ := pieces_at hp _ hy
    cases h1 with
    | emptyRule => cases h2
    | customMedia => cases h2
    | other => simp at h2
    | media => simp at h2
    | @rule sp bsp lsp sels sels' decls ds ds' defs _ _ _ h4 _ =>
      rw [List.mem_singleton] at h2
      cases h2
      cases hl
      intro s hs
      obtain ⟨x, hx, o2, k1, k2⟩ := pieces_mem h4 s hs
      exact sel_count k1 (h.links _ _ (by rw [e]; exact List.mem_append_right _ (List.mem_cons_self ..)) rfl x hx) s k2
  · obtain ⟨p, n, post, o1, e, h1, h2⟩ := pieces_at hp _ hy
    cases h1 with
    | emptyRule => cases h2
    | customMedia => cases h2
    | rule => simp at h2
    | other _ h4 =>
      rw [List.mem_singleton] at h2
      cases h2
      exact (h4 hn).elim
    | @media src sp lsp qs qs' rst block h4 =>
      rw [List.mem_singleton] at h2
      cases h2
      cases ha
      intro q hq
      obtain ⟨x, hx, o2, k1, k2⟩ := pieces_mem h4 q hq
      have k := h.queries p _ post _ _ e rfl rfl x hx
      cases k1 with
      | @mk sp ps ps' k1 =>
        rw [List.mem_singleton] at k2
        subst k2
        rw [List.nil_append] at k1
        exact mq_rest (q := ⟨sp, ps⟩) k1 h.custom h.definitions k.1 k.2.1 (fun p hp name hc => (k.2.2 p hp name hc).1)
          (fun p hp name hc => (k.2.2 p hp name hc).2)

/-! ### Putting files together -/

theorem inlined_same {m : List (AtId × Stylesheet)} {ns flat : List Node} (h : Inlined m ns flat) (hi : ∀ n ∈ ns, n.isImport = false) : flat = ns := by
  induction h with
  | nil => rfl
  | rule _ ih => rw [ih fun n hn => hi n (List.mem_cons_of_mem _ hn)]
  | keep _ _ ih => rw [ih fun n hn => hi n (List.mem_cons_of_mem _ hn)]
  | @replace a ss ns f1 f2 ha _ _ _ _ _ =>
    have := hi (.at a) (List.mem_cons_self ..)
    rw [Node.isImport, ha] at this
    cases this

/-- Where the nodes of a file come from, whose imports were replaced by what is left of other files. -/
theorem inlined_from {B : Browser} {env : CEnv} {m : List (AtId × Stylesheet)} {ns flat : List Node} (h : Inlined m ns flat) :
    (∀ r, .at r ∈ ns → r.name = b!"import" → ∃ ss, replacement m r = some ss ∧ Rest B env ss.nodes) →
    mediaDefs flat = mediaDefs ns ∧ ∀ pre n post, flat = pre ++ n :: post →
      (n.isImport = false ∧ ∃ p q, ns = p ++ n :: q ∧ mediaDefs pre = mediaDefs p) ∨ ∃ c, Rest B env c ∧ n ∈ c := by
  have stay : ∀ {n : Node} {ns flat : List Node}, n.isImport = false → (mediaDefs flat = mediaDefs ns ∧ ∀ pre n post, flat = pre ++ n :: post →
      (n.isImport = false ∧ ∃ p q, ns = p ++ n :: q ∧ mediaDefs pre = mediaDefs p) ∨ ∃ c, Rest B env c ∧ n ∈ c) →
      mediaDefs (n :: flat) = mediaDefs (n :: ns) ∧ ∀ pre x post, n :: flat = pre ++ x :: post →
      (x.isImport = false ∧ ∃ p q, n :: ns = p ++ x :: q ∧ mediaDefs pre = mediaDefs p) ∨ ∃ c, Rest B env c ∧ x ∈ c := by
    rintro n ns flat hn ⟨h1, h2⟩
    refine ⟨by rw [mediaDefs_cons, h1, ← mediaDefs_cons], fun pre x post e => ?_⟩
    cases pre with
    | nil =>
      cases e
      exact .inl ⟨hn, [], ns, rfl, rfl⟩
    | cons y pre =>
      rw [List.cons_append] at e
      injection e with e1 e2
      subst e1
      rcases h2 pre x post e2 with ⟨g1, p, q, g2, g3⟩ | g
      · exact .inl ⟨g1, n :: p, q, by rw [g2]; rfl, by rw [mediaDefs_cons, g3, ← mediaDefs_cons]⟩
      · exact .inr g
  induction h with
  | nil => exact fun _ => ⟨rfl, fun pre n post e => by simp at e⟩
  | rule _ ih => exact fun H => stay rfl (ih fun r hr => H r (List.mem_cons_of_mem _ hr))
  | @keep a ns flat ha _ ih =>
    intro H
    refine stay ?_ (ih fun r hr => H r (List.mem_cons_of_mem _ hr))
    by_cases hn : a.name = b!"import"
    · obtain ⟨ss, h1, _⟩ := H a (List.mem_cons_self ..) hn
      rw [ha hn] at h1
      cases h1
    · simpa [Node.isImport] using hn
  | @replace a ss ns f1 f2 ha hr hf _ _ ih =>
    intro H
    obtain ⟨ss', h1, h2⟩ := H a (List.mem_cons_self ..) ha
    rw [hr] at h1
    cases h1
    have hs := inlined_same hf h2.imports
    subst hs
    obtain ⟨g1, g2⟩ := ih fun r hr => H r (List.mem_cons_of_mem _ hr)
    have hno : mediaDefs [Node.at a] = [] := by
      simp [mediaDefs, Node.customMedia?, AtRule.customMedia?, ha]
    refine ⟨by rw [mediaDefs_append, h2.defs, g1, mediaDefs_cons, hno], fun pre n post e => ?_⟩
    rcases List.append_eq_append_iff.1 e with ⟨as, e1, e2⟩ | ⟨bs, e1, e2⟩
    · rcases g2 as n post e2 with ⟨k1, p, q, k2, k3⟩ | k
      · exact .inl ⟨k1, .at a :: p, q, by rw [k2]; rfl, by rw [e1, mediaDefs_append, h2.defs, mediaDefs_cons, hno, k3]⟩
      · exact .inr k
    · cases bs with
      | nil =>
        rw [List.append_nil] at e1
        rw [List.nil_append] at e2
        rcases g2 [] n post e2.symm with ⟨k1, p, q, k2, k3⟩ | k
        · exact .inl ⟨k1, .at a :: p, q, by rw [k2]; rfl, by rw [← e1, h2.defs, mediaDefs_cons, hno, ← k3]; rfl⟩
        · exact .inr k
      | cons b bs =>
        rw [List.cons_append] at e2
        injection e2 with e3 e4
        subst e3
        exact .inr ⟨_, h2, by rw [e1]; simp⟩

/-- A file of a lucid project can be lowered when its imports have been. -/
theorem lucid_fore {B : Browser} {env : CEnv} (hw : Lucid B env) {a : Bytes} {ss : Stylesheet} (hf : IsFile env a ss)
    {m : List (AtId × Stylesheet)} {flat : List Node} (h : Inlined m ss.nodes flat)
    (H : ∀ r, .at r ∈ ss.nodes → r.name = b!"import" → ∃ ss, replacement m r = some ss ∧ Rest B env ss.nodes) : Fore B env flat := by
  obtain ⟨h1, h2⟩ := inlined_from (B := B) (env := env) h H
  have hmem : ∀ n ∈ flat, (n.isImport = false ∧ n ∈ ss.nodes) ∨ ∃ c, Rest B env c ∧ n ∈ c := by
    intro n hn
    obtain ⟨pre, post, e⟩ := List.append_of_mem hn
    rcases h2 pre n post e with ⟨k1, p, q, k2, -⟩ | k
    · exact .inl ⟨k1, by rw [k2]; simp⟩
    · exact .inr k
  refine ⟨fun n hn => ?_, ?_, fun r l hr hl => ?_, fun d hd => ?_, fun pre r post l rest e hn hp q hq => ?_⟩
  · rcases hmem n hn with k | ⟨c, k1, k2⟩
    · exact k.1
    · exact k1.imports n k2
  · rw [h1]
    exact hw.custom.imp_right fun k => k a ss hf
  · rcases hmem _ hr with k | ⟨c, k1, k2⟩
    · exact hw.links a ss r l hf k.2 hl
    · exact k1.links r l k2 hl
  · rw [h1] at hd
    exact hw.definitions a ss hf d hd
  · rw [h1]
    rcases h2 pre _ post e with ⟨k1, p, q', k2, k3⟩ | ⟨c, k1, k2⟩
    · obtain ⟨g1, g2, g3⟩ := hw.queries a ss p r q' l rest hf k2 hn hp q hq
      refine ⟨g1, g2, fun x hx name hc => ⟨by rw [k3]; exact g3 x hx name hc, fun hno b ss2 hb => ?_⟩⟩
      cases hd : lastDef (mediaDefs ss2.nodes) name with
      | none => rfl
      | some d =>
        obtain ⟨q'', e1, -⟩ := hw.own a ss b ss2 (.at r) name d hf hb (by rw [k2]; simp) ⟨r, l, rest, q, x, rfl, hn, hp, hq, hx, hc⟩ hd
        rw [hno] at e1
        cases e1
    · have k := k1.queries r l rest k2 hn hp q hq
      refine ⟨k.interval, k.joinable, fun x hx name hc => ?_⟩
      have hno := k.unknown x hx name hc
      have hown := hno a ss hf
      refine ⟨?_, fun _ => hno⟩
      rw [hown]
      cases hpre : lastDef (mediaDefs pre) name with
      | none => rfl
      | some d =>
        exfalso
        have hin : (name, d) ∈ mediaDefs ss.nodes := by
          rw [← h1, e, mediaDefs_append]
          exact List.mem_append_left _ (lastDef_key hpre)
        exact lastDef_some hin hown

end Cssc
