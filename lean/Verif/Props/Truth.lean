import Verif.Proofs.CompileMade
import Verif.Props.Compile
import Verif.Props.Printer
import Verif.Proofs.Renumber

/-!
# Compile: what is reported and written is true (C78, C79)
-/

namespace Cssc

/-! ### The numbers of the files -/

/-- No number has been given twice, and the next number is free. -/
def Numbered (sh : Shared) : Prop :=
  Distinct sh ∧ ∀ a i, (a, i) ∈ sh.sources → i < sh.nextIndex

theorem Numbered.same {sh sh' : Shared} (h : Numbered sh) (h1 : sh'.sources = sh.sources) (h2 : sh'.nextIndex = sh.nextIndex) :
    Numbered sh' := by
  unfold Numbered Distinct at h ⊢
  rw [h1, h2]; exact h

theorem seqAdd_numbered {env : CEnv} {sh sh' : Shared} {path abs : Bytes} {r : Option Nat} (hn : Numbered sh)
    (h : seqAdd env sh path abs = (sh', r)) : Numbered sh' := by
  unfold seqAdd at h
  cases hl : lookupMap sh.sources abs with
  | some i => rw [hl] at h; cases h; exact hn
  | none =>
    rw [hl] at h
    cases hr : env.read abs with
    | none => rw [hr] at h; cases h; exact Numbered.same hn rfl rfl
    | some c =>
      rw [hr] at h; cases h
      refine ⟨?_, fun a i ha => ?_⟩
      · show ((abs, sh.nextIndex) :: sh.sources |>.map Prod.snd).Nodup
        rw [List.map_cons, List.nodup_cons]
        refine ⟨fun hm => ?_, hn.1⟩
        obtain ⟨⟨a, i⟩, h1, h2⟩ := List.mem_map.1 hm
        have := hn.2 a i h1
        cases h2
        exact Nat.lt_irrefl _ this
      · rcases List.mem_cons.1 ha with ha | ha
        · cases ha; exact Nat.lt_succ_self _
        · exact Nat.lt_succ_of_lt (hn.2 _ _ ha)

theorem seqImports_numbered {env : CEnv} {rec : Shared → Bytes → Option (Shared × Option Stylesheet)} {dir : Bytes}
    (hrec : ∀ {sh p sh' r}, Numbered sh → rec sh p = some (sh', r) → Numbered sh') :
    ∀ {imps : List ImportSpec} {sh sh' : Shared} {repl repl' : List (AtId × Stylesheet)}, Numbered sh →
      seqImports env rec dir imps sh repl = some (sh', repl') → Numbered sh' := by
  intro imps
  induction imps with
  | nil => intro sh sh' repl repl' hn h; cases h; exact hn
  | cons imp imps ih =>
    intro sh sh' repl repl' hn h
    unfold seqImports at h
    rcases hr : env.resolve imp.value dir with _ | rel <;> rw [hr] at h <;> dsimp only at h
    · refine ih ?_ h
      exact Numbered.same hn rfl rfl
    · rcases hc : rec sh rel with _ | ⟨sh1, _ | ss⟩ <;> rw [hc] at h <;> dsimp only at h
      · cases h
      · exact ih (hrec hn hc) h
      · exact ih (hrec hn hc) h

theorem seqParsed_numbered {env : CEnv} {rec : Shared → Bytes → Option (Shared × Option Stylesheet)}
    (hrec : ∀ {sh p sh' r}, Numbered sh → rec sh p = some (sh', r) → Numbered sh') {sh sh' : Shared} {i : Nat}
    {r : Option Stylesheet} (hn : Numbered sh) (h : seqParsed env rec sh i = some (sh', r)) : Numbered sh' := by
  unfold seqParsed at h
  cases ha : lookupMap sh.asts i with
  | some ss => rw [ha] at h; cases h; exact hn
  | none =>
    rw [ha] at h
    obtain ⟨addr, _, h⟩ := Option.bind_eq_some_iff.1 h
    obtain ⟨source, _, h⟩ := Option.bind_eq_some_iff.1 h
    dsimp only at h
    rcases hp : parse env.fuel source.content sh.parses.length with ⟨ss, lines⟩ | ⟨e, lines⟩ | _ | _ <;> rw [hp] at h <;>
      dsimp only at h
    · obtain ⟨⟨sh1, repl⟩, h1, h⟩ := Option.bind_eq_some_iff.1 h
      have hn1 : Numbered sh1 := by
        refine seqImports_numbered hrec ?_ h1
        exact Numbered.same hn rfl rfl
      dsimp only at h
      rcases ht : transform env.fo env.opts (if env.opts.importRules = .inline then some repl else none) env.fuel ss
        with ⟨ss', s⟩ | _ | _ <;> rw [ht] at h <;> cases h
      exact hn1.same rfl rfl
    · cases h; exact Numbered.same hn rfl rfl
    · cases h
    · cases h

theorem seqFile_numbered {env : CEnv} : ∀ {n : Nat} {out : Bool} {sh sh' : Shared} {path : Bytes} {r : Option Stylesheet},
    Numbered sh → seqFile env n out sh path = some (sh', r) → Numbered sh' := by
  intro n
  induction n with
  | zero => intro out sh sh' path r _ h; cases h
  | succ n ih =>
    intro out sh sh' path r hn h
    unfold seqFile at h
    cases ha : env.abs path with
    | none => rw [ha] at h; cases h; exact Numbered.same hn rfl rfl
    | some abs =>
      rw [ha] at h
      dsimp only at h
      rcases hs : seqAdd env sh path abs with ⟨sh1, _ | i⟩ <;> rw [hs] at h <;> dsimp only at h
      · cases h; exact seqAdd_numbered hn hs
      · refine seqParsed_numbered ih (sh := if out then { sh1 with outputs := i :: sh1.outputs } else sh1) ?_ h
        cases out
        · exact seqAdd_numbered hn hs
        · exact (seqAdd_numbered hn hs).same rfl rfl

theorem seqEntries_numbered {env : CEnv} {n : Nat} : ∀ {es : List Bytes} {sh sh' : Shared}, Numbered sh →
    seqEntries env n es sh = some sh' → Numbered sh' := by
  intro es
  induction es with
  | nil => intro sh sh' hn h; cases h; exact hn
  | cons e es ih =>
    intro sh sh' hn h
    obtain ⟨⟨sh1, r⟩, h1, h⟩ := Option.bind_eq_some_iff.1 h
    exact ih (seqFile_numbered hn h1) h

theorem seqPrint_numbered : ∀ {is : List Nat} {sh sh' : Shared}, Numbered sh → seqPrint is sh = some sh' → Numbered sh' := by
  intro is
  induction is with
  | nil => intro sh sh' hn h; cases h; exact hn
  | cons i is ih =>
    intro sh sh' hn h
    unfold seqPrint at h
    split at h
    · split at h
      · refine ih ?_ h
        exact Numbered.same hn rfl rfl
      · refine ih ?_ h
        exact Numbered.same hn rfl rfl
      · cases h
    · exact ih hn h

/-- One file after the other: no number is given twice. -/
theorem seqCompile_distinct {env : CEnv} {n : Nat} {sh : Shared} (h : seqCompile env n = some sh) : Distinct sh := by
  obtain ⟨sh1, h1, h2⟩ := Option.bind_eq_some_iff.1 h
  exact (seqPrint_numbered (seqEntries_numbered ⟨by simp [Distinct, Shared.init], by simp [Shared.init]⟩ h1) h2).1

/-! ### C78 -/

/-- C78 under every schedule, but for one thing: what is found by printing may be a problem of the stylesheet of
another file, and what is found by transforming may be one of a stylesheet that has been put in for the wrong import. -/
theorem errors_true_partial {env : CEnv} {st : CSt} (h : Reached env st) : ∀ e ∈ st.sh.errors, TrueErr env False e :=
  (h.inv2 fun h => h.elim).errors

/-- C78 under every schedule in which no number is given twice. -/
theorem errors_true_distinct_partial {env : CEnv} {st : CSt} (h : Reached env st) (hd : Distinct st.sh) :
    ∀ e ∈ st.sh.errors, TrueErr env True e :=
  (h.inv2 fun _ => hd).errors

/-- C78 for a sequential compilation. -/
theorem errors_true_seq_partial {env : CEnv} {n : Nat} {sh : Shared} (h : seqCompile env n = some sh) :
    ∀ e ∈ sh.errors, TrueErr env True e := by
  obtain ⟨st, h1, -, rfl⟩ := seqCompile_reach h
  exact errors_true_distinct_partial h1 (seqCompile_distinct h)

/-- Nothing is wrong: then nothing is reported.  If all that is looked at can be read, parsed, resolved, transformed without
reports and printed, no schedule in which the numbers are distinct reports anything. -/
theorem no_false_alarm_partial {env : CEnv} {st : CSt} (h : Reached env st) (hd : Distinct st.sh)
    (h1 : ∀ p, Asked env p → ∃ a c ss lines, env.abs p = some a ∧ env.read a = some c ∧ parse env.fuel c = .ok ss lines ∧
      ∀ imp ∈ ss.imports, (env.resolve imp.value (dirOf a)).isSome)
    (h2 : ∀ a ss log, Made env True a ss log → log = [] ∧ print none ss ≠ .error) :
    st.sh.errors = [] := by
  cases he : st.sh.errors with
  | nil => rfl
  | cons e es =>
    cases errors_true_distinct_partial h hd e (by rw [he]; exact List.mem_cons_self ..) with
    | fails ha hf =>
      obtain ⟨a, c, ss, lines, b1, b2, b3, _⟩ := h1 _ ha
      cases hf with
      | abs h => rw [b1] at h; cases h
      | read h h' => rw [b1] at h; cases h; rw [b2] at h'; cases h'
      | parse h h' h'' => rw [b1] at h; cases h; rw [b2] at h'; cases h'; rw [b3] at h''; cases h''
    | resolve ha c1 c2 c3 c4 c5 =>
      obtain ⟨a, c, ss, lines, b1, b2, b3, b4⟩ := h1 _ ha
      rw [c1] at b1; cases b1
      rw [c2] at b2; cases b2
      obtain ⟨ss2, h10, h11⟩ := parse_ok_id c3
      rw [b3] at h10; cases h10
      rw [h11] at c4
      obtain ⟨imp0, h12, h13⟩ := List.mem_map.1 c4
      have := b4 imp0 h12
      rw [← h13] at c5
      rw [show env.resolve imp0.value _ = none from c5] at this
      cases this
    | transform hm hr =>
      rw [(h2 _ _ _ hm).1] at hr; cases hr
    | print _ _ _ hm _ hb => exact absurd (hb trivial).2 (h2 _ _ _ hm).2

/-- Two entries, one of them blank. -/
def oneBlank : CEnv := exEnv [b!"a", b!"b"] .passthrough [(b!"/a", b!"x{y:z}"), (b!"/b", b!"          ")]

/-- Each file of `oneBlank` is parsed, has no imports, only plain rules, and can be printed. -/
theorem oneBlank_parsed {a c : Bytes} (h : oneBlank.read a = some c) :
    ∃ ss lines, parse oneBlank.fuel c = .ok ss lines ∧ ss.imports = [] ∧ (∀ nd ∈ ss.nodes, plainRule nd = true) ∧
      print none ss ≠ .error := by
  have hall : ([(b!"/a", b!"x{y:z}"), (b!"/b", b!"          ")].all fun f => match parse oneBlank.fuel f.2 with
      | .ok ss _ => ss.imports.isEmpty && ss.nodes.all plainRule && (match print none ss with | .error => false | _ => true)
      | _ => false) = true := by decide +kernel
  have := List.all_eq_true.1 hall (a, c) (lookupMap_mem h)
  dsimp only at this
  cases hp : parse oneBlank.fuel c with
  | ok ss l =>
    rw [hp] at this
    dsimp only at this
    simp only [Bool.and_eq_true] at this
    obtain ⟨⟨h1, h2⟩, h3⟩ := this
    refine ⟨ss, l, rfl, List.isEmpty_iff.1 h1, List.all_eq_true.1 h2, fun h => ?_⟩
    rw [h] at h3; cases h3
  | error e l => rw [hp] at this; cases this
  | panic => rw [hp] at this; cases this
  | timeout => rw [hp] at this; cases this

/-- Nothing is wrong with `oneBlank`: the hypotheses of `no_false_alarm_partial` are met. -/
theorem oneBlank_fine : (∀ p, Asked oneBlank p → ∃ a c ss lines, oneBlank.abs p = some a ∧ oneBlank.read a = some c ∧
      parse oneBlank.fuel c = .ok ss lines ∧ ∀ imp ∈ ss.imports, (oneBlank.resolve imp.value (dirOf a)).isSome) ∧
    ∀ a ss log, Made oneBlank True a ss log → log = [] ∧ print none ss ≠ .error := by
  constructor
  · intro p hp
    have hread : ∃ a c, oneBlank.abs p = some a ∧ oneBlank.read a = some c := by
      cases hp with
      | entry he =>
        have he : p ∈ [b!"a", b!"b"] := he
        rcases List.mem_cons.1 he with rfl | he
        · exact ⟨b!"/a", b!"x{y:z}", by decide, by decide⟩
        · cases List.mem_singleton.1 he
          exact ⟨b!"/b", b!"          ", by decide, by decide⟩
      | imp _ _ h3 h4 h5 _ =>
        obtain ⟨ss0, l0, b1, b2, _⟩ := oneBlank_parsed h3
        obtain ⟨ss1, a1, a2⟩ := parse_ok_id h4
        rw [b1] at a1; cases a1
        rw [a2] at h5
        obtain ⟨i, hi, -⟩ := List.mem_map.1 h5
        rw [b2] at hi; cases hi
    obtain ⟨a, c, h1, h2⟩ := hread
    obtain ⟨ss, l, b1, b2, _⟩ := oneBlank_parsed h2
    exact ⟨a, c, ss, l, h1, h2, b1, by rw [b2]; intro i hi; cases hi⟩
  · intro a ss log hm
    cases hm with
    | mk fileOf logOf h1 h2 h3 h4 h5 h6 h7 h8 =>
      obtain ⟨ss0, l0, b1, b2, b3, b4⟩ := oneBlank_parsed h3
      obtain ⟨ss1, a1, a2⟩ := parse_ok_id h4
      rw [b1] at a1; cases a1
      have hk : ∀ i, transform unitOps .default none 100 (ss0.setId i) = .ok (ss0.setId i) ⟨none, none, []⟩ := fun i =>
        default_unchanged_partial (n := 99) fun nd hnd => by
          obtain ⟨nd0, h3, rfl⟩ := List.mem_map.1 hnd
          exact plainRule_kept (b3 nd0 h3) i
      have h8' : transform unitOps .default none 100 _ = .ok ss _ := h8
      rw [a2, hk] at h8'
      cases h8'
      refine ⟨rfl, ?_⟩
      rw [print_plainIds (ss' := ss0) none (by unfold plainIds Stylesheet.setId; simp [setId_setId])]
      exact b4

example {st : CSt} (h : Reached oneBlank st) (hd : Distinct st.sh) : st.sh.errors = [] :=
  no_false_alarm_partial h hd oneBlank_fine.1 oneBlank_fine.2

theorem blank_parsed {ss : Stylesheet} {lines : List Nat} (h : parse 100 b!"          " = .ok ss lines) : ss = ⟨[], []⟩ := by
  have h1 : ((parse 100 b!"          ").sheet?.map fun x => (x.1.nodes.length, x.1.imports.length)) = some (0, 0) := by
    decide +kernel
  rw [h] at h1
  obtain ⟨nodes, imports⟩ := ss
  have h2 := Option.some.inj h1
  have h3 : nodes.length = 0 := congrArg Prod.fst h2
  have h4 : imports.length = 0 := congrArg Prod.snd h2
  rw [List.eq_nil_of_length_eq_zero h3, List.eq_nil_of_length_eq_zero h4]

/-- Nothing comes of the blank file. -/
theorem made_blank {files : List (Bytes × Bytes)} {entries : List Bytes} {S : Prop} {a : Bytes} {ss : Stylesheet}
    {log : List Report} (hr : lookupMap files a = some b!"          ") (h : Made (exEnv entries .passthrough files) S a ss log) :
    ss.nodes = [] := by
  cases h with
  | mk fileOf logOf h1 h2 h3 h4 h5 h6 h7 h8 =>
    have h3' : lookupMap files a = some _ := h3
    rw [hr] at h3'; cases h3'
    obtain ⟨ss0, a1, a2⟩ := parse_ok_id h4
    have a3 := blank_parsed a1
    rw [a2, a3] at h8
    have a4 : transform unitOps { TOpts.default with importRules := .passthrough } none 100 ⟨[], []⟩ = .ok ss _ := h8
    cases a4
    rfl

/-- C78 is false.  The goroutines for `/a` and `/b` take the same number; nothing is in `/b`, but it is
said not to be printable. -/
theorem errors_true_refuted : ∃ st, Reached oneBlank st ∧ st.main = .done ∧ ∃ e ∈ st.sh.errors, ¬ TrueErr oneBlank True e := by
  obtain ⟨st, h1, h2⟩ := reach_of_check (env := oneBlank)
    (cs := [.main] ++ steps 0 4 ++ [.main] ++ steps 1 4 ++ steps 0 40 ++ steps 1 40 ++ [.main, .main, .print 0, .main])
    (f := fun st => decide (st.main = .done ∧ st.sh.errors = [.print b!"/b"])) (by decide +kernel)
  obtain ⟨h2, h3⟩ := of_decide_eq_true h2
  refine ⟨st, h1, h2, _, by rw [h3]; exact List.mem_singleton.2 rfl, fun h => ?_⟩
  cases h with
  | fails _ hf => cases hf
  | print h4 h5 h6 hm _ hb =>
    obtain ⟨hb, hp⟩ := hb trivial
    cases hb
    have := made_blank (by decide) hm
    unfold print at hp
    rw [this] at hp
    cases hp

def CompErr.kind : CompErr → Nat
  | .abs _ => 0
  | .read _ => 1
  | .resolve _ _ => 2
  | .parse _ _ => 3
  | .transform _ _ => 4
  | .print _ => 5

/-- A file that is missing, one that cannot be parsed, one that imports it, and one that cannot be printed. -/
def fourErrors : CEnv :=
  exEnv [b!"a", b!"b", b!"c", b!"d"] .inline
    [(b!"/b", b!"@import;"), (b!"/c", b!"@import \"b\";"), (b!"/d", b!"a{b:calc(())}")]

/-- Errors reported one file after the other. -/
example : ∃ st, Reached fourErrors st ∧ st.main = .done ∧ Distinct st.sh ∧ st.sh.errors.map CompErr.kind = [1, 3, 3, 5] := by
  have h : ((seqCompile fourErrors 10).map fun sh => sh.errors.map CompErr.kind) = some [1, 3, 3, 5] := by decide +kernel
  obtain ⟨sh, h1, h2⟩ := Option.map_eq_some_iff.1 h
  obtain ⟨st, h3, h4, rfl⟩ := seqCompile_reach h1
  exact ⟨st, h3, h4, seqCompile_distinct h1, h2⟩

/-! ### C79 -/

/-- C79 under every schedule, but for one thing: the stylesheet written may be that of another file that is looked at. -/
theorem written_true_partial {env : CEnv} {st : CSt} (h : Reached env st) {a out : Bytes} (hf : (a, out) ∈ st.sh.files) :
    ∃ p c b ss log lines, Asked env p ∧ env.abs p = some a ∧ env.read a = some c ∧ Made env False b ss log ∧
      print (some ⟨a, c, lines⟩) ss = .ok out := by
  obtain ⟨p, c, b, ss, log, lines, h1, h2, h3, h4, -, h5⟩ := (h.inv2 (S := False) fun h => h.elim).files a out hf
  exact ⟨p, c, b, ss, log, lines, h1, h2, h3, h4, h5⟩

/-- C79 under every schedule in which no number is given twice. -/
theorem written_true_distinct_partial {env : CEnv} {st : CSt} (h : Reached env st) (hd : Distinct st.sh) {a out : Bytes}
    (hf : (a, out) ∈ st.sh.files) :
    ∃ p c ss log lines, Asked env p ∧ env.abs p = some a ∧ env.read a = some c ∧ Made env True a ss log ∧
      print (some ⟨a, c, lines⟩) ss = .ok out := by
  obtain ⟨p, c, b, ss, log, lines, h1, h2, h3, h4, hb, h5⟩ := (h.inv2 fun _ => hd).files a out hf
  cases (hb trivial).1
  exact ⟨p, c, ss, log, lines, h1, h2, h3, h4, h5⟩

/-- C79 for a sequential compilation. -/
theorem written_true_seq_partial {env : CEnv} {n : Nat} {sh : Shared} (h : seqCompile env n = some sh) {a out : Bytes}
    (hf : (a, out) ∈ sh.files) :
    ∃ p c ss log lines, Asked env p ∧ env.abs p = some a ∧ env.read a = some c ∧ Made env True a ss log ∧
      print (some ⟨a, c, lines⟩) ss = .ok out := by
  obtain ⟨st, h1, -, rfl⟩ := seqCompile_reach h
  exact written_true_distinct_partial h1 (seqCompile_distinct h) hf

/-- C79 is false.  The goroutines for `/a` and `/b` take the same number.  What is written for the blank file `/b` is
made of `/a`; for `/a` nothing is written, and nothing is reported. -/
theorem written_true_refuted : ∃ st, Reached oneBlank st ∧ st.main = .done ∧ st.sh.errors = [] ∧
    lookupMap st.sh.files b!"/a" = none ∧ ∃ out, (b!"/b", out) ∈ st.sh.files ∧
      ∀ ss log source, Made oneBlank False b!"/b" ss log → print (some source) ss ≠ .ok out := by
  obtain ⟨st, h1, h2⟩ := reach_of_check (env := oneBlank)
    (cs := [.main] ++ steps 0 4 ++ [.main] ++ steps 1 4 ++ steps 0 8 ++ steps 1 40 ++ steps 0 40 ++ [.main, .main, .print 0, .main])
    (f := fun st => decide (st.main = .done ∧ st.sh.errors = [] ∧ lookupMap st.sh.files b!"/a" = none ∧
      (st.sh.files.map fun kv => (kv.1, kv.2.take 6)) = [(b!"/b", b!"x{y:z}")])) (by decide +kernel)
  obtain ⟨h2, h3, h4, h5⟩ := of_decide_eq_true h2
  obtain ⟨⟨k, out⟩, h6, h7⟩ := List.mem_map.1 (by rw [h5]; exact List.mem_singleton.2 rfl :
    (b!"/b", b!"x{y:z}") ∈ st.sh.files.map fun kv => (kv.1, kv.2.take 6))
  obtain ⟨rfl, h8⟩ := Prod.mk.inj h7
  refine ⟨st, h1, h2, h3, h4, out, h6, fun ss log source hm hp => ?_⟩
  have hn := made_blank (by decide) hm
  obtain ⟨css, b64, hc, rfl, -⟩ := map_only_appends hp
  unfold print at hc
  rw [hn] at hc
  cases hc
  cases h8

/-- Another schedule, in which the goroutines take turns: the numbers are distinct and both files are written. -/
example : ∃ st, Reached oneBlank st ∧ st.main = .done ∧ Distinct st.sh ∧ (lookupMap st.sh.files b!"/a").isSome ∧
    (lookupMap st.sh.files b!"/b").isSome := by
  obtain ⟨st, h1, h2⟩ := reach_of_check (env := oneBlank)
    (cs := [.main] ++ steps 0 1 ++ [.main] ++ steps 1 3 ++ steps 0 8 ++ steps 1 12 ++ steps 0 40 ++ steps 1 40 ++ [.main, .main, .print 1, .print 0, .main])
    (f := fun st => decide (st.main = .done ∧ (lookupMap st.sh.files b!"/a").isSome ∧ (lookupMap st.sh.files b!"/b").isSome ∧
      st.sh.sources = [(b!"/b", 1), (b!"/a", 0)])) (by decide +kernel)
  obtain ⟨h2, h3, h4, h5⟩ := of_decide_eq_true h2
  refine ⟨st, h1, h2, ?_, h3, h4⟩
  unfold Distinct
  rw [h5]
  decide

end Cssc
