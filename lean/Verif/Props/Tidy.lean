import Verif.Proofs.FullSame
import Verif.Proofs.SeqTidy
import Verif.Props.Maps

/-!
# C81: schedules in which no goroutine reads its loop variable too late

If no goroutine reads its loop variable too late and no number is given to two files, then `Compile` does what it is there
for: every file that is asked for is compiled with the compilations of its imports, every problem is reported, and every file
to be printed is printed.  The sequential compilation is such a schedule, and all such schedules agree with it.
-/

namespace Cssc

theorem FailsWith.eq {env : CEnv} {p : Bytes} {e e' : CompErr} (h : FailsWith env p e) (h' : FailsWith env p e') : e = e' := by
  cases h with
  | abs h1 =>
    cases h' with
    | abs => rfl
    | read k1 => rw [h1] at k1; cases k1
    | parse k1 => rw [h1] at k1; cases k1
  | read h1 h2 =>
    cases h' with
    | abs k1 => rw [h1] at k1; cases k1
    | read => rfl
    | parse k1 k2 => rw [h1] at k1; cases k1; rw [h2] at k2; cases k2
  | parse h1 h2 h3 =>
    cases h' with
    | abs k1 => rw [h1] at k1; cases k1
    | read k1 k2 => rw [h1] at k1; cases k1; rw [h2] at k2; cases k2
    | parse k1 k2 k3 => rw [h1] at k1; cases k1; rw [h2] at k2; cases k2; rw [h3] at k3; cases k3; rfl

/-- The whole compilation is of a file with a name that is asked for, which is parsed. -/
theorem Full.file {env : CEnv} {ps : List Bytes} {a : Bytes} {ss : Stylesheet} {log : List Report} (h : Full env ps a ss log) :
    ∃ p c id ss0 lines, Asked env p ∧ env.abs p = some a ∧ env.read a = some c ∧ parse env.fuel c id = .ok ss0 lines := by
  cases h with
  | mk fileOf logOf h1 h2 h3 h4 => exact ⟨_, _, _, _, _, h1, h2, h3, h4⟩

/-! ### Everything that is asked for is compiled -/

section Done

variable {env : CEnv} {st : CSt}

/-- What has become of the imports of a file. -/
theorem loaded_imports (hI : InvTidy env st) (hD : Distinct st.sh) {out : Bool} {p a c : Bytes} {id : Nat} {ss : Stylesheet}
    {lines : List Nat} {imp : ImportSpec} (hl : Loaded env out st.sh p) (ha : env.abs p = some a) (hc : env.read a = some c)
    (hp : parse env.fuel c id = .ok ss lines) (him : imp ∈ ss.imports) : ImportLoaded env st.sh a imp := by
  obtain ⟨s0, j1, rfl⟩ := parse_ok_id hp
  rcases hl with ⟨e, -, hf⟩ | ⟨a', i, ss', h1, h2, h3, -⟩
  · exact (failsWith_ok hf ha ⟨_, _, _, hc, j1⟩).elim
  · rw [ha] at h1
    cases h1
    obtain ⟨b, h4, log, h5, h6, c', id', ss0, lines', h7, h8, h9⟩ := hI.asts i ss' h3
    cases hD.eq h2 h4
    rw [hc] at h7
    cases h7
    obtain ⟨s1, j2, rfl⟩ := parse_ok_id h8
    rw [j1] at j2
    cases j2
    obtain ⟨imp0, g1, rfl⟩ := List.mem_map.1 him
    exact h9 (imp0.setId id') (List.mem_map_of_mem g1)

theorem entry_loaded (hI : InvTidy env st) (hd : st.main = .done) {p : Bytes} (hp : p ∈ env.entries) : Loaded env true st.sh p := by
  have hm := hI.main
  unfold MainOk at hm
  rw [hd] at hm
  obtain ⟨j, hj, rfl⟩ := List.getElem_of_mem hp
  obtain ⟨t, h1, h2⟩ := exists_ordinal (l := st.parents) (q := none) (j := j) (by rw [hm.1]; exact hj)
  rw [List.getElem?_map] at h1
  obtain ⟨x, h3, h4⟩ := Option.map_eq_some_iff.1 h1
  have h5 := hI.pcs t x h3
  rw [hm.2.1 x (List.mem_of_getElem? h3)] at h5
  unfold PcTidy at h5
  rw [h4] at h5
  obtain ⟨p, h6, h7⟩ := h5
  have h8 : env.entries[st.ordinal none t]? = some p := h6
  rw [show st.ordinal none t = j from h2, List.getElem?_eq_getElem hj] at h8
  cases h8
  exact h7

theorem Loaded.any {out : Bool} {sh : Shared} {p : Bytes} (h : Loaded env out sh p) : Loaded env false sh p := by
  rcases h with h | ⟨a, i, ss, h1, h2, h3, -⟩
  · exact .inl h
  · exact .inr ⟨a, i, ss, h1, h2, h3, fun h => by cases h⟩

theorem asked_loaded (hI : InvTidy env st) (hD : Distinct st.sh) (hd : st.main = .done) {p : Bytes} (hp : Asked env p) :
    Loaded env false st.sh p := by
  induction hp with
  | entry he => exact (entry_loaded hI hd he).any
  | imp _ h2 h3 h4 h5 h6 ih =>
    rcases loaded_imports hI hD ih h2 h3 h4 h5 with ⟨h7, -⟩ | ⟨rel, h7, h8⟩
    · rw [h6] at h7; cases h7
    · rw [h6] at h7; cases h7; exact h8.any

theorem imported_loaded (hI : InvTidy env st) (hD : Distinct st.sh) (hd : st.main = .done) {p : Bytes} (hp : Imported env p) :
    Loaded env env.follows st.sh p := by
  obtain ⟨h1, h2, h3, h4, h5, h6⟩ := hp
  rcases loaded_imports hI hD (asked_loaded hI hD hd h1) h2 h3 h4 h5 with ⟨h7, -⟩ | ⟨rel, h7, h8⟩
  · rw [h6] at h7; cases h7
  · rw [h6] at h7; cases h7; exact h8

/-- Every file that is asked for and parsed is compiled, and the problems are reported. -/
theorem compiled_whole (hI : InvTidy env st) (hD : Distinct st.sh) (hd : st.main = .done) {p a c : Bytes} {id : Nat} {ss : Stylesheet}
    {lines : List Nat} (hp : Asked env p) (ha : env.abs p = some a) (hc : env.read a = some c)
    (hpar : parse env.fuel c id = .ok ss lines) :
    ∃ ss' log, Full env st.sh.parses a ss' log ∧ ∀ r ∈ log, .transform a r ∈ st.sh.errors := by
  obtain ⟨s0, j1, -⟩ := parse_ok_id hpar
  rcases asked_loaded hI hD hd hp with ⟨e, -, hf⟩ | ⟨a', i, ss', h1, h2, h3, -⟩
  · exact (failsWith_ok hf ha ⟨_, _, _, hc, j1⟩).elim
  · rw [ha] at h1
    cases h1
    obtain ⟨b, h4, log, h5, h6, -⟩ := hI.asts i ss' h3
    cases hD.eq h2 h4
    exact ⟨ss', log, h5, h6⟩

/-- Every file to be printed is printed, or that has failed. -/
theorem printed_whole (hI : InvTidy env st) (hD : Distinct st.sh) (hd : st.main = .done) {a c : Bytes} {id : Nat} {ss : Stylesheet}
    {lines : List Nat} (ht : ToPrint env a) (hc : env.read a = some c) (hpar : parse env.fuel c id = .ok ss lines) :
    (∃ out, (a, out) ∈ st.sh.files) ∨ .print a ∈ st.sh.errors := by
  obtain ⟨s0, j1, -⟩ := parse_ok_id hpar
  have hl : ∃ p, env.abs p = some a ∧ Loaded env true st.sh p := by
    rcases ht with ⟨e, h1, h2⟩ | ⟨hf, p, h1, h2⟩
    · exact ⟨e, h2, entry_loaded hI hd h1⟩
    · refine ⟨p, h2, ?_⟩
      have := imported_loaded hI hD hd h1
      unfold CEnv.follows at this
      rw [hf] at this
      exact this
  obtain ⟨p, ha, hl⟩ := hl
  rcases hl with ⟨e, -, hf⟩ | ⟨a', i, ss', h1, h2, h3, h4⟩
  · exact (failsWith_ok hf ha ⟨_, _, _, hc, j1⟩).elim
  · rw [ha] at h1
    cases h1
    have hm := hI.main
    unfold MainOk at hm
    rw [hd] at hm
    rcases hm.2.2 i (h4 rfl) with ⟨b, h5, h6⟩ | h5
    · cases hD.eq h2 h5; exact h6
    · exact (h5 ss' h3).elim

end Done

/-! ### The claims -/

/-- The file is `css` and the comment with its source map. -/
def Output (css out : Bytes) : Prop :=
  ∃ b64, (∀ b ∈ b64, isB64 b = true ∨ b = 61) ∧
    out = css ++ b!"\n/*# sourceMappingURL=data:application/json;base64," ++ b64 ++ b!" */\n"

theorem print_output {source : Source} {ss : Stylesheet} {out : Bytes} (h : print (some source) ss = .ok out) :
    ∃ css, print none ss = .ok css ∧ Output css out := by
  obtain ⟨css, b64, h1, h2, h3, -⟩ := map_only_appends h
  exact ⟨css, h1, b64, h3, h2⟩

/-- Which part is which can be told. -/
theorem Output.eq {css css' out : Bytes} (h : Output css out) (h' : Output css' out) : css = css' := by
  obtain ⟨x, h1, rfl⟩ := h
  obtain ⟨y, h2, h3⟩ := h'
  have hno : ∀ {x : Bytes}, (∀ b ∈ x, isB64 b = true ∨ b = 61) → (10 : UInt8) ∉ b!"/*# sourceMappingURL=data:application/json;base64," ++ x ++ b!" */" := by
    intro x hx hm
    rcases List.mem_append.1 hm with hm | hm
    · rcases List.mem_append.1 hm with hm | hm
      · revert hm; decide
      · rcases hx _ hm with h | h
        · revert h; decide
        · revert h; decide
    · revert hm; decide
  have key : ∀ z w : Bytes, z ++ b!"\n/*# sourceMappingURL=data:application/json;base64," ++ w ++ b!" */\n" =
      (z ++ 10 :: (b!"/*# sourceMappingURL=data:application/json;base64," ++ w ++ b!" */")) ++ [10] := by
    intro z w
    have e1 : b!"\n/*# sourceMappingURL=data:application/json;base64," = 10 :: b!"/*# sourceMappingURL=data:application/json;base64," := by decide
    have e2 : b!" */\n" = b!" */" ++ [10] := by decide
    rw [e1, e2]
    simp
  rw [key, key] at h3
  exact (split_last (hno h1) (hno h2) (List.append_cancel_right h3)).1

/-- Everything that is to be reported is reported, and nothing else (C46, C47, C78). -/
theorem tidy_errors {env : CEnv} {rank : Bytes → Nat} (hac : Acyclic env rank) {st : CSt} (h : ReachedTidy env st)
    (hD : Distinct st.sh) (hd : st.main = .done) (e : CompErr) : e ∈ st.sh.errors ↔ FullErr env st.sh.parses e := by
  have hI := h.inv hD
  refine ⟨hI.errors e, fun he => ?_⟩
  cases he with
  | @fails p e h1 h2 =>
    rcases asked_loaded hI hD hd h1 with ⟨e', h3, h4⟩ | ⟨a, i, ss, h3, h4, h5, -⟩
    · rw [h2.eq h4]; exact h3
    · obtain ⟨b, h6, log, h7, -⟩ := hI.asts i ss h5
      cases hD.eq h4 h6
      obtain ⟨_, c, id, ss0, lines, -, -, g1, g2⟩ := h7.file
      obtain ⟨s0, j1, -⟩ := parse_ok_id g2
      exact (failsWith_ok h2 h3 ⟨_, _, _, g1, j1⟩).elim
  | resolve h1 h2 h3 h4 h5 h6 =>
    rcases loaded_imports hI hD (asked_loaded hI hD hd h1) h2 h3 h4 h5 with ⟨-, h7⟩ | ⟨rel, h7, -⟩
    · exact h7
    · rw [h6] at h7; cases h7
  | transform h1 h2 =>
    obtain ⟨p, c, id, ss0, lines, g1, g2, g3, g4⟩ := h1.file
    obtain ⟨ss', log', k1, k2⟩ := compiled_whole hI hD hd g1 g2 g3 g4
    obtain ⟨-, rfl⟩ := h1.same (Agrees.refl env) hac hac trivial g2 k1
    exact k2 _ h2
  | print h1 h2 h3 =>
    obtain ⟨p, c, id, ss0, lines, g1, g2, g3, g4⟩ := h2.file
    rcases printed_whole hI hD hd h1 g3 g4 with ⟨out, h4⟩ | h4
    · obtain ⟨-, c', ss', log', k, -, k2, -, -, k5⟩ := hI.files _ _ h4
      obtain ⟨css, b64, k6, -⟩ := map_only_appends k5
      rw [← print_plainIds none (h2.same (Agrees.refl env) hac hac trivial g2 k2).1, h3] at k6
      cases k6
    · exact h4

/-- What is written is the whole compilation of the file, and it is written unless it cannot be printed (C49). -/
theorem tidy_files {env : CEnv} {rank : Bytes → Nat} (hac : Acyclic env rank) {st : CSt} (h : ReachedTidy env st)
    (hD : Distinct st.sh) (hd : st.main = .done) (a css : Bytes) :
    (∃ out, (a, out) ∈ st.sh.files ∧ Output css out) ↔
      ToPrint env a ∧ ∃ ss log, Full env st.sh.parses a ss log ∧ print none ss = .ok css := by
  have hI := h.inv hD
  constructor
  · rintro ⟨out, h1, h2⟩
    obtain ⟨ht, c, ss, log, k, k1, k2, -, -, k3⟩ := hI.files _ _ h1
    obtain ⟨css', k4, k5⟩ := print_output k3
    cases h2.eq k5
    exact ⟨ht, ss, log, k2, k4⟩
  · rintro ⟨ht, ss, log, h1, h2⟩
    obtain ⟨p, c, id, ss0, lines, g1, g2, g3, g4⟩ := h1.file
    rcases printed_whole hI hD hd ht g3 g4 with ⟨out, h4⟩ | h4
    · obtain ⟨-, c', ss', log', k, -, k2, -, -, k5⟩ := hI.files _ _ h4
      obtain ⟨css', k6, k7⟩ := print_output k5
      rw [← print_plainIds none (h1.same (Agrees.refl env) hac hac trivial g2 k2).1, h2] at k6
      cases k6
      exact ⟨out, h4, k7⟩
    · cases hI.errors _ h4 with
      | fails _ hf => cases hf
      | print q1 q2 q3 =>
        rw [print_plainIds none (q2.same (Agrees.refl env) hac hac trivial g2 h1).1, h2] at q3
        cases q3

/-! ### All such schedules agree -/

/-- The environments have the same files, as far as they are looked at for the entry `e`. -/
theorem SameAsked.agrees {env env' : CEnv} {e : Bytes} (h : SameAsked (env.only e) (env'.only e)) :
    Agrees env env' (Asked (env.only e)) :=
  ⟨h.opts, h.fo, h.fuel, h.abs, fun hp ha => h.read hp ha, fun hp ha hr hpar him => h.resolve hp ha hr hpar him,
    fun hp ha hr hpar him hrel => .imp hp ha hr hpar him hrel⟩

theorem tidy_at {env env' : CEnv} {A : Bytes → Prop} (hag : Agrees env env' A) {rank rank' : Bytes → Nat} (hac : Acyclic env rank)
    (hac' : Acyclic env' rank') {st st' : CSt} (h : ReachedTidy env st) (h' : ReachedTidy env' st') (hD : Distinct st.sh)
    (hD' : Distinct st'.sh) (hd' : st'.main = .done) {p a : Bytes} (hp : A p) (hp' : Asked env' p)
    (ha : env.abs p = some a) (ht' : ToPrint env' a) {out : Bytes} (ho : (a, out) ∈ st.sh.files) :
    ∃ out' css, (a, out') ∈ st'.sh.files ∧ Output css out ∧ Output css out' ∧
      (st.sh.parses.count a ≤ 1 → st'.sh.parses.count a ≤ 1 → out' = out) := by
  obtain ⟨ht, c, ss, log, k, k1, k2, kk1, kk2, k3⟩ := (h.inv hD).files _ _ ho
  obtain ⟨css, k4, k5⟩ := print_output k3
  obtain ⟨-, c', id, ss0, lines, -, -, g3, g4⟩ := k2.file
  rw [k1] at g3
  cases g3
  have hr := hag.read hp ha
  have hI' := h'.inv hD'
  have ha' : env'.abs p = some a := by rw [hag.abs]; exact ha
  have hc' : env'.read a = some c := by rw [hr]; exact k1
  have hp4 : parse env'.fuel c id = .ok ss0 lines := by rw [hag.fuel]; exact g4
  obtain ⟨ss', log', k6, -⟩ := compiled_whole hI' hD' hd' hp' ha' hc' hp4
  have hsame := fun {ss2 log2} (hf : Full env' st'.sh.parses a ss2 log2) => (k2.same hag hac hac' hp ha hf).1
  have hprint : print none ss' = .ok css := by rw [← print_plainIds none (hsame k6)]; exact k4
  obtain ⟨out', h1, h2⟩ := (tidy_files hac' h' hD' hd' a css).2 ⟨ht', ss', log', k6, hprint⟩
  refine ⟨out', css, h1, k5, h2, fun hle hle' => ?_⟩
  obtain ⟨-, c2, ss2, log2, k', q1, q2, qk1, qk2, q3⟩ := hI'.files _ _ h1
  rw [hc'] at q1
  cases q1
  have e1 : k = 1 := by omega
  have e2 : k' = 1 := by omega
  subst e1 e2
  have ht1 : tables env' c 1 = tables env c 1 := by unfold tables tableOf; rw [hag.fuel]
  rw [ht1, ← print_plainIds _ (hsame q2), k3] at q3
  cases q3
  rfl

/-- What there is to tell the reporter does not depend on the schedule. -/
theorem FullErr.other {env : CEnv} {rank : Bytes → Nat} (hac : Acyclic env rank) {ps : List Bytes} {st : CSt} (h : ReachedTidy env st)
    (hD : Distinct st.sh) (hd : st.main = .done) {e : CompErr} (he : FullErr env ps e) : FullErr env st.sh.parses e := by
  have hI := h.inv hD
  cases he with
  | fails h1 h2 => exact .fails h1 h2
  | resolve h1 h2 h3 h4 h5 h6 => exact .resolve h1 h2 h3 h4 h5 h6
  | transform h1 h2 =>
    obtain ⟨p, c, id, ss0, lines, g1, g2, g3, g4⟩ := h1.file
    obtain ⟨ss', log', k1, -⟩ := compiled_whole hI hD hd g1 g2 g3 g4
    obtain ⟨-, rfl⟩ := h1.same (Agrees.refl env) hac hac trivial g2 k1
    exact .transform k1 h2
  | print h1 h2 h3 =>
    obtain ⟨p, c, id, ss0, lines, g1, g2, g3, g4⟩ := h2.file
    obtain ⟨ss', log', k1, -⟩ := compiled_whole hI hD hd g1 g2 g3 g4
    refine .print h1 k1 ?_
    rw [← print_plainIds none (h2.same (Agrees.refl env) hac hac trivial g2 k1).1]
    exact h3

/-- C81: two tidy schedules report the same problems and write the same files with the same CSS.  The source maps are the
same too if the file was parsed once. -/
theorem tidy_agree {env : CEnv} {rank : Bytes → Nat} (hac : Acyclic env rank) {st st' : CSt} (h : ReachedTidy env st)
    (h' : ReachedTidy env st') (hD : Distinct st.sh) (hD' : Distinct st'.sh) (hd : st.main = .done) (hd' : st'.main = .done) :
    (∀ e, e ∈ st.sh.errors ↔ e ∈ st'.sh.errors) ∧
    (∀ a out, (a, out) ∈ st.sh.files → ∃ out' css, (a, out') ∈ st'.sh.files ∧ Output css out ∧ Output css out' ∧
      (st.sh.parses.count a ≤ 1 → st'.sh.parses.count a ≤ 1 → out' = out)) := by
  refine ⟨fun e => ?_, fun a out ho => ?_⟩
  · rw [tidy_errors hac h hD hd, tidy_errors hac h' hD' hd']
    exact ⟨fun he => he.other hac h' hD' hd', fun he => he.other hac h hD hd⟩
  · obtain ⟨ht, c, ss, log, k, k1, k2, -⟩ := (h.inv hD).files _ _ ho
    obtain ⟨p, c', id, ss0, lines, g1, g2, g3, g4⟩ := k2.file
    exact tidy_at (Agrees.refl env) hac hac h h' hD hD' hd' trivial g1 g2 ht ho

/-- C81: a tidy schedule does what the sequential compilation does, file by file if each was parsed once. -/
theorem tidy_sequential {env : CEnv} {rank : Bytes → Nat} (hac : Acyclic env rank) {n : Nat} {sh : Shared}
    (hs : seqCompile env n = some sh) {st : CSt} (h : ReachedTidy env st) (hD : Distinct st.sh) (hd : st.main = .done) :
    (∀ e, e ∈ st.sh.errors ↔ e ∈ sh.errors) ∧
    (∀ a out, lookupMap sh.files a = some out → ∃ out' css, (a, out') ∈ st.sh.files ∧ Output css out ∧ Output css out' ∧
      (st.sh.parses.count a ≤ 1 → out' = out)) ∧
    (∀ a, lookupMap sh.files a = none → lookupMap st.sh.files a = none) := by
  obtain ⟨st0, h0, hd0, rfl⟩ := seqCompile_tidy hs
  have hD0 := seqCompile_distinct hs
  refine ⟨(tidy_agree hac h h0 hD hD0 hd hd0).1, fun a out ho => ?_, fun a ho => ?_⟩
  · have hm := mem_of_lookupMap ho
    obtain ⟨out', css, h1, h2, h3, h4⟩ := (tidy_agree hac h0 h hD0 hD hd0 hd).2 a out hm
    refine ⟨out', css, h1, h2, h3, h4 ?_⟩
    obtain ⟨ht, c, ss, log, k, k1, k2, -⟩ := (h0.inv hD0).files _ _ hm
    obtain ⟨p, c', id, ss0, lines, -, -, g3, g4⟩ := k2.file
    obtain ⟨s0, j1, -⟩ := parse_ok_id g4
    exact (parsed_once hac hs).1 g3 j1
  · cases hl : lookupMap st.sh.files a with
    | none => rfl
    | some out =>
      obtain ⟨out', -, h1, -⟩ := (tidy_agree hac h h0 hD hD0 hd hd0).2 a out (mem_of_lookupMap hl)
      exact absurd ho (mem_lookupMap h1)

/-- C77 under all tidy schedules: what is written for a file that an entry asks for depends on nothing but the entry and the
files that are looked at for its sake. -/
theorem tidy_alone {env env' : CEnv} {e : Bytes} (hs : SameAsked (env.only e) (env'.only e)) (he' : e ∈ env'.entries)
    {rank rank' : Bytes → Nat} (hac : Acyclic env rank) (hac' : Acyclic env' rank') {st st' : CSt} (h : ReachedTidy env st)
    (h' : ReachedTidy env' st') (hD : Distinct st.sh) (hD' : Distinct st'.sh) (hd' : st'.main = .done) {p a : Bytes}
    (hp : Asked (env.only e) p) (ha : env.abs p = some a) (ht' : ToPrint env' a) {out : Bytes} (ho : (a, out) ∈ st.sh.files) :
    ∃ out' css, (a, out') ∈ st'.sh.files ∧ Output css out ∧ Output css out' ∧
      (st.sh.parses.count a ≤ 1 → st'.sh.parses.count a ≤ 1 → out' = out) :=
  tidy_at hs.agrees hac hac' h h' hD hD' hd' hp ((hs.asked hp).of_only he') ha ht' ho

/-! ### Such schedules -/

/-- A test for `TidyStep`. -/
def tidyTest (env : CEnv) (st : CSt) : Choice → Bool
  | .thread t =>
    match st.threads[t]? with
    | none => true
    | some th =>
      (match th.pc, th.parent with
        | .start, _ => false
        | .deliver (some _), some _ => decide (env.opts.importRules ≠ .inline)
        | _, _ => true) || decide (st.loopVar th.parent = some (st.ordinal th.parent t))
  | _ => true

theorem tidyStep_of_test {env : CEnv} {st : CSt} {c : Choice} (h : tidyTest env st c = true) : TidyStep env st c := by
  cases c with
  | main => trivial
  | print i => trivial
  | thread t =>
    intro th hth hrd
    unfold tidyTest at h
    dsimp only at h
    rw [hth] at h
    rcases Bool.or_eq_true_iff.1 h with h | h
    · exfalso
      unfold Thread.ReadsLoop at hrd
      split at h
      · cases h
      · rename_i h1 h2
        rw [h1, h2] at hrd
        exact of_decide_eq_true h hrd
      · rename_i h1 h2
        split at hrd
        · rename_i h3; exact h1 h3
        · rename_i h3 h4; exact h2 _ _ h3 h4
        · exact hrd
    · exact of_decide_eq_true h

/-- A schedule whose steps pass the test. -/
def runTidy (env : CEnv) : CSt → List Choice → Option CSt
  | st, [] => some st
  | st, c :: cs =>
    if tidyTest env st c then
      match cstep env st c with
      | some (.ok st') => runTidy env st' cs
      | _ => runTidy env st cs
    else none

theorem runTidy_reach {env : CEnv} {cs : List Choice} : ∀ {st st' : CSt}, ReachedTidy env st → runTidy env st cs = some st' →
    ReachedTidy env st' := by
  induction cs with
  | nil => intro st st' h e; cases e; exact h
  | cons c cs ih =>
    intro st st' h e
    unfold runTidy at e
    split at e
    · rename_i ht
      split at e
      · rename_i hs
        exact ih (.step h (tidyStep_of_test ht) hs) e
      · exact ih h e
    · cases e

theorem tidy_of_check {env : CEnv} {cs : List Choice} {f : CSt → Bool} (h : ((runTidy env CSt.init cs).map f) = some true) :
    ∃ st, ReachedTidy env st ∧ f st = true := by
  obtain ⟨st, h1, h2⟩ := Option.map_eq_some_iff.1 h
  exact ⟨st, runTidy_reach .init h1, h2⟩

/-- The goroutines take turns. -/
def turns (ts : List Nat) : Nat → List Choice
  | 0 => []
  | n + 1 => ts.map .thread ++ turns ts n

/-- The hypotheses are met by a schedule of three entries that run side by side and have a file in common. -/
theorem threeEntries_tidy : ∃ st, ReachedTidy threeEntries st ∧ Distinct st.sh ∧ st.main = .done ∧
    st.sh.parses = [b!"/a", b!"/b", b!"/m"] ∧ st.threads.map Thread.parent = [none, none, none, some 0, some 1] ∧
    (lookupMap st.sh.files b!"/b").map cssLine = some b!"x{y:z}u{v:w}" := by
  obtain ⟨st, h1, h2⟩ := tidy_of_check (env := threeEntries)
    (cs := [.main, .thread 0, .main, .thread 1, .main, .thread 2] ++ steps 0 8 ++ steps 1 8 ++ steps 2 8 ++
      turns [0, 1, 2, 3, 4] 40 ++ [.main, .main, .print 0, .print 1, .print 2, .main])
    (f := fun st => decide ((st.sh.sources.map Prod.snd).Nodup ∧ st.main = .done ∧
      st.sh.parses = [b!"/a", b!"/b", b!"/m"] ∧ st.threads.map Thread.parent = [none, none, none, some 0, some 1] ∧
      (lookupMap st.sh.files b!"/b").map cssLine = some b!"x{y:z}u{v:w}"))
    (by decide +kernel)
  obtain ⟨h2, h3⟩ := of_decide_eq_true h2
  exact ⟨st, h1, h2, h3⟩

/-- The sequential compilation parses the files in another order; the two agree. -/
example : ∃ st sh, ReachedTidy threeEntries st ∧ st.main = .done ∧ seqCompile threeEntries 10 = some sh ∧
    st.sh.parses ≠ sh.parses ∧ (∀ e, e ∈ st.sh.errors ↔ e ∈ sh.errors) ∧
    ∀ a out, lookupMap sh.files a = some out → (a, out) ∈ st.sh.files := by
  obtain ⟨st, h1, h2, h3, h4, -⟩ := threeEntries_tidy
  have hac : Acyclic threeEntries (fun a => if a = b!"/a" then 0 else 1) :=
    acyclic_of_test (env := threeEntries) (files := threeFiles) (rank := fun a => if a = b!"/a" then 0 else 1) rfl (by decide +kernel)
  have hseq : ((seqCompile threeEntries 10).map fun sh => sh.parses) = some [b!"/b", b!"/a", b!"/m"] := by decide +kernel
  obtain ⟨sh, h5, h6⟩ := Option.map_eq_some_iff.1 hseq
  obtain ⟨k1, k2, -⟩ := tidy_sequential hac h5 h1 h2 h3
  refine ⟨st, sh, h1, h3, h5, by rw [h4, h6]; decide, k1, fun a out ho => ?_⟩
  obtain ⟨out', css, g1, -, -, g2⟩ := k2 a out ho
  have : st.sh.parses.count a ≤ 1 := by
    rw [h4]
    exact List.nodup_iff_count.1 (by decide) a
  rw [← g2 this]
  exact g1

def followTwo : CEnv :=
  exEnv [b!"m"] .follow [(b!"/m", b!"@import \"a\";@import \"b\";p{q:r}"), (b!"/a", b!"x{y:z}"), (b!"/b", b!"u{v:w}")]

/-- They are met by a schedule in which two imports of a file are compiled side by side, the second before the first. -/
example : ∃ st, ReachedTidy followTwo st ∧ Distinct st.sh ∧ st.main = .done ∧ st.sh.parses = [b!"/a", b!"/b", b!"/m"] ∧
    st.sh.files.length = 3 := by
  obtain ⟨st, h1, h2⟩ := tidy_of_check (env := followTwo)
    (cs := [.main] ++ steps 0 13 ++ [.thread 1, .thread 0, .thread 2] ++ steps 1 8 ++ steps 2 8 ++ turns [2, 1, 0] 20 ++
      [.main, .main, .print 0, .print 1, .print 2, .main])
    (f := fun st => decide ((st.sh.sources.map Prod.snd).Nodup ∧ st.main = .done ∧ st.sh.parses = [b!"/a", b!"/b", b!"/m"] ∧
      st.sh.files.length = 3))
    (by decide +kernel)
  obtain ⟨h2, h3⟩ := of_decide_eq_true h2
  exact ⟨st, h1, h2, h3⟩

/-- Without tidiness they do not agree: a finished schedule without collision of numbers that leaves an import out. -/
theorem tidy_needed : ∃ st sh, Reached twoImports st ∧ Distinct st.sh ∧ st.main = .done ∧ seqCompile twoImports 10 = some sh ∧
    (lookupMap st.sh.files b!"/m").map cssLine ≠ (lookupMap sh.files b!"/m").map cssLine := by
  obtain ⟨st, h1, h2⟩ := reach_of_check (env := twoImports)
    (cs := [.main] ++ steps 0 16 ++ steps 1 40 ++ steps 2 40 ++ steps 0 10 ++ [.main, .main, .print 0, .main])
    (f := fun st => decide ((st.sh.sources.map Prod.snd).Nodup ∧ st.main = .done ∧
      (lookupMap st.sh.files b!"/m").map cssLine = some b!"@import \"a\";u{v:w}"))
    (by decide +kernel)
  obtain ⟨h2, h3, h4⟩ := of_decide_eq_true h2
  have hseq : ((seqCompile twoImports 10).map fun sh => (lookupMap sh.files b!"/m").map cssLine) = some (some b!"x{y:z}u{v:w}") := by
    decide +kernel
  obtain ⟨sh, h5, h6⟩ := Option.map_eq_some_iff.1 hseq
  exact ⟨st, sh, h1, h2, h3, h5, by rw [h4, h6]; decide⟩

end Cssc
