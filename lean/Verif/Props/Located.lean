import Verif.Proofs.CompileSpans
import Verif.Props.Compile
import Verif.Props.Plugin

/-!
# Where Compile reports errors, and what the esbuild plugin makes of it: C72, C73
-/

namespace Cssc

/-- The place that an error names. -/
def CompErr.loc? : CompErr → Option (Bytes × Span)
  | .parse path e => some (path, e.span)
  | .transform path r => r.span.map fun sp => (path, sp)
  | _ => none

/-! ### C72 -/

/-- C72, in full: every place that is named exists, in the file that is named. -/
def PlacesExist (env : CEnv) (st : CSt) : Prop :=
  ∀ e ∈ st.sh.errors, ∀ path sp, e.loc? = some (path, sp) → ∃ c, env.read path = some c ∧ SpOk c sp

theorem named_source {env : CEnv} {st : CSt} (h : Reached env st) {path : Bytes} {s : Source} (hs : NamedSource st.sh.heap path s) :
    (∃ p, Asked env p ∧ env.abs p = some path) ∧ env.read path = some s.content := by
  obtain ⟨p, h1, h2, h3⟩ := h.inv1.heap s hs.1
  rw [hs.2.1] at h2 h3
  exact ⟨⟨p, h1, h2⟩, h3⟩

/-- **C72, partial**: if imports are not inlined, then under every schedule every reported place is inside the file
that it names.  Missing: inlined imports, where it is false (`places_refuted`). -/
theorem places_partial {env : CEnv} {st : CSt} (hi : env.opts.importRules ≠ .inline) (h : Reached env st) : PlacesExist env st := by
  intro e he path sp hl
  have := h.invP.errors e he
  cases e with
  | parse q e =>
    cases hl
    obtain ⟨s, h1, h2⟩ := this
    exact ⟨_, (named_source h h1).2, h2⟩
  | transform q r =>
    obtain ⟨sp', hr, he⟩ := Option.map_eq_some_iff.1 hl
    cases he
    obtain ⟨s, h1, h2⟩ := this
    exact ⟨_, (named_source h h1).2, (h2 _ hr).2 hi⟩
  | _ => cases hl

/-- **C72, partial**, with and without inlining: the places that the parser reports. -/
theorem parse_places_partial {env : CEnv} {st : CSt} (h : Reached env st) {path : Bytes} {e : LexErr} (he : .parse path e ∈ st.sh.errors) :
    (∃ p, Asked env p ∧ env.abs p = some path) ∧ ∃ c, env.read path = some c ∧ SpOk c e.span := by
  obtain ⟨s, h1, h2⟩ := h.invP.errors _ he
  exact ⟨(named_source h h1).1, _, (named_source h h1).2, h2⟩

/-- **C72, partial**, with and without inlining: a place that the transformer reports is inside some file that the
compilation looks at, and the file that it names is such a file too. -/
theorem some_place_partial {env : CEnv} {st : CSt} (h : Reached env st) {path : Bytes} {r : Report} {sp : Span}
    (he : .transform path r ∈ st.sh.errors) (hr : r.span = some sp) :
    (∃ p, Asked env p ∧ env.abs p = some path) ∧
    ∃ p a c, Asked env p ∧ env.abs p = some a ∧ env.read a = some c ∧ SpOk c sp := by
  obtain ⟨s, h1, h2⟩ := h.invP.errors _ he
  obtain ⟨⟨p, h3, h4⟩, h5⟩ := named_source h h1
  refine ⟨⟨p, h3, h4⟩, ?_⟩
  rcases (h2 sp hr).1 with rfl | ⟨s', ⟨p', g1, g2, g3⟩, g4⟩
  · exact ⟨p, path, _, h3, h4, h5, Nat.le_refl _, Nat.zero_le _⟩
  · exact ⟨p', _, _, g1, g2, g3, g4⟩

/-- `/m` inlines `/x`, which uses a variable that is not defined. -/
def farVar : CEnv :=
  { exEnv [b!"/m"] .inline [(b!"/m", b!"@import \"x\";"), (b!"/x", b!"averylongname{b:var(--c)}")] with
    opts := { TOpts.default with importRules := .inline, customProperties := true } }

/-- What a report says, without the text. -/
def CompErr.placed (e : CompErr) : Bool × Option (Bytes × Span) :=
  (match e with | .transform .. => true | _ => false, e.loc?)

/-- The reports of `farVar`: the problem in `/x` is reported for `/x`, and again for `/m`, at the same offset. -/
theorem farVar_run : ∃ st, Reached farVar st ∧ st.main = .done ∧
    st.sh.errors.map CompErr.placed = [(true, some (b!"/x", ⟨16, 24⟩)), (true, some (b!"/m", ⟨16, 24⟩))] ∧
    st.sh.heap.map (fun s => (s.path, s.lines)) = [(b!"/m", [0]), (b!"/x", [0])] := by
  obtain ⟨st, h1, h2⟩ := reach_of_check (env := farVar)
    (cs := [.main] ++ steps 0 13 ++ steps 1 40 ++ steps 0 10 ++ [.main, .main, .print 0, .main])
    (f := fun st => decide (st.main = .done ∧
      st.sh.errors.map CompErr.placed = [(true, some (b!"/x", ⟨16, 24⟩)), (true, some (b!"/m", ⟨16, 24⟩))] ∧
      st.sh.heap.map (fun s => (s.path, s.lines)) = [(b!"/m", [0]), (b!"/x", [0])])) (by decide +kernel)
  exact ⟨st, h1, of_decide_eq_true h2⟩

theorem farVar_read : farVar.read b!"/m" = some b!"@import \"x\";" := by decide +kernel

/-- **C72, refuted as stated**: with inlined imports the transformer goes over the nodes of the imported file again and
reports their places as places in the importing file, here at offset 16 of a file of 12 bytes. -/
theorem places_refuted : ∃ env st, Reached env st ∧ st.main = .done ∧ ¬ PlacesExist env st := by
  obtain ⟨st, h1, h2, h3, _⟩ := farVar_run
  refine ⟨farVar, st, h1, h2, fun hp => ?_⟩
  have hm : (true, some (b!"/m", (⟨16, 24⟩ : Span))) ∈ st.sh.errors.map CompErr.placed := by rw [h3]; simp
  obtain ⟨e, he, h4⟩ := List.mem_map.1 hm
  obtain ⟨c, hc, hsp⟩ := hp e he b!"/m" ⟨16, 24⟩ (congrArg Prod.snd h4)
  rw [farVar_read] at hc
  cases hc
  exact absurd hsp.2 (by decide)

/-- A compilation without inlining that reports a place. -/
example : ∃ env st, env.opts.importRules ≠ .inline ∧ Reached env st ∧ st.main = .done ∧
    st.sh.errors.map CompErr.loc? = [some (b!"/m", ⟨6, 7⟩)] := by
  obtain ⟨st, h1, h2⟩ := reach_of_check (env := exEnv [b!"/m"] .passthrough [(b!"/m", b!"a{b:c}}")])
    (cs := [.main] ++ steps 0 40 ++ [.main, .main, .print 0, .main])
    (f := fun st => decide (st.main = .done ∧ st.sh.errors.map CompErr.loc? = [some (b!"/m", ⟨6, 7⟩)])) (by decide +kernel)
  exact ⟨_, st, by decide, h1, of_decide_eq_true h2⟩

/-! ### C73 -/

/-- The Go error for each report.  An error holds a pointer to a source that has been parsed; if goroutines have read
the same file twice there are two such sources.  The texts do not matter. -/
inductive Rendered (heap : List Source) : CompErr → CErr → Prop where
  | parse {path e s inner} : NamedSource heap path s → Rendered heap (.parse path e) (.wrapped s e.span inner)
  | transform {path r s sp inner} : NamedSource heap path s → r.span = some sp →
    Rendered heap (.transform path r) (.located s sp inner)
  | unplaced {path r t} : r.span = none → Rendered heap (.transform path r) (.plain t)
  | abs {path t} : Rendered heap (.abs path) (.plain t)
  | read {path t} : Rendered heap (.read path) (.plain t)
  | resolve {v d t} : Rendered heap (.resolve v d) (.plain t)
  | print {path t} : Rendered heap (.print path) (.plain t)

/-- The Go errors for the reports. -/
inductive RenderedAll (heap : List Source) : List CompErr → List CErr → Prop where
  | nil : RenderedAll heap [] []
  | cons {e ce es ces} : Rendered heap e ce → RenderedAll heap es ces → RenderedAll heap (e :: es) (ce :: ces)

/-- Every report has a source to point to. -/
theorem rendered_exists {env : CEnv} {st : CSt} (h : Reached env st) : ∃ ces, RenderedAll st.sh.heap st.sh.errors ces := by
  have := h.invP.errors
  generalize st.sh.errors = es at this
  induction es with
  | nil => exact ⟨[], .nil⟩
  | cons e es ih =>
    obtain ⟨ces, hc⟩ := ih fun e he => this e (List.mem_cons_of_mem _ he)
    have he := this e (List.mem_cons_self ..)
    suffices ∃ ce, Rendered st.sh.heap e ce from this.elim fun ce h => ⟨_, .cons h hc⟩
    cases e with
    | parse path e =>
      obtain ⟨s, h1, _⟩ := he
      exact ⟨.wrapped s e.span [], .parse h1⟩
    | transform path r =>
      obtain ⟨s, h1, _⟩ := he
      cases hr : r.span with
      | none => exact ⟨.plain [], .unplaced hr⟩
      | some sp => exact ⟨.located s sp [], .transform h1 hr⟩
    | abs => exact ⟨.plain [], .abs⟩
    | read => exact ⟨.plain [], .read⟩
    | resolve => exact ⟨.plain [], .resolve⟩
    | print => exact ⟨.plain [], .print⟩

/-- The sizes fit into an `int32`. -/
def SizesFit (heap : List Source) : Prop := ∀ s ∈ heap, s.content.length + 1 < 2147483648 ∧ s.lines.length < 2147483648

theorem rendered_safe {env : CEnv} {st : CSt} (hi : env.opts.importRules ≠ .inline) (h : Reached env st) (hz : SizesFit st.sh.heap)
    {e : CompErr} (he : e ∈ st.sh.errors) {ce : CErr} (hr : Rendered st.sh.heap e ce) : SafeErr ce := by
  have key : ∀ {path s sp}, NamedSource st.sh.heap path s → e.loc? = some (path, sp) → SafeLoc s sp := by
    intro path s sp hs hl
    obtain ⟨c, hc, h1⟩ := places_partial hi h e he path sp hl
    rw [(named_source h hs).2] at hc
    cases hc
    exact ⟨(h.invP.lines s hs.1).resolve_left hs.2.2, h1.1, h1.2, (hz s hs.1).1, (hz s hs.1).2⟩
  cases hr with
  | parse hs => exact key hs rfl
  | transform hs hsp => exact key hs (by simp [CompErr.loc?, hsp])
  | _ => trivial

theorem renderedAll_safe {env : CEnv} {st : CSt} (hi : env.opts.importRules ≠ .inline) (h : Reached env st) (hz : SizesFit st.sh.heap) :
    ∀ {es : List CompErr} {ces : List CErr}, (∀ e ∈ es, e ∈ st.sh.errors) → RenderedAll st.sh.heap es ces → ∀ ce ∈ ces, SafeErr ce
  | _, _, _, .nil => by simp
  | _, _, hm, .cons h1 h2 => by
    intro ce hce
    rcases List.mem_cons.1 hce with rfl | hce
    · exact rendered_safe hi h hz (hm _ (by simp)) h1
    · exact renderedAll_safe hi h hz (fun e he => hm e (List.mem_cons_of_mem _ he)) h2 ce hce

theorem RenderedAll.length {heap : List Source} : ∀ {es : List CompErr} {ces : List CErr}, RenderedAll heap es ces → ces.length = es.length
  | _, _, .nil => rfl
  | _, _, .cons _ h => by rw [List.length_cons, List.length_cons, h.length]

/-- **C73, partial**: if imports are not inlined, then under every schedule `OnLoad` does not panic on what the
compilation reports; the messages without a location are exactly one for each report, with its text.  Missing: inlined
imports, where it is false (`onLoad_refuted`). -/
theorem onLoad_safe_partial {env : CEnv} {st : CSt} (hi : env.opts.importRules ≠ .inline) (h : Reached env st)
    (hz : SizesFit st.sh.heap) {ces : List CErr} (hr : RenderedAll st.sh.heap st.sh.errors ces) (path : Bytes) :
    ∃ r, onLoad ces st.sh.files path = some r ∧
      (st.sh.errors ≠ [] → r.contents = none ∧ r.errors ≠ [] ∧
        (r.errors.filter fun m => m.location.isNone).map (fun m => some m.text) = ces.map CErr.text) := by
  have hs := renderedAll_safe hi h hz (fun _ he => he) hr
  obtain ⟨ms, h1, h2, h3, _⟩ := toEsbuild_partial hs
  unfold onLoad
  split
  · rw [h1]
    refine ⟨_, rfl, fun hne => ⟨rfl, fun e => ?_, h2⟩⟩
    dsimp only at e
    rw [e] at h3
    simp only [List.length_nil] at h3
    omega
  · rename_i hl
    have : st.sh.errors = [] := by
      rw [← List.length_eq_zero_iff, ← hr.length]; omega
    split
    · exact ⟨_, rfl, fun hne => absurd this hne⟩
    · exact ⟨_, rfl, fun hne => absurd this hne⟩

theorem lookup_eq (k : Bytes) : ∀ l : List (Bytes × Bytes), l.lookup k = lookupMap l k
  | [] => rfl
  | (k', v) :: l => by
    rw [List.lookup, lookupMap]
    by_cases e : k' = k
    · subst e; simp
    · rw [if_neg e, show (k == k') = false from by simpa using fun h => e h.symm, lookup_eq k l]

/-- C73 for the file itself, under every schedule: if nothing is reported and the path is absolute and clean, `OnLoad`
returns the printed form of the transformed stylesheet of the file. -/
theorem onLoad_output {env : CEnv} {path : Bytes} {st : CSt} (he : env.entries = [path])
    (hself : ∀ r, Imported env r → env.abs r ≠ some path) (ha : env.abs path = some path)
    (h : Reached env st) (hd : st.main = .done) (hn : st.sh.errors = []) :
    ∃ c ss lines repl ss' s out, env.read path = some c ∧ parse env.fuel c = .ok ss lines ∧ (ss.imports = [] → repl = []) ∧
      transform env.fo env.opts (if env.opts.importRules = .inline then some repl else none) env.fuel ss = .ok ss' s ∧
      print (some ⟨path, c, lines⟩) ss' = .ok out ∧ onLoad [] st.sh.files path = some ⟨[], some out, false⟩ := by
  have hself' : ∀ r a, env.abs path = some a → Imported env r → env.abs r ≠ some a := by
    intro r a h1 h2
    rw [ha] at h1
    cases h1
    exact hself r h2
  by_cases hex : ∃ c ss lines, env.read path = some c ∧ parse env.fuel c = .ok ss lines
  · obtain ⟨c, ss, lines, hc, hp⟩ := hex
    obtain ⟨repl, ss', s, h1, h2, h3⟩ := entry_output_partial he hself' ha hc hp h hd
    rcases h3 with ⟨out, h3, h4⟩ | ⟨_, _, h5⟩
    · refine ⟨c, ss, lines, repl, ss', s, out, hc, hp, h1, h2, h3, ?_⟩
      unfold onLoad
      rw [if_neg (by simp), lookup_eq, h4]
    · rw [hn] at h5; cases h5
  · obtain ⟨h1, _⟩ := failed_reported_one he hself' h hd (by
      intro a c ss lines h1 h2 h3
      rw [ha] at h1
      cases h1
      exact hex ⟨c, ss, lines, h2, h3⟩)
    exact absurd hn h1

/-- C73: a file that cannot be read or parsed leads to error messages, under every schedule. -/
theorem onLoad_failed {env : CEnv} {path : Bytes} {st : CSt} (he : env.entries = [path])
    (hself : ∀ r a, env.abs path = some a → Imported env r → env.abs r ≠ some a) (hi : env.opts.importRules ≠ .inline)
    (h : Reached env st) (hd : st.main = .done) (hz : SizesFit st.sh.heap)
    (hf : ∀ {a c ss lines}, env.abs path = some a → env.read a = some c → parse env.fuel c ≠ .ok ss lines)
    {ces : List CErr} (hr : RenderedAll st.sh.heap st.sh.errors ces) :
    ∃ r, onLoad ces st.sh.files path = some r ∧ r.contents = none ∧ r.errors ≠ [] := by
  obtain ⟨r, h1, h2⟩ := onLoad_safe_partial hi h hz hr path
  obtain ⟨h3, h4, _⟩ := h2 (failed_reported_one he hself h hd hf).1
  exact ⟨r, h1, h3, h4⟩

/-- If the path is not clean, the output is filed under another name and `OnLoad` fails although nothing is reported. -/
theorem onLoad_not_clean {env : CEnv} {path : Bytes} {st : CSt} (he : env.entries = [path])
    (hself : ∀ r a, env.abs path = some a → Imported env r → env.abs r ≠ some a) (hf : env.opts.importRules ≠ .follow)
    (ha : env.abs path ≠ some path) (h : Reached env st) : onLoad [] st.sh.files path = some ⟨[], none, true⟩ := by
  unfold onLoad
  rw [if_neg (by simp), lookup_eq]
  cases hl : lookupMap st.sh.files path with
  | none => rfl
  | some out => exact absurd (files_one_partial he hself hf h _ (lookupMap_mem' hl)) ha

/-- **C73, refuted as stated**: `OnLoad` panics on the reports of `farVar`, in which the variable of the inlined file is
outside the importing file. -/
theorem onLoad_refuted : ∃ env st, Reached env st ∧ st.main = .done ∧
    ∀ ces, RenderedAll st.sh.heap st.sh.errors ces → onLoad ces st.sh.files b!"/m" = none := by
  obtain ⟨st, h1, h2, h3, h4⟩ := farVar_run
  refine ⟨farVar, st, h1, h2, fun ces hr => ?_⟩
  generalize st.sh.errors = es at h3 hr
  obtain ⟨e1, e2, rfl⟩ : ∃ e1 e2, es = [e1, e2] := by
    have hl := congrArg List.length h3
    rw [List.length_map] at hl
    exact List.length_eq_two.1 hl
  simp only [List.map_cons, List.map_nil, List.cons.injEq, and_true] at h3
  rcases hr with _ | ⟨ha, _ | ⟨hb, hc⟩⟩
  have : ∀ {s : Source}, NamedSource st.sh.heap b!"/m" s → s = ⟨b!"/m", b!"@import \"x\";", [0]⟩ := by
    intro s hs
    have hc := (named_source h1 hs).2
    have hm : (s.path, s.lines) ∈ [(b!"/m", [0]), (b!"/x", [0])] := by
      rw [← h4]; exact List.mem_map.2 ⟨s, hs.1, rfl⟩
    have hl : s.lines = [0] := by
      simp only [List.mem_cons, Prod.mk.injEq, List.not_mem_nil, or_false] at hm
      rcases hm with hm | hm <;> exact hm.2
    rw [farVar_read] at hc
    obtain ⟨p, c, l⟩ := s
    cases hc
    cases hl
    obtain rfl := hs.2.1
    rfl
  have h5 := h3.2
  cases hb with
  | transform hs hsp =>
    simp only [CompErr.placed, CompErr.loc?, hsp, Option.map_some, Prod.mk.injEq, Option.some.injEq, true_and] at h5
    obtain ⟨rfl, rfl⟩ := h5
    rw [this hs]
    have hm : ∀ inner, errMessages (.located ⟨b!"/m", b!"@import \"x\";", [0]⟩ ⟨16, 24⟩ inner) = none := by
      intro inner
      have : msgLoc ⟨b!"/m", b!"@import \"x\";", [0]⟩ ⟨16, 24⟩ = none := by decide +kernel
      rw [errMessages, this]
      rfl
    unfold onLoad
    rw [if_pos (by simp), toEsbuild]
    cases hx : errMessages _ with
    | none => rfl
    | some a => rw [toEsbuild, hm]; rfl
  | unplaced hsp => simp [CompErr.placed, CompErr.loc?, hsp] at h5
  | _ => simp [CompErr.placed, CompErr.loc?] at h5

/-- The hypotheses of `onLoad_output` are met. -/
example : ∃ st, Reached (exEnv [b!"/m"] .passthrough [(b!"/m", b!"a{b:c}")]) st ∧ st.main = .done ∧ st.sh.errors = [] ∧
    (exEnv [b!"/m"] .passthrough [(b!"/m", b!"a{b:c}")]).abs b!"/m" = some b!"/m" := by
  obtain ⟨st, h1, h2⟩ := reach_of_check (env := exEnv [b!"/m"] .passthrough [(b!"/m", b!"a{b:c}")])
    (cs := [.main] ++ steps 0 40 ++ [.main, .main, .print 0, .main])
    (f := fun st => decide (st.main = .done ∧ st.sh.errors = [])) (by decide +kernel)
  obtain ⟨h2, h3⟩ := of_decide_eq_true h2
  exact ⟨st, h1, h2, h3, by decide +kernel⟩

/-- A path that is not clean. -/
example : (exEnv [b!"/x/../m"] .passthrough [(b!"/m", b!"a{b:c}")]).abs b!"/x/../m" = some b!"/m" := by decide +kernel

end Cssc
