import Verif.Proofs.CompileInv
import Verif.Proofs.TransformSpans
import Verif.Props.LineTable

/-!
# Compile: where errors are reported, under every schedule
-/

namespace Cssc

/-- The table that a parse leaves begins with 0. -/
theorem parse_ok_head {n : Nat} {src : Bytes} {id : Nat} {ss : Stylesheet} {lines : List Nat}
    (h : parse n src id = .ok ss lines) : lines.head? = some 0 := by
  obtain ⟨s, s', hr, _, hl, hw, _⟩ := parse_table h
  obtain ⟨l, e, _, _⟩ := hw.lines
  rw [← hl, e, hr.lines]
  rfl

theorem parse_error_head {n : Nat} {src : Bytes} {id : Nat} {e : LexErr} {lines : List Nat}
    (h : parse n src id = .error e lines) : lines.head? = some 0 := by
  unfold parse at h
  split at h
  · cases h
  · cases h
  · cases h
  · rename_i s hs
    split at h
    · cases h
    · rename_i e' s' ht
      cases h
      have hi := newLexer_lines hs
      have hw : Wide s s' := wp_err (topLoop_ex n _ (.refl hi.inv)) ht
      obtain ⟨l, e, _, _⟩ := hw.lines
      rw [e, hi.lines]
      rfl
    · cases h
    · cases h

/-- The sources keep their place, path and content, and their tables grow. -/
def HeapGrows (h h' : List Source) : Prop :=
  ∀ (i : Nat) (s : Source), h[i]? = some s →
    ∃ s' : Source, h'[i]? = some s' ∧ s'.path = s.path ∧ s'.content = s.content ∧ (s.lines ≠ [] → s'.lines ≠ [])

theorem HeapGrows.refl (h : List Source) : HeapGrows h h := fun _ s hs => ⟨s, hs, rfl, rfl, id⟩

theorem HeapGrows.append (h h2 : List Source) : HeapGrows h (h ++ h2) := by
  intro i s hs
  have hi := (List.getElem?_eq_some_iff.1 hs).1
  exact ⟨s, by rw [List.getElem?_append_left hi]; exact hs, rfl, rfl, id⟩

theorem HeapGrows.set {h : List Source} {a : Nat} {s : Source} (hs : h[a]? = some s) (l : List Nat) :
    HeapGrows h (h.set a { s with lines := s.lines ++ l }) := by
  intro i s' hs'
  have hi := (List.getElem?_eq_some_iff.1 hs').1
  by_cases hia : a = i
  · subst hia
    rw [hs] at hs'; cases hs'
    exact ⟨_, List.getElem?_set_self hi, rfl, rfl, fun hn => by simp [hn]⟩
  · exact ⟨s', by rw [List.getElem?_set_ne hia]; exact hs', rfl, rfl, id⟩

/-- The span lies in some file that the compilation looks at. -/
def Somewhere (env : CEnv) (sp : Span) : Prop :=
  sp = ⟨0, 0⟩ ∨ ∃ s, FromAsked env s ∧ SpOk s.content sp

/-- The source that an error names: it has been parsed. -/
def NamedSource (heap : List Source) (path : Bytes) (s : Source) : Prop := s ∈ heap ∧ s.path = path ∧ s.lines ≠ []

/-- An error is located in a source that has been parsed. -/
def ErrPlaced (env : CEnv) (heap : List Source) : CompErr → Prop
  | .parse path e => ∃ s, NamedSource heap path s ∧ SpOk s.content e.span
  | .transform path r => ∃ s, NamedSource heap path s ∧
      ∀ sp, r.span = some sp → Somewhere env sp ∧ (env.opts.importRules ≠ .inline → SpOk s.content sp)
  | _ => True

theorem NamedSource.mono {h h' : List Source} (hg : HeapGrows h h') {path : Bytes} {s : Source} (hn : NamedSource h path s) :
    ∃ s', NamedSource h' path s' ∧ s'.content = s.content := by
  obtain ⟨h1, h2, h3⟩ := hn
  obtain ⟨i, hi, rfl⟩ := List.getElem_of_mem h1
  obtain ⟨s', g1, g2, g3, g4⟩ := hg i h[i] (List.getElem?_eq_getElem hi)
  exact ⟨s', ⟨List.mem_of_getElem? g1, g2.trans h2, g4 h3⟩, g3⟩

theorem ErrPlaced.mono {env : CEnv} {h h' : List Source} (hg : HeapGrows h h') : ∀ {e : CompErr}, ErrPlaced env h e → ErrPlaced env h' e
  | .parse path e, ⟨s, h1, h2⟩ => by
    obtain ⟨s', g1, g2⟩ := h1.mono hg
    exact ⟨s', g1, by rw [g2]; exact h2⟩
  | .transform path r, ⟨s, h1, h2⟩ => by
    obtain ⟨s', g1, g2⟩ := h1.mono hg
    exact ⟨s', g1, by rw [g2]; exact h2⟩
  | .abs _, _ => trivial
  | .read _, _ => trivial
  | .resolve _ _, _ => trivial
  | .print _, _ => trivial

/-- The stylesheets that a goroutine has in its hands. -/
def PC.Placed (env : CEnv) : PC → Prop
  | .cache _ ss => SpansIn (Somewhere env) ss.items
  | .deliver (some ss) => SpansIn (Somewhere env) ss.items
  | _ => True

/-- The stylesheet of a goroutine is empty, or the parse of its source. -/
def FramePlaced (env : CEnv) (heap : List Source) (th : Thread) : Prop :=
  th.ss = ⟨[], []⟩ ∨
  ∃ source id lines, heap[th.addr]? = some source ∧ source.lines ≠ [] ∧ parse env.fuel source.content id = .ok th.ss lines

theorem FramePlaced.mono {env : CEnv} {h h' : List Source} {th : Thread} (hg : HeapGrows h h') (hf : FramePlaced env h th) :
    FramePlaced env h' th := by
  rcases hf with hf | ⟨source, id, lines, h1, h2, h3⟩
  · exact .inl hf
  · obtain ⟨s', g1, g2, g3, g4⟩ := hg _ _ h1
    exact .inr ⟨s', id, lines, g1, g4 h2, by rw [g3]; exact h3⟩

structure InvP (env : CEnv) (st : CSt) : Prop where
  lines : ∀ s ∈ st.sh.heap, s.lines = [] ∨ s.lines.head? = some 0
  frames : ∀ th ∈ st.threads, FramePlaced env st.sh.heap th
  repl : ∀ th ∈ st.threads, ∀ d ∈ th.repl, SpansIn (Somewhere env) d.2.items
  pcs : ∀ th ∈ st.threads, th.pc.Placed env
  asts : ∀ d ∈ st.sh.asts, SpansIn (Somewhere env) d.2.items
  errors : ∀ e ∈ st.sh.errors, ErrPlaced env st.sh.heap e

/-- What a step of one goroutine has to show about the shared memory. -/
structure StepP (env : CEnv) (st : CSt) (sh : Shared) : Prop where
  grows : HeapGrows st.sh.heap sh.heap
  lines : ∀ s ∈ sh.heap, s.lines = [] ∨ s.lines.head? = some 0
  asts : ∀ d ∈ sh.asts, SpansIn (Somewhere env) d.2.items
  errors : ∀ e ∈ sh.errors, ErrPlaced env sh.heap e

theorem InvP.same {env : CEnv} {st : CSt} (hI : InvP env st) {sh : Shared} (h1 : sh.heap = st.sh.heap) (h2 : sh.asts = st.sh.asts)
    (h3 : sh.errors = st.sh.errors) : StepP env st sh :=
  ⟨by rw [h1]; exact .refl _, by rw [h1]; exact hI.lines, by rw [h2]; exact hI.asts, by rw [h1, h3]; exact hI.errors⟩

theorem StepP.addError {env : CEnv} {st : CSt} {sh : Shared} (h : StepP env st sh) {e : CompErr} (he : ErrPlaced env sh.heap e) :
    StepP env st (sh.addError e) := by
  refine ⟨h.grows, h.lines, h.asts, fun x hx => ?_⟩
  rcases List.mem_append.1 hx with hx | hx
  · exact h.errors x hx
  · rw [List.mem_singleton.1 hx]; exact he

theorem InvP.parsed {env : CEnv} {st : CSt} (hI : InvP env st) {addr : Nat} {source : Source} {lines : List Nat}
    (hs : st.sh.heap[addr]? = some source) (hl : lines.head? = some 0) :
    StepP env st (st.sh.parsed addr source lines) ∧
      (st.sh.parsed addr source lines).heap[addr]? = some { source with lines := source.lines ++ lines } ∧
      source.lines ++ lines ≠ [] := by
  have hg := HeapGrows.set hs lines
  have hne : source.lines ++ lines ≠ [] := by
    intro e
    rw [(List.append_eq_nil_iff.1 e).2] at hl
    cases hl
  refine ⟨⟨hg, fun s hs' => ?_, hI.asts, fun e he => (hI.errors e he).mono hg⟩, ?_, hne⟩
  · rcases mem_set hs' with h1 | rfl
    · exact hI.lines s h1
    · right
      dsimp only
      rcases hI.lines _ (List.mem_of_getElem? hs) with e | e
      · rw [e]; exact hl
      · cases e' : source.lines with
        | nil => exact hl
        | cons a l => rw [e'] at e; exact e
  · have hi := (List.getElem?_eq_some_iff.1 hs).1
    exact List.getElem?_set_self hi

theorem lookupMap_mem' {α β : Type} [DecidableEq α] {k : α} {v : β} : ∀ {m : List (α × β)}, lookupMap m k = some v → (k, v) ∈ m
  | [], h => by cases h
  | (k', v') :: m, h => by
    rw [lookupMap] at h
    split at h
    · rename_i e; cases h; rw [e]; simp
    · exact List.mem_cons_of_mem _ (lookupMap_mem' h)

/-- The spans of a parsed stylesheet. -/
theorem parse_somewhere {env : CEnv} {s : Source} (hs : FromAsked env s) {id : Nat} {ss : Stylesheet} {lines : List Nat}
    (h : parse env.fuel s.content id = .ok ss lines) : SpansIn (Somewhere env) ss.items :=
  fun sp hsp => .inr ⟨s, hs, (parse_spans h).1 sp (mem_spans.2 hsp)⟩

theorem frame_somewhere {env : CEnv} {st : CSt} (h1 : Inv1 env st) (hI : InvP env st) {th : Thread} (hth : th ∈ st.threads) :
    SpansIn (Somewhere env) th.ss.items := by
  rcases hI.frames th hth with h | ⟨source, id, lines, hs, _, hp⟩
  · rw [h]; exact SpansIn.nil
  · exact parse_somewhere (h1.heap _ (List.mem_of_getElem? hs)) hp

theorem Loc.invP {env : CEnv} {st : CSt} {t : Nat} {th : Thread} {sh : Shared} {pc : PC} (h1 : Inv1 env st) (hI : InvP env st)
    (hth : st.threads[t]? = some th) (h : Loc env st t th sh pc) : StepP env st sh ∧ pc.Placed env := by
  have hmem := List.mem_of_getElem? hth
  have hpc := hI.pcs th hmem
  have hsame := hI.same rfl rfl rfl
  have hite : ∀ {b : Bool} {i : Nat}, PC.Placed env (if b = true then .outBegin i else .cached i) := by
    intro b i; cases b <;> trivial
  cases h with
  | startEntry => exact ⟨hsame, trivial⟩
  | startFail => exact ⟨hsame.addError trivial, trivial⟩
  | startImport => exact ⟨hsame, trivial⟩
  | noAbs => exact ⟨hsame.addError trivial, trivial⟩
  | known => exact ⟨hsame, hite⟩
  | unknown => exact ⟨hsame, trivial⟩
  | noRead => exact ⟨hsame.addError trivial, trivial⟩
  | read => exact ⟨hsame, trivial⟩
  | alloc => exact ⟨hI.same rfl rfl rfl, trivial⟩
  | @store abs content i =>
    have hg := HeapGrows.append st.sh.heap [⟨abs, content, []⟩]
    refine ⟨⟨hg, fun s hs => ?_, hI.asts, fun e he => (hI.errors e he).mono hg⟩, trivial⟩
    rcases List.mem_append.1 hs with hs | hs
    · exact hI.lines s hs
    · rw [List.mem_singleton.1 hs]; exact .inl rfl
  | incRead => exact ⟨hsame, trivial⟩
  | incWrite => exact ⟨hI.same rfl rfl rfl, hite⟩
  | outBegin => exact ⟨hI.same rfl rfl rfl, trivial⟩
  | outEnd => exact ⟨hI.same rfl rfl rfl, trivial⟩
  | hit _ hl => exact ⟨hsame, hI.asts _ (lookupMap_mem' hl)⟩
  | miss => exact ⟨hsame, trivial⟩
  | source => exact ⟨hsame, trivial⟩
  | parseFail _ hs hp =>
    obtain ⟨g1, g2, g3⟩ := hI.parsed hs (parse_error_head hp)
    exact ⟨g1.addError ⟨_, ⟨List.mem_of_getElem? g2, rfl, g3⟩, parse_error_span hp⟩, trivial⟩
  | spawned => exact ⟨hsame, trivial⟩
  | @transform i source ss s _ _ hs ht =>
    have hrepl : ReplSpans (Somewhere env) (if env.opts.importRules = .inline then some th.repl else none) := by
      intro m hm
      split at hm
      · cases hm; exact hI.repl th hmem
      · cases hm
    obtain ⟨g1, g2⟩ := transform_spans (.inl rfl) hrepl (frame_somewhere h1 hI hmem) ht
    refine ⟨⟨.refl _, hI.lines, hI.asts, fun e he => ?_⟩, g1⟩
    rcases List.mem_append.1 he with he | he
    · exact hI.errors e he
    · obtain ⟨r, hr, rfl⟩ := List.mem_map.1 he
      rcases hI.frames th hmem with hf | ⟨source', id, lines, h2, h3, h4⟩
      · exfalso
        rw [hf] at ht
        unfold Cssc.transform transformNodes at ht
        cases hi : env.opts.importRules <;> rw [hi] at ht <;> cases ht <;> simp [TSt.init, hi] at hr
      · rw [hs] at h2; cases h2
        refine ⟨source, ⟨List.mem_of_getElem? hs, rfl, h3⟩, fun sp hsp => ⟨g2 r hr sp hsp, fun hni => ?_⟩⟩
        rw [if_neg hni] at ht
        exact (transform_spans (P := SpOk source.content) (repl := none) ⟨Nat.le_refl _, Nat.zero_le _⟩ (fun m hm => by cases hm)
          (fun sp hsp => (parse_spans h4).1 sp (mem_spans.2 hsp)) ht).2 r hr sp hsp
  | cache hpc' =>
    rw [hpc'] at hpc
    refine ⟨⟨.refl _, hI.lines, fun d hd => ?_, hI.errors⟩, hpc⟩
    rcases List.mem_cons.1 hd with rfl | hd
    · exact hpc
    · exact hI.asts d hd
  | finish => exact ⟨hsame, trivial⟩

theorem Act.invP {env : CEnv} {st st' : CSt} {t : Nat} {th : Thread} (h1 : Inv1 env st) (hI : InvP env st)
    (hth : st.threads[t]? = some th) (h : Act env st t th st') : InvP env st' := by
  have hmem := List.mem_of_getElem? hth
  cases h with
  | loc h =>
    obtain ⟨g1, g2⟩ := h.invP h1 hI hth
    refine ⟨g1.lines, fun x hx => ?_, fun x hx => ?_, fun x hx => ?_, g1.asts, g1.errors⟩
    · rcases mem_set hx with hx | rfl
      · exact (hI.frames x hx).mono g1.grows
      · exact FramePlaced.mono (th := th) g1.grows (hI.frames th hmem)
    · rcases mem_set hx with hx | rfl
      · exact hI.repl x hx
      · exact (hI.repl th hmem :)
    · rcases mem_set hx with hx | rfl
      · exact hI.pcs x hx
      · exact g2
  | @parse i addr source ss lines hpc hs hp =>
    obtain ⟨g1, g2, g3⟩ := hI.parsed hs (parse_ok_head hp)
    refine ⟨g1.lines, fun x hx => ?_, fun x hx => ?_, fun x hx => ?_, g1.asts, g1.errors⟩
    · rcases mem_set hx with hx | rfl
      · exact (hI.frames x hx).mono g1.grows
      · exact .inr ⟨_, _, _, g2, g3, hp⟩
    · rcases mem_set hx with hx | rfl
      · exact hI.repl x hx
      · exact (hI.repl th hmem :)
    · rcases mem_set hx with hx | rfl
      · exact hI.pcs x hx
      · trivial
  | spawn hpc hk =>
    refine ⟨hI.lines, fun x hx => ?_, fun x hx => ?_, fun x hx => ?_, hI.asts, hI.errors⟩
    · rcases List.mem_append.1 hx with hx | hx
      · rcases mem_set hx with hx | rfl
        · exact hI.frames x hx
        · exact (hI.frames th hmem :)
      · rw [List.mem_singleton.1 hx]; exact .inl rfl
    · rcases List.mem_append.1 hx with hx | hx
      · rcases mem_set hx with hx | rfl
        · exact hI.repl x hx
        · exact (hI.repl th hmem :)
      · rw [List.mem_singleton.1 hx]; intro d hd; cases hd
    · rcases List.mem_append.1 hx with hx | hx
      · rcases mem_set hx with hx | rfl
        · exact hI.pcs x hx
        · trivial
      · rw [List.mem_singleton.1 hx]; trivial
  | @deliver p par imp ss hpc hp hpar hi =>
    have hpmem := List.mem_of_getElem? hpar
    have hss := hI.pcs th hmem
    rw [hpc] at hss
    refine ⟨hI.lines, fun x hx => ?_, fun x hx => ?_, fun x hx => ?_, hI.asts, hI.errors⟩
    · rcases mem_set hx with hx | rfl
      · rcases mem_set hx with hx | rfl
        · exact hI.frames x hx
        · exact (hI.frames par hpmem :)
      · exact (hI.frames th hmem :)
    · rcases mem_set hx with hx | rfl
      · rcases mem_set hx with hx | rfl
        · exact hI.repl x hx
        · intro d hd
          rcases List.mem_cons.1 hd with rfl | hd
          · exact hss
          · exact hI.repl par hpmem d hd
      · exact (hI.repl th hmem :)
    · rcases mem_set hx with hx | rfl
      · rcases mem_set hx with hx | rfl
        · exact hI.pcs x hx
        · exact (hI.pcs par hpmem :)
      · trivial

theorem MainAct.invP {env : CEnv} {st st' : CSt} (hI : InvP env st) (h : MainAct env st st') : InvP env st' := by
  cases h with
  | spawn =>
    refine ⟨hI.lines, fun x hx => ?_, fun x hx => ?_, fun x hx => ?_, hI.asts, hI.errors⟩
    all_goals rcases List.mem_append.1 hx with hx | hx
    · exact hI.frames x hx
    · rw [List.mem_singleton.1 hx]; exact .inl rfl
    · exact hI.repl x hx
    · rw [List.mem_singleton.1 hx]; intro d hd; cases hd
    · exact hI.pcs x hx
    · rw [List.mem_singleton.1 hx]; trivial
  | spawned => exact ⟨hI.lines, hI.frames, hI.repl, hI.pcs, hI.asts, hI.errors⟩
  | wait => exact ⟨hI.lines, hI.frames, hI.repl, hI.pcs, hI.asts, hI.errors⟩
  | finish => exact ⟨hI.lines, hI.frames, hI.repl, hI.pcs, hI.asts, hI.errors⟩
  | print => exact ⟨hI.lines, hI.frames, hI.repl, hI.pcs, hI.asts, hI.errors⟩
  | printFail =>
    refine ⟨hI.lines, hI.frames, hI.repl, hI.pcs, hI.asts, fun e he => ?_⟩
    rcases List.mem_append.1 he with he | he
    · exact hI.errors e he
    · rw [List.mem_singleton.1 he]; trivial
  | skip => exact ⟨hI.lines, hI.frames, hI.repl, hI.pcs, hI.asts, hI.errors⟩

theorem Reached.invP {env : CEnv} {st : CSt} (h : Reached env st) : InvP env st := by
  induction h with
  | init => refine ⟨?_, ?_, ?_, ?_, ?_, ?_⟩ <;> simp [CSt.init, Shared.init]
  | step h hs ih =>
    rcases cstep_act hs with h' | ⟨t, th, hth, h'⟩
    · exact h'.invP ih
    · exact h'.invP h.inv1 ih hth

end Cssc
