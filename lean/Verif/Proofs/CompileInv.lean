import Verif.Proofs.Compile
import Verif.Spec.Compile

/-!
# Compile: what holds under every schedule
-/

namespace Cssc

/-- The source was read from a file that the compilation has to look at. -/
def FromAsked (env : CEnv) (s : Source) : Prop :=
  ∃ p, Asked env p ∧ env.abs p = some s.path ∧ env.read s.path = some s.content

/-- What a goroutine has in its hands is a file that the compilation has to look at. -/
def PC.Good (env : CEnv) : PC → Prop
  | .lookup p => Asked env p
  | .read p a => Asked env p ∧ env.abs p = some a
  | .alloc a c => FromAsked env ⟨a, c, []⟩
  | .store a c _ => FromAsked env ⟨a, c, []⟩
  | _ => True

/-- The stylesheet of a goroutine is the parse of its source. -/
def FrameOk (env : CEnv) (heap : List Source) (th : Thread) : Prop :=
  th.ss.imports = [] ∨
  ∃ source id lines, heap[th.addr]? = some source ∧ parse env.fuel source.content id = .ok th.ss lines

structure Inv1 (env : CEnv) (st : CSt) : Prop where
  heap : ∀ s ∈ st.sh.heap, FromAsked env s
  pcs : ∀ th ∈ st.threads, th.pc.Good env
  frames : ∀ th ∈ st.threads, FrameOk env st.sh.heap th
  files : ∀ kv ∈ st.sh.files, ∃ s ∈ st.sh.heap, s.path = kv.1

/-- The sources keep their place, path and content. -/
def HeapLe (h h' : List Source) : Prop :=
  ∀ (i : Nat) (s : Source), h[i]? = some s → ∃ s' : Source, h'[i]? = some s' ∧ s'.path = s.path ∧ s'.content = s.content

theorem HeapLe.refl (h : List Source) : HeapLe h h := fun _ s hs => ⟨s, hs, rfl, rfl⟩

theorem HeapLe.append (h h2 : List Source) : HeapLe h (h ++ h2) := by
  intro i s hs
  have hi := (List.getElem?_eq_some_iff.1 hs).1
  exact ⟨s, by rw [List.getElem?_append_left hi]; exact hs, rfl, rfl⟩

theorem HeapLe.set {h : List Source} {a : Nat} {s s1 : Source} (hs : h[a]? = some s) (h1 : s1.path = s.path)
    (h2 : s1.content = s.content) : HeapLe h (h.set a s1) := by
  intro i s' hs'
  have hi := (List.getElem?_eq_some_iff.1 hs').1
  by_cases hia : a = i
  · subst hia
    rw [hs] at hs'; cases hs'
    exact ⟨s1, by rw [List.getElem?_set_self hi], h1, h2⟩
  · exact ⟨s', by rw [List.getElem?_set_ne hia]; exact hs', rfl, rfl⟩

theorem FrameOk.mono {env : CEnv} {h h' : List Source} {th : Thread} (hle : HeapLe h h') (hf : FrameOk env h th) :
    FrameOk env h' th := by
  rcases hf with hf | ⟨source, id, lines, h1, h2⟩
  · exact .inl hf
  · obtain ⟨s', h3, h4, h5⟩ := hle _ _ h1
    exact .inr ⟨s', id, lines, h3, by rw [h5]; exact h2⟩

theorem mem_set {α : Type} {l : List α} {i : Nat} {a x : α} (h : x ∈ l.set i a) : x ∈ l ∨ x = a :=
  List.mem_or_eq_of_mem_set h

theorem path_mono {h h' : List Source} (hle : HeapLe h h') {k : Bytes} (hk : ∃ s ∈ h, s.path = k) :
    ∃ s ∈ h', s.path = k := by
  obtain ⟨s, hs, rfl⟩ := hk
  obtain ⟨i, hi, rfl⟩ := List.getElem_of_mem hs
  obtain ⟨s', h1, h2, _⟩ := hle i h[i] (List.getElem?_eq_getElem hi)
  exact ⟨s', List.mem_of_getElem? h1, h2⟩

/-- The import that a goroutine reads is one to look at. -/
theorem Inv1.import_asked {env : CEnv} {st : CSt} (h : Inv1 env st) {p : Nat} {par : Thread} {imp : ImportSpec}
    {source : Source} {rel : Bytes} (hpar : st.threads[p]? = some par) (hi : par.ss.imports[par.imp]? = some imp)
    (hs : st.sh.heap[par.addr]? = some source) (hr : env.resolve imp.value (dirOf source.path) = some rel) :
    Imported env rel := by
  have him := List.mem_of_getElem? hi
  rcases h.frames par (List.mem_of_getElem? hpar) with he | ⟨source', id, lines, h1, h2⟩
  · rw [he] at him; cases him
  · rw [hs] at h1; cases h1
    obtain ⟨q, h3, h4, h5⟩ := h.heap _ (List.mem_of_getElem? hs)
    exact .imp h3 h4 h5 h2 him hr

theorem Loc.inv1 {env : CEnv} {st : CSt} {t : Nat} {th : Thread} {sh : Shared} {pc : PC} (hI : Inv1 env st)
    (hth : st.threads[t]? = some th) (h : Loc env st t th sh pc) :
    HeapLe st.sh.heap sh.heap ∧ (∀ s ∈ sh.heap, FromAsked env s) ∧ pc.Good env ∧ sh.files = st.sh.files := by
  have hmem := List.mem_of_getElem? hth
  have hpcg := hI.pcs th hmem
  have href := HeapLe.refl st.sh.heap
  have hite : ∀ {b : Bool} {i : Nat}, PC.Good env (if b = true then .outBegin i else .cached i) := by
    intro b i; cases b <;> trivial
  cases h with
  | startEntry hpc hp he => exact ⟨href, hI.heap, .entry (List.mem_of_getElem? he), rfl⟩
  | startFail => exact ⟨href, hI.heap, trivial, rfl⟩
  | startImport hpc hp hpar hi hs hr => exact ⟨href, hI.heap, (hI.import_asked hpar hi hs hr).asked, rfl⟩
  | noAbs => exact ⟨href, hI.heap, trivial, rfl⟩
  | known => exact ⟨href, hI.heap, hite, rfl⟩
  | unknown hpc ha hl => rw [hpc] at hpcg; exact ⟨href, hI.heap, ⟨hpcg, ha⟩, rfl⟩
  | noRead => exact ⟨href, hI.heap, trivial, rfl⟩
  | read hpc hr => rw [hpc] at hpcg; exact ⟨href, hI.heap, ⟨_, hpcg.1, hpcg.2, hr⟩, rfl⟩
  | alloc hpc => rw [hpc] at hpcg; exact ⟨href, hI.heap, hpcg, rfl⟩
  | store hpc =>
    rw [hpc] at hpcg
    refine ⟨HeapLe.append _ _, fun s hs => ?_, trivial, rfl⟩
    rcases List.mem_append.1 hs with hs | hs
    · exact hI.heap s hs
    · rw [List.mem_singleton.1 hs]; exact hpcg
  | incRead => exact ⟨href, hI.heap, trivial, rfl⟩
  | incWrite => exact ⟨href, hI.heap, hite, rfl⟩
  | outBegin => exact ⟨href, hI.heap, trivial, rfl⟩
  | outEnd => exact ⟨href, hI.heap, trivial, rfl⟩
  | hit => exact ⟨href, hI.heap, trivial, rfl⟩
  | miss => exact ⟨href, hI.heap, trivial, rfl⟩
  | source => exact ⟨href, hI.heap, trivial, rfl⟩
  | parseFail hpc hs hp =>
    refine ⟨HeapLe.set hs rfl rfl, fun s hs' => ?_, trivial, rfl⟩
    rcases mem_set hs' with h1 | rfl
    · exact hI.heap s h1
    · exact (hI.heap _ (List.mem_of_getElem? hs) :)
  | spawned => exact ⟨href, hI.heap, trivial, rfl⟩
  | transform => exact ⟨href, hI.heap, trivial, rfl⟩
  | cache => exact ⟨href, hI.heap, trivial, rfl⟩
  | finish => exact ⟨href, hI.heap, trivial, rfl⟩

theorem Act.inv1 {env : CEnv} {st st' : CSt} {t : Nat} {th : Thread} (hI : Inv1 env st)
    (hth : st.threads[t]? = some th) (h : Act env st t th st') : Inv1 env st' := by
  have hmem := List.mem_of_getElem? hth
  cases h with
  | loc h =>
    obtain ⟨h1, h2, h3, h4⟩ := h.inv1 hI hth
    refine ⟨h2, fun x hx => ?_, fun x hx => ?_, fun kv hkv => ?_⟩
    · rcases mem_set hx with hx | rfl
      · exact hI.pcs x hx
      · exact h3
    · rcases mem_set hx with hx | rfl
      · exact (hI.frames x hx).mono h1
      · exact FrameOk.mono (th := th) h1 (hI.frames th hmem)
    · rw [h4] at hkv; exact path_mono h1 (hI.files kv hkv)
  | parse hpc hs hp =>
    rename_i i addr source ss lines
    have hle : HeapLe st.sh.heap (st.sh.parsed addr source lines).heap := HeapLe.set hs rfl rfl
    refine ⟨fun s hs' => ?_, fun x hx => ?_, fun x hx => ?_, fun kv hkv => path_mono hle (hI.files kv hkv)⟩
    · rcases mem_set hs' with h1 | rfl
      · exact hI.heap s h1
      · exact (hI.heap _ (List.mem_of_getElem? hs) :)
    · rcases mem_set hx with hx | rfl
      · exact hI.pcs x hx
      · trivial
    · rcases mem_set hx with hx | rfl
      · exact (hI.frames x hx).mono hle
      · obtain ⟨s', h1, _, h3⟩ := hle _ _ hs
        exact .inr ⟨s', _, _, h1, by rw [h3]; exact hp⟩
  | spawn hpc hk =>
    refine ⟨hI.heap, fun x hx => ?_, fun x hx => ?_, hI.files⟩
    · rcases List.mem_append.1 hx with hx | hx
      · rcases mem_set hx with hx | rfl
        · exact hI.pcs x hx
        · trivial
      · rw [List.mem_singleton.1 hx]; trivial
    · rcases List.mem_append.1 hx with hx | hx
      · rcases mem_set hx with hx | rfl
        · exact hI.frames x hx
        · exact hI.frames th hmem
      · rw [List.mem_singleton.1 hx]; exact .inl rfl
  | deliver hpc hp hpar hi =>
    refine ⟨hI.heap, fun x hx => ?_, fun x hx => ?_, hI.files⟩
    · rcases mem_set hx with hx | rfl
      · rcases mem_set hx with hx | rfl
        · exact hI.pcs x hx
        · exact (hI.pcs _ (List.mem_of_getElem? hpar) :)
      · trivial
    · rcases mem_set hx with hx | rfl
      · rcases mem_set hx with hx | rfl
        · exact hI.frames x hx
        · exact (hI.frames _ (List.mem_of_getElem? hpar) :)
      · exact hI.frames th hmem

theorem MainAct.inv1 {env : CEnv} {st st' : CSt} (hI : Inv1 env st) (h : MainAct env st st') : Inv1 env st' := by
  cases h with
  | spawn =>
    refine ⟨hI.heap, fun x hx => ?_, fun x hx => ?_, hI.files⟩
    · rcases List.mem_append.1 hx with hx | hx
      · exact hI.pcs x hx
      · rw [List.mem_singleton.1 hx]; trivial
    · rcases List.mem_append.1 hx with hx | hx
      · exact hI.frames x hx
      · rw [List.mem_singleton.1 hx]; exact .inl rfl
  | spawned => exact ⟨hI.heap, hI.pcs, hI.frames, hI.files⟩
  | wait => exact ⟨hI.heap, hI.pcs, hI.frames, hI.files⟩
  | finish => exact ⟨hI.heap, hI.pcs, hI.frames, hI.files⟩
  | print hm hi ha hs hss hp =>
    refine ⟨hI.heap, hI.pcs, hI.frames, fun kv hkv => ?_⟩
    rcases List.mem_cons.1 hkv with rfl | hkv
    · exact ⟨_, List.mem_of_getElem? hs, rfl⟩
    · exact hI.files kv hkv
  | printFail => exact ⟨hI.heap, hI.pcs, hI.frames, hI.files⟩
  | skip => exact ⟨hI.heap, hI.pcs, hI.frames, hI.files⟩

theorem Reached.inv1 {env : CEnv} {st : CSt} (h : Reached env st) : Inv1 env st := by
  induction h with
  | init => exact ⟨by simp [CSt.init, Shared.init], by simp [CSt.init], by simp [CSt.init], by simp [CSt.init, Shared.init]⟩
  | step _ hs ih =>
    rcases cstep_act hs with h | ⟨t, th, hth, h⟩
    · exact h.inv1 ih
    · exact h.inv1 ih hth

end Cssc
