import Verif.Resolver
import Mathlib.Data.List.Induction
import Mathlib.Data.List.TakeWhile

/-!
# Properties of the module resolver: C40, C41, C42, C43, C44

Specification side: `absDir cs` is the absolute path with the components `cs`; `ResolvesTo` is the lookup order
of a candidate path, written as rules.
-/

namespace Cssc

/-! ### Specification -/

/-- A proper file or directory name. -/
structure NameOk (c : Bytes) : Prop where
  ne : c ≠ []
  slash : (47 : UInt8) ∉ c
  dot : c ≠ b!"."
  dots : c ≠ b!".."

instance (c : Bytes) : Decidable (NameOk c) :=
  decidable_of_iff (c ≠ [] ∧ (47 : UInt8) ∉ c ∧ c ≠ b!"." ∧ c ≠ b!"..")
    ⟨fun ⟨a, b, c, d⟩ => ⟨a, b, c, d⟩, fun ⟨a, b, c, d⟩ => ⟨a, b, c, d⟩⟩

/-- The absolute path with the given components. -/
def absDir (cs : List Bytes) : Bytes := 47 :: joinSlash cs

/-- C44: what a candidate path resolves to. -/
inductive ResolvesTo (fs : FS) (p : Bytes) : Bytes → Prop where
  | file : fs.stat p = .file → ResolvesTo fs p p
  | css : fs.stat p = .notExist → fs.stat (p ++ b!".css") = .file → ResolvesTo fs p (p ++ b!".css")
  | package {pkg style : Bytes} : fs.stat p = .dir → fs.read (joinPath [p, b!"package.json"]) = some pkg →
      fs.style pkg = some style → style ≠ [] → fs.stat (joinPath [p, style]) = .file →
      ResolvesTo fs p (joinPath [p, style])
  | index : fs.stat p = .dir → fs.read (joinPath [p, b!"package.json"]) = none →
      fs.stat (joinPath [p, b!"index.css"]) = .file → ResolvesTo fs p (joinPath [p, b!"index.css"])

/-- A real file system has no file with an empty name. -/
def FS.Real (fs : FS) : Prop := fs.stat [] ≠ .file

instance (fs : FS) : Decidable fs.Real := inferInstanceAs (Decidable (_ ≠ _))

/-! ### Paths -/

theorem splitSlash_name {c : Bytes} (h : (47 : UInt8) ∉ c) : splitSlash c = [c] := by
  induction c with
  | nil => rfl
  | cons b t ih =>
    rw [List.mem_cons, not_or] at h
    rw [splitSlash, if_neg fun e => h.1 e.symm, ih h.2]

theorem splitSlash_cons {c rest : Bytes} (h : (47 : UInt8) ∉ c) :
    splitSlash (c ++ 47 :: rest) = c :: splitSlash rest := by
  induction c with
  | nil => simp [splitSlash]
  | cons b t ih =>
    rw [List.mem_cons, not_or] at h
    rw [List.cons_append, splitSlash, if_neg fun e => h.1 e.symm, ih h.2]

theorem joinSlash_cons {c : Bytes} : ∀ {cs : List Bytes}, cs ≠ [] → joinSlash (c :: cs) = c ++ 47 :: joinSlash cs
  | [], h => absurd rfl h
  | _ :: _, _ => rfl

theorem splitSlash_join {cs : List Bytes} (hne : cs ≠ []) (h : ∀ c ∈ cs, (47 : UInt8) ∉ c) (rest : Bytes) :
    splitSlash (joinSlash cs ++ 47 :: rest) = cs ++ splitSlash rest ∧ splitSlash (joinSlash cs) = cs := by
  induction cs with
  | nil => exact absurd rfl hne
  | cons c cs ih =>
    have hc := h c (List.mem_cons_self ..)
    cases cs with
    | nil => exact ⟨splitSlash_cons hc, splitSlash_name hc⟩
    | cons d ds =>
      obtain ⟨h1, h2⟩ := ih (by simp) fun c hc => h c (List.mem_cons_of_mem _ hc)
      rw [joinSlash_cons (by simp), List.append_assoc, List.cons_append, splitSlash_cons hc, splitSlash_cons hc,
        h1, h2]
      exact ⟨rfl, rfl⟩

theorem splitSlash_noSlash : ∀ (p : Bytes), ∀ c ∈ splitSlash p, (47 : UInt8) ∉ c
  | [], c, h => by
    simp only [splitSlash, List.mem_singleton] at h
    subst h
    simp
  | b :: t, c, h => by
    have ih := splitSlash_noSlash t
    rw [splitSlash] at h
    split at h
    · rw [List.mem_cons] at h
      rcases h with rfl | h
      · simp
      · exact ih c h
    · rename_i hb
      split at h
      · rw [List.mem_singleton] at h
        subst h
        simpa using fun e => hb e.symm
      · rename_i d ds hs
        rw [List.mem_cons] at h
        rcases h with rfl | h
        · have := ih d (by rw [hs]; exact List.mem_cons_self ..)
          rw [List.mem_cons, not_or]
          exact ⟨fun e => hb e.symm, this⟩
        · exact ih c (by rw [hs]; exact List.mem_cons_of_mem _ h)

theorem cleanStep_name {r : Bool} {out : List Bytes} {c : Bytes} (h : NameOk c) : cleanStep r out c = out ++ [c] := by
  rw [cleanStep, if_neg (by simp [h.ne, h.dot]), if_neg h.dots]

theorem cleanStep_empty {r : Bool} {out : List Bytes} : cleanStep r out [] = out := by simp [cleanStep]

theorem foldl_names {r : Bool} : ∀ {cs out : List Bytes}, (∀ c ∈ cs, NameOk c) →
    cs.foldl (cleanStep r) out = out ++ cs
  | [], out, _ => by simp
  | c :: cs, out, h => by
    rw [List.foldl_cons, cleanStep_name (h c (List.mem_cons_self ..)),
      foldl_names fun d hd => h d (List.mem_cons_of_mem _ hd), List.append_assoc, List.singleton_append]

/-- `Clean` keeps a path of proper names, with or without a slash at the end. -/
theorem clean_absDir {cs : List Bytes} (h : ∀ c ∈ cs, NameOk c) :
    clean (absDir cs) = absDir cs ∧ (cs ≠ [] → clean (absDir cs ++ b!"/") = absDir cs) := by
  have hs : ∀ c ∈ cs, (47 : UInt8) ∉ c := fun c hc => (h c hc).slash
  unfold absDir clean
  cases cs with
  | nil => exact ⟨by decide, fun h => absurd rfl h⟩
  | cons c cs =>
    obtain ⟨h1, h2⟩ := splitSlash_join (List.cons_ne_nil c cs) hs []
    rw [List.cons_append]
    dsimp only
    have e : ∀ l : List Bytes, List.foldl (cleanStep true) [] ([] :: l) = List.foldl (cleanStep true) [] l := by
      intro l
      rw [List.foldl_cons, cleanStep_empty]
    rw [if_pos rfl, if_pos rfl, splitSlash, if_pos rfl, h2, splitSlash, if_pos rfl, h1, e, e, foldl_names h,
      List.foldl_append, foldl_names h]
    simp [splitSlash, cleanStep_empty]

/-- `Clean` of any rooted path is a path of proper names. -/
theorem clean_rooted (p : Bytes) : ∃ cs, (∀ c ∈ cs, NameOk c) ∧ clean (47 :: p) = absDir cs := by
  have key : ∀ (l out : List Bytes), (∀ c ∈ l, (47 : UInt8) ∉ c) → (∀ c ∈ out, NameOk c) →
      ∀ c ∈ l.foldl (cleanStep true) out, NameOk c := by
    intro l
    induction l with
    | nil => intro out _ h; exact h
    | cons c l ih =>
      intro out hl ho
      rw [List.foldl_cons]
      refine ih _ (fun d hd => hl d (List.mem_cons_of_mem _ hd)) ?_
      unfold cleanStep
      split
      · exact ho
      · rename_i h1
        rw [not_or] at h1
        split
        · split
          · exact ho
          · split
            · exact ho
            · exact fun d hd => ho d (List.dropLast_subset _ hd)
        · rename_i h2
          intro d hd
          rw [List.mem_append, List.mem_singleton] at hd
          rcases hd with hd | rfl
          · exact ho d hd
          · exact ⟨h1.1, hl d (List.mem_cons_self ..), h1.2, h2⟩
  refine ⟨(splitSlash (47 :: p)).foldl (cleanStep true) [], key _ _ (splitSlash_noSlash _) (by simp), ?_⟩
  simp only [clean, absDir, if_true]

theorem upToLastSlash_append {a c : Bytes} (hc : (47 : UInt8) ∉ c) : upToLastSlash (a ++ 47 :: c) = a ++ b!"/" := by
  unfold upToLastSlash
  rw [List.reverse_append, List.reverse_cons, List.append_assoc, List.singleton_append,
    List.dropWhile_append_of_pos]
  · rw [List.dropWhile_cons_of_neg (by simp)]
    simp
  · intro x hx
    rw [List.mem_reverse] at hx
    simp only [bne_iff_ne, ne_eq]
    rintro rfl
    exact hc hx

theorem joinSlash_snoc : ∀ {cs : List Bytes} {c : Bytes}, cs ≠ [] → joinSlash (cs ++ [c]) = joinSlash cs ++ 47 :: c
  | [], _, h => absurd rfl h
  | [d], c, _ => rfl
  | d :: e :: ds, c, _ => by
    have := joinSlash_snoc (cs := e :: ds) (c := c) (by simp)
    rw [List.cons_append, joinSlash_cons (by simp), this, joinSlash_cons (cs := e :: ds) (by simp),
      List.append_assoc, List.cons_append]

theorem joinSlash_append : ∀ {cs ds : List Bytes}, cs ≠ [] → ds ≠ [] →
    joinSlash (cs ++ ds) = joinSlash cs ++ 47 :: joinSlash ds
  | [], _, h, _ => absurd rfl h
  | [c], [], _, h => absurd rfl h
  | [c], d :: ds, _, _ => rfl
  | c :: d :: cs, ds, _, h => by
    have := joinSlash_append (cs := d :: cs) (ds := ds) (by simp) h
    rw [List.cons_append, joinSlash_cons (by simp), this, joinSlash_cons (cs := d :: cs) (by simp),
      List.append_assoc, List.cons_append]

/-- `Dir` removes the last component. -/
theorem dirOf_absDir {cs : List Bytes} {c : Bytes} (h : ∀ d ∈ cs ++ [c], NameOk d) :
    dirOf (absDir (cs ++ [c])) = absDir cs := by
  have hc : NameOk c := h c (by simp)
  have hcs : ∀ d ∈ cs, NameOk d := fun d hd => h d (by simp [hd])
  unfold dirOf
  cases cs with
  | nil =>
    rw [show absDir ([] ++ [c]) = [] ++ 47 :: c from rfl, upToLastSlash_append hc.slash]
    decide
  | cons d ds =>
    unfold absDir
    rw [joinSlash_snoc (by simp), ← List.cons_append, upToLastSlash_append hc.slash]
    exact (clean_absDir hcs).2 (by simp)

/-- `Join` of proper paths. -/
theorem joinPath_absDir {cs ms ss : List Bytes} (h1 : ∀ c ∈ cs, NameOk c) (h2 : ∀ c ∈ ms, NameOk c)
    (h3 : ∀ c ∈ ss, NameOk c) (hm : ms ≠ []) (hs : ss ≠ []) :
    joinPath [absDir cs, joinSlash ms, joinSlash ss] = absDir (cs ++ ms ++ ss) := by
  show clean (joinSlash [absDir cs, joinSlash ms, joinSlash ss]) = _
  have h : ∀ c ∈ ms ++ ss, NameOk c := fun c hc => by
    rw [List.mem_append] at hc
    exact hc.elim (h2 c) (h3 c)
  have e : joinSlash [absDir cs, joinSlash ms, joinSlash ss] = absDir cs ++ 47 :: joinSlash (ms ++ ss) := by
    rw [joinSlash_append hm hs]; rfl
  rw [e]
  cases cs with
  | nil =>
    have hne : ms ++ ss ≠ [] := by simp [hm]
    have := splitSlash_join hne (fun c hc => (h c hc).slash) []
    show clean (47 :: 47 :: joinSlash (ms ++ ss)) = _
    unfold clean
    dsimp only
    rw [if_pos rfl, splitSlash, if_pos rfl, splitSlash, if_pos rfl, this.2, List.foldl_cons, List.foldl_cons,
      cleanStep_empty, cleanStep_empty, foldl_names h]
    simp [absDir]
  | cons c cs =>
    have : absDir (c :: cs) ++ 47 :: joinSlash (ms ++ ss) = absDir (c :: cs ++ ms ++ ss) := by
      unfold absDir
      rw [List.append_assoc (c :: cs), joinSlash_append (cs := c :: cs) (ds := ms ++ ss) (by simp) (by simp [hm]),
        List.cons_append]
    rw [this]
    refine (clean_absDir fun d hd => ?_).1
    rw [List.append_assoc, List.mem_append] at hd
    exact hd.elim (h1 d) (h d)

/-! ### C44 and C40: candidates -/

/-- **C44**: a candidate path resolves to a (non-empty) path exactly when the lookup rules say so: an existing
file wins; a missing path falls back to the `.css` file; a directory resolves to the `style` entry of its
`package.json` when that can be read, and to `index.css` only when it cannot. -/
theorem lookup_order {fs : FS} (hr : fs.Real) {p q : Bytes} :
    (resolvePath fs p = .path q ∧ q ≠ []) ↔ ResolvesTo fs p q := by
  constructor
  · rintro ⟨h, hq⟩
    unfold resolvePath at h
    split at h
    · cases h
    · rename_i h1
      split at h <;> cases h
      exact .css h1 (by assumption)
    · rename_i h1
      cases h
      exact .file h1
    · rename_i h1
      unfold resolveAsDir at h
      split at h
      · rename_i h2
        unfold statEntry at h
        split at h <;> cases h
        · exact .index h1 h2 (by assumption)
        · exact absurd rfl hq
      · rename_i pkg h2
        split at h
        · cases h
        · rename_i style h3
          split at h
          · cases h
          · rename_i h4
            unfold statEntry at h
            split at h <;> cases h
            · exact .package h1 h2 h3 h4 (by assumption)
            · exact absurd rfl hq
  · intro h
    have ne : ∀ q, fs.stat q = .file → q ≠ [] := by
      rintro q h rfl
      exact hr h
    cases h with
    | file h => exact ⟨by rw [resolvePath, h], ne _ h⟩
    | css h1 h2 => exact ⟨by simp only [resolvePath, h1, h2], ne _ h2⟩
    | package h1 h2 h3 h4 h5 =>
      exact ⟨by simp only [resolvePath, h1, resolveAsDir, h2, h3, if_neg h4, statEntry, h5], ne _ h5⟩
    | index h1 h2 h3 => exact ⟨by simp only [resolvePath, h1, resolveAsDir, h2, statEntry, h3], ne _ h3⟩

theorem ResolvesTo.stat {fs : FS} {p q : Bytes} (h : ResolvesTo fs p q) : fs.stat q = .file := by
  cases h <;> assumption

theorem nodeModulesLoop_path {fs : FS} {module p : Bytes} : ∀ {n : Nat} {dir : Bytes},
    nodeModulesLoop fs module n dir = some (.path p) → ∃ q, resolvePath fs q = .path p
  | 0, _, h => by cases h
  | n + 1, dir, h => by
    rw [nodeModulesLoop] at h
    split at h
    · split at h
      · rename_i hp
        cases h
        exact ⟨_, hp⟩
      · exact nodeModulesLoop_path h
    · cases h

theorem resolve_path {fs : FS} {base spec dir p : Bytes} {n : Nat} (h : resolve fs base n spec dir = some (.path p)) :
    ∃ q, resolvePath fs q = .path p := by
  unfold resolve at h
  split at h
  · exact ⟨_, Option.some.inj h⟩
  · have via : ∀ {o : Option Resolved}, o = nodeModulesLoop fs spec n dir → (match o with
        | none => none
        | some (Resolved.path p) => some (Resolved.path p)
        | some _ => some Resolved.notFound) = some (.path p) → ∃ q, resolvePath fs q = .path p := by
      intro o ho h
      split at h
      · cases h
      · cases h
        exact nodeModulesLoop_path ho.symm
      · cases h
    dsimp only at h
    split at h
    · split at h
      · rename_i hp
        cases h
        exact ⟨_, hp⟩
      · exact via rfl h
    · exact via rfl h

/-- **C40, partial**: a non-empty path that `Resolve` returns without error names an existing file that is not
a directory.  Missing from the full statement: the returned path can be empty (next theorem). -/
theorem resolved_exists_partial {fs : FS} (hr : fs.Real) {base spec dir p : Bytes} {n : Nat}
    (h : resolve fs base n spec dir = some (.path p)) (hp : p ≠ []) : fs.stat p = .file := by
  obtain ⟨q, hq⟩ := resolve_path h
  exact ((lookup_order hr).1 ⟨hq, hp⟩).stat

/-- A directory `/d/m` with a directory `index.css` in it, and nothing else. -/
def badFS : FS where
  stat p := if p = b!"/d/m" ∨ p = b!"/d/m/index.css" then .dir else .notExist
  read _ := none
  style _ := none

/-- **C40, refuted as stated**: when `index.css` is itself a directory, `Resolve` returns the empty path and no
error. -/
theorem resolved_exists_refuted : ¬ ∀ (fs : FS), fs.Real → ∀ (base spec dir p : Bytes) (n : Nat),
    resolve fs base n spec dir = some (.path p) → fs.stat p = .file := by
  intro hall
  have h := hall badFS (by decide +kernel) [] b!"./m" b!"/d" [] 5 (by decide +kernel)
  revert h
  decide +kernel

/-- A file system with a package, an index file and a style sheet without extension in the import. -/
def goodFS : FS where
  stat p := if p ∈ [b!"/d/x.css", b!"/d/node_modules/pkg/main.css", b!"/d/m/index.css", b!"/node_modules/top.css"] then .file
    else if p ∈ [b!"/d/m", b!"/d/node_modules/pkg"] then .dir else .notExist
  read p := if p = b!"/d/node_modules/pkg/package.json" then some b!"{}" else none
  style _ := some b!"./main.css"

example : goodFS.Real ∧ resolve goodFS [] 9 b!"./x" b!"/d/e/.." = some (.path b!"/d/x.css") ∧
    resolve goodFS [] 9 b!"./m" b!"/d" = some (.path b!"/d/m/index.css") ∧
    resolve goodFS [] 9 b!"pkg" b!"/d/e/f" = some (.path b!"/d/node_modules/pkg/main.css") ∧
    resolve goodFS b!"/d" 9 b!"x" b!"/e" = some (.path b!"/d/x.css") := by decide +kernel

/-! ### C41: relative specs -/

/-- Two file systems look the same from the candidate path `p`. -/
structure SameAt (fs fs' : FS) (p : Bytes) : Prop where
  self : fs.stat p = fs'.stat p
  css : fs.stat (p ++ b!".css") = fs'.stat (p ++ b!".css")
  package : fs.read (joinPath [p, b!"package.json"]) = fs'.read (joinPath [p, b!"package.json"])
  index : fs.stat (joinPath [p, b!"index.css"]) = fs'.stat (joinPath [p, b!"index.css"])
  style : ∀ pkg st, fs.read (joinPath [p, b!"package.json"]) = some pkg → fs.style pkg = some st →
    fs.stat (joinPath [p, st]) = fs'.stat (joinPath [p, st])
  decode : fs.style = fs'.style

/-- **C41**: what a spec starting with `./`, `../` or `/` resolves to depends only on what is at the path
`Join(fromDir, spec)` (the file, the file with `.css`, and the entry points of the directory): the base URL and
everything else in the file system — in particular every `node_modules` — is irrelevant. -/
theorem relative_local {fs fs' : FS} {base base' spec dir : Bytes} {n n' : Nat}
    (hs : hasPrefix spec b!"./" = true ∨ hasPrefix spec b!"../" = true ∨ hasPrefix spec b!"/" = true)
    (h : SameAt fs fs' (joinPath [dir, spec])) :
    resolve fs base n spec dir = resolve fs' base' n' spec dir ∧ (resolve fs base n spec dir).isSome = true := by
  have hrel : isRelativeSpec spec = true := by
    unfold isRelativeSpec
    rcases hs with h | h | h <;> simp [h]
  unfold resolve
  rw [if_pos hrel, if_pos hrel]
  refine ⟨congrArg some ?_, rfl⟩
  unfold resolvePath
  rw [← h.self, ← h.css]
  cases hd : fs.stat (joinPath [dir, spec]) with
  | dir =>
    dsimp only
    unfold resolveAsDir
    rw [← h.package, ← h.decode]
    cases hp : fs.read (joinPath [joinPath [dir, spec], b!"package.json"]) with
    | none =>
      dsimp only
      unfold statEntry
      rw [h.index]
    | some pkg =>
      dsimp only
      cases hst : fs.style pkg with
      | none => rfl
      | some st =>
        dsimp only
        unfold statEntry
        rw [h.style pkg st hp hst]
  | _ => rfl

example : resolve goodFS b!"/d" 3 b!"./pkg" b!"/d" = some .notFound := by decide +kernel

/-! ### C42: package specs -/

/-- The directories from `cs` upwards, without the root. -/
def ancestors (cs : List Bytes) : List (List Bytes) := (List.range cs.length).reverse.map fun k => cs.take (k + 1)

/-- Is it a path? -/
def Resolved.isPath : Resolved → Bool
  | .path _ => true
  | _ => false

theorem ancestors_snoc (cs : List Bytes) (c : Bytes) : ancestors (cs ++ [c]) = (cs ++ [c]) :: ancestors cs := by
  unfold ancestors
  rw [List.length_append, List.length_singleton, List.range_succ, List.reverse_append, List.reverse_singleton,
    List.singleton_append, List.map_cons]
  congr 1
  · rw [List.take_of_length_le (by simp)]
  · apply List.map_congr_left
    intro k hk
    rw [List.mem_reverse, List.mem_range] at hk
    rw [List.take_append_of_le_length (by omega)]

/-- The walk through the `node_modules` directories. -/
theorem nodeModulesLoop_absDir {fs : FS} {spec : Bytes} (cs : List Bytes) (h : ∀ c ∈ cs, NameOk c) (n : Nat)
    (hn : cs.length < n) : nodeModulesLoop fs spec n (absDir cs) = some
      ((((ancestors cs).map fun d => resolvePath fs (joinPath [absDir d, b!"node_modules", spec])).find?
        Resolved.isPath).getD .notFound) := by
  induction cs using List.reverseRecOn generalizing n with
  | nil =>
    obtain ⟨n, rfl⟩ : ∃ k, n = k + 1 := ⟨n - 1, by simp at hn; omega⟩
    rfl
  | append_singleton cs c ih =>
    obtain ⟨n, rfl⟩ : ∃ k, n = k + 1 := ⟨n - 1, by simp at hn; omega⟩
    simp only [List.length_append, List.length_singleton] at hn
    have hne : absDir (cs ++ [c]) ≠ b!"/" := by
      unfold absDir
      intro e
      have hc := (h c (by simp)).ne
      cases cs with
      | nil => exact hc (List.cons.inj e).2
      | cons d ds =>
        rw [joinSlash_snoc (by simp)] at e
        simpa using (List.cons.inj e).2
    rw [nodeModulesLoop, if_pos hne, ancestors_snoc, List.map_cons, List.find?_cons, dirOf_absDir h]
    have ih := ih (fun d hd => h d (by simp [hd])) n (by omega)
    cases hr : resolvePath fs (joinPath [absDir (cs ++ [c]), b!"node_modules", spec]) with
    | path p => rfl
    | notFound => exact ih
    | failed => exact ih

/-- The result of `Resolve` for a spec that is not relative: the base URL candidate if it resolves, else the
first that resolves among the `node_modules` of the directories `dirs`, else `ErrNotFound`. -/
def packageSpec (fs : FS) (base spec : Bytes) (dirs : List (List Bytes)) : Resolved :=
  ((((if base = [] then [] else [joinPath [base, spec]]) ++
    dirs.map fun d => joinPath [absDir d, b!"node_modules", spec]).map (resolvePath fs)).find?
      Resolved.isPath).getD .notFound

/-- **C42, partial**: a spec that is not relative, resolved from an absolute directory of any depth, resolves to
the base URL candidate if that resolves, otherwise to the first candidate that resolves among the
`node_modules` directories from there upwards, otherwise to `ErrNotFound`.  Missing from the full statement:
the `node_modules` of the root directory is not among them. -/
theorem package_order_partial {fs : FS} {base spec : Bytes} {cs : List Bytes} (h : ∀ c ∈ cs, NameOk c) {n : Nat}
    (hn : cs.length < n) (hs : ¬ (hasPrefix spec b!"./" = true ∨ hasPrefix spec b!"../" = true ∨
      hasPrefix spec b!"/" = true)) :
    resolve fs base n spec (absDir cs) = some (packageSpec fs base spec (ancestors cs)) := by
  have hrel : ¬ isRelativeSpec spec = true := by
    unfold isRelativeSpec
    simp only [not_or, Bool.not_eq_true] at hs
    simp [hs]
  unfold resolve
  rw [if_neg hrel, nodeModulesLoop_absDir cs h n hn]
  dsimp only
  unfold packageSpec
  have hmap : ((ancestors cs).map fun d => joinPath [absDir d, b!"node_modules", spec]).map (resolvePath fs) =
      (ancestors cs).map fun d => resolvePath fs (joinPath [absDir d, b!"node_modules", spec]) := by
    rw [List.map_map]; rfl
  rw [List.map_append, hmap]
  obtain ⟨o, ho⟩ : ∃ o, (((ancestors cs).map fun d =>
      resolvePath fs (joinPath [absDir d, b!"node_modules", spec])).find? Resolved.isPath) = o := ⟨_, rfl⟩
  have hor : o = none ∨ ∃ p, o = some (.path p) := by
    cases o with
    | none => exact .inl rfl
    | some r =>
      have := List.find?_some ho
      cases r with
      | path p => exact .inr ⟨p, rfl⟩
      | _ => cases this
  rw [List.find?_append, ho]
  by_cases hb : base = []
  · rw [if_neg (by simpa using hb), if_pos hb]
    rcases hor with rfl | ⟨p, rfl⟩ <;> rfl
  · rw [if_pos hb, if_neg hb, List.map_singleton, List.find?_singleton]
    cases resolvePath fs (joinPath [base, spec]) <;> rcases hor with rfl | ⟨p, rfl⟩ <;> rfl

/-- **C42, partial** (the candidates): for a spec made of proper names, the candidate in the `node_modules` of a
directory is that directory followed by `node_modules` and the spec. -/
theorem package_candidates_partial {d ss : List Bytes} (hd : ∀ c ∈ d, NameOk c) (hs : ∀ c ∈ ss, NameOk c)
    (hne : ss ≠ []) : joinPath [absDir d, b!"node_modules", joinSlash ss] = absDir (d ++ b!"node_modules" :: ss) := by
  have := joinPath_absDir (ms := [b!"node_modules"]) hd
    (by intro c hc; rw [List.mem_singleton] at hc; subst hc; decide) hs (by simp) hne
  rwa [List.append_assoc, List.singleton_append] at this

/-- **C42, refuted as stated**: a module in `/node_modules` is not found. -/
theorem package_order_refuted : ¬ ∀ (fs : FS) (base spec : Bytes) (cs : List Bytes) (n : Nat), (∀ c ∈ cs, NameOk c) →
    cs.length < n → isRelativeSpec spec = false →
    resolve fs base n spec (absDir cs) = some (packageSpec fs base spec (ancestors cs ++ [[]])) := by
  intro hall
  have h := hall goodFS [] b!"top" [b!"d", b!"e"] 9 (by decide +kernel) (by decide) (by decide +kernel)
  revert h
  decide +kernel

example : (∀ c ∈ [b!"d", b!"e"], NameOk c) ∧ absDir [b!"d", b!"e"] = b!"/d/e" ∧
    ancestors [b!"d", b!"e"] = [[b!"d", b!"e"], [b!"d"]] ∧
    packageSpec goodFS b!"/x" b!"pkg" (ancestors [b!"d", b!"e"]) = .path b!"/d/node_modules/pkg/main.css" := by
  decide +kernel

/-! ### C43: termination -/

/-- **C43, partial**: `Resolve` ends for every spec and every starting directory that begins with a slash (with
`.`, `..` and repeated slashes anywhere in it), and the result does not depend on the number of steps given.
Missing from the full statement: relative starting directories. -/
theorem resolve_terminates_partial (fs : FS) (base spec p : Bytes) :
    ∃ n r, ∀ m ≥ n, resolve fs base m spec (47 :: p) = some r := by
  have key : ∃ n r, ∀ m ≥ n, nodeModulesLoop fs spec m (47 :: p) = some r := by
    by_cases hp : (47 :: p : Bytes) = b!"/"
    · refine ⟨1, .notFound, fun m hm => ?_⟩
      obtain ⟨m, rfl⟩ : ∃ k, m = k + 1 := ⟨m - 1, by omega⟩
      rw [nodeModulesLoop, if_neg (by simpa using hp)]
    · obtain ⟨cs, hcs, hd⟩ : ∃ cs, (∀ c ∈ cs, NameOk c) ∧ dirOf (47 :: p) = absDir cs := by
        unfold dirOf
        have : ∃ q, upToLastSlash (47 :: p) = 47 :: q := by
          unfold upToLastSlash
          rw [List.reverse_cons]
          by_cases hall : ∀ x ∈ p.reverse, (x != 47) = true
          · rw [List.dropWhile_append_of_pos hall, List.dropWhile_cons_of_neg (by simp)]
            exact ⟨_, rfl⟩
          · rw [List.dropWhile_append, if_neg]
            · rw [List.reverse_append]
              exact ⟨_, rfl⟩
            · rw [List.isEmpty_iff, List.dropWhile_eq_nil_iff]
              exact hall
        obtain ⟨q, hq⟩ := this
        rw [hq]
        exact clean_rooted q
      cases hr : resolvePath fs (joinPath [47 :: p, b!"node_modules", spec]) with
      | path q =>
        refine ⟨1, .path q, fun m hm => ?_⟩
        obtain ⟨m, rfl⟩ : ∃ k, m = k + 1 := ⟨m - 1, by omega⟩
        rw [nodeModulesLoop, if_pos hp, hr]
      | _ =>
        refine ⟨cs.length + 2, (((ancestors cs).map fun d =>
          resolvePath fs (joinPath [absDir d, b!"node_modules", spec])).find? Resolved.isPath).getD .notFound,
          fun m hm => ?_⟩
        obtain ⟨m, rfl⟩ : ∃ k, m = k + 1 := ⟨m - 1, by omega⟩
        rw [nodeModulesLoop, if_pos hp, hr, hd]
        exact nodeModulesLoop_absDir cs hcs m (by omega)
  obtain ⟨n, r, h⟩ := key
  unfold resolve
  by_cases hs : isRelativeSpec spec = true
  · exact ⟨0, _, fun m _ => by rw [if_pos hs]⟩
  · simp only [if_neg hs]
    refine ⟨n, ?_⟩
    by_cases hb : base ≠ []
    · simp only [if_pos hb]
      cases resolvePath fs (joinPath [base, spec]) with
      | path q => exact ⟨_, fun _ _ => rfl⟩
      | _ =>
        cases r with
        | path q => exact ⟨_, fun m hm => by rw [h m hm]⟩
        | _ => exact ⟨_, fun m hm => by rw [h m hm]⟩
    · simp only [if_neg hb]
      cases r with
      | path q => exact ⟨_, fun m hm => by rw [h m hm]⟩
      | _ => exact ⟨_, fun m hm => by rw [h m hm]⟩

theorem nodeModulesLoop_dot {fs : FS} {spec : Bytes}
    (h : ∀ p, resolvePath fs (joinPath [b!".", b!"node_modules", spec]) ≠ .path p) :
    ∀ n, nodeModulesLoop fs spec n b!"." = none
  | 0 => rfl
  | n + 1 => by
    have ih := nodeModulesLoop_dot h n
    rw [nodeModulesLoop, if_pos (by decide)]
    cases hr : resolvePath fs (joinPath [b!".", b!"node_modules", spec]) with
    | path q => exact absurd hr (h q)
    | _ =>
      rw [show dirOf b!"." = b!"." by decide +kernel]
      exact ih

/-- **C43, refuted as stated**: from the directory `.` a missing module is searched for ever. -/
theorem resolve_terminates_refuted : ¬ ∀ (fs : FS) (base spec dir : Bytes), ∃ n, resolve fs base n spec dir ≠ none := by
  intro hall
  obtain ⟨n, h⟩ := hall badFS [] b!"m" b!"."
  apply h
  unfold resolve
  rw [if_neg (by decide), nodeModulesLoop_dot]
  · rfl
  · intro p h
    have : resolvePath badFS (joinPath [b!".", b!"node_modules", b!"m"]) = .notFound := by decide +kernel
    rw [this] at h
    cases h

example : resolve goodFS [] 9 b!"none" b!"//d/../x/./y/" = some .notFound := by decide +kernel

end Cssc
