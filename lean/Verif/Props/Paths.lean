import Verif.Spec.Path
import Verif.Props.Resolver

/-!
# Property C70: the name of a file does not matter, but only what it denotes
-/

namespace Cssc

theorem splitSlash_eq : ∀ p : Bytes, splitSlash p = p.splitOn 47
  | [] => rfl
  | b :: t => by
    rw [splitSlash, splitSlash_eq t, List.splitOn_eq_splitOnP, List.splitOn_eq_splitOnP, List.splitOnP_cons]
    by_cases h : b = 47
    · simp [h]
    · rw [if_neg h, if_neg (by simpa using h)]
      cases hs : List.splitOnP (· == 47) t with
      | nil => exact absurd hs (List.splitOnP_ne_nil _ _)
      | cons c cs => rfl

/-- A place that a path can denote. -/
structure Place.Ok (pl : Place) : Prop where
  root : pl.rooted = true → pl.ups = 0
  names : ∀ n ∈ pl.names, NameOk n

/-- The components of the shortest path to a place. -/
def Place.comps (pl : Place) : List Bytes := List.replicate pl.ups b!".." ++ pl.names

/-- The shortest path to a place. -/
def Place.path (pl : Place) : Bytes :=
  if pl.rooted then 47 :: joinSlash pl.comps else if pl.comps = [] then b!"." else joinSlash pl.comps

theorem Place.Ok.move {pl : Place} (h : pl.Ok) {c : Bytes} (hc : (47 : UInt8) ∉ c) : (pl.move c).Ok := by
  unfold Place.move
  split
  · exact h
  · rename_i h1
    split
    · split
      · exact ⟨h.root, fun n hn => h.names n (List.dropLast_subset _ hn)⟩
      · split
        · exact h
        · rename_i hr
          exact ⟨fun e => absurd e hr, h.names⟩
    · rename_i h2
      refine ⟨h.root, fun n hn => ?_⟩
      rcases List.mem_append.1 hn with hn | hn
      · exact h.names n hn
      · cases List.mem_singleton.1 hn
        exact ⟨fun e => h1 (.inl e), hc, fun e => h1 (.inr e), h2⟩

theorem move_dots_nil {r : Bool} {u : Nat} :
    Place.move ⟨r, u, []⟩ b!".." = if r then ⟨r, u, []⟩ else ⟨r, u + 1, []⟩ := by cases r <;> rfl

theorem move_dots_snoc {r : Bool} {u : Nat} {l : List Bytes} {n : Bytes} :
    Place.move ⟨r, u, l ++ [n]⟩ b!".." = ⟨r, u, l⟩ := by simp [Place.move]

theorem cleanStep_move {pl : Place} (h : pl.Ok) {c : Bytes} : cleanStep pl.rooted pl.comps c = (pl.move c).comps := by
  obtain ⟨r, u, ns⟩ := pl
  by_cases hc : c = b!".."
  · subst hc
    rcases List.eq_nil_or_concat ns with rfl | ⟨l, n, rfl⟩
    · rw [move_dots_nil]
      cases u with
      | zero => cases r <;> rfl
      | succ u =>
        have hr : r = false := by
          cases r with
          | false => rfl
          | true => exact absurd (h.root rfl) (by simp)
        subst hr
        unfold cleanStep Place.comps
        rw [if_neg (by decide), if_pos rfl]
        simp [List.replicate_succ']
    · have hok : NameOk n := h.names n (by simp)
      rw [List.concat_eq_append, move_dots_snoc]
      unfold cleanStep Place.comps
      rw [if_neg (by decide), if_pos rfl]
      dsimp only
      rw [← List.append_assoc, List.getLast?_concat]
      dsimp only
      rw [if_neg hok.dots, List.dropLast_concat]
  · unfold cleanStep Place.move
    rw [if_neg hc, if_neg hc]
    split
    · rfl
    · unfold Place.comps
      rw [List.append_assoc]

theorem foldl_move : ∀ {l : List Bytes} {pl : Place}, pl.Ok → (∀ c ∈ l, (47 : UInt8) ∉ c) →
    (l.foldl Place.move pl).Ok ∧ l.foldl (cleanStep pl.rooted) pl.comps = (l.foldl Place.move pl).comps ∧
      (l.foldl Place.move pl).rooted = pl.rooted
  | [], pl, h, _ => ⟨h, rfl, rfl⟩
  | c :: l, pl, h, hl => by
    have hm := h.move (hl c List.mem_cons_self)
    have hr : (pl.move c).rooted = pl.rooted := by
      unfold Place.move
      split
      · rfl
      · split
        · split
          · rfl
          · split <;> rfl
        · rfl
    obtain ⟨h1, h2, h3⟩ := foldl_move hm (fun d hd => hl d (List.mem_cons_of_mem _ hd))
    rw [List.foldl_cons, List.foldl_cons, cleanStep_move h, ← hr]
    exact ⟨h1, h2, h3⟩

theorem followed_ok {pl : Place} (h : pl.Ok) (p : Bytes) : (pl.walk p).Ok ∧ (pl.walk p).rooted = pl.rooted ∧
    (splitSlash p).foldl (cleanStep pl.rooted) pl.comps = (pl.walk p).comps := by
  obtain ⟨h1, h2, h3⟩ := foldl_move h (fun c hc => splitSlash_noSlash p c hc)
  rw [splitSlash_eq] at h1 h3
  exact ⟨h1, h3, by rw [h2, splitSlash_eq]; rfl⟩

theorem start_ok (r : Bool) : (⟨r, 0, []⟩ : Place).Ok := ⟨fun _ => rfl, fun n hn => by cases hn⟩

theorem placeOf_ok (p : Bytes) : (placeOf p).Ok ∧ (placeOf p).rooted = decide (p.head? = some 47) :=
  ⟨(followed_ok (start_ok _) p).1, (followed_ok (start_ok _) p).2.1⟩

/-- `Clean` gives the shortest path to what the path denotes. -/
theorem clean_path (p : Bytes) : clean p = (placeOf p).path := by
  obtain ⟨-, hr⟩ := placeOf_ok p
  obtain ⟨-, -, hc⟩ := followed_ok (start_ok (decide (p.head? = some 47))) p
  unfold Place.path
  rw [hr]
  cases p with
  | nil => decide
  | cons b t =>
    unfold clean
    by_cases hb : b = 47
    · subst hb
      dsimp only
      rw [if_pos rfl, if_pos (by simp)]
      exact congrArg (fun l => 47 :: joinSlash l) hc
    · have h0 : decide ((b :: t).head? = some 47) = false := by simpa using hb
      dsimp only
      rw [if_neg hb, if_neg (by rw [h0]; decide)]
      rw [h0] at hc
      have hc : (splitSlash (b :: t)).foldl (cleanStep false) [] = (placeOf (b :: t)).comps := by
        unfold placeOf
        rw [h0]
        exact hc
      rw [hc]
      cases (placeOf (b :: t)).comps <;> simp

theorem followed_append (pl : Place) (p q : Bytes) : pl.walk (p ++ 47 :: q) = (pl.walk p).walk q := by
  unfold Place.walk
  rw [List.splitOn_eq_splitOnP, List.splitOnP_append_cons _ _ (by simp), List.foldl_append]
  rfl

theorem followed_name {pl : Place} {c : Bytes} (hc : (47 : UInt8) ∉ c) : pl.walk c = pl.move c := by
  unfold Place.walk
  rw [← splitSlash_eq, splitSlash_name hc]
  rfl

theorem followed_join : ∀ {cs : List Bytes}, cs ≠ [] → (∀ c ∈ cs, (47 : UInt8) ∉ c) → ∀ (pl : Place), pl.walk (joinSlash cs) = cs.foldl Place.move pl := by
  intro cs hne h pl
  unfold Place.walk
  rw [← splitSlash_eq, (splitSlash_join hne h []).2]

theorem comps_noSlash {pl : Place} (h : pl.Ok) : ∀ c ∈ pl.comps, (47 : UInt8) ∉ c := by
  intro c hc
  rcases List.mem_append.1 hc with hc | hc
  · rw [(List.mem_replicate.1 hc).2]; decide
  · exact (h.names c hc).slash

theorem move_ups : ∀ (n u : Nat), (List.replicate n b!"..").foldl Place.move ⟨false, u, []⟩ = ⟨false, u + n, []⟩
  | 0, u => rfl
  | n + 1, u => by
    rw [List.replicate_succ, List.foldl_cons]
    show (List.replicate n b!"..").foldl Place.move ⟨false, u + 1, []⟩ = _
    rw [move_ups n (u + 1)]
    congr 1
    omega

theorem move_names : ∀ {ns : List Bytes} {pl : Place}, (∀ n ∈ ns, NameOk n) → ns.foldl Place.move pl = { pl with names := pl.names ++ ns }
  | [], pl, _ => by simp
  | n :: ns, pl, h => by
    have hn := h n List.mem_cons_self
    have : pl.move n = { pl with names := pl.names ++ [n] } := by
      unfold Place.move
      rw [if_neg (by simp [hn.ne, hn.dot]), if_neg hn.dots]
    rw [List.foldl_cons, this, move_names fun m hm => h m (List.mem_cons_of_mem _ hm)]
    simp

theorem comps_walk {pl : Place} (h : pl.Ok) : pl.comps.foldl Place.move ⟨pl.rooted, 0, []⟩ = pl := by
  unfold Place.comps
  rw [List.foldl_append]
  cases hr : pl.rooted with
  | true =>
    rw [h.root hr]
    show pl.names.foldl Place.move ⟨true, 0, []⟩ = pl
    rw [move_names h.names]
    cases pl
    simp at hr
    have := h.root
    simp_all
  | false =>
    rw [move_ups, move_names h.names]
    cases pl
    simp at hr
    simp [hr]

/-- The shortest path to a place denotes it. -/
theorem path_place {pl : Place} (h : pl.Ok) : placeOf pl.path = pl := by
  unfold Place.path
  split
  · rename_i hr
    have h1 := comps_walk h
    rw [hr] at h1
    have : placeOf (47 :: joinSlash pl.comps) = (⟨true, 0, []⟩ : Place).walk (joinSlash pl.comps) := by
      unfold placeOf
      exact followed_append ⟨true, 0, []⟩ [] _
    rw [this]
    by_cases hc : pl.comps = []
    · rw [hc] at h1 ⊢
      exact h1
    · rw [followed_join hc (comps_noSlash h)]
      exact h1
  · rename_i hr
    have hr : pl.rooted = false := by simpa using hr
    have h1 := comps_walk h
    rw [hr] at h1
    split
    · rename_i hc
      rw [hc] at h1
      rw [← h1]
      decide
    · rename_i hc
      have hh : (joinSlash pl.comps).head? ≠ some 47 := by
        obtain ⟨c, cs, he⟩ := List.exists_cons_of_ne_nil hc
        have hc0 : (47 : UInt8) ∉ c ∧ c ≠ [] := by
          have hm : c ∈ pl.comps := by rw [he]; exact List.mem_cons_self
          refine ⟨comps_noSlash h c hm, ?_⟩
          rcases List.mem_append.1 hm with hm | hm
          · rw [(List.mem_replicate.1 hm).2]; decide
          · exact (h.names c hm).ne
        obtain ⟨b, t, hb⟩ := List.exists_cons_of_ne_nil hc0.2
        have hj : ∃ r, joinSlash (c :: cs) = c ++ r := by
          cases cs with
          | nil => exact ⟨[], by simp [joinSlash]⟩
          | cons d ds => exact ⟨_, rfl⟩
        obtain ⟨r, hj⟩ := hj
        rw [he, hj, hb]
        intro e
        simp at e
        exact hc0.1 (by rw [hb, e]; exact List.mem_cons_self)
      unfold placeOf
      rw [show decide ((joinSlash pl.comps).head? = some 47) = false from decide_eq_false hh, followed_join hc (comps_noSlash h)]
      exact h1

/-- `Clean` changes the path, but not what it denotes. -/
theorem clean_place (p : Bytes) : placeOf (clean p) = placeOf p := by
  rw [clean_path]
  exact path_place (placeOf_ok p).1

/-- `Clean` gives the same path for two paths exactly if they denote the same. -/
theorem clean_same {p q : Bytes} : clean p = clean q ↔ placeOf p = placeOf q := by
  constructor
  · intro h
    rw [← clean_place p, h, clean_place]
  · intro h
    rw [clean_path, clean_path, h]

/-- `Join` follows the second path from what the first one denotes. -/
theorem join_place {d p : Bytes} (hd : d ≠ []) : placeOf (joinPath [d, p]) = (placeOf d).walk p := by
  obtain ⟨b, t, rfl⟩ := List.exists_cons_of_ne_nil hd
  show placeOf (clean (joinSlash [b :: t, p])) = _
  rw [clean_place]
  show placeOf ((b :: t) ++ 47 :: p) = _
  unfold placeOf
  rw [followed_append]
  rfl

theorem walk_empty (pl : Place) : pl.walk [] = pl := rfl

theorem walk_joinSlash : ∀ (es : List Bytes) (d : Bytes) (pl : Place), pl.walk (joinSlash (d :: es)) = (d :: es).foldl Place.walk pl
  | [], _, _ => rfl
  | e :: es, d, pl => by
    rw [joinSlash, followed_append, walk_joinSlash es e, List.foldl_cons (l := e :: es)]
    intro h; cases h

/-- `Join` of any number of elements: nothing if all are empty, and else the shortest path to where one gets by following
one element after the other, beginning with the first that is not empty. -/
theorem join_any (es : List Bytes) : joinPath es = match es.filter (· ≠ []) with
    | [] => []
    | d :: ds => (ds.foldl Place.walk (placeOf d)).path := by
  have hf : ∀ (es : List Bytes) (pl : Place), (es.filter (· ≠ [])).foldl Place.walk pl = es.foldl Place.walk pl := by
    intro es
    induction es with
    | nil => exact fun _ => rfl
    | cons e es ih =>
      intro pl
      cases e with
      | nil => exact ih pl
      | cons b t => exact ih (pl.walk (b :: t))
  induction es with
  | nil => rfl
  | cons e es ih =>
    cases e with
    | nil => exact ih
    | cons b t =>
      show clean (joinSlash ((b :: t) :: es)) = (((es.filter (· ≠ [])).foldl Place.walk (placeOf (b :: t)))).path
      rw [hf, clean_path]
      congr 1
      have hh : (joinSlash ((b :: t) :: es)).head? = some b := by cases es <;> rfl
      unfold placeOf
      rw [hh, walk_joinSlash]
      rfl

/-- The directory of a file is the one that the file's own name leads to the file from. -/
theorem dir_place (p : Bytes) : ∃ base, (47 : UInt8) ∉ base ∧ base <:+ p ∧ placeOf p = (placeOf (dirOf p)).move base := by
  have hsplit : ∀ l : Bytes, ∃ base, (47 : UInt8) ∉ base ∧ l = base ++ l.dropWhile (· != 47) := by
    intro l
    refine ⟨l.takeWhile (· != 47), fun hm => ?_, List.takeWhile_append_dropWhile.symm⟩
    have := List.mem_takeWhile_imp hm
    simp at this
  obtain ⟨base, h1, h2⟩ := hsplit p.reverse
  have hp : p = upToLastSlash p ++ base.reverse := by
    unfold upToLastSlash
    rw [← List.reverse_append, ← h2, List.reverse_reverse]
  have h1' : (47 : UInt8) ∉ base.reverse := by simpa using h1
  refine ⟨base.reverse, h1', ⟨_, hp.symm⟩, ?_⟩
  unfold dirOf
  rw [clean_place]
  have hd : upToLastSlash p = [] ∨ ∃ t, upToLastSlash p = t ++ [47] := by
    unfold upToLastSlash
    cases hdw : p.reverse.dropWhile (· != 47) with
    | nil => exact .inl rfl
    | cons b t =>
      right
      have : b = 47 := by
        have := List.head?_dropWhile_not (· != 47) p.reverse
        rw [hdw] at this
        simpa using this
      subst this
      exact ⟨t.reverse, by simp⟩
  rcases hd with hd | ⟨t, hd⟩
  · rw [hd] at hp ⊢
    rw [List.nil_append] at hp
    unfold placeOf
    have : decide (p.head? = some 47) = false := by
      rw [hp]
      refine decide_eq_false fun e => h1' (List.mem_of_mem_head? e)
    rw [this, hp, followed_name h1']
    rfl
  · have hp' : p = t ++ 47 :: base.reverse := by rw [hp, hd]; simp
    have hh : p.head? = (upToLastSlash p).head? := by
      rw [hd]
      conv => lhs; rw [hp']
      cases t <;> rfl
    unfold placeOf
    rw [hh]
    generalize decide ((upToLastSlash p).head? = some 47) = r
    rw [hd, show t ++ [47] = t ++ 47 :: [] from rfl, followed_append, hp', followed_append, followed_name h1']
    rfl

/-- **C70.** The absolute path under which a file is looked up, read and written is determined by the place that its name
denotes, and determines it. -/
theorem same_file {env : CEnv} (hcwd : ∀ d, env.cwd = some d → d ≠ []) {p q : Bytes} :
    env.abs p = env.abs q ↔ env.place p = env.place q := by
  have h1 : ∀ p, (env.abs p).map placeOf = env.place p := by
    intro p
    unfold CEnv.abs CEnv.place
    split
    · rw [Option.map_some, clean_place]
    · cases hd : env.cwd with
      | none => rfl
      | some d => simp [join_place (hcwd d hd)]
  have h2 : ∀ p a, env.abs p = some a → a = (placeOf a).path := by
    intro p a ha
    unfold CEnv.abs at ha
    have hcl : ∀ x, clean x = (placeOf (clean x)).path := fun x => by rw [clean_place]; exact clean_path x
    split at ha
    · cases ha; exact hcl _
    · cases hd : env.cwd with
      | none => rw [hd] at ha; cases ha
      | some d =>
        rw [hd] at ha
        cases ha
        obtain ⟨b, t, rfl⟩ := List.exists_cons_of_ne_nil (hcwd d hd)
        exact hcl (joinSlash [b :: t, p])
  constructor
  · intro h
    rw [← h1, ← h1, h]
  · intro h
    rw [← h1, ← h1] at h
    cases hp : env.abs p with
    | none =>
      rw [hp] at h
      cases hq : env.abs q with
      | none => rfl
      | some b => rw [hq] at h; cases h
    | some a =>
      rw [hp] at h
      cases hq : env.abs q with
      | none => rw [hq] at h; cases h
      | some b =>
        rw [hq] at h
        rw [h2 p a hp, h2 q b hq, Option.some.inj h]

/-- An environment in `/home/u`. -/
def homeEnv : CEnv := ⟨[], TOpts.default, some b!"/home/u", fun _ => none, fun _ _ => none,
  ⟨Unit, fun _ => none, fun _ => [], fun _ _ => (), fun _ _ => (), fun _ _ => (), fun _ _ => (), fun _ => true, (), ()⟩, 0⟩

/-- Names of one file, and of another one. -/
example : (∀ d, homeEnv.cwd = some d → d ≠ []) ∧
    homeEnv.place b!"../v/.//a.css" = some ⟨true, 0, [b!"home", b!"v", b!"a.css"]⟩ ∧
    homeEnv.place b!"/x/../home/../../home/v/a.css" = homeEnv.place b!"../v/.//a.css" ∧
    homeEnv.abs b!"/x/../home/../../home/v/a.css" = some b!"/home/v/a.css" ∧
    homeEnv.place b!"a.css" ≠ homeEnv.place b!"../v/.//a.css" := by
  refine ⟨fun d h => by cases h; decide, ?_, ?_, ?_, ?_⟩ <;> decide

/-- A relative path can lead above where it starts. -/
example : clean b!"../../a/../b" = b!"../../b" ∧ placeOf b!"../../a/../b" = ⟨false, 2, [b!"b"]⟩ := by decide

end Cssc
