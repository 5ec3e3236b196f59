import Verif.Spec.Mappings
import Verif.Proofs.Runes
import Verif.Props.Vlq

/-!
# The `mappings` text is read back

A list of lines of segments, written with `;` and `,`, is what `decodeMappings` finds.
-/

namespace Cssc

/-! ### Numbers -/

theorem digitValue_b64 : ∀ c : Fin 64, digitValue (b64 c.val) = some c.val := by decide +kernel

theorem digitValue_b64' {c : Nat} (h : c < 64) : digitValue (b64 c) = some c := digitValue_b64 ⟨c, h⟩

theorem vlqNat_vlqLoop (m : Nat) : ∀ (x : Int) (rest : Bytes), x.toNat ≤ m → 0 ≤ x →
    vlqNat (vlqLoop x ++ rest) = some (x.toNat, rest) := by
  induction m with
  | zero =>
    intro x rest h h0
    have : x = 0 := by omega
    subst this
    rw [vlqLoop]
    simp only [Int.zero_ediv, ne_eq, not_true, if_false, le_refl, if_true, List.cons_append, List.nil_append]
    unfold vlqNat
    rw [show (0 % 32 : Int).toNat = 0 from rfl, digitValue_b64' (by omega)]
    rfl
  | succ m ih =>
    intro x rest h h0
    rw [vlqLoop]
    by_cases hy : x / 32 = 0
    · rw [if_pos (by omega), if_neg (by simpa using hy)]
      rw [List.cons_append, List.nil_append]
      unfold vlqNat
      rw [digitValue_b64' (by omega)]
      dsimp only
      rw [if_pos (by omega)]
      congr 2; omega
    · rw [if_neg (by omega), if_pos hy, List.cons_append]
      unfold vlqNat
      rw [digitValue_b64' (by omega)]
      dsimp only
      rw [if_neg (by omega), ih (x / 32) rest (by omega) (by omega)]
      dsimp only
      congr 2; omega

/-- A number within the range in which it can be written. -/
def Small (n : Int) : Prop := -1073741824 < n ∧ n < 1073741824

theorem vlqNat_vlqEncode {n : Int} (h : Small n) (rest : Bytes) :
    ∃ k, vlqNat (vlqEncode n ++ rest) = some (k, rest) ∧ vlqSigned k = n := by
  rw [vlqEncode_eq h.1 h.2, vlqNat_vlqLoop _ _ _ (Nat.le_refl _) (by split <;> omega)]
  refine ⟨_, rfl, ?_⟩
  unfold vlqSigned
  split <;> split <;> omega

/-- A segment as text. -/
def encSeg (fs : List Int) : Bytes := fs.flatMap vlqEncode

theorem segFields_encSeg : ∀ (fs : List Int) (fuel : Nat), (∀ n ∈ fs, Small n) → (encSeg fs).length ≤ fuel →
    segFields fuel (encSeg fs) = some fs
  | [], fuel, _, _ => by unfold encSeg; unfold segFields; rfl
  | n :: fs, fuel, h, hf => by
    obtain ⟨k, hk, hs⟩ := vlqNat_vlqEncode (h n (by simp)) (encSeg fs)
    have he : encSeg (n :: fs) = vlqEncode n ++ encSeg fs := rfl
    obtain ⟨b, bs, hb⟩ := List.exists_cons_of_ne_nil (vlqEncode_ne_nil n)
    rw [he] at hf ⊢
    rw [hb, List.cons_append] at hk hf ⊢
    cases fuel with
    | zero => simp at hf
    | succ fuel =>
      unfold segFields
      rw [hk]
      dsimp only
      rw [segFields_encSeg fs fuel (fun m hm => h m (by simp [hm])) (by simp at hf; omega), hs]
      rfl

theorem encSeg_plain (fs : List Int) : ∀ b ∈ encSeg fs, b ≠ 44 ∧ b ≠ 59 := by
  intro b hb
  obtain ⟨n, _, hn⟩ := List.mem_flatMap.1 hb
  exact (vlqEncode_alphabet n b hn).2

theorem encSeg_ne_nil {fs : List Int} (h : fs ≠ []) : encSeg fs ≠ [] := by
  cases fs with
  | nil => exact absurd rfl h
  | cons n fs =>
    have : encSeg (n :: fs) = vlqEncode n ++ encSeg fs := rfl
    rw [this]
    intro e
    exact vlqEncode_ne_nil n (List.append_eq_nil_iff.1 e).1

/-! ### Cutting -/

theorem splitAt_ne_nil (sep : UInt8) : ∀ x, splitAt sep x ≠ []
  | [] => by simp [splitAt]
  | b :: x => by
    unfold splitAt
    split
    · simp
    · split <;> simp

theorem splitAt_plain {sep : UInt8} : ∀ {x : Bytes}, sep ∉ x → splitAt sep x = [x]
  | [], _ => rfl
  | b :: x, h => by
    rw [List.mem_cons, not_or] at h
    unfold splitAt
    rw [if_neg (fun e => h.1 e.symm), splitAt_plain h.2]

theorem splitAt_cons {sep : UInt8} : ∀ {x : Bytes} (y : Bytes), sep ∉ x → splitAt sep (x ++ sep :: y) = x :: splitAt sep y
  | [], y, _ => by simp [splitAt]
  | b :: x, y, h => by
    rw [List.mem_cons, not_or] at h
    rw [List.cons_append]
    conv => lhs; unfold splitAt
    rw [if_neg (fun e => h.1 e.symm), splitAt_cons y h.2]

/-! ### Lines of segments -/

/-- The segments of a line, with commas between. -/
def lineText' : List (List Int) → Bytes
  | [] => []
  | [s] => encSeg s
  | s :: ss => encSeg s ++ 44 :: lineText' ss

/-- The lines, with semicolons between. -/
def linesText : List (List (List Int)) → Bytes
  | [] => []
  | [l] => lineText' l
  | l :: ls => lineText' l ++ 59 :: linesText ls

/-- Segments that can be written: not empty, small numbers. -/
def SegOk (s : List Int) : Prop := s ≠ [] ∧ ∀ n ∈ s, Small n

theorem lineText'_no59 : ∀ l, 59 ∉ lineText' l
  | [] => by simp [lineText']
  | [s] => fun h => (encSeg_plain s _ h).2 rfl
  | s :: t :: ss => by
    unfold lineText'
    rw [List.mem_append, List.mem_cons]
    rintro (h | h | h)
    · exact (encSeg_plain s _ h).2 rfl
    · cases h
    · exact lineText'_no59 (t :: ss) h

theorem encSeg_no44 (s : List Int) : 44 ∉ encSeg s := fun h => (encSeg_plain s _ h).1 rfl

theorem mapM_some_append {α β : Type} (f : α → Option β) (a b : List α) (x y : List β)
    (ha : a.mapM f = some x) (hb : b.mapM f = some y) : (a ++ b).mapM f = some (x ++ y) := by
  rw [List.mapM_append, ha, hb]; rfl

theorem lineSegs_cons {s : List Int} {rest : Bytes} {segs : List (List Int)} (hs : SegOk s)
    (h : lineSegs rest = some segs) : lineSegs (encSeg s ++ 44 :: rest) = some (s :: segs) := by
  unfold lineSegs at h ⊢
  rw [splitAt_cons _ (encSeg_no44 s), List.filter_cons_of_pos (by simpa using encSeg_ne_nil hs.1),
    List.mapM_cons, segFields_encSeg s _ hs.2 (Nat.le_refl _), h]
  rfl

theorem lineSegs_lineText : ∀ l, (∀ s ∈ l, SegOk s) → lineSegs (lineText' l) = some l
  | [], _ => rfl
  | [s], h => by
    have hs := h s (by simp)
    unfold lineText' lineSegs
    rw [splitAt_plain (encSeg_no44 s), List.filter_cons_of_pos (by simpa using encSeg_ne_nil hs.1),
      List.mapM_cons, segFields_encSeg s _ hs.2 (Nat.le_refl _)]
    rfl
  | s :: t :: ss, h => by
    have := lineSegs_lineText (t :: ss) fun u hu => h u (by simp [List.mem_cons.1 hu])
    unfold lineText'
    exact lineSegs_cons (h s (by simp)) this

theorem lines_read : ∀ ls, ls ≠ [] → (∀ l ∈ ls, ∀ s ∈ l, SegOk s) → (splitAt 59 (linesText ls)).mapM lineSegs = some ls
  | [], h, _ => absurd rfl h
  | [l], _, h => by
    unfold linesText
    rw [splitAt_plain (lineText'_no59 l), List.mapM_cons, lineSegs_lineText l (h l (by simp))]
    rfl
  | l :: m :: ls, _, h => by
    have := lines_read (m :: ls) (by simp) fun u hu => h u (by simp [List.mem_cons.1 hu])
    unfold linesText
    rw [splitAt_cons _ (lineText'_no59 l), List.mapM_cons, lineSegs_lineText l (h l (by simp)), this]
    rfl

/-! ### Writing at the end -/

theorem lineText'_snoc : ∀ (l : List (List Int)) (s : List Int),
    lineText' (l ++ [s]) = lineText' l ++ (if l = [] then [] else [44]) ++ encSeg s
  | [], s => by simp [lineText']
  | [t], s => by simp [lineText']
  | t :: u :: l, s => by
    have := lineText'_snoc (u :: l) s
    simp only [List.cons_append] at this ⊢
    unfold lineText'
    rw [this]
    simp

theorem linesText_newline : ∀ (ls : List (List (List Int))), ls ≠ [] → linesText (ls ++ [[]]) = linesText ls ++ [59]
  | [], h => absurd rfl h
  | [l], _ => by simp [linesText, lineText']
  | l :: m :: ls, _ => by
    have := linesText_newline (m :: ls) (by simp)
    simp only [List.cons_append] at this ⊢
    unfold linesText
    rw [this]; simp

theorem linesText_snoc : ∀ (ls : List (List (List Int))) (l : List (List Int)) (s : List Int),
    linesText (ls ++ [l ++ [s]]) = linesText (ls ++ [l]) ++ (if l = [] then [] else [44]) ++ encSeg s
  | [], l, s => by simp [linesText, lineText'_snoc]
  | [m], l, s => by
    simp only [List.cons_append, List.nil_append]
    unfold linesText
    unfold linesText
    rw [lineText'_snoc]; simp
  | m :: n :: ls, l, s => by
    have := linesText_snoc (n :: ls) l s
    simp only [List.cons_append] at this ⊢
    unfold linesText
    rw [this]; simp

theorem linesText_replicate (ls : List (List (List Int))) (h : ls ≠ []) : ∀ k,
    linesText (ls ++ List.replicate k []) = linesText ls ++ List.replicate k 59
  | 0 => by simp
  | k + 1 => by
    rw [List.replicate_succ', ← List.append_assoc, linesText_newline _ (by simp [h]), linesText_replicate ls h k,
      List.replicate_succ', List.append_assoc]

/-- The last byte tells whether the last line is empty. -/
theorem linesText_last (ls : List (List (List Int))) (l : List (List Int)) (h : ∀ s ∈ l, SegOk s) :
    (l ≠ [] → ∃ b, (linesText (ls ++ [l])).getLast? = some b ∧ b ≠ 59) ∧
    (l = [] → ls ≠ [] → (linesText (ls ++ [l])).getLast? = some 59) ∧
    (l = [] → ls = [] → linesText (ls ++ [l]) = []) := by
  refine ⟨fun hl => ?_, fun hl hls => ?_, fun hl hls => ?_⟩
  · obtain ⟨l', s, rfl⟩ : ∃ l' s, l = l' ++ [s] := ⟨l.dropLast, l.getLast hl, (List.dropLast_append_getLast hl).symm⟩
    rw [linesText_snoc]
    have hne := encSeg_ne_nil (h s (by simp)).1
    refine ⟨(encSeg s).getLast hne, ?_, (encSeg_plain s _ (List.getLast_mem hne)).2⟩
    rw [List.getLast?_append_of_ne_nil _ hne, List.getLast?_eq_getLast_of_ne_nil hne]
  · subst hl; rw [linesText_newline _ hls]; simp
  · subst hl hls; rfl

/-! ### Adding up -/

theorem addSegs_snoc {e last : MapEntry} {l : List (List Int)} {es : List MapEntry} (dc ds dl dk : Int) :
    addSegs e l = some (last, es) →
    addSegs e (l ++ [[dc, ds, dl, dk]]) =
      some (⟨last.line, last.col + dc, last.source + ds, last.origLine + dl, last.origCol + dk⟩,
        es ++ [⟨last.line, last.col + dc, last.source + ds, last.origLine + dl, last.origCol + dk⟩]) := by
  induction l generalizing e es with
  | nil => intro h; cases h; rfl
  | cons s l ih =>
    intro h
    rw [List.cons_append]
    match s, h with
    | [a, b, c, d], h =>
      unfold addSegs at h ⊢
      dsimp only at h ⊢
      rcases hr : addSegs ⟨e.line, e.col + a, e.source + b, e.origLine + c, e.origCol + d⟩ l with _ | ⟨last', es'⟩
      · rw [hr] at h; cases h
      · rw [hr] at h; cases h
        rw [ih hr]; rfl
    | [], h => cases h
    | [_], h => cases h
    | [_, _], h => cases h
    | [_, _, _], h => cases h
    | _ :: _ :: _ :: _ :: _ :: _, h => cases h

/-- The lines added up, with the state reached. -/
def addLinesSt : MapEntry → List (List (List Int)) → Option (MapEntry × List MapEntry)
  | e, [] => some (e, [])
  | e, [l] => addSegs { e with col := 0 } l
  | e, l :: ls =>
    match addSegs { e with col := 0 } l with
    | none => none
    | some (last, es) => (addLinesSt { last with line := last.line + 1 } ls).map fun (z, zs) => (z, es ++ zs)

theorem addLines_eq : ∀ (ls : List (List (List Int))) (e last : MapEntry) (es : List MapEntry),
    addLinesSt e ls = some (last, es) → addLines e ls = some es
  | [], e, last, es, h => by cases h; rfl
  | [l], e, last, es, h => by
    unfold addLinesSt at h
    unfold addLines
    rw [h]
    simp [addLines]
  | l :: m :: ls, e, last, es, h => by
    unfold addLinesSt at h
    unfold addLines
    rcases hr : addSegs { e with col := 0 } l with _ | ⟨last', es'⟩
    · rw [hr] at h; cases h
    · rw [hr] at h; dsimp only at h ⊢
      rcases hq : addLinesSt { last' with line := last'.line + 1 } (m :: ls) with _ | ⟨z, zs⟩
      · rw [hq] at h; cases h
      · rw [hq] at h; cases h
        rw [addLines_eq _ _ _ _ hq]; rfl

theorem addLinesSt_newline : ∀ (ls : List (List (List Int))) (e last : MapEntry) (es : List MapEntry), ls ≠ [] →
    addLinesSt e ls = some (last, es) →
    addLinesSt e (ls ++ [[]]) = some ({ last with line := last.line + 1, col := 0 }, es)
  | [], e, last, es, hne, h => absurd rfl hne
  | [l], e, last, es, _, h => by
    unfold addLinesSt at h
    rw [List.cons_append, List.nil_append]
    unfold addLinesSt
    rw [h]
    simp [addLinesSt, addSegs]
  | l :: m :: ls, e, last, es, _, h => by
    unfold addLinesSt at h
    rw [List.cons_append, List.cons_append]
    unfold addLinesSt
    rcases hr : addSegs { e with col := 0 } l with _ | ⟨last', es'⟩
    · rw [hr] at h; cases h
    · rw [hr] at h; dsimp only at h ⊢
      rcases hq : addLinesSt { last' with line := last'.line + 1 } (m :: ls) with _ | ⟨z, zs⟩
      · rw [hq] at h; cases h
      · rw [hq] at h; cases h
        have := addLinesSt_newline (m :: ls) _ _ _ (by simp) hq
        rw [List.cons_append] at this
        rw [this]; rfl

theorem addLinesSt_newlines (ls : List (List (List Int))) (e last : MapEntry) (es : List MapEntry) (hne : ls ≠ [])
    (h : addLinesSt e ls = some (last, es)) : ∀ k : Nat,
    addLinesSt e (ls ++ List.replicate k []) =
      some ({ last with line := last.line + k, col := if k = 0 then last.col else 0 }, es)
  | 0 => by simp [h]
  | k + 1 => by
    rw [List.replicate_succ', ← List.append_assoc,
      addLinesSt_newline _ _ _ _ (by simp [hne]) (addLinesSt_newlines ls e last es hne h k)]
    simp [Int.add_assoc]

theorem addLinesSt_snoc : ∀ (ls : List (List (List Int))) (l : List (List Int)) (e last : MapEntry) (es : List MapEntry)
    (dc ds dl dk : Int), addLinesSt e (ls ++ [l]) = some (last, es) →
    addLinesSt e (ls ++ [l ++ [[dc, ds, dl, dk]]]) =
      some (⟨last.line, last.col + dc, last.source + ds, last.origLine + dl, last.origCol + dk⟩,
        es ++ [⟨last.line, last.col + dc, last.source + ds, last.origLine + dl, last.origCol + dk⟩])
  | [], l, e, last, es, dc, ds, dl, dk, h => by
    rw [List.nil_append] at h ⊢
    unfold addLinesSt at h ⊢
    exact addSegs_snoc dc ds dl dk h
  | m :: ls, l, e, last, es, dc, ds, dl, dk, h => by
    rw [List.cons_append] at h ⊢
    have hx : ∀ (x : List (List Int)), ∃ y ys, ls ++ [x] = y :: ys := fun x => by cases ls <;> simp
    have hu : ∀ x, addLinesSt e (m :: (ls ++ [x])) =
        match addSegs { e with col := 0 } m with
        | none => none
        | some (last, es) => (addLinesSt { last with line := last.line + 1 } (ls ++ [x])).map fun (z, zs) => (z, es ++ zs) := by
      intro x
      obtain ⟨y, ys, hy⟩ := hx x
      rw [hy]; rfl
    rw [hu] at h ⊢
    rcases hr : addSegs { e with col := 0 } m with _ | ⟨last', es'⟩
    · rw [hr] at h; cases h
    · rw [hr] at h; dsimp only at h ⊢
      rcases hq : addLinesSt { last' with line := last'.line + 1 } (ls ++ [l]) with _ | ⟨z, zs⟩
      · rw [hq] at h; cases h
      · rw [hq] at h; cases h
        rw [addLinesSt_snoc ls l _ _ _ dc ds dl dk hq]
        simp

/-! ### `addMapping` -/

theorem mapScan_eq : ∀ (rs : List Int) (maps : Bytes) (last : Int) (c : Nat), c + rs.length < 2147483648 →
    mapScan rs maps last c =
      (maps ++ List.replicate (rs.count 10) 59, if rs.count 10 = 0 then last else 0, (colAfter c rs : Int))
  | [], maps, last, c, _ => by simp [mapScan, colAfter]
  | r :: rs, maps, last, c, h => by
    rw [List.length_cons] at h
    unfold mapScan
    by_cases hr : r = 10
    · subst hr
      rw [if_pos rfl, List.count_cons_self]
      have := mapScan_eq rs (maps ++ b!";") 0 0 (by omega)
      rw [Nat.cast_zero] at this
      rw [this, if_neg (Nat.succ_ne_zero _), List.replicate_succ, ite_self]
      simp [colAfter]
    · rw [if_neg hr, show ((c : Int) + 1) = ((c + 1 : Nat) : Int) by push_cast; rfl, wrap32_small (by omega),
        mapScan_eq rs maps last (c + 1) (by omega), List.count_cons_of_ne hr]
      simp [colAfter, hr]

/-- The state of the printer says where the entries found so far end. -/
structure MapInv (st : PrSt) (es : List MapEntry) (ls : List (List (List Int))) (l : List (List Int)) : Prop where
  maps : st.maps = linesText (ls ++ [l])
  segs : ∀ m ∈ ls ++ [l], ∀ s ∈ m, SegOk s
  sum : addLinesSt ⟨0, 0, 0, 0, 0⟩ (ls ++ [l]) =
    some (⟨outLine (st.s.take st.lastWritten), outCol (st.s.take st.lastWritten), 0, st.origLine, st.origCol⟩, es)
  last : st.lastWritten ≤ st.s.length
  ascii : AsciiEnd (st.s.take st.lastWritten)
  col : st.genCol = outCol (st.s.take st.lastWritten)
  line : 0 ≤ st.origLine ∧ st.origLine < 1073741824
  ocol : 0 ≤ st.origCol ∧ st.origCol < 1073741824
  first : l = [] → ls = [] ∧ es = [] ∧ st.s = []
  more : l ≠ [] → es ≠ []

theorem MapInv.init : MapInv PrSt.init [] [] [] where
  maps := rfl
  segs := by simp
  sum := rfl
  last := Nat.le_refl _
  ascii := .inl rfl
  col := rfl
  line := by decide
  ocol := by decide
  first := fun _ => ⟨rfl, rfl, rfl⟩
  more := fun h => absurd rfl h

theorem MapInv.write {st : PrSt} {es : List MapEntry} {ls l} (h : MapInv st es ls l) (he : es ≠ []) (t : Bytes) :
    MapInv { st with s := st.s ++ t } es ls l := by
  have ht : (st.s ++ t).take st.lastWritten = st.s.take st.lastWritten :=
    List.take_append_of_le_length h.last
  refine ⟨h.maps, h.segs, ?_, ?_, ?_, ?_, h.line, h.ocol, fun hl => absurd (h.first hl).2.1 he, h.more⟩
  · show addLinesSt _ _ = some (⟨outLine ((st.s ++ t).take st.lastWritten), outCol ((st.s ++ t).take st.lastWritten), _, _, _⟩, _)
    rw [ht]; exact h.sum
  · show st.lastWritten ≤ (st.s ++ t).length
    rw [List.length_append]; exact Nat.le_trans h.last (Nat.le_add_right _ _)
  · show AsciiEnd ((st.s ++ t).take st.lastWritten)
    rw [ht]; exact h.ascii
  · show _ = ((outCol ((st.s ++ t).take st.lastWritten) : Nat) : Int)
    rw [ht]; exact h.col

theorem outCol_le (w : Bytes) : outCol w ≤ w.length := by
  unfold outCol
  exact Nat.le_trans (runes_length_le _ _ (Nat.le_refl _)) (lastLine_length_le w)

theorem outCol_append {w : Bytes} (h : AsciiEnd w) (t : Bytes) : outCol (w ++ t) = colAfter (outCol w) (runes t) := by
  unfold outCol
  rw [runes_lastLine, runes_lastLine, runes_append h, colAfter_append]

theorem wrap32_small' {x : Int} (h : Small x) : wrap32 x = x := by
  obtain ⟨h1, h2⟩ := h
  exact wrap32_id (by omega) (by omega)

/-- The source is usable: the line table is that of the content, and it is not too large. -/
structure SourceOk (source : Source) : Prop where
  table : source.lines = lineStarts source.content
  size : source.content.length + 2 < 1073741824

theorem addMapping_step {source : Source} (hs : SourceOk source) {sp : Span} (hsp : sp.start ≤ source.content.length)
    {st : PrSt} {es : List MapEntry} {ls l} (h : MapInv st es ls l) (ha : AsciiEnd st.s) (hlen : st.s.length < 1073741824)
    (hne : es ≠ [] → st.s ≠ []) :
    ∃ st' ls' l', addMapping (some source) sp st = .ok () st' ∧ st'.s = st.s ∧
      MapInv st' (es ++ [entryFor source.content (st.s, sp)]) ls' l' := by
  have hlc := lineAndCol_exact hs.table hsp (by have := hs.size; omega)
  have hle := lineOf_le source.content sp.start
  have hl1 : 1 ≤ lineOf source.content sp.start := by unfold lineOf; omega
  have hcl := lastLine_length_le (source.content.take sp.start)
  rw [List.length_take, Nat.min_eq_left hsp] at hcl
  have hc1 : 1 ≤ colOf source.content sp.start := by unfold colOf; omega
  have hcle : colOf source.content sp.start ≤ source.content.length + 1 := by unfold colOf; omega
  have hsz := hs.size
  have hsum := h.sum
  have hcol := h.col
  have hasc := h.ascii
  have hsplit : st.s = st.s.take st.lastWritten ++ st.s.drop st.lastWritten := (List.take_append_drop _ _).symm
  generalize st.s.take st.lastWritten = w at hsum hcol hasc hsplit
  generalize hch : st.s.drop st.lastWritten = chunk at hsplit
  have hrl := runes_length_le _ chunk (Nat.le_refl _)
  have hcw := outCol_le w
  have hcs := outCol_le st.s
  have hsl : st.s.length = w.length + chunk.length := by
    conv_lhs => rw [hsplit]
    exact List.length_append
  have hscan := mapScan_eq (runes chunk) st.maps st.genCol (outCol w) (by omega)
  rw [← hcol, runes_count _ chunk (Nat.le_refl _), ← outCol_append hasc, ← hsplit] at hscan
  have hline : outLine st.s = outLine w + chunk.count 10 := by
    unfold outLine; conv_lhs => rw [hsplit]
    exact List.count_append
  generalize hk : chunk.count 10 = k at hscan hline
  have hL := addLinesSt_newlines _ _ _ _ (by simp) hsum k
  have hT := linesText_replicate (ls ++ [l]) (by simp) k
  rw [← h.maps] at hT
  have hsegs : ∀ m ∈ (ls ++ [l]) ++ List.replicate k [], ∀ s ∈ m, SegOk s := by
    intro m hm s hs
    rcases List.mem_append.1 hm with hm | hm
    · exact h.segs m hm s hs
    · rw [(List.mem_replicate.1 hm).2] at hs; cases hs
  -- the lines so far, the last of them apart
  obtain ⟨ls', l', hll, hcase⟩ : ∃ ls' l', (ls ++ [l]) ++ List.replicate k [] = ls' ++ [l'] ∧
      ((l' ≠ [] ∧ st.s ≠ []) ∨ (l' = [] ∧ ls' ≠ [] ∧ st.s ≠ []) ∨ (l' = [] ∧ ls' = [] ∧ st.s = [])) := by
    cases k with
    | zero =>
      refine ⟨ls, l, by simp, ?_⟩
      by_cases hl : l = []
      · exact .inr (.inr ⟨hl, (h.first hl).1, (h.first hl).2.2⟩)
      · exact .inl ⟨hl, hne (h.more hl)⟩
    | succ k =>
      refine ⟨(ls ++ [l]) ++ List.replicate k [], [], by rw [List.replicate_succ']; simp, .inr (.inl ⟨rfl, by simp, ?_⟩)⟩
      intro e
      have : w ++ chunk = [] := hsplit.symm.trans e
      rw [(List.append_eq_nil_iff.1 this).2] at hk
      cases hk
  rw [hll] at hL hT hsegs
  have hnewl : wrap32 ((lineOf source.content sp.start : Int) - 1) = (lineOf source.content sp.start : Int) - 1 :=
    wrap32_id (by omega) (by omega)
  have hnewc : wrap32 ((colOf source.content sp.start : Int) - 1) = (colOf source.content sp.start : Int) - 1 :=
    wrap32_id (by omega) (by omega)
  have hline0 := h.line
  have hcol0 := h.ocol
  -- the numbers of the new segment
  generalize hlg : (if k = 0 then st.genCol else 0 : Int) = lg at hscan
  have hlgb : 0 ≤ lg ∧ lg ≤ st.s.length := by rw [← hlg]; split <;> omega
  have hd1 : Small ((outCol st.s : Int) - lg) := ⟨by omega, by omega⟩
  have hd3 : Small ((lineOf source.content sp.start : Int) - 1 - st.origLine) := ⟨by omega, by omega⟩
  have hd4 : Small ((colOf source.content sp.start : Int) - 1 - st.origCol) := ⟨by omega, by omega⟩
  have hseg : SegOk [(outCol st.s : Int) - lg, 0, (lineOf source.content sp.start : Int) - 1 - st.origLine,
      (colOf source.content sp.start : Int) - 1 - st.origCol] := by
    refine ⟨by simp, fun n hn => ?_⟩
    simp only [List.mem_cons, List.not_mem_nil, or_false] at hn
    rcases hn with rfl | rfl | rfl | rfl
    · exact hd1
    · exact ⟨by decide, by decide⟩
    · exact hd3
    · exact hd4
  have hnew := addLinesSt_snoc ls' l' _ _ _ ((outCol st.s : Int) - lg) 0
    ((lineOf source.content sp.start : Int) - 1 - st.origLine)
    ((colOf source.content sp.start : Int) - 1 - st.origCol) hL
  have htext := linesText_snoc ls' l' [(outCol st.s : Int) - lg, 0,
    (lineOf source.content sp.start : Int) - 1 - st.origLine, (colOf source.content sp.start : Int) - 1 - st.origCol]
  rw [hT] at htext
  have hent : (⟨(outLine w : Int) + k, (if k = 0 then (outCol w : Int) else 0) + ((outCol st.s : Int) - lg), 0 + 0,
      st.origLine + ((lineOf source.content sp.start : Int) - 1 - st.origLine),
      st.origCol + ((colOf source.content sp.start : Int) - 1 - st.origCol)⟩ : MapEntry) =
      entryFor source.content (st.s, sp) := by
    have e2 : (if k = 0 then (outCol w : Int) else 0) = lg := by rw [← hlg, hcol]
    unfold entryFor
    rw [e2, hline]
    dsimp only
    push_cast
    congr 1 <;> omega
  dsimp only at hnew
  rw [hent] at hnew
  have hlast := linesText_last ls' l' (hsegs l' (by simp))
  rw [hT] at hlast
  have hemit : addMapping (some source) sp st = .ok ()
      { st with maps := linesText (ls' ++ [l' ++ [[(outCol st.s : Int) - lg, 0,
                  (lineOf source.content sp.start : Int) - 1 - st.origLine,
                  (colOf source.content sp.start : Int) - 1 - st.origCol]]]), lastWritten := st.s.length,
                genCol := outCol st.s, origLine := (lineOf source.content sp.start : Int) - 1,
                origCol := (colOf source.content sp.start : Int) - 1 } := by
    have henc : ∀ m : Bytes, m ++ vlqEncode ((outCol st.s : Int) - lg) ++ vlqEncode 0 ++
        vlqEncode ((lineOf source.content sp.start : Int) - 1 - st.origLine) ++
        vlqEncode ((colOf source.content sp.start : Int) - 1 - st.origCol) =
        m ++ encSeg [(outCol st.s : Int) - lg, 0, (lineOf source.content sp.start : Int) - 1 - st.origLine,
          (colOf source.content sp.start : Int) - 1 - st.origCol] := by
      intro m; unfold encSeg; simp
    unfold addMapping
    rw [htext]
    dsimp only
    rw [hlc]
    dsimp only
    rw [if_neg (by have := h.last; omega), hch, hscan]
    dsimp only
    rw [hnewl, hnewc, wrap32_small' hd1, wrap32_small' hd3, wrap32_small' hd4]
    rcases hcase with ⟨c1, c2⟩ | ⟨c1, c2, c3⟩ | ⟨c1, c2, c3⟩
    · obtain ⟨b, hb, hb59⟩ := hlast.1 c1
      rw [if_pos (List.length_pos_iff.2 c2), hb]
      dsimp only
      rw [if_pos hb59, if_neg c1, henc]
    · have hb := hlast.2.1 c1 c2
      rw [if_pos (List.length_pos_iff.2 c3), hb]
      dsimp only
      rw [if_neg (fun h => h rfl), if_pos c1, List.append_nil, henc]
    · rw [if_neg (by rw [c3]; decide), if_pos c1, List.append_nil, henc]
  refine ⟨_, ls', l' ++ [[(outCol st.s : Int) - lg, 0, (lineOf source.content sp.start : Int) - 1 - st.origLine,
    (colOf source.content sp.start : Int) - 1 - st.origCol]], hemit, rfl, ?_⟩
  have htk : st.s.take st.s.length = st.s := List.take_length
  refine ⟨rfl, ?_, ?_, Nat.le_refl _, ?_, ?_, ⟨by dsimp only; omega, by dsimp only; omega⟩,
    ⟨by dsimp only; omega, by dsimp only; omega⟩, fun e => ?_, fun _ => by simp⟩
  · intro m hm s hs
    rcases List.mem_append.1 hm with hm | hm
    · exact hsegs m (List.mem_append.2 (.inl hm)) s hs
    · rw [List.mem_singleton] at hm; subst hm
      rcases List.mem_append.1 hs with hs | hs
      · exact hsegs l' (by simp) s hs
      · rw [List.mem_singleton] at hs; subst hs; exact hseg
  · dsimp only; rw [htk]; exact hnew
  · dsimp only; rw [htk]; exact ha
  · dsimp only; rw [htk]
  · simp at e

end Cssc
