import Verif.Proofs.Json
import Verif.Props.Printer

/-!
# C60: the source map is a JSON document that contains the source text
-/

namespace Cssc

theorem jsonVal_str {n : Nat} {t s r : Bytes} (h : jsonStr t = some (s, r)) :
    jsonVal (n + 1) (34 :: t) = some (.str s, skipJsonWs r) := by
  simp [jsonVal, skipJsonWs, h]

theorem jsonMembers_more {n : Nat} {kt k vt r e : Bytes} {v : Json} {l : List (Bytes × Json)}
    (h1 : jsonStr kt = some (k, 58 :: vt)) (h2 : jsonVal n (skipJsonWs vt) = some (v, 44 :: r))
    (h3 : jsonMembers n (skipJsonWs r) = some (l, e)) : jsonMembers (n + 1) (34 :: kt) = some ((k, v) :: l, e) := by
  simp [jsonMembers, skipJsonWs, h1, jsonChar, h2, h3]

theorem jsonMembers_last {n : Nat} {kt k vt r : Bytes} {v : Json}
    (h1 : jsonStr kt = some (k, 58 :: vt)) (h2 : jsonVal n (skipJsonWs vt) = some (v, 125 :: r)) :
    jsonMembers (n + 1) (34 :: kt) = some ([(k, v)], skipJsonWs r) := by
  simp [jsonMembers, skipJsonWs, h1, jsonChar, h2]

theorem jsonVal_obj {n : Nat} {t e : Bytes} {l : List (Bytes × Json)} (hj : jsonChar 125 t = none)
    (h : jsonMembers n t = some (l, e)) : jsonVal (n + 1) (123 :: t) = some (.obj l, e) := by
  simp [jsonVal, skipJsonWs, hj, h]

/-- An array of one string. -/
theorem jsonVal_one {n : Nat} {t s r : Bytes} (h : jsonStr t = some (s, 93 :: r)) :
    jsonVal (n + 3) (91 :: 34 :: t) = some (.arr [.str s], skipJsonWs r) := by
  simp [jsonVal, jsonElems, skipJsonWs, h, jsonChar]

/-- What the document says. -/
def mapDocument (path content maps : Bytes) : Json :=
  .obj [(b!"version", .num 3), (b!"file", .str path), (b!"sourceRoot", .str []),
    (b!"sources", .arr [.str b!"source.css"]), (b!"sourcesContent", .arr [.str content]), (b!"names", .arr []),
    (b!"mappings", .str maps)]

theorem sourceMapJson_read {path content seen maps : Bytes} (hp : ∀ b ∈ path, plainByte b = true)
    (hu : Mended content seen) (hm : ∀ b ∈ maps, plainByte b = true) :
    readJson (sourceMapJson path (jsonString content) maps) = some (mapDocument path seen maps) := by
  have key : ∀ n, jsonVal (n + 11) (sourceMapJson path (jsonString content) maps) =
      some (mapDocument path seen maps, []) := by
    intro n
    have hstr : ∀ (p t : Bytes), (∀ b ∈ p, plainByte b = true) → jsonStr (p ++ 34 :: t) = some (p, t) := by
      intro p t h
      rw [jsonStr_plain p h, jsonStr_end]; simp
    have m7 : jsonMembers (n + 4) (b!"\"mappings\":\"" ++ (maps ++ b!"\"}")) = some ([(b!"mappings", .str maps)], []) :=
      jsonMembers_last (k := b!"mappings") (vt := 34 :: (maps ++ b!"\"}")) rfl
        (jsonVal_str (r := [125]) (hstr maps [125] hm))
    have m6 : jsonMembers (n + 5) (b!"\"names\":[],\"mappings\":\"" ++ (maps ++ b!"\"}")) =
        some ([(b!"names", .arr []), (b!"mappings", .str maps)], []) :=
      jsonMembers_more (k := b!"names") (vt := b!"[],\"mappings\":\"" ++ (maps ++ b!"\"}")) rfl rfl m7
    have m5 : jsonMembers (n + 6) (b!"\"sourcesContent\":[" ++ (jsonString content ++
        (b!"],\"names\":[],\"mappings\":\"" ++ (maps ++ b!"\"}")))) =
        some ([(b!"sourcesContent", .arr [.str seen]), (b!"names", .arr []), (b!"mappings", .str maps)], []) := by
      have hb := jsonBody_read hu (93 :: 44 :: (b!"\"names\":[],\"mappings\":\"" ++ (maps ++ b!"\"}")))
        content.length (Nat.le_refl _)
      have he : jsonString content ++ (b!"],\"names\":[],\"mappings\":\"" ++ (maps ++ b!"\"}")) =
          34 :: (jsonBody content.length content ++ 34 :: 93 :: 44 ::
            (b!"\"names\":[],\"mappings\":\"" ++ (maps ++ b!"\"}"))) := by
        unfold jsonString
        simp
      rw [he]
      exact jsonMembers_more (k := b!"sourcesContent") rfl (jsonVal_one hb) m6
    have m4 : jsonMembers (n + 7) (b!"\"sources\": [\"source.css\"], \"sourcesContent\":[" ++ (jsonString content ++
        (b!"],\"names\":[],\"mappings\":\"" ++ (maps ++ b!"\"}")))) =
        some ([(b!"sources", .arr [.str b!"source.css"]), (b!"sourcesContent", .arr [.str seen]),
          (b!"names", .arr []), (b!"mappings", .str maps)], []) :=
      jsonMembers_more (k := b!"sources") (r := b!" \"sourcesContent\":[" ++ (jsonString content ++
          (b!"],\"names\":[],\"mappings\":\"" ++ (maps ++ b!"\"}"))))
        (vt := b!" [\"source.css\"], \"sourcesContent\":[" ++ (jsonString content ++
          (b!"],\"names\":[],\"mappings\":\"" ++ (maps ++ b!"\"}")))) rfl
        (jsonVal_one (t := b!"source.css\"], \"sourcesContent\":[" ++ (jsonString content ++
          (b!"],\"names\":[],\"mappings\":\"" ++ (maps ++ b!"\"}")))) (s := b!"source.css") rfl) m5
    have m3 : jsonMembers (n + 8) (b!"\"sourceRoot\":\"\", \"sources\": [\"source.css\"], \"sourcesContent\":[" ++
        (jsonString content ++ (b!"],\"names\":[],\"mappings\":\"" ++ (maps ++ b!"\"}")))) =
        some ([(b!"sourceRoot", .str []), (b!"sources", .arr [.str b!"source.css"]),
          (b!"sourcesContent", .arr [.str seen]), (b!"names", .arr []), (b!"mappings", .str maps)], []) :=
      jsonMembers_more (k := b!"sourceRoot")
        (r := b!" \"sources\": [\"source.css\"], \"sourcesContent\":[" ++ (jsonString content ++
          (b!"],\"names\":[],\"mappings\":\"" ++ (maps ++ b!"\"}"))))
        (vt := b!"\"\", \"sources\": [\"source.css\"], \"sourcesContent\":[" ++ (jsonString content ++
          (b!"],\"names\":[],\"mappings\":\"" ++ (maps ++ b!"\"}")))) rfl
        (jsonVal_str (t := b!"\", \"sources\": [\"source.css\"], \"sourcesContent\":[" ++ (jsonString content ++
          (b!"],\"names\":[],\"mappings\":\"" ++ (maps ++ b!"\"}")))) (s := []) rfl) m4
    have m2 : jsonMembers (n + 9) (b!"\"file\":\"" ++ (path ++ 34 :: 44 ::
        (b!"\"sourceRoot\":\"\", \"sources\": [\"source.css\"], \"sourcesContent\":[" ++
        (jsonString content ++ (b!"],\"names\":[],\"mappings\":\"" ++ (maps ++ b!"\"}")))))) =
        some ([(b!"file", .str path), (b!"sourceRoot", .str []), (b!"sources", .arr [.str b!"source.css"]),
          (b!"sourcesContent", .arr [.str seen]), (b!"names", .arr []), (b!"mappings", .str maps)], []) :=
      jsonMembers_more (k := b!"file") rfl (jsonVal_str (hstr path _ hp)) m3
    have m1 := jsonMembers_more (n := n + 9) (k := b!"version") (v := .num 3)
      (kt := b!"version\": 3," ++ (b!"\"file\":\"" ++ (path ++ 34 :: 44 ::
        (b!"\"sourceRoot\":\"\", \"sources\": [\"source.css\"], \"sourcesContent\":[" ++
        (jsonString content ++ (b!"],\"names\":[],\"mappings\":\"" ++ (maps ++ b!"\"}"))))))) rfl rfl m2
    have he : sourceMapJson path (jsonString content) maps = 123 :: 34 :: (b!"version\": 3," ++ (b!"\"file\":\"" ++ (path ++ 34 :: 44 ::
        (b!"\"sourceRoot\":\"\", \"sources\": [\"source.css\"], \"sourcesContent\":[" ++
        (jsonString content ++ (b!"],\"names\":[],\"mappings\":\"" ++ (maps ++ b!"\"}"))))))) := by
      unfold sourceMapJson
      simp
    rw [he]
    have hj : jsonChar 125 (34 :: (b!"version\": 3," ++ (b!"\"file\":\"" ++ (path ++ 34 :: 44 ::
        (b!"\"sourceRoot\":\"\", \"sources\": [\"source.css\"], \"sourcesContent\":[" ++
        (jsonString content ++ (b!"],\"names\":[],\"mappings\":\"" ++ (maps ++ b!"\"}")))))))) = none := rfl
    exact jsonVal_obj hj m1
  unfold readJson
  have hlen : 11 ≤ (sourceMapJson path (jsonString content) maps).length := by
    unfold sourceMapJson; simp
  obtain ⟨k, hk⟩ := Nat.exists_eq_add_of_le hlen
  rw [hk, show 11 + k + 1 = (k + 1) + 11 by omega, key]

/-- The text that opens the comment with the source map. -/
def mapOpening : Bytes := b!"\n/*# sourceMappingURL=data:application/json;base64,"

/-- The source map that `Print` appends to the CSS: the base64 text in the comment, decoded. -/
def printedMap (source : Source) (ss : Stylesheet) : Option Bytes :=
  match print none ss, print (some source) ss with
  | .ok css, .ok out =>
    let comment := out.drop css.length
    if comment.take mapOpening.length = mapOpening ∧ comment.drop (comment.length - 4) = b!" */\n" then
      base64Read ((comment.drop mapOpening.length).take (comment.length - 4 - mapOpening.length))
    else none
  | _, _ => none

/-- A member that is a string. -/
def Json.text (k : Bytes) (j : Json) : Option Bytes :=
  match j.get k with
  | some (.str s) => some s
  | _ => none

/-- A member that is an array of one string. -/
def Json.onlyText (k : Bytes) (j : Json) : Option Bytes :=
  match j.get k with
  | some (.arr [.str s]) => some s
  | _ => none

/-- The source map is a JSON document which names the file and contains its text. -/
def MapDocumentOk (source : Source) (ss : Stylesheet) : Prop :=
  ∃ json doc, printedMap source ss = some json ∧ readJson json = some doc ∧
    doc.text b!"file" = some source.path ∧ doc.onlyText b!"sourcesContent" = some source.content

theorem printedMap_eq {source : Source} {ss : Stylesheet} {css b64 json : Bytes} (h0 : print none ss = .ok css)
    (h1 : print (some source) ss = .ok (css ++ mapOpening ++ b64 ++ b!" */\n")) (h2 : base64Read b64 = some json) :
    printedMap source ss = some json := by
  unfold printedMap
  rw [h0, h1]
  have e1 : (css ++ mapOpening ++ b64 ++ b!" */\n").drop css.length = mapOpening ++ (b64 ++ b!" */\n") := by
    rw [List.append_assoc, List.append_assoc, List.drop_left]
  have e2 : (mapOpening ++ (b64 ++ b!" */\n")).length - 4 = (mapOpening ++ b64).length := by
    simp only [List.length_append, List.length_cons, List.length_nil]; omega
  dsimp only
  rw [e1, e2, List.take_left, if_pos ⟨rfl, by rw [← List.append_assoc, List.drop_left]⟩, List.drop_left,
    show (mapOpening ++ b64).length - mapOpening.length = b64.length by simp, List.take_left]
  exact h2

/-- Is there a source map that cannot be read? -/
def mapUnread (source : Source) (ss : Stylesheet) : Bool :=
  match printedMap source ss with
  | some json => (readJson json).isNone
  | none => false

/-- The text that the source map contains. -/
def mapContent (source : Source) (ss : Stylesheet) : Option Bytes :=
  (printedMap source ss).bind fun json => (readJson json).bind (Json.onlyText b!"sourcesContent")

/-- **C60** as stated is false: the path is written into the document without escaping, and bytes that are not
UTF-8 are replaced. -/
theorem map_document_refuted :
    (∃ source ss lines, parse 100 source.content = .ok ss lines ∧ source.lines = lines ∧ IsUtf8 source.content ∧
      ∃ json, printedMap source ss = some json ∧ readJson json = none) ∧
    (∃ source ss lines, parse 100 source.content = .ok ss lines ∧ source.lines = lines ∧
      ¬ MapDocumentOk source ss) := by
  constructor
  · have h : ((parse 100 b!"a{b:c}").sheet?.map fun x => (x.2, mapUnread ⟨b!"a\"b", b!"a{b:c}", x.2⟩ x.1)) =
        some ([0], true) := by decide +kernel
    obtain ⟨ss, lines, h, e⟩ := parsed (f := fun ss lines => (lines, mapUnread ⟨b!"a\"b", b!"a{b:c}", lines⟩ ss)) h
    refine ⟨⟨b!"a\"b", b!"a{b:c}", lines⟩, ss, lines, h, rfl, ⟨[97, 123, 98, 58, 99, 125], ?_, rfl⟩, ?_⟩
    · intro c hc; left
      have : ∀ c ∈ [97, 123, 98, 58, 99, 125], c < 0xD800 := by decide
      exact this c hc
    · have e := (Prod.mk.inj e).2
      unfold mapUnread at e
      split at e
      · rename_i json hj
        exact ⟨json, hj, by simpa using e⟩
      · cases e
  · have h : ((parse 100 [97, 123, 98, 58, 255, 125]).sheet?.map fun x =>
          mapContent ⟨b!"a", [97, 123, 98, 58, 255, 125], x.2⟩ x.1) =
        some (some [97, 123, 98, 58, 0xEF, 0xBF, 0xBD, 125]) := by decide +kernel
    obtain ⟨ss, lines, h, e⟩ := parsed
      (f := fun ss lines => mapContent ⟨b!"a", [97, 123, 98, 58, 255, 125], lines⟩ ss) h
    refine ⟨⟨b!"a", [97, 123, 98, 58, 255, 125], lines⟩, ss, lines, h, rfl, ?_⟩
    rintro ⟨json, doc, h1, h2, _, h3⟩
    unfold mapContent at e
    rw [h1, Option.bind_some, h2, Option.bind_some, h3] at e
    have e : some ([97, 123, 98, 58, 255, 125] : Bytes) = some [97, 123, 98, 58, 0xEF, 0xBF, 0xBD, 125] := e
    revert e; decide

/-- **C60**, for paths that need no escaping and texts in UTF-8: for every stylesheet that can be printed, with
sizes below 2^30, the comment holds a JSON document which names the file, contains its text, and whose mappings
are those of C04. -/
theorem map_document_partial {source : Source} (hs : SourceOk source) {ss : Stylesheet}
    (hin : ∀ n ∈ ss.nodes, n.startsIn source.content.length) {css : Bytes} (hp : print none ss = .ok css)
    (hlen : css.length < 1073741824) (hpath : ∀ b ∈ source.path, 32 ≤ b.toNat ∧ b ≠ 34 ∧ b ≠ 92)
    (hu : IsUtf8 source.content) :
    MapDocumentOk source ss ∧
    ∃ json doc maps marks, printedMap source ss = some json ∧ readJson json = some doc ∧
      doc.text b!"mappings" = some maps ∧ NodesAt [] ss.nodes marks css ∧
      decodeMappings maps = some (marks.map (entryFor source.content)) := by
  obtain ⟨b64, maps, marks, h1, h2, h3, h4⟩ := map_exact hs hin hp hlen
  have hm := printedMap_eq hp h1 h2
  have hr := sourceMapJson_read (path := source.path) (content := source.content) (maps := maps)
    (fun b hb => by
      have := hpath b hb
      simp [plainByte, this.1, this.2.1, this.2.2]) hu.mended
    (fun b hb => mapping_plain b (decodeMappings_bytes h4 b hb))
  exact ⟨⟨_, _, hm, hr, rfl, rfl⟩, _, _, maps, marks, hm, hr, rfl, h3, h4⟩

/-! ### Without bounds on the sizes -/

/-- The bytes of the mappings written so far. -/
def MapBytes (st : PrSt) : Prop := ∀ b ∈ st.maps, isB64 b = true ∨ b = 44 ∨ b = 59

/-- The method keeps to them. -/
def KeepsMap (m : Pr Unit) : Prop := ∀ st st', m st = .ok () st' → MapBytes st → MapBytes st'

theorem Plain.keepsMap {m : Pr Unit} (h : Plain m) : KeepsMap m := by
  intro st st' e hst
  obtain ⟨t, _, rfl⟩ := h.ok e
  exact hst

theorem KeepsMap.bind {m n : Pr Unit} (h1 : KeepsMap m) (h2 : KeepsMap n) : KeepsMap (do m; n) := by
  intro st st' e hst
  obtain ⟨_, st1, e1, e2⟩ := Pr.bind_eq_ok e
  exact h2 st1 st' e2 (h1 st st1 e1 hst)

theorem vlqLoop_bytes (x : Int) : ∀ b ∈ vlqLoop x, isB64 b = true := by
  fun_induction vlqLoop x with
  | case1 x cur y cur' hy =>
    intro b hb
    simp only [List.mem_singleton] at hb
    subst hb
    exact b64_isB64 (by show (if y ≠ 0 then cur + 32 else cur) < 64; split <;> omega)
  | case2 x cur y cur' hy ih =>
    intro b hb
    rcases List.mem_cons.1 hb with rfl | hb
    · exact b64_isB64 (by show (if y ≠ 0 then cur + 32 else cur) < 64; split <;> omega)
    · exact ih b hb

theorem vlqEncode_bytes (n : Int) : ∀ b ∈ vlqEncode n, isB64 b = true := by
  unfold vlqEncode
  generalize (if n < 0 then wrap32 (wrap32 (wrap32 (-n) * 2) + 1) else wrap32 (n * 2)) = x
  dsimp only
  split
  · intro b hb
    simp only [List.mem_singleton] at hb
    subst hb
    exact b64_isB64 (by omega)
  · exact vlqLoop_bytes _

theorem mapScan_bytes : ∀ (l : List Int) (maps : Bytes) (a b : Int), (∀ x ∈ maps, isB64 x = true ∨ x = 44 ∨ x = 59) →
    ∀ x ∈ (mapScan l maps a b).1, isB64 x = true ∨ x = 44 ∨ x = 59
  | [], _, _, _, h => h
  | ch :: rest, maps, a, b, h => by
    unfold mapScan
    split
    · refine mapScan_bytes rest _ _ _ fun x hx => ?_
      rcases List.mem_append.1 hx with hx | hx
      · exact h x hx
      · simp only [List.mem_singleton] at hx
        exact .inr (.inr hx)
    · exact mapScan_bytes rest _ _ _ h

theorem addMapping_keepsMap (src : Option Source) (sp : Span) : KeepsMap (addMapping src sp) := by
  intro st st' e hst
  unfold addMapping at e
  cases src with
  | none => cases e; exact hst
  | some source =>
    dsimp only at e
    cases hlc : source.lineAndCol sp with
    | none => rw [hlc] at e; cases e
    | some lc =>
      obtain ⟨line, col⟩ := lc
      rw [hlc] at e
      dsimp only at e
      have hsc := mapScan_bytes (runes (st.s.drop st.lastWritten)) st.maps st.genCol st.genCol hst
      generalize mapScan (runes (st.s.drop st.lastWritten)) st.maps st.genCol st.genCol = r at e hsc
      obtain ⟨maps, last, new⟩ := r
      dsimp only at e hsc
      have fin : ∀ (m : Bytes) (a b c d : Int), (∀ x ∈ m, isB64 x = true ∨ x = 44 ∨ x = 59) →
          ∀ x ∈ m ++ vlqEncode a ++ vlqEncode b ++ vlqEncode c ++ vlqEncode d, isB64 x = true ∨ x = 44 ∨ x = 59 := by
        intro m a b c d hm x hx
        simp only [List.mem_append] at hx
        rcases hx with (((hx | hx) | hx) | hx) | hx
        · exact hm x hx
        all_goals exact .inl (vlqEncode_bytes _ x hx)
      split at e
      · cases e
      split at e
      · split at e
        · cases e
        split at e
        · cases e
          refine fin _ _ _ _ _ fun x hx => ?_
          rcases List.mem_append.1 hx with hx | hx
          · exact hsc x hx
          · simp only [List.mem_singleton] at hx
            exact .inr (.inl hx)
        · cases e; exact fin _ _ _ _ _ hsc
      · cases e; exact fin _ _ _ _ _ hsc

theorem printRules_keepsMap (src : Option Source) : ∀ rs, KeepsMap (printRules src rs)
  | [] => Plain.pure.keepsMap
  | r :: rs => ((addMapping_keepsMap src r.sp).bind (ruleBody_plain r).keepsMap).bind (printRules_keepsMap src rs)

theorem printNodes_keepsMap (src : Option Source) : ∀ ns, KeepsMap (printNodes src ns)
  | [] => Plain.pure.keepsMap
  | .rule r :: ns => ((addMapping_keepsMap src r.sp).bind (ruleBody_plain r).keepsMap).bind (printNodes_keepsMap src ns)
  | .at a :: ns => by
    refine KeepsMap.bind (m := printAtRule src a) ?_ (printNodes_keepsMap src ns)
    rw [printAtRule_eq]
    refine (addMapping_keepsMap src a.sp).bind ((atHead_plain a).keepsMap.bind ?_)
    cases a.block with
    | none => exact (Plain.write _).keepsMap
    | decls b => exact (printAtBlock_none (.decls b)).keepsMap
    | rules sp rs => exact (Plain.write _).keepsMap.bind ((printRules_keepsMap src rs).bind (Plain.write _).keepsMap)

theorem b64_digit : ∀ x : UInt8, isB64 x = true → digitValue x ≠ none := by
  have h : ∀ n : Fin 256, isB64 (UInt8.ofNat n.val) = true → digitValue (UInt8.ofNat n.val) ≠ none := by decide +kernel
  intro x
  have := h ⟨x.toNat, x.toNat_lt⟩
  simpa using this

/-- **C60** for every source whose path needs no escaping, of any size, with any line table, and every stylesheet
that can be printed with it: the comment holds a JSON document which names the file and contains its text, with
every byte that belongs to no UTF-8 sequence replaced by U+FFFD. -/
theorem map_document_any_partial {source : Source} {ss : Stylesheet} {out : Bytes}
    (h : print (some source) ss = .ok out) (hpath : ∀ b ∈ source.path, 32 ≤ b.toNat ∧ b ≠ 34 ∧ b ≠ 92) :
    (∃ json doc seen, printedMap source ss = some json ∧ readJson json = some doc ∧
      doc.text b!"file" = some source.path ∧ doc.onlyText b!"sourcesContent" = some seen ∧
      Mended source.content seen) ∧
    (MapDocumentOk source ss ↔ IsUtf8 source.content) := by
  obtain ⟨css, _, hp, _⟩ := map_only_appends h
  have key : ∃ json, printedMap source ss = some json ∧ ∀ seen, Mended source.content seen →
      ∃ maps, readJson json = some (mapDocument source.path seen maps) := by
    have hsim := printNodes_sameText (some source) ss.nodes PrSt.init PrSt.init rfl
    have h' := h
    unfold print at h'
    rcases hm : printNodes (some source) ss.nodes PrSt.init with ⟨_, st⟩ | _ | _
    · rw [hm] at hsim
      obtain ⟨st0, h0, hs⟩ := hsim
      rw [Pr.bind_ok hm] at h'
      have he : st.s ++ mapComment source st.maps = out := by simpa [printMapping] using h'
      have hcss : css = st.s := by
        have : print none ss = .ok st0.s := by
          unfold print
          rw [Pr.bind_ok h0]; rfl
        rw [hp] at this
        injection this with this
        rw [this, hs]
      have hmap := printNodes_keepsMap (some source) ss.nodes _ _ hm (by simp [MapBytes, PrSt.init])
      refine ⟨mapJson source st.maps, printedMap_eq (b64 := base64Std (mapJson source st.maps)) hp ?_
        (base64_read _ _ (Nat.le_refl _)), fun seen hseen => ⟨st.maps, ?_⟩⟩
      · rw [h, ← he, hcss]; unfold mapComment mapOpening; simp
      · refine sourceMapJson_read (fun b hb => ?_) hseen fun b hb => mapping_plain b ?_
        · have := hpath b hb
          simp [plainByte, this.1, this.2.1, this.2.2]
        · rcases hmap b hb with hb | hb
          · exact .inl (b64_digit b hb)
          · exact .inr hb
    · rw [Pr.bind_error hm] at h'; cases h'
    · rw [Pr.bind_panic hm] at h'; cases h'
  obtain ⟨json, hj, hread⟩ := key
  obtain ⟨seen, hseen⟩ := mended_exists _ source.content (Nat.le_refl _)
  obtain ⟨maps, hr⟩ := hread seen hseen
  refine ⟨⟨json, _, seen, hj, hr, rfl, rfl, hseen⟩, ?_, fun hu => ?_⟩
  · rintro ⟨json', doc, h1, h2, _, h3⟩
    rw [hj] at h1; cases h1
    rw [hr] at h2; cases h2
    have h3 : some seen = some source.content := h3
    cases h3
    exact hseen.utf8
  · obtain ⟨maps, hr⟩ := hread _ hu.mended
    exact ⟨json, _, hj, hr, rfl, rfl⟩

/-- Quotes, backslashes, control characters, `<`, `>`, `&`, characters of two, three and four bytes, U+2028. -/
example : ((parse 200 "a{b:\"\\65 <é€😀& \";\t}\r\n".toUTF8.toList).sheet?.bind fun x =>
    mapContent ⟨b!"dir/a.css", "a{b:\"\\65 <é€😀& \";\t}\r\n".toUTF8.toList, x.2⟩ x.1) =
    some "a{b:\"\\65 <é€😀& \";\t}\r\n".toUTF8.toList := by decide +kernel

/-- A line table that has nothing to do with the text, and a byte that is not UTF-8. -/
example : ((parse 100 [97, 123, 98, 58, 255, 125]).sheet?.bind fun x =>
    (mapContent ⟨b!"a", [97, 123, 98, 58, 255, 125], [0, 0, 0]⟩ x.1)) =
    some [97, 123, 98, 58, 0xEF, 0xBF, 0xBD, 125] := by decide +kernel

end Cssc
