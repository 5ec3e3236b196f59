import Verif.Printer
import Verif.Props.Sources

/-!
# Specification: reading a source map, and where rules stand in the output

The `mappings` text of a source map, read the way the source map format (revision 3) prescribes:
generated lines are separated by `;`, the segments of a line by `,`, and a segment is a run of base64 VLQ
numbers, each relative to the one before (the generated column to the start of the line).  Written from the
format, without any function of the printer.
-/

namespace Cssc

/-- The value of a base64 digit. -/
def digitValue (b : UInt8) : Option Nat :=
  if 65 ≤ b.toNat ∧ b.toNat ≤ 90 then some (b.toNat - 65)
  else if 97 ≤ b.toNat ∧ b.toNat ≤ 122 then some (b.toNat - 97 + 26)
  else if 48 ≤ b.toNat ∧ b.toNat ≤ 57 then some (b.toNat - 48 + 52)
  else if b = 43 then some 62
  else if b = 47 then some 63
  else none

/-- An unsigned VLQ number: digits of five bits, least significant first; the sixth bit says that more
follow. -/
def vlqNat : Bytes → Option (Nat × Bytes)
  | [] => none
  | b :: rest =>
    match digitValue b with
    | none => none
    | some d =>
      if d < 32 then some (d, rest)
      else
        match vlqNat rest with
        | none => none
        | some (v, rest') => some (d - 32 + 32 * v, rest')

/-- The lowest bit is the sign. -/
def vlqSigned (n : Nat) : Int := if n % 2 = 1 then -((n / 2 : Nat) : Int) else ((n / 2 : Nat) : Int)

/-- The numbers of a segment. -/
def segFields : Nat → Bytes → Option (List Int)
  | _, [] => some []
  | 0, _ :: _ => none
  | fuel + 1, b :: bs =>
    match vlqNat (b :: bs) with
    | none => none
    | some (n, rest) => (segFields fuel rest).map (vlqSigned n :: ·)

/-- Cutting a text at every occurrence of a byte. -/
def splitAt (sep : UInt8) : Bytes → List Bytes
  | [] => [[]]
  | b :: rest =>
    if b = sep then [] :: splitAt sep rest
    else
      match splitAt sep rest with
      | [] => [[b]]
      | l :: ls => (b :: l) :: ls

/-- The segments of one generated line. -/
def lineSegs (line : Bytes) : Option (List (List Int)) :=
  ((splitAt 44 line).filter (· ≠ [])).mapM fun s => segFields s.length s

/-- Where a position of the output comes from: generated line and column, source, original line and column
(all counted from zero). -/
structure MapEntry where
  line : Int
  col : Int
  source : Int
  origLine : Int
  origCol : Int
deriving DecidableEq, Repr, Inhabited

/-- The segments of a line, added up. -/
def addSegs : MapEntry → List (List Int) → Option (MapEntry × List MapEntry)
  | e, [] => some (e, [])
  | e, [dc, ds, dl, dk] :: segs =>
    let e' : MapEntry := ⟨e.line, e.col + dc, e.source + ds, e.origLine + dl, e.origCol + dk⟩
    (addSegs e' segs).map fun (last, es) => (last, e' :: es)
  | _, _ :: _ => none

/-- The lines, one after the other. -/
def addLines : MapEntry → List (List (List Int)) → Option (List MapEntry)
  | _, [] => some []
  | e, l :: ls =>
    match addSegs { e with col := 0 } l with
    | none => none
    | some (last, es) => (addLines { last with line := last.line + 1 } ls).map (es ++ ·)

/-- What a `mappings` text says. -/
def decodeMappings (maps : Bytes) : Option (List MapEntry) :=
  match (splitAt 59 maps).mapM lineSegs with
  | none => none
  | some ls => addLines ⟨0, 0, 0, 0, 0⟩ ls

/-! ### Where rules stand -/

/-- What is printed for one node, without a source map. -/
def nodeText (n : Node) : Option Bytes :=
  match print none ⟨[n], []⟩ with
  | .ok t => some t
  | _ => none

/-- The rules, printed one after the other behind `before`: each rule with the text before it, and the
whole text in the end. -/
inductive RulesAt : Bytes → List QRule → List (Bytes × Span) → Bytes → Prop
  | nil (before) : RulesAt before [] [] before
  | cons {before t after r rs marks} : nodeText (.rule r) = some t → RulesAt (before ++ t) rs marks after →
      RulesAt before (r :: rs) ((before, r.sp) :: marks) after

/-- The same for top-level nodes; the rules inside an at-rule stand behind its head, which is what is
printed for the at-rule without them, up to the closing brace. -/
inductive NodesAt : Bytes → List Node → List (Bytes × Span) → Bytes → Prop
  | nil (before) : NodesAt before [] [] before
  | rule {before t after r ns marks} : nodeText (.rule r) = some t → NodesAt (before ++ t) ns marks after →
      NodesAt before (.rule r :: ns) ((before, r.sp) :: marks) after
  | flat {before t after a ns marks} : nodeText (.at a) = some t → (∀ sp rs, a.block ≠ .rules sp rs) →
      NodesAt (before ++ t) ns marks after →
      NodesAt before (.at a :: ns) ((before, a.sp) :: marks) after
  | nested {before head mid after a sp rs ns marks inner} : a.block = .rules sp rs →
      nodeText (.at { a with block := .rules sp [] }) = some (head ++ b!"}") →
      RulesAt (before ++ head) rs inner mid → NodesAt (mid ++ b!"}") ns marks after →
      NodesAt before (.at a :: ns) ((before, a.sp) :: (inner ++ marks)) after

/-- The line and column (in runes) at which text written after `before` begins. -/
def outLine (before : Bytes) : Nat := before.count 10
def outCol (before : Bytes) : Nat := (runes (lastLine before)).length

/-- The entry that a source map should have for a node that was printed behind `before`. -/
def entryFor (content : Bytes) (mark : Bytes × Span) : MapEntry :=
  ⟨outLine mark.1, outCol mark.1, 0, (lineOf content mark.2.start : Int) - 1, (colOf content mark.2.start : Int) - 1⟩

end Cssc
