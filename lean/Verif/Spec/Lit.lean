import Verif.Spec.Items
import Verif.Spec.Keeps

/-!
# Specification: well-formed syntax trees without a text

The conditions of `Spec/Tree.lean` that do not mention the text a tree was parsed from: the syntax of literals and the
shape that each construct must have.  A tree that was transformed mixes nodes of several files and nodes that stand
in no file, so this is what remains of well-formedness.
-/

namespace Cssc

mutual
/-- A well-formed value. -/
def VLit : Value → Prop
  | .nil => False
  | .str _ v => StrLit v
  | .dim _ num unit => DimLit num unit
  | .ident _ v => IdentLit v
  | .hex _ v => HashLit v
  | .brackets _ vs => VsLit vs ∧ ∀ v ∈ vs, v.isComp = true
  | .func _ name args =>
      (name = b!"url" ∧ ∃ isp w, args = [.ident isp w] ∧ UrlLit w) ∨
      (VsLit args ∧ IdentLit name ∧ ∀ v ∈ args, ArgOk name v)
  | .math _ op l r => VLit l ∧ VLit r ∧ MathOk op l r ∧ l.isTerm = true ∧ r.isTerm = true
  | .paren _ v => v = .nil ∨ VLit v ∧ v.isTerm = true
  | .raw _ v => DelimLit v ∧ v ≠ b!"!"
  | .comma _ => True

/-- A list of well-formed values. -/
def VsLit : List Value → Prop
  | [] => True
  | v :: vs => VLit v ∧ VsLit vs
end

/-- A value that may be missing. -/
def OptVLit (v : Value) : Prop := v = .nil ∨ VLit v ∧ v.isComp = true

mutual
/-- A well-formed part of a selector. -/
def PartLit : SelPart → Prop
  | .type _ name => name = b!"*" ∨ IdentLit name
  | .cls _ name => IdentLit name
  | .id _ name => HashLit name
  | .comb _ op => op ∈ [b!"+", b!">", b!"~", b!"|"]
  | .pclass _ name args => ArgsLit (nthNames.contains name) args ∧ IdentLit name
  | .pelem _ _ name args => ArgsLit (nthNames.contains name) args ∧ IdentLit name
  | .ws _ => True
  | .attr _ prop preOp value modifier => preOp ∈ [[], b!"^", b!"~", b!"$", b!"*", b!"|"] ∧ OptVLit value ∧
      (value = .nil → preOp = []) ∧ modifier ∈ [[], b!"s", b!"i"] ∧ IdentLit prop

/-- Well-formed arguments of a pseudo class. -/
def ArgsLit (nth : Bool) : PArgs → Prop
  | .nil => True
  | .sels _ l => nth = false ∧ l ≠ [] ∧ SelsLit l
  | .ident _ v => nth = true ∧ (v = b!"even" ∨ v = b!"odd")
  | .anb _ _ _ _ => nth = true

/-- A well-formed selector. -/
def SelLit : Sel → Prop
  | .mk _ parts => parts ≠ [] ∧ PartsLit parts

def PartsLit : List SelPart → Prop
  | [] => True
  | p :: ps => PartLit p ∧ PartsLit ps

def SelsLit : List Sel → Prop
  | [] => True
  | s :: ss => SelLit s ∧ SelsLit ss
end

/-- A well-formed selector list. -/
def SelListLit (l : SelList) : Prop := l.sels ≠ [] ∧ SelsLit l.sels

/-- A well-formed keyframe selector. -/
def KSelLit : KSel → Prop
  | .pct _ v => NumLit v
  | .ident _ v => v = b!"from" ∨ v = b!"to"

/-- A well-formed prelude of a qualified rule, `kf` inside `@keyframes`. -/
def PreludeLit (kf : Bool) : Prelude → Prop
  | .nil => True
  | .sels l => kf = false ∧ SelListLit l
  | .keyframes _ l => kf = true ∧ l ≠ [] ∧ ∀ k ∈ l, KSelLit k

/-- A well-formed declaration: a name, with the `*` hack possibly in front, and at least one value. -/
def DeclLit : Decl → Prop
  | .decl _ prop vals _ => (∃ w, (prop = w ∨ prop = 42 :: w) ∧ IdentLit w) ∧ vals ≠ [] ∧ VsLit vals ∧
      ∀ v ∈ vals, (v.isComp || v.isSep || v.isRaw) = true
  | .raw _ _ => True

def DeclBlockLit (b : DeclBlock) : Prop := ∀ d ∈ b.decls, DeclLit d

/-- A well-formed qualified rule. -/
def RuleLit (kf : Bool) (r : QRule) : Prop := PreludeLit kf r.prelude ∧ ∃ b, r.block = some b ∧ DeclBlockLit b

def MQPartLit : MQPart → Prop
  | .ident _ v => IdentLit v
  | .plain _ _ prop value => OptVLit value ∧ IdentLit prop
  | .range _ _ prop left op right => OptVLit left ∧ OptVLit right ∧ op ∈ [b!"<", b!"<=", b!">", b!">="] ∧ IdentLit prop
  | .inParens _ _ => False

def MQLit (q : MQ) : Prop := q.parts ≠ [] ∧ ∀ p ∈ q.parts, MQPartLit p

def MQListLit (l : MQList) : Prop := l.queries ≠ [] ∧ ∀ q ∈ l.queries, MQLit q

def AtPreludeLit : AtPrelude → Prop
  | .str _ v => StrLit v ∨ UrlLit v
  | .ident _ v => IdentLit v
  | .mql none => True
  | .mql (some l) => MQListLit l
  | .mq q => MQLit q

def BlockLit (kf : Bool) : Block → Prop
  | .none => True
  | .decls b => DeclBlockLit b
  | .rules _ rs => ∀ r ∈ rs, RuleLit kf r

def AtLit (a : AtRule) : Prop :=
  (∀ p ∈ a.preludes, AtPreludeLit p) ∧ BlockLit (keyframesNames.contains a.name) a.block ∧
  AtShape a.name a.preludes a.block ∧ WordLit a.name

/-- A well-formed node. -/
def NodeLit : Node → Prop
  | .rule r => RuleLit false r
  | .at a => AtLit a

/-- What the transformer may spoil: a computed number is a numeral (it may be infinite), and a media query is not
empty (a range with no values vanishes). -/
def Item.Whole : Item → Prop
  | .value (.dim _ num _) => IsNum num
  | .mq q => q.parts ≠ []
  | _ => True

/-- Conditions on a node of a source for what the transformer makes of it to be kept by printing: those of
`Item.Keeps`, numbers and arithmetic apart (they may be computed), but no arguments of `:any-link` (they are dropped,
and then a word may follow a word). -/
def Item.Ready : Item → Prop
  | .value (.dim _ _ unit) => Clean unit ∧ expLike unit = false
  | .value (.math _ _ _ _) => True
  | .part (.pclass _ name as) => NoEsc name ∧ (name = b!"any-link" → as = .nil)
  | it => it.Keeps

/-- Conditions on the numbers and the arithmetic of the output: numbers are CSS numbers (computed ones are finite), and
the arithmetic that is left can be written without spaces. -/
def Item.Reckoned : Item → Prop
  | .value (.dim _ num _) => IsNum num
  | .value (.math sp op l r) => (Item.value (.math sp op l r)).Keeps
  | _ => True

/-! ### Trees of a text are well-formed -/

mutual
theorem VOk.lit {src : Bytes} : ∀ {v : Value}, VOk src v → VLit v
  | .nil, h => by unfold VOk at h; exact h.elim
  | .str _ _, h => by unfold VOk at h; unfold VLit; exact h.2.2
  | .dim _ _ _, h => by unfold VOk at h; unfold VLit; exact h.2.2.2
  | .ident _ _, h => by unfold VOk at h; unfold VLit; exact h.2.2
  | .hex _ _, h => by unfold VOk at h; unfold VLit; exact h.2.2
  | .brackets _ vs, h => by unfold VOk at h; unfold VLit; exact ⟨VsOk.lit h.2.2.1, h.2.2.2⟩
  | .func _ _ args, h => by
    unfold VOk at h; unfold VLit
    rcases h.2 with ⟨h1, w, h2, _, h3⟩ | ⟨_, _, h1, h2⟩
    · exact .inl ⟨h1, _, w, h2, h3⟩
    · exact .inr ⟨VsOk.lit h1, h2⟩
  | .math _ _ l r, h => by
    unfold VOk at h; unfold VLit
    exact ⟨VOk.lit h.2.2.1, VOk.lit h.2.2.2.1, h.2.2.2.2⟩
  | .paren _ v, h => by
    unfold VOk at h; unfold VLit
    rcases h.2 with h | h
    · exact .inl h
    · exact .inr ⟨VOk.lit h.1, h.2.2⟩
  | .raw _ _, h => by unfold VOk at h; unfold VLit; exact h.2.2
  | .comma _, _ => by unfold VLit; trivial

theorem VsOk.lit {src : Bytes} : ∀ {vs : List Value}, VsOk src vs → VsLit vs
  | [], _ => by unfold VsLit; trivial
  | v :: vs, h => by unfold VsOk at h; unfold VsLit; exact ⟨VOk.lit h.1, VsOk.lit h.2⟩
end

theorem OptVOk.lit {src : Bytes} {lo hi : Nat} {v : Value} (h : OptVOk src lo hi v) : OptVLit v :=
  h.imp id fun h => ⟨h.1.lit, h.2.2⟩

mutual
theorem PartOk.lit {src : Bytes} : ∀ {p : SelPart}, PartOk src p → PartLit p
  | .type _ _, h => by unfold PartOk at h; unfold PartLit; exact h.2.2
  | .cls _ _, h => by unfold PartOk at h; unfold PartLit; exact h.2.2
  | .id _ _, h => by unfold PartOk at h; unfold PartLit; exact h.2.2
  | .comb _ _, h => by unfold PartOk at h; unfold PartLit; exact h.2.2
  | .pclass _ _ args, h => by unfold PartOk at h; unfold PartLit; exact ⟨ArgsOk.lit h.2.2.1, h.2.2.2⟩
  | .pelem _ _ _ args, h => by unfold PartOk at h; unfold PartLit; exact ⟨ArgsOk.lit h.2.2.2.1, h.2.2.2.2⟩
  | .ws _, _ => by unfold PartLit; trivial
  | .attr _ _ _ _ _, h => by unfold PartOk at h; unfold PartLit; exact ⟨h.2.2.1, h.2.2.2.1.lit, h.2.2.2.2⟩

theorem ArgsOk.lit {src : Bytes} {sp : Span} {nth : Bool} : ∀ {a : PArgs}, ArgsOk src sp nth a → ArgsLit nth a
  | .nil, _ => by unfold ArgsLit; trivial
  | .sels _ l, h => by unfold ArgsOk at h; unfold ArgsLit; exact ⟨h.1, h.2.2.1, SelsOk.lit h.2.2.2.2⟩
  | .ident _ _, h => by unfold ArgsOk at h; unfold ArgsLit; exact ⟨h.1, h.2.2.2⟩
  | .anb _ _ _ _, h => by unfold ArgsOk at h; unfold ArgsLit; exact h.1

theorem SelOk.lit {src : Bytes} : ∀ {s : Sel}, SelOk src s → SelLit s
  | .mk _ ps, h => by unfold SelOk at h; unfold SelLit; exact ⟨h.2.1, PartsOk.lit h.2.2.2⟩

theorem PartsOk.lit {src : Bytes} : ∀ {ps : List SelPart}, PartsOk src ps → PartsLit ps
  | [], _ => by unfold PartsLit; trivial
  | p :: ps, h => by unfold PartsOk at h; unfold PartsLit; exact ⟨PartOk.lit h.1, PartsOk.lit h.2⟩

theorem SelsOk.lit {src : Bytes} : ∀ {ss : List Sel}, SelsOk src ss → SelsLit ss
  | [], _ => by unfold SelsLit; trivial
  | s :: ss, h => by unfold SelsOk at h; unfold SelsLit; exact ⟨SelOk.lit h.1, SelsOk.lit h.2⟩
end

theorem PreludeOk.lit {src : Bytes} {kf : Bool} : ∀ {p : Prelude}, PreludeOk src kf p → PreludeLit kf p
  | .nil, _ => trivial
  | .sels _, h => ⟨h.1, h.2.2.1, h.2.2.2.2.lit⟩
  | .keyframes _ _, h => ⟨h.1, h.2.2.1, fun k hk => by
      have := h.2.2.2.2 k hk
      cases k
      · exact this.2.2
      · exact this.2.2⟩

theorem DeclOk.lit {src : Bytes} : ∀ {d : Decl}, DeclOk src d → DeclLit d
  | .decl _ _ _ _, ⟨_, ⟨_, _, h2, h3⟩, h4, _, h5, h6⟩ => ⟨⟨_, h2, h3⟩, h4, h5.lit, h6⟩
  | .raw _ _, _ => trivial

theorem DeclBlockOk.lit {src : Bytes} {b : DeclBlock} (h : DeclBlockOk src b) : DeclBlockLit b :=
  fun d hd => (h.2.2 d hd).lit

theorem RuleOk.lit {src : Bytes} {kf : Bool} {r : QRule} (h : RuleOk src kf r) : RuleLit kf r := by
  obtain ⟨_, h1, b, h2, h3, _⟩ := h
  exact ⟨h1.lit, b, h2, h3.lit⟩

theorem MQPartOk.lit {src : Bytes} : ∀ {p : MQPart}, MQPartOk src p → MQPartLit p
  | .ident _ _, h => h.2.2
  | .plain _ _ _ _, h => ⟨h.2.2.2.1.lit, h.2.2.2.2⟩
  | .range _ _ _ _ _ _, h => ⟨h.2.2.2.1.lit, h.2.2.2.2.1.lit, h.2.2.2.2.2⟩
  | .inParens _ _, h => h.elim

theorem MQOk.lit {src : Bytes} {q : MQ} (h : MQOk src q) : MQLit q := ⟨h.2.1, fun p hp => (h.2.2.2 p hp).lit⟩

theorem MQListOk.lit {src : Bytes} {l : MQList} (h : MQListOk src l) : MQListLit l := ⟨h.2.1, fun q hq => (h.2.2.2 q hq).lit⟩

theorem AtPreludeOk.lit {src : Bytes} : ∀ {p : AtPrelude}, AtPreludeOk src p → AtPreludeLit p
  | .str _ _, h => h.2.2
  | .ident _ _, h => h.2.2
  | .mql none, _ => trivial
  | .mql (some _), h => MQListOk.lit h
  | .mq _, h => MQOk.lit h

theorem BlockOk.lit {src : Bytes} {kf : Bool} : ∀ {b : Block}, BlockOk src kf b → BlockLit kf b
  | .none, _ => trivial
  | .decls _, h => DeclBlockOk.lit h
  | .rules _ _, h => fun r hr => (h.2.2 r hr).lit

theorem AtOk.lit {src : Bytes} {a : AtRule} (h : AtOk src a) : AtLit a := by
  obtain ⟨_, _, h1, h2, _, h3, h4⟩ := h
  exact ⟨fun p hp => (h1 p hp).lit, h2.lit, h3, h4⟩

theorem NodeOk.lit {src : Bytes} : ∀ {n : Node}, NodeOk src n → NodeLit n
  | .rule _, h => RuleOk.lit h
  | .at _, h => AtOk.lit h

end Cssc
