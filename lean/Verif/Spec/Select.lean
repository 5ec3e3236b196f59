import Verif.Ast

/-!
# Specification: what selectors match

The meaning of a complex selector over an arbitrary document: which elements satisfy a simple selector and which
pairs of elements are related by a combinator are parameters; the parts of a selector are read from left to
right, a combinator moves to another element.
-/

namespace Cssc

/-- A document, as far as selectors see it. -/
structure Doc where
  Elem : Type
  /-- The element satisfies a simple selector. -/
  has : Elem → SelPart → Prop
  /-- Two elements are related by a combinator (white space included). -/
  rel : SelPart → Elem → Elem → Prop

/-- Is it a combinator? -/
def SelPart.isComb : SelPart → Bool
  | .comb _ _ => true
  | .ws _ => true
  | _ => false

/-- Starting at the element `a`, the parts lead to the element `e`. -/
def Leads (D : Doc) : List SelPart → D.Elem → D.Elem → Prop
  | [], a, e => a = e
  | p :: ps, a, e =>
    if p.isComb then ∃ b, D.rel p a b ∧ Leads D ps b e
    else D.has a p ∧ Leads D ps a e

/-- A selector matches an element. -/
def SelMatches (D : Doc) (s : Sel) (e : D.Elem) : Prop := ∃ a, Leads D s.parts a e

/-- A list of selectors matches an element. -/
def ListMatches (D : Doc) (l : List Sel) (e : D.Elem) : Prop := ∃ s ∈ l, SelMatches D s e

/-- `:any-link`. -/
def SelPart.anyLink : SelPart → Bool
  | .pclass _ name _ => name == b!"any-link"
  | _ => false

/-- In this document `:any-link` means `:link` or `:visited`, whatever the positions in the text. -/
def AnyLinkDoc (D : Doc) : Prop :=
  ∀ e sp args, D.has e (.pclass sp b!"any-link" args) ↔
    D.has e (.pclass ⟨0, 0⟩ b!"link" .nil) ∨ D.has e (.pclass ⟨0, 0⟩ b!"visited" .nil)

end Cssc
