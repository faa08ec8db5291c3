import Verif.Model.Grammar

/-! Specification of texts: when they can be read in only one way, and what an item looks like. -/

namespace Lrp.Spec

/-- What may stand after the text of a symbol. -/
def Break (u : List Char) : Prop := ∃ c v, u = c :: v ∧ c ∈ [' ', ',', '.', ')', ']', '}']

/-- The texts can be read in only one way: where a text ends is clear, and what it stands for, up to `R`.  No
text begins with a blank, a dot or a closing bracket. -/
structure Legible {α : Type} (fmt : α → List Char) (R : α → α → Prop) : Prop where
  split : ∀ a b u v, Break u → Break v → fmt a ++ u = fmt b ++ v → R a b ∧ u = v
  head : ∀ a, ∃ c r, fmt a = c :: r ∧ c ∉ [' ', '.', ')', ']', '}']

/-- Two lists are as long, and related item by item. -/
inductive Forall2 {α : Type} (R : α → α → Prop) : List α → List α → Prop
  | nil : Forall2 R [] []
  | cons {a b : α} {as bs : List α} : R a b → Forall2 R as bs → Forall2 R (a :: as) (b :: bs)

/-- The same item, but for the number of the production. -/
structure SameItem {T : Type} (p q : Position T) : Prop where
  rule : p.rule = q.rule
  body : p.seq.1 = q.seq.1
  point : p.point = q.point
  look : p.look = q.look

/-- The texts of the symbols, each with a blank before it. -/
def spaced {T : Type} (fmt : T → List Char) (l : List T) : List Char := l.flatMap (fun x => ' ' :: fmt x)

end Lrp.Spec
