import Verif.Spec.Run

/-! Specification vocabulary for the views of a parser: printed tables, the printed stack and the
`cloned` reductors. -/

namespace Lrp.Spec
variable {M T : Type}

/-- `A` is the start symbol, or occurs in a body elsewhere than as the last symbol of a body of
its own. -/
def HasContext (D : Decls T) (S A : T) : Prop :=
  A = S ∨ ∃ B i u v, IsProd D B i (u ++ A :: v) ∧ (v ≠ [] ∨ A ≠ B)

/-- The table leads from state `i` over the symbol `x` to the state `j`. -/
def Leads [LinOrd T] (t : Tabler T) (i : Nat) (x : T) (j : Nat) : Prop :=
  ∃ row c, t.actions[i]? = some row ∧ row.get? x = some c ∧
    (Among (.shift j) c ∨ Among (.goto j) c)

/-- A stack written from the bottom to the top: the state `i` followed by symbols, each with the
state it leads to. -/
inductive Chain [LinOrd T] (t : Tabler T) : Nat → List (T × Nat) → Prop
  | nil {i : Nat} : Chain t i []
  | cons {i j : Nat} {x : T} {rest : List (T × Nat)} :
      Leads t i x j → Chain t j rest → Chain t i ((x, j) :: rest)

/-- What the `cloned` reductors make of a tree: a token keeps its value, a node becomes the symbol of
its first child. -/
def clonedValue : Tree T T → Option T
  | .leaf tok => some tok.item
  | .node _ _ cs => cs.head?.map Tree.root

end Lrp.Spec
