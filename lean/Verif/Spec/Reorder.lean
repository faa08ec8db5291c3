import Verif.Spec.Cfg

/-! Specification: the same rules with their alternatives in another order. -/

namespace Lrp.Spec
variable {M T : Type}

/-- The rules of `D'` are those of `D`, with the alternatives of each in any order (and the rules
themselves in any order). -/
def Shuffled (D D' : Decls T) : Prop :=
  (∀ A bs, Declared D A bs → ∃ bs', Declared D' A bs' ∧ bs.Perm bs') ∧
  ∀ A, Nonterminal D' A → Nonterminal D A

/-- Alternative number `i` of the rule `A` of `D` is alternative number `π A i` of the rule `A` of `D'`, and
there are no others. -/
structure Reordered (π : T → Nat → Nat) (D D' : Decls T) : Prop where
  names : ∀ A, Nonterminal D' A ↔ Nonterminal D A
  prods : ∀ A j b, IsProd D' A j b ↔ ∃ i, j = π A i ∧ IsProd D A i b
  inj : ∀ A i j b c, IsProd D A i b → IsProd D A j c → π A i = π A j → i = j

namespace Tree
mutual
/-- The tree with its productions renumbered. -/
def reorder (π : T → Nat → Nat) : Tree M T → Tree M T
  | leaf tok => leaf tok
  | node A i cs => node A (π A i) (reorders π cs)
/-- The trees with their productions renumbered. -/
def reorders (π : T → Nat → Nat) : List (Tree M T) → List (Tree M T)
  | [] => []
  | c :: cs => reorder π c :: reorders π cs
end
end Tree

end Lrp.Spec
