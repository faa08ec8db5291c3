import Verif.Spec.Cfg

/-! Specification: taking productions away. -/

namespace Lrp.Spec
variable {T : Type}

/-- The productions of `D'` are productions of `D` (perhaps with other numbers, different ones for different
productions), and the nonterminals that occur in them still are nonterminals. -/
def Fewer (D' D : Decls T) : Prop :=
  ∃ f : T → Nat → Nat,
    (∀ A i b, IsProd D' A i b → IsProd D A (f A i) b) ∧
    (∀ A i b j c, IsProd D' A i b → IsProd D' A j c → f A i = f A j → i = j) ∧
    (∀ A i b, IsProd D' A i b → ∀ x ∈ b, Nonterminal D x → Nonterminal D' x)

/-- Nothing is missing that can be used: the reachable nonterminals have the same productions. -/
def SameReachable (D' D : Decls T) (S : T) : Prop :=
  ∀ A, Reachable D S A → (Nonterminal D' A ↔ Nonterminal D A) ∧ ∀ i b, IsProd D' A i b ↔ IsProd D A i b

end Lrp.Spec
