import Verif.Spec.Cfg

/-! Specification: a symbol with two parse trees of the same tokens. -/

namespace Lrp.Spec

/-- Some tokens have two different parse trees with root `A`. -/
def Ambiguous {T : Type} (D : Decls T) (A : T) : Prop :=
  ∃ t1 t2 : Tree Unit T, Tree.Valid D t1 ∧ Tree.Valid D t2 ∧ t1.root = A ∧ t2.root = A ∧
    t1.yield = t2.yield ∧ t1 ≠ t2

end Lrp.Spec
