import Verif.Spec.Cfg

/-! Productions of one symbol. -/

namespace Lrp.Spec
variable {T : Type}

/-- `A` becomes `B` by one or more productions with bodies of one symbol. -/
inductive Renames (D : Decls T) : T → T → Prop
  | one {A B : T} {i : Nat} : IsProd D A i [B] → Renames D A B
  | more {A B C : T} {i : Nat} : IsProd D A i [B] → Renames D B C → Renames D A C

/-- No symbol becomes itself. -/
def Acyclic (D : Decls T) : Prop := ∀ A, ¬ Renames D A A

end Lrp.Spec
