import Verif.Spec.Cfg

/-! Recursion other than at the left end of what a rule derives. -/

namespace Lrp.Spec
variable {T : Type}

/-- `A` derives a sentential form in which it stands itself, with something to the left of it. -/
def Nests (D : Decls T) (A : T) : Prop := ∃ u v, u ≠ [] ∧ Derives D [A] (u ++ A :: v)

/-- No body has more than `m` symbols. -/
def BodiesWithin (D : Decls T) (m : Nat) : Prop := ∀ A i b, IsProd D A i b → b.length ≤ m

end Lrp.Spec
