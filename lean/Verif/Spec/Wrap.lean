import Verif.Spec.Folding
import Verif.Spec.Knuth

/-! A grammar given a new start rule. -/

namespace Lrp.Spec
variable {T : Type}

/-- The grammar with one more rule, `S' → S`. -/
def Wrapped (D : Decls T) (S' S : T) : Decls T := (S', [[S]]) :: D

/-- `X` is a name the grammar does not use. -/
def Fresh (D : Decls T) (X : T) : Prop := Terminal D X ∧ InNoBody D X

/-- `S ⇒ … ⇒ S` in at least one step. -/
def SelfDeriving (D : Decls T) (S : T) : Prop := ∃ a, Step D [S] a ∧ Derives D a [S]

end Lrp.Spec
