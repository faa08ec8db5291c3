import Verif.Spec.Knuth
import Verif.Spec.Again

/-! Symbols that may be put on the stack without end. -/

namespace Lrp.Spec
variable {T : Type} [LinOrd T] [DecidableEq T] {M : Type}

/-- However often `A` is put after `γ`, an LR(0) item is valid for the result: the beginning of a right sentential
form that does not go beyond the handle. -/
def Repeats (D : Decls T) (S : T) (γ : List T) (A : T) : Prop :=
  ∀ n, ∃ B i β₁ β₂, ValidItem D S (γ ++ List.replicate n A) B i β₁ β₂

/-- The symbols of the items of a `Dfa`, from the bottom of the stack. -/
def stackSyms (d : Dfa M T) : List T := d.items.reverse.map Token.ty

end Lrp.Spec
