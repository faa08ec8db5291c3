import Verif.Spec.Wrap

/-! A grammar given one more alternative. -/

namespace Lrp.Spec
variable {T : Type} [DecidableEq T]

/-- The grammar with `body` as a further, last, alternative of `A`. -/
def WithAlt (D : Decls T) (A : T) (body : List T) : Decls T :=
  D.map (fun d => if d.1 = A then (d.1, d.2 ++ [body]) else d)

end Lrp.Spec
