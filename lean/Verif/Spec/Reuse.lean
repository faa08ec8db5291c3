import Verif.Spec.Run

/-! Specification of `Dfa::parse`. -/

namespace Lrp.Spec

variable {M T : Type} [LinOrd T] [DecidableEq T]

/-- `Dfa::parse` on the `Dfa` gives this result for the input. -/
def Reparses (d : Dfa M T) (input : List (Token M T)) (r : Except (Error T) M) : Prop :=
  ∃ d', Returns (fun n => Dfa.parse n d input) (d', r)

/-- A `Dfa` of the parser, in whatever state. -/
structure DfaOf (t : Tabler T) (maps : ReductMap M T) (eof : T) (d : Dfa M T) : Prop where
  table : d.table = t.actions
  reductors : d.reductors = maps
  eof : d.eof = eof

end Lrp.Spec
