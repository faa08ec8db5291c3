import Verif.Model.Tabler
import Verif.Spec.Equals

/-! Specification: calling `reduce_equals` several times. -/

namespace Lrp.Spec
variable {T : Type} [LinOrd T] [DecidableEq T]

/-- `t'` is what `n` calls of `reduce_equals` make of `t`. -/
def Calls (dbg : Bool) : Nat → Tabler T → Tabler T → Prop
  | 0, t, t' => t' = t
  | n + 1, t, t' => ∃ s, Tabler.reduceEquals dbg t = .ok s ∧ Calls dbg n s t'

/-- No two rows of the table are the same. -/
def NoTwins (rows : ActTable T) : Prop :=
  ∀ i < rows.length, ∀ j < rows.length, rows[i]? = rows[j]? → i = j

end Lrp.Spec
