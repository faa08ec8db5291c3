import Verif.Model.Dfa
import Verif.Spec.Lr

/-! Specification vocabulary for merging equal rows of an action table. -/

namespace Lrp.Spec
variable {M T : Type}

/-- All shifts and gotos of a cell lead to one of the first `n` states. -/
def Targets (n : Nat) : Action T → Prop
  | .shift j => j < n
  | .goto j => j < n
  | .conflict a b => Targets n a ∧ Targets n b
  | .acc => True
  | .reduce _ _ => True

/-- All shifts and gotos of a table lead to rows of it. -/
def ClosedTable (rows : ActTable T) : Prop := ∀ row ∈ rows, ∀ e ∈ row, Targets rows.length e.2

/-- The cell with its states renumbered. -/
def rename (f : Nat → Nat) : Action T → Action T
  | .shift j => .shift (f j)
  | .goto j => .goto (f j)
  | .conflict a b => .conflict (rename f a) (rename f b)
  | .acc => .acc
  | .reduce A p => .reduce A p

/-- The error with its states renumbered: only conflicts mention states. -/
def renameErr (f : Nat → Nat) : Error T → Error T
  | .conflict a b => .conflict (rename f a) (rename f b)
  | e => e

/-- The outcome of a parse with the states renumbered. -/
def renameRes (f : Nat → Nat) : Except (Error T) M → Except (Error T) M
  | .ok v => .ok v
  | .error e => .error (renameErr f e)

/-- `f` numbers the different rows from `0` to `k - 1`, in the order in which they first occur. -/
structure Numbers (rows : ActTable T) (f : Nat → Nat) (k : Nat) : Prop where
  below : ∀ i < rows.length, f i < k
  onto : ∀ m < k, ∃ i < rows.length, f i = m
  same : ∀ i < rows.length, ∀ j < rows.length, (f i = f j ↔ rows[i]? = rows[j]?)
  order : ∀ i < rows.length, ∀ j < rows.length, (∀ i' < j, rows[i']? ≠ rows[j]?) →
    (f i < f j ↔ ∃ i' < j, rows[i']? = rows[i]?)

end Lrp.Spec
