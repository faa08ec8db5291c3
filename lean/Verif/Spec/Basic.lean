import Verif.Model.Outcome

/-! Specification vocabulary for iteration. -/

namespace Lrp.Spec

/-- `Orbit f a k b`: applying `f` to `a` `k` times returns `b`. -/
inductive Orbit {α : Type} (f : α → Out α) (a : α) : Nat → α → Prop
  | zero : Orbit f a 0 a
  | succ {k : Nat} {b c : α} : Orbit f a k b → f b = .ok c → Orbit f a (k + 1) c

end Lrp.Spec
