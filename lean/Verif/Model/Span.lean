import Verif.Model.Outcome

/-! Model of `Span` (src/lib.rs:105-150). -/

namespace Lrp

/-- src/lib.rs:113-117 `Span`. -/
structure Span where
  start : Nat
  stop : Nat
  deriving DecidableEq, Repr

namespace Span

/-- src/lib.rs:120-123 `Span::new`. -/
def new (a b : Nat) : Span := { start := a, stop := b }

/-- src/lib.rs:125-130 `from_source`, for a slice or `Vec`: `slice[self.start..self.end]`, which
panics when `start > end` or `end > len` (std). -/
def fromSource {α : Type} (sp : Span) (src : List α) : Out (List α) :=
  if sp.start ≤ sp.stop ∧ sp.stop ≤ src.length
  then .ok ((src.drop sp.start).take (sp.stop - sp.start))
  else .panic .indexRange

/-- src/lib.rs:133-140 `From<(usize, usize)>`. -/
def ofPair (p : Nat × Nat) : Span := { start := p.1, stop := p.2 }

end Span

end Lrp
