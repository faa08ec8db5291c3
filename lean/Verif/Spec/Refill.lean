import Verif.Spec.Run

/-! `with_table` of the three parsers as one function. -/

namespace Lrp.Spec
variable {T : Type} [LinOrd T] [DecidableEq T]

/-- `Slr::with_table`, `Clr::with_table` or `Lalr::with_table`; the parser is identified with its
table. -/
def Method.fill (k : Method) (dbg : Bool) (fuel : Nat) (t : Tabler T) : Out (Tabler T) :=
  match k with
  | .slr => Slr.withTable dbg fuel t
  | .clr => Clr.withTable dbg fuel t
  | .lalr => do
    let l ← Lalr.withTable dbg fuel t
    return l.table

end Lrp.Spec
