import Verif.Spec.Run

/-! Comparing the results of two parsers, and the grammars of two parsers. -/

namespace Lrp.Spec
variable {T M : Type}

/-- The same result, except that the lists of expected tokens may differ. -/
def SameResult : Except (Error T) M → Except (Error T) M → Prop
  | .ok v, .ok v' => v = v'
  | .error (.unexpectedToken x _), .error (.unexpectedToken y _) => x = y
  | .error e, .error e' => e = e'
  | _, _ => False

end Lrp.Spec
