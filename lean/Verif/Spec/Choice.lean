import Verif.Spec.Host

/-! Two grammars as the two alternatives of a rule. -/

namespace Lrp.Spec
variable {T : Type} [DecidableEq T]

/-- The rules of both grammars and `C → S | R`. -/
def Joined (D E : Decls T) (C S R : T) : Decls T := (C, [[S], [R]]) :: (D ++ E)

/-- No terminal begins both a text derived from `S` and one derived from `R`. -/
def BeginApart (D E : Decls T) (S R : T) : Prop :=
  ∀ x u v, Terminal D x → Terminal E x → Derives D [S] (x :: u) → ¬ Derives E [R] (x :: v)

/-- The names of the two new rules `Z → C` and `C → S | R` and the end marker are used in neither grammar. -/
structure NewChoice (D E : Decls T) (Z C eof : T) : Prop where
  startFirst : Fresh D Z
  startSecond : Fresh E Z
  choiceFirst : Fresh D C
  choiceSecond : Fresh E C
  different : Z ≠ C
  endFirst : Fresh D eof
  endSecond : Fresh E eof
  endStart : eof ≠ Z
  endChoice : eof ≠ C

end Lrp.Spec
