import Verif.Spec.Choice

/-! A text of one grammar and a text of another one with a token between them. -/

namespace Lrp.Spec
variable {T : Type} [DecidableEq T]

/-- The rules of both grammars and `C → S m R`. -/
def Divided (D E : Decls T) (C S m R : T) : Decls T := (C, [[S, m, R]]) :: (D ++ E)

/-- The token between the texts is not used in the first grammar, and is no name of a rule of the second one or of the
new rules. -/
structure NewDivider (D E : Decls T) (Z C m eof : T) : Prop extends NewChoice D E Z C eof where
  first : Fresh D m
  second : Terminal E m
  notStart : m ≠ Z
  notRule : m ≠ C

end Lrp.Spec
