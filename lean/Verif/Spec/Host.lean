import Verif.Spec.Brackets

/-! One grammar inside another, between brackets. -/

namespace Lrp.Spec
variable {T : Type} [DecidableEq T]

/-- Neither grammar uses the rule names of the other. -/
def Separate (D E : Decls T) : Prop := (∀ A, Nonterminal E A → Fresh D A) ∧ ∀ A, Nonterminal D A → Fresh E A

/-- The brackets and the end symbol are different and used in neither grammar. -/
structure NewBrackets (D E : Decls T) (o c eof : T) : Prop where
  openOuter : Fresh D o
  openInner : Fresh E o
  closeOuter : Fresh D c
  closeInner : Fresh E c
  different : o ≠ c
  endOuter : Fresh D eof
  endInner : Fresh E eof
  endOpen : eof ≠ o
  endClose : eof ≠ c

/-- The rules of both grammars, with `o R c` as a further alternative of `A`. -/
def Hosting (D E : Decls T) (A o R c : T) : Decls T := WithAlt (D ++ E) A [o, R, c]

/-- The second text is the first with a text of the inner language, between `o` and `c`, for each `k`. -/
inductive Filled (inner : List T → Prop) (k o c : T) : List T → List T → Prop
  | nil : Filled inner k o c [] []
  | keep {x : T} {u w : List T} : x ≠ k → Filled inner k o c u w → Filled inner k o c (x :: u) (x :: w)
  | hole {v u w : List T} : inner v → Filled inner k o c u w → Filled inner k o c (k :: u) (o :: (v ++ c :: w))

end Lrp.Spec
