import Verif.Spec.Run

/-! Specification: two parses of tokens of the same types, whose values are related. -/

namespace Lrp.Spec
variable {M N T : Type} [LinOrd T] [DecidableEq T]

/-- Two lists of tokens: one after the other of the same type, with values that `R` relates at that type. -/
inductive RelToks (R : T → M → N → Prop) : List (Token M T) → List (Token N T) → Prop
  | nil : RelToks R [] []
  | cons {x : T} {v : M} {w : N} {as : List (Token M T)} {bs : List (Token N T)} :
      R x v w → RelToks R as bs → RelToks R (⟨v, x⟩ :: as) (⟨w, x⟩ :: bs)

/-- Both panic, or both return, related values. -/
def RelOpt (R : M → N → Prop) : Option M → Option N → Prop
  | none, none => True
  | some v, some w => R v w
  | _, _ => False

/-- The reductors of every production are both missing, or they take related items of the types of the body to
values that are related at the name of the rule. -/
def RelReds (R : T → M → N → Prop) (D : Decls T) (maps : ReductMap M T) (maps' : ReductMap N T) : Prop :=
  ∀ A i b, IsProd D A i b →
    match (maps.get? A).bind (·[i]?), (maps'.get? A).bind (·[i]?) with
    | none, none => True
    | some r, some r' => ∀ its its', its.map Token.ty = b → RelToks R its its' → RelOpt (R A) (r its) (r' its')
    | _, _ => False

/-- Every production has a reductor, and it takes items of the types of the body, with values that `P` allows
for these types, to a value that `P` allows for the name of the rule. -/
def TypedReds (P : T → M → Prop) (D : Decls T) (maps : ReductMap M T) : Prop :=
  ∀ A i b, IsProd D A i b → ∃ f, (maps.get? A).bind (·[i]?) = some f ∧
    ∀ its, its.map Token.ty = b → (∀ it ∈ its, P it.ty it.item) → ∃ v, f its = some v ∧ P A v

/-- The tokens without their values. -/
def typesOnly (toks : List (Token M T)) : List (Token Unit T) := toks.map fun t => ⟨(), t.ty⟩

end Lrp.Spec
