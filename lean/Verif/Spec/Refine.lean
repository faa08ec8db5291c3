import Verif.Spec.Host

/-! A token of a grammar split into several. -/

namespace Lrp.Spec
variable {T : Type} [DecidableEq T]

/-- The grammar with a rule `x → y₁ | y₂ | …` for a token `x`. -/
def Refined (D : Decls T) (x : T) (ys : List T) : Decls T := (x, ys.map fun y => [y]) :: D

/-- The token `x` for each of `ys`. -/
def coarse (x : T) (ys : List T) (a : T) : T := if a ∈ ys then x else a

/-- `x` is a token, `ys` are different names the grammar does not use. -/
structure NewTokens (D : Decls T) (x : T) (ys : List T) : Prop where
  token : Terminal D x
  fresh : ∀ y ∈ ys, Fresh D y
  apart : x ∉ ys
  nodup : ys.Nodup

/-- A token of one of the types `ys` as a token of type `x`. -/
def coarseTok {M : Type} (x : T) (ys : List T) (tok : Token M T) : Token M T := ⟨tok.item, coarse x ys tok.ty⟩

end Lrp.Spec
