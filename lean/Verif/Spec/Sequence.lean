import Verif.Spec.Wrap

/-! A grammar for sequences of texts, each ended by a mark. -/

namespace Lrp.Spec
variable {T : Type}

/-- The grammar with one more rule, `L → S m | L S m`. -/
def Listed (D : Decls T) (L S m : T) : Decls T := (L, [[S, m], [L, S, m]]) :: D

/-- The grammar with two more rules, `S' → L` and `L → S m | L S m`. -/
def Sequenced (D : Decls T) (S' L S m : T) : Decls T := Wrapped (Listed D L S m) S' L

/-- The pieces one after another, each followed by the mark. -/
def Marked {α : Type} (m : α) (pieces : List (List α)) : List α := pieces.flatMap (· ++ [m])

variable {M : Type}

/-- The value of a sequence of pieces, each a parse tree and the token of its mark, read from left to right:
the reductors of `L → S m` and `L → L S m` are called in turn. -/
inductive SeqValue (red : T → Nat → List (Token M T) → Option M) (L S : T) :
    List (Tree M T × Token M T) → M → Prop
  | one {c : Tree M T} {k : Token M T} {a v : M} : c.eval red = some a → red L 0 [⟨a, S⟩, k] = some v →
      SeqValue red L S [(c, k)] v
  | more {ps : List (Tree M T × Token M T)} {c : Tree M T} {k : Token M T} {acc a v : M} :
      SeqValue red L S ps acc → c.eval red = some a → red L 1 [⟨acc, L⟩, ⟨a, S⟩, k] = some v →
      SeqValue red L S (ps ++ [(c, k)]) v

end Lrp.Spec
