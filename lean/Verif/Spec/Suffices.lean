import Verif.Spec.Knuth
import Verif.Spec.Again
import Verif.Spec.Views

/-! Tables that have all the reductions the sentences need. -/

namespace Lrp.Spec
variable {T : Type} [LinOrd T] [DecidableEq T]

/-- Wherever a sentence may need a reduction, the table has it: if the LR(1) item `A → β . , x` is valid for `γ`,
`γ` derives a terminal string, and the table leads from state 0 over `γ` to the state `i`, then row `i` holds under
`x` the reduction by that production, or acceptance for the start symbol. -/
def Suffices (D : Decls T) (S eof : T) (t : Tabler T) : Prop :=
  ∀ (path : List (T × Nat)) (i : Nat) (A : T) (k : Nat) (β : List T) (x : T),
    Chain t 0 path → (0 :: path.map Prod.snd).getLast? = some i →
    ValidItem1 D S eof (path.map Prod.fst) A k β [] x →
    (∃ u, Derives D (path.map Prod.fst) u ∧ Terminals D u) →
    (A = S → Cell t.actions i x .acc) ∧ (A ≠ S → Cell t.actions i x (.reduce A (β, k)))

/-- No input has two parse trees. -/
def Unambiguous (D : Decls T) (S : T) : Prop :=
  ∀ t₁ t₂ : Tree Unit T, Tree.Valid D t₁ → Tree.Valid D t₂ → t₁.root = S → t₂.root = S →
    t₁.yield = t₂.yield → t₁ = t₂

end Lrp.Spec
