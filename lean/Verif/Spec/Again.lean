import Verif.Spec.Run

/-! Starting a `Dfa`, and starting it again. -/

namespace Lrp.Spec
variable {T : Type} [LinOrd T] [DecidableEq T] {M : Type}

/-- `Dfa::start` on `d` returns `r` and leaves the `Dfa` as `d'`. -/
def Starts (d d' : Dfa M T) (r : Except (Error T) Unit) : Prop := ∃ n, d.start n = .ok (d', r)

/-- The columns of nonterminals hold gotos, and nothing else. -/
def GotoColumns (D : Decls T) (t : Tabler T) : Prop :=
  ∀ (i : Nat) row A c, t.actions[i]? = some row → Nonterminal D A → row.get? A = some c → ∃ j, c = .goto j

/-- The cell of row `i` under `x`. -/
def Cell (acts : ActTable T) (i : Nat) (x : T) (c : Action T) : Prop :=
  ∃ row, acts[i]? = some row ∧ row.get? x = some c

/-- The columns of nonterminals hold no conflicts. -/
def PlainColumns (D : Decls T) (acts : ActTable T) : Prop :=
  ∀ (i : Nat) A a b, Nonterminal D A → ¬ Cell acts i A (.conflict a b)

end Lrp.Spec
