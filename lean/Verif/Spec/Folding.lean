import Verif.Spec.Cfg

/-! Folding a graph: what decides whether lrp computes FIRST and FOLLOW. -/

namespace Lrp.Spec
variable {T : Type}

/-- The edges of a graph between different vertices. -/
def Loopless (E : T → T → Prop) (A B : T) : Prop := A ≠ B ∧ E A B

/-- The graph folded `n` times: each folding joins the vertices two edges apart, and drops the
loops that arise. -/
def Fold (E : T → T → Prop) : Nat → T → T → Prop
  | 0, A, B => E A B
  | n + 1, A, B => A ≠ B ∧ ∃ C, Fold E n A C ∧ Fold E n C B

/-- Folding the graph often enough leaves no edge. -/
def FoldsAway (E : T → T → Prop) : Prop := ∃ n, ∀ A B, ¬ Fold E n A B

/-- Folding the graph often enough leaves the edges `L`, and folding once more changes nothing. -/
def SettlesTo (E L : T → T → Prop) : Prop :=
  ∃ n, ∀ A B, (Fold E n A B ↔ L A B) ∧ (Fold E (n + 1) A B ↔ L A B)

/-- The graph of last nonterminals when nonterminals are left over in FIRST (`L b B` says that `B` is
left over in FIRST of `b`): also, whatever is left over in FIRST of a nonterminal follows the
nonterminal before it; and `eof` follows the start symbol. -/
def AfterGraph (D : Decls T) (S eof : T) (L : T → T → Prop) (A B : T) : Prop :=
  Nonterminal D B ∧ ((A = S ∧ B = eof) ∨ Loopless (RightGraph D) A B ∨
    ∃ C i u b v, IsProd D C i (u ++ A :: b :: v) ∧ Nonterminal D A ∧ Nonterminal D b ∧ L b B)

end Lrp.Spec
