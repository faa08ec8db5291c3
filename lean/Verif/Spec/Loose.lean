import Verif.Spec.Folding
import Verif.Spec.Knuth

/-! Specification: FOLLOW sets where nonterminals are left over in FIRST or FOLLOW. -/

namespace Lrp.Spec
variable {T : Type}

/-- The terminal `x` follows `A`, or a nonterminal that comes after `A` in the graph of what follows. -/
inductive LooselyFollows (D : Decls T) (S eof : T) (L : T → T → Prop) : T → T → Prop
  | follow {A x : T} : InFollow D S eof A x → LooselyFollows D S eof L A x
  | after {A B x : T} : AfterGraph D S eof L A B → LooselyFollows D S eof L B x →
      LooselyFollows D S eof L A x

/-- What is in the set of `A` when folding has settled: the terminals that follow loosely, and the
nonterminals left over. -/
def Followed (D : Decls T) (S eof A x : T) : Prop :=
  ∃ L R, SettlesTo (Loopless (LeftGraph D)) L ∧ SettlesTo (AfterGraph D S eof L) R ∧
    ((Terminal D x ∧ LooselyFollows D S eof L A x) ∨ R A x)

/-- The grammar is SLR(1) with the sets `F` in place of FOLLOW, which may have any symbols: no two different
complete items valid for the same text have a common symbol in their sets, and none has a symbol in its set
that stands after the point of another. -/
def SLR1For (D : Decls T) (S : T) (F : T → T → Prop) : Prop :=
  (∀ γ A i β B j δ x, ValidItem D S γ A i β [] → ValidItem D S γ B j δ [] → F A x → F B x → A = B ∧ i = j) ∧
  (∀ γ A i β B j δ₁ a δ₂, ValidItem D S γ A i β [] → ValidItem D S γ B j δ₁ (a :: δ₂) → ¬ F A a)

end Lrp.Spec
