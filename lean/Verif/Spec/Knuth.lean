import Verif.Spec.Cfg

/-!
Specification: LR(1) grammars, by Knuth's definition, over rightmost derivations.  No items, no
automata.
-/

namespace Lrp.Spec
variable {T : Type}

/-- All symbols are terminals. -/
def Terminals (D : Decls T) (w : List T) : Prop := ∀ t ∈ w, Terminal D t

/-- One rightmost derivation step: the last nonterminal is replaced by one of its bodies. -/
inductive RStep (D : Decls T) : List T → List T → Prop
  | mk (u v : List T) {A : T} {i : Nat} {body : List T} :
      IsProd D A i body → Terminals D v → RStep D (u ++ A :: v) (u ++ body ++ v)

/-- Any number of rightmost derivation steps. -/
inductive RDerives (D : Decls T) (a : List T) : List T → Prop
  | refl : RDerives D a a
  | tail {b c : List T} : RDerives D a b → RStep D b c → RDerives D a c

/-- The grammar is LR(1): in a rightmost sentential form, the production applied last and its place
are determined by the text up to the end of its body and one symbol more (`eof` at the end).
That is: if `S ⇒* α A w ⇒ α β w` and `S ⇒* γ B x ⇒ γ δ x = α β y`, all steps rightmost, and `w eof`
and `y eof` begin with the same symbol, then `γ = α`, `x = y`, and both last steps used the same
production. -/
def LR1 (D : Decls T) (S eof : T) : Prop :=
  ∀ (α β w γ δ x y : List T) (A B : T) (i j : Nat),
    RDerives D [S] (α ++ A :: w) → Terminals D w → IsProd D A i β →
    RDerives D [S] (γ ++ B :: x) → Terminals D x → IsProd D B j δ →
    γ ++ δ ++ x = α ++ β ++ y → Terminals D y →
    (w ++ [eof]).head? = (y ++ [eof]).head? →
    γ = α ∧ B = A ∧ j = i ∧ x = y

end Lrp.Spec

namespace Lrp.Spec
variable {T : Type}

/-- The LR(0) item `A → β₁ . β₂` (production number `i`) is valid for `γ`: there is a rightmost
derivation `S ⇒* α A w ⇒ α β₁ β₂ w` with `γ = α β₁`. -/
def ValidItem (D : Decls T) (S : T) (γ : List T) (A : T) (i : Nat) (β₁ β₂ : List T) : Prop :=
  IsProd D A i (β₁ ++ β₂) ∧
    ∃ α w, γ = α ++ β₁ ∧ Terminals D w ∧ RDerives D [S] (α ++ A :: w)

/-- The grammar is SLR(1): of the items valid for a common prefix, two complete ones have no common
terminal in the FOLLOW sets of their rules unless they are the same, and a complete one has in the
FOLLOW set of its rule no terminal that stands after the point of another. -/
def SLR1 (D : Decls T) (S eof : T) : Prop :=
  (∀ γ A i β B j δ x, ValidItem D S γ A i β [] → ValidItem D S γ B j δ [] → Terminal D x →
    InFollow D S eof A x → InFollow D S eof B x → A = B ∧ i = j) ∧
  (∀ γ A i β B j δ₁ a δ₂, ValidItem D S γ A i β [] → ValidItem D S γ B j δ₁ (a :: δ₂) → Terminal D a →
    ¬ InFollow D S eof A a)

/-- The LR(1) item `A → β₁ . β₂, x` is valid for `γ`: there is a rightmost derivation
`S ⇒* α A w ⇒ α β₁ β₂ w` with `γ = α β₁`, and `w eof` begins with `x`. -/
def ValidItem1 (D : Decls T) (S eof : T) (γ : List T) (A : T) (i : Nat) (β₁ β₂ : List T) (x : T) : Prop :=
  IsProd D A i (β₁ ++ β₂) ∧
    ∃ α w, γ = α ++ β₁ ∧ Terminals D w ∧ (w ++ [eof]).head? = some x ∧ RDerives D [S] (α ++ A :: w)

/-- The same LR(0) items are valid for both texts. -/
def SameItems (D : Decls T) (S : T) (γ γ' : List T) : Prop :=
  ∀ A i β₁ β₂, ValidItem D S γ A i β₁ β₂ ↔ ValidItem D S γ' A i β₁ β₂

/-- The grammar is LALR(1): if texts for which the same LR(0) items are valid are not told apart, the next
symbol still determines what to do: no two different complete LR(1) items with that symbol are valid for
such texts, and none if the symbol stands after the point of another item. -/
def LALR1 (D : Decls T) (S eof : T) : Prop :=
  (∀ γ γ' A i β B j δ x, SameItems D S γ γ' → ValidItem1 D S eof γ A i β [] x →
    ValidItem1 D S eof γ' B j δ [] x → A = B ∧ i = j) ∧
  (∀ γ γ' A i β B j δ₁ a δ₂, SameItems D S γ γ' → ValidItem1 D S eof γ A i β [] a →
    ValidItem D S γ' B j δ₁ (a :: δ₂) → ¬ Terminal D a)

/-- The grammar is LL(1): reading from the left, the next symbol determines the production. If
`S ⇒* w A α`, and `β α ⇒* x` and `γ α ⇒* y` for two alternatives `β`, `γ` of `A` (`w`, `x`, `y` terminal
strings), and `x eof` and `y eof` begin with the same symbol, then the alternatives are the same. -/
def LL1 (D : Decls T) (S eof : T) : Prop :=
  ∀ (w α β γ x y : List T) (A : T) (i j : Nat),
    Derives D [S] (w ++ A :: α) → Terminals D w → IsProd D A i β → IsProd D A j γ →
    Derives D (β ++ α) x → Terminals D x → Derives D (γ ++ α) y → Terminals D y →
    (x ++ [eof]).head? = (y ++ [eof]).head? → i = j

end Lrp.Spec
