import Verif.Model.Tabler
import Verif.Spec.Cfg

/-!
Specification: LR positions ("items"), closures, the canonical collection, and what is inside a
table cell.  A position is written `A → α . β, L`: `rule = A`, `seq = (αβ, number of the
production)`, `point = |α|`, `look = L`.
-/

namespace Lrp.Spec
variable {T : Type}

/-- A plain action: not a conflict. -/
def Plain (a : Action T) : Prop := ∀ x y, a ≠ .conflict x y

/-- `Among a c`: the plain action `a` is one of those recorded in the cell `c`, directly or inside
nested conflicts. -/
inductive Among : Action T → Action T → Prop
  | here {a : Action T} : Plain a → Among a a
  | left {a b c : Action T} : Among a b → Among a (.conflict b c)
  | right {a b c : Action T} : Among a c → Among a (.conflict b c)

/-- `X` stands immediately after the point. -/
def After (p : Position T) (X : T) : Prop := p.seq.1[p.point]? = some X

/-- The point is at the end. -/
def Complete (p : Position T) : Prop := p.point = p.seq.1.length

/-- LR(0) closure rule: for `A → α . B β`, the position `B → . γ` with no lookahead. -/
def Expands0 (D : Decls T) (p q : Position T) : Prop :=
  After p q.rule ∧ IsProd D q.rule q.seq.2 q.seq.1 ∧ q.point = 0 ∧ q.look = []

/-- The lookaheads that `A → α . B β, L` passes on: `L` when `β` is empty, else the FIRST set of the
first symbol of `β` (no production is empty).  `first Z x`: `x` is in FIRST(Z), for nonterminals. -/
def Ahead (D : Decls T) (first : T → T → Prop) (p : Position T) (x : T) : Prop :=
  (p.seq.1[p.point + 1]? = none ∧ x ∈ p.look) ∨
  ∃ Z, p.seq.1[p.point + 1]? = some Z ∧ ((Terminal D Z ∧ x = Z) ∨ (Nonterminal D Z ∧ first Z x))

/-- A list that represents a `BTreeSet`: strictly increasing. -/
def IsSet {α : Type} [LinOrd α] (l : List α) : Prop := l.Pairwise (fun a b => cmp a b = .lt)

/-- LR(1) closure rule: for `A → α . B β, L`, the position `B → . γ, M` where `M` are the lookaheads
passed on. -/
def Expands1 [LinOrd T] (D : Decls T) (first : T → T → Prop) (p q : Position T) : Prop :=
  After p q.rule ∧ IsProd D q.rule q.seq.2 q.seq.1 ∧ q.point = 0 ∧ IsSet q.look ∧
    ∀ x, x ∈ q.look ↔ Ahead D first p x

/-- `s` is closed under the closure rule `R`. -/
def Closed (R : Position T → Position T → Prop) (s : Position T → Prop) : Prop :=
  ∀ p q, s p → R p q → s q

/-- `s` is the least set containing `seed` that is closed under `R`. -/
structure LeastClosed (R : Position T → Position T → Prop) (seed : Position T → Prop)
    (s : State T) : Prop where
  incl : ∀ p, seed p → p ∈ s
  closed : Closed R (· ∈ s)
  least : ∀ s' : Position T → Prop, (∀ p, seed p → s' p) → Closed R s' → ∀ p ∈ s, s' p

/-- `q` is a position of `s` advanced over `X`. -/
def Advance (s : State T) (X : T) (q : Position T) : Prop :=
  ∃ p ∈ s, After p X ∧ q = { p with point := p.point + 1 }

/-- The decisions of the positions of state `s` under the symbol `x`: shift or goto to the state
that is the closure of `s` advanced over `x`; accept or reduce by a complete position that has `x`
among its reduction symbols `red`. -/
def Decision (D : Decls T) (S : T) (states : List (State T)) (R : Position T → Position T → Prop)
    (red : Position T → T → Prop) (s : State T) (x : T) (a : Action T) : Prop :=
  (∃ p ∈ s, After p x ∧ ∃ j s', states[j]? = some s' ∧ LeastClosed R (Advance s x) s' ∧
    ((Terminal D x ∧ a = .shift j) ∨ (Nonterminal D x ∧ a = .goto j))) ∨
  (∃ p ∈ s, Complete p ∧ red p x ∧
    ((p.rule = S ∧ a = .acc) ∨ (p.rule ≠ S ∧ a = .reduce p.rule p.seq)))

end Lrp.Spec

namespace Lrp.Spec
variable {T : Type}

/-- What a plain action under the symbol `x` may look like in a table with `n` rows. -/
def GoodAction (D : Decls T) (S : T) (n : Nat) (x : T) : Action T → Prop
  | .shift j => Terminal D x ∧ 0 < j ∧ j < n
  | .goto j => Nonterminal D x ∧ 0 < j ∧ j < n
  | .reduce A p => IsProd D A p.2 p.1 ∧ A ≠ S
  | .acc => True
  | .conflict _ _ => False

end Lrp.Spec

namespace Lrp.Spec
variable {T : Type}

/-- The position without its lookahead. -/
def bare (p : Position T) : Position T := { p with look := [] }

/-- The bare positions of the LR(0) closure of `s` advanced over `x`. -/
inductive CoreNext (D : Decls T) (s : State T) (x : T) : Position T → Prop
  | adv {p : Position T} : p ∈ s → After p x → CoreNext D s x (bare { p with point := p.point + 1 })
  | expand {p q : Position T} : CoreNext D s x p → Expands0 D p q → CoreNext D s x q

/-- The bare positions of the LR(0) closure of `S → . b0`. -/
inductive CoreStart (D : Decls T) (S : T) (b0 : List T) : Position T → Prop
  | basis : CoreStart D S b0 { rule := S, seq := (b0, 0), point := 0, look := [] }
  | expand {p q : Position T} : CoreStart D S b0 p → Expands0 D p q → CoreStart D S b0 q

/-- The bare positions of `s` are exactly those satisfying `P`. -/
def HasCore (s : State T) (P : Position T → Prop) : Prop := ∀ q, P q ↔ ∃ p ∈ s, bare p = q

/-- The decisions of the positions of an Lalr state: as `Decision`, but the successor is found by
its bare positions, and positions reduce on their own lookaheads. -/
def DecisionLalr (D : Decls T) (S : T) (states : List (State T)) (s : State T) (x : T)
    (a : Action T) : Prop :=
  (∃ p ∈ s, After p x ∧ ∃ j s', states[j]? = some s' ∧ HasCore s' (CoreNext D s x) ∧
    ((Terminal D x ∧ a = .shift j) ∨ (Nonterminal D x ∧ a = .goto j))) ∨
  (∃ p ∈ s, Complete p ∧ x ∈ p.look ∧
    ((p.rule = S ∧ a = .acc) ∨ (p.rule ≠ S ∧ a = .reduce p.rule p.seq)))

end Lrp.Spec
