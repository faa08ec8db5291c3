import Verif.Model.Grammar

/-!
Specification: context-free grammars, derivations and parse trees, in textbook form.

Nothing here mentions the tables, items or automata of lrp.  The only things taken from the model
are the types `Token` (a value with its symbol) — a leaf of a parse tree is an input token.
-/

namespace Lrp.Spec

variable {M T : Type}

/-- What a user writes in `grammar_map!`: names with their alternative bodies. -/
abbrev Decls (T : Type) := List (T × List (List T))

/-- `Declared D A bs`: the last declaration of `A` in `D` has the bodies `bs`. -/
def Declared (D : Decls T) (A : T) (bs : List (List T)) : Prop :=
  ∃ pre post, D = pre ++ (A, bs) :: post ∧ ∀ d ∈ post, d.1 ≠ A

/-- `A → body` is production number `i` of `A`. -/
def IsProd (D : Decls T) (A : T) (i : Nat) (body : List T) : Prop :=
  ∃ bs, Declared D A bs ∧ bs[i]? = some body

/-- `A` is a nonterminal: it is declared. -/
def Nonterminal (D : Decls T) (A : T) : Prop := ∃ d ∈ D, d.1 = A

/-- `A` is a terminal: it is not declared. -/
def Terminal (D : Decls T) (A : T) : Prop := ∀ d ∈ D, d.1 ≠ A

/-- One derivation step: one occurrence of a nonterminal is replaced by one of its bodies. -/
inductive Step (D : Decls T) : List T → List T → Prop
  | mk (u v : List T) {A : T} {i : Nat} {body : List T} :
      IsProd D A i body → Step D (u ++ A :: v) (u ++ body ++ v)

/-- Any number of derivation steps. -/
inductive Derives (D : Decls T) : List T → List T → Prop
  | refl (a : List T) : Derives D a a
  | head {a b c : List T} : Step D a b → Derives D b c → Derives D a c

/-- `w` is a sentence of the grammar `D` with start symbol `S`. -/
def Sentence (D : Decls T) (S : T) (w : List T) : Prop :=
  Derives D [S] w ∧ ∀ t ∈ w, Terminal D t

/-- No production has an empty body. -/
def NoEmpty (D : Decls T) : Prop := ∀ A i body, IsProd D A i body → body ≠ []

/-- `X` occurs in no body. -/
def InNoBody (D : Decls T) (X : T) : Prop := ∀ A i body, IsProd D A i body → X ∉ body

/-- `A` is reachable: it occurs in a sentential form. -/
def Reachable (D : Decls T) (S A : T) : Prop := ∃ u v, Derives D [S] (u ++ A :: v)

/-- `A` is productive: it derives a string of terminals. -/
def Productive (D : Decls T) (A : T) : Prop := ∃ w, Derives D [A] w ∧ ∀ t ∈ w, Terminal D t

/-! ### Parse trees -/

/-- A parse tree: a leaf is an input token, a node is a rule name, the number of the production
used, and the subtrees of the symbols of its body. -/
inductive Tree (M T : Type) where
  | leaf (tok : Token M T)
  | node (A : T) (i : Nat) (children : List (Tree M T))

namespace Tree

/-- The symbol at the root. -/
def root : Tree M T → T
  | leaf tok => tok.ty
  | node A _ _ => A

mutual
/-- The tokens at the leaves, from left to right. -/
def yield : Tree M T → List (Token M T)
  | leaf tok => [tok]
  | node _ _ cs => yields cs
/-- The leaves of a list of trees. -/
def yields : List (Tree M T) → List (Token M T)
  | [] => []
  | c :: cs => yield c ++ yields cs
end

/-- The tree is a parse tree of the grammar `D`. -/
inductive Valid (D : Decls T) : Tree M T → Prop
  | leaf {tok : Token M T} : Terminal D tok.ty → Valid D (leaf tok)
  | node {A : T} {i : Nat} {cs : List (Tree M T)} :
      IsProd D A i (cs.map root) → (∀ c ∈ cs, Valid D c) → Valid D (node A i cs)

mutual
/-- The value of a tree, given the reductor of each production (`none`: no value because a
reductor is missing or panics). -/
def eval (red : T → Nat → List (Token M T) → Option M) : Tree M T → Option M
  | leaf tok => some tok.item
  | node A i cs => (evals red cs).bind (red A i)
/-- The values of a list of trees, each with the symbol of its root. -/
def evals (red : T → Nat → List (Token M T) → Option M) :
    List (Tree M T) → Option (List (Token M T))
  | [] => some []
  | c :: cs =>
    match eval red c, evals red cs with
    | some v, some vs => some (⟨v, root c⟩ :: vs)
    | _, _ => none
end

end Tree

end Lrp.Spec

/-! ### FIRST, FOLLOW and the two graphs that decide whether lrp computes them -/

namespace Lrp.Spec
variable {T : Type}

/-- FIRST: `A` derives a sentential form starting with `t`. -/
def InFirst (D : Decls T) (A t : T) : Prop := ∃ v, Derives D [A] (t :: v)

/-- FOLLOW: `S eof` derives a sentential form in which `t` stands immediately after `A`. -/
def InFollow (D : Decls T) (S eof A t : T) : Prop :=
  ∃ u v, Derives D [S, eof] (u ++ A :: t :: v)

/-- `B` is a nonterminal starting a body of `A`. -/
def LeftGraph (D : Decls T) (A B : T) : Prop := Nonterminal D B ∧ ∃ i b, IsProd D A i (B :: b)

/-- `A` is a nonterminal ending a body of `B`. -/
def RightGraph (D : Decls T) (A B : T) : Prop := Nonterminal D A ∧ ∃ i b, IsProd D B i (b ++ [A])

/-- No three different vertices of the graph lie on a common cycle: there is a ranking along which
edges never go up, and two consecutive edges through three different vertices go down. -/
def NoLongCycle (E : T → T → Prop) : Prop :=
  ∃ rank : T → Nat, (∀ A B, E A B → rank B ≤ rank A) ∧
    ∀ A B C, E A B → E B C → A ≠ B → B ≠ C → C ≠ A → rank C < rank A

end Lrp.Spec

/-! ### What may come next -/

namespace Lrp.Spec
variable {T : Type}

/-- `u` is the beginning of a sentence. -/
def ViablePrefix (D : Decls T) (S : T) (u : List T) : Prop := ∃ v, Sentence D S (u ++ v)

/-- After `u`, the symbol `x` may come next: a sentence followed by the end marker begins with `u x`. -/
def MayFollow (D : Decls T) (S eof : T) (u : List T) (x : T) : Prop :=
  ∃ w v, Sentence D S w ∧ w ++ [eof] = u ++ x :: v

/-- All nonterminals derive terminal strings. -/
def AllProductive (D : Decls T) : Prop := ∀ A, Nonterminal D A → Productive D A

/-- The start symbol has a single production. -/
def SingleStart (D : Decls T) (S : T) : Prop := ∀ i b, IsProd D S i b → i = 0

end Lrp.Spec
