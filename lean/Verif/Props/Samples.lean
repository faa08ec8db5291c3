import Verif.Spec.Cfg
import Verif.Model.Lalr
import Verif.Model.Dfa
import Verif.Model.Span

/-!
Concrete grammars used as witnesses: to show that the hypotheses of the theorems are met by
ordinary grammars, and as counterexamples to the properties that are false.

Symbols are numbers; nonterminals are below 10, terminals from 10 on, `99` is the end marker.
-/

namespace Lrp.Samples
open Spec

/-- Start symbol of every sample. -/
abbrev S : Nat := 0
/-- End marker of every sample. -/
abbrev eof : Nat := 99

/-- The usual expression grammar: E → E + T | T, T → T * F | F, F → ( E ) | id. -/
def expr : Decls Nat :=
  [(0, [[1]]), (1, [[1, 10, 2], [2]]), (2, [[2, 11, 3], [3]]), (3, [[12, 1, 13], [14]])]

/-- Leftmost nonterminals on a cycle of three: A → B p | a, B → C q | b, C → A r | c. -/
def leftCycle : Decls Nat :=
  [(0, [[1]]), (1, [[2, 10], [11]]), (2, [[3, 12], [13]]), (3, [[1, 14], [15]])]

/-- Last nonterminals on a cycle of three: A → a B | x, B → b C, C → c A. -/
def rightCycle : Decls Nat :=
  [(0, [[1]]), (1, [[10, 2], [13]]), (2, [[11, 3]]), (3, [[12, 1]])]

/-- Three nonterminals each starting a body of each other. -/
def leftClique : Decls Nat :=
  [(0, [[1]]), (1, [[2, 10], [3, 10], [11]]), (2, [[1, 12], [3, 12], [13]]),
   (3, [[1, 14], [2, 14], [15]])]

/-- The clique above behind a nonterminal that is always followed by it: S → P A, P → p. -/
def cliqueAfter : Decls Nat :=
  [(0, [[5]]), (1, [[2, 10], [3, 10], [11]]), (2, [[1, 12], [3, 12], [13]]),
   (3, [[1, 14], [2, 14], [15]]), (5, [[6, 1]]), (6, [[20]])]

/-- Ambiguous expressions: E → E + E | E * E | id. -/
def ambiguous : Decls Nat := [(0, [[1]]), (1, [[1, 10, 1], [1, 11, 1], [14]])]

/-- Lookaheads that Lalr does not propagate: S → A x | z A y, A → c B, B → d e. -/
def lalrGap : Decls Nat :=
  [(0, [[1]]), (1, [[2, 10], [13, 2, 12]]), (2, [[11, 3]]), (3, [[14, 15]])]

/-- The start symbol inside bodies: S → A, A → S x | y | z S w. -/
def recStart : Decls Nat := [(0, [[1]]), (1, [[0, 10], [11], [12, 0, 13]])]

/-- One nonterminal in two contexts: S → a A d | b A c, A → x | x y. -/
def contexts : Decls Nat := [(0, [[1]]), (1, [[10, 2, 13], [11, 2, 12]]), (2, [[14], [14, 15]])]

/-- A nonterminal that occurs in no body: S → C, B → b, C → c. -/
def unused : Decls Nat := [(0, [[3]]), (2, [[11]]), (3, [[12]])]

/-- S → C S | d, C → c. -/
def lists : Decls Nat := [(0, [[1]]), (1, [[2, 1], [10]]), (2, [[11]])]

/-- A reduction cycle under a wrong lookahead: S → p A x | q A y, A → B | n, B → A. -/
def unitCycle : Decls Nat :=
  [(0, [[1]]), (1, [[10, 2, 12], [11, 2, 13]]), (2, [[3], [14]]), (3, [[2]])]

/-- A reduction cycle that merging states brings about: S → p P | r P | r Q | u U, P → A x, Q → B y,
U → A y, A → B | n, B → A. -/
def mergedCycle : Decls Nat :=
  [(0, [[1]]), (1, [[10, 2], [11, 2], [11, 3], [12, 4]]), (2, [[5, 13]]), (3, [[6, 14]]),
   (4, [[5, 14]]), (5, [[6], [15]]), (6, [[5]])]

/-- Dereferencing: S → L = R | R, L → * R | id, R → L. -/
def pointers : Decls Nat := [(0, [[1]]), (1, [[2, 10, 3], [3]]), (2, [[11, 3], [12]]), (3, [[2]])]

/-- A clique of nonterminals that begin with each other and with no terminal, behind d or D → d:
S → D A | d A, A → B p | C p, B → A q | C q, C → A r | B r. -/
def hollowClique : Decls Nat :=
  [(0, [[1]]), (1, [[5, 2], [20, 2]]), (2, [[3, 10], [4, 10]]), (3, [[2, 11], [4, 11]]),
   (4, [[2, 12], [3, 12]]), (5, [[20]])]

/-- `lalrGap` with a conflict that shows only under the lookahead that is lost: B → d e | d e y. -/
def hiddenConflict : Decls Nat :=
  [(0, [[1]]), (1, [[2, 10], [13, 2, 12]]), (2, [[11, 3]]), (3, [[14, 15], [14, 15, 12]])]

/-- Kernels that Lalr mixes up: S → p A u | p B w | p C v | q A w | q B u | r t A s | r t B w | r t C v,
A → a x, B → a x, C → a E d, E → x c. -/
def mixUp : Decls Nat :=
  [(0, [[1]]), (1, [[10, 2, 18], [10, 3, 20], [10, 4, 19], [11, 2, 20], [11, 3, 18], [12, 13, 2, 21],
    [12, 13, 3, 20], [12, 13, 4, 19]]), (2, [[14, 15]]), (3, [[14, 15]]), (4, [[14, 5, 17]]), (5, [[15, 16]])]

/-- The same lookaheads once in one set and once in two: S → p A B | q A x | q A y, A → c a, B → x | y. -/
def splitLooks : Decls Nat :=
  [(0, [[1]]), (1, [[10, 2, 3], [11, 2, 12], [11, 2, 13]]), (2, [[14, 15]]), (3, [[12], [13]])]

/-- Tokens without values. -/
def toks (w : List Nat) : List (Token Unit Nat) := w.map (fun x => ⟨(), x⟩)

/-- The grammar made of the declarations of a sample (debug build), or a dummy. -/
def grammar (D : Decls Nat) : Grammar Nat :=
  match Grammar.new true S (grammarMap D) eof with
  | .ok g => g
  | _ => { rules := [], terminals := [], symbols := [],
           basis := { rule := 0, seq := ([], 0), point := 0, look := [] } }

end Lrp.Samples

namespace Lrp.Samples
open Spec

theorem mem_of_isProd {T : Type} {D : Decls T} {A : T} {i : Nat} {b : List T} (h : IsProd D A i b) :
    ∃ d ∈ D, d.1 = A ∧ d.2[i]? = some b := by
  obtain ⟨bs, ⟨pre, post, e, _⟩, h2⟩ := h
  exact ⟨(A, bs), by rw [e]; simp, rfl, h2⟩

/-- Checks `InNoBody`. -/
theorem inNoBody {T : Type} {D : Decls T} {X : T} (h : ∀ d ∈ D, ∀ b ∈ d.2, X ∉ b) : InNoBody D X := by
  intro A i b hp
  obtain ⟨d, h1, _, h2⟩ := mem_of_isProd hp
  exact h d h1 b (List.mem_of_getElem? h2)

/-- Checks the production of the start symbol. -/
theorem singleStart {T : Type} {D : Decls T} {X : T} (h : ∀ d ∈ D, d.1 = X → d.2.length = 1) :
    ∀ i b, IsProd D X i b → i = 0 := by
  intro i b hp
  obtain ⟨d, h1, h2, h3⟩ := mem_of_isProd hp
  have := h d h1 h2
  have := (List.getElem?_eq_some_iff.mp h3).1
  omega

end Lrp.Samples
