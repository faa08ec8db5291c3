import Verif.Model.Effects
import Verif.Spec.Run

/-! Specification vocabulary for reductors with side effects. -/

namespace Lrp.Spec
variable {σ M T : Type} [LinOrd T] [DecidableEq T]

namespace Tree

mutual
/-- The value of a tree and what is left around when it is evaluated in the textbook order: the children
from left to right, then the node itself (`none`: a reductor is missing or panics). -/
def run (red : T → Nat → List (Token M T) → σ → Option (M × σ)) : Tree M T → σ → Option (M × σ)
  | leaf tok, s => some (tok.item, s)
  | node A i cs, s => (runs red cs s).bind (fun r => red A i r.1 r.2)
/-- The values of a list of trees, evaluated from left to right. -/
def runs (red : T → Nat → List (Token M T) → σ → Option (M × σ)) :
    List (Tree M T) → σ → Option (List (Token M T) × σ)
  | [], s => some ([], s)
  | c :: cs, s =>
    (run red c s).bind (fun r => (runs red cs r.2).map (fun rs => (⟨r.1, root c⟩ :: rs.1, rs.2)))
end

mutual
/-- The nodes of a tree in postorder: the rule name and production number of each. -/
def nodes : Tree M T → List (T × Nat)
  | leaf _ => []
  | node A i cs => nodesOf cs ++ [(A, i)]
/-- The nodes of a list of trees, from left to right. -/
def nodesOf : List (Tree M T) → List (T × Nat)
  | [] => []
  | c :: cs => nodes c ++ nodesOf cs
end

end Tree

/-- The reductor registered under a rule name and production number. -/
def redOfE (maps : ReductMapE σ M T) (A : T) (k : Nat) (its : List (Token M T)) (s : σ) :
    Option (M × σ) :=
  (maps.get? A).bind (fun fs => fs[k]?.bind (fun f => f its s))

/-- `Parser::parse`, started with `s` around it, returns `r` and leaves `s'`. -/
def ParsesE (t : Tabler T) (maps : ReductMapE σ M T) (toks : List (Token M T)) (s s' : σ)
    (r : Except (Error T) M) : Prop :=
  Returns (fun n => Parser.parseE t n toks maps s) (s', r)

/-- Reductors that do nothing to what is around them. -/
def still (maps : ReductMap M T) : ReductMapE σ M T :=
  maps.map (fun e => (e.1, e.2.map (fun f its s => (f its).map (fun v => (v, s)))))

/-- The reductors `maps`, each made to note the rule name and production number it is called for before
it does anything else. -/
def noting (maps : ReductMap M T) : ReductMapE (List (T × Nat)) M T :=
  maps.map (fun e => (e.1, e.2.zipIdx.map (fun f its s =>
    (f.1 its).map (fun v => (v, s ++ [(e.1, f.2)])))))

end Lrp.Spec
