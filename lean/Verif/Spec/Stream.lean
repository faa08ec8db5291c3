import Verif.Model.Stream
import Verif.Spec.Effects

/-! Specification vocabulary for iterators and reductors with side effects. -/

namespace Lrp.Spec
variable {σ M T : Type} [LinOrd T] [DecidableEq T]

/-- Going through trees from left to right, children before nodes, with one token read ahead.  A state is
the token that was read last (`none`: the end) and what is around.  A leaf must be the token read last, and
makes the next one to be read; a node calls its reductor.  The items are the values of the trees. -/
inductive Walk (next : NextFn σ M T) (red : T → Nat → List (Token M T) → σ → Option (M × σ)) :
    List (Tree M T) → Option (Token M T) × σ → List (Token M T) → Option (Token M T) × σ → Prop
  | nil {st : Option (Token M T) × σ} : Walk next red [] st [] st
  | leaf {tok : Token M T} {s : σ} {cs : List (Tree M T)} {its : List (Token M T)}
      {st : Option (Token M T) × σ} : Walk next red cs (next s) its st →
      Walk next red (.leaf tok :: cs) (some tok, s) (tok :: its) st
  | node {A : T} {i : Nat} {ds cs : List (Tree M T)} {its its' : List (Token M T)} {v : M} {s s' : σ}
      {la : Option (Token M T)} {st st' : Option (Token M T) × σ} : Walk next red ds st its (la, s) →
      red A i its s = some (v, s') → Walk next red cs (la, s') its' st' →
      Walk next red (.node A i ds :: cs) st (⟨v, A⟩ :: its') st'

/-- `Parser::parse` on an iterator, started with `s` around it, returns `r` and leaves `s'`. -/
def ParsesS (t : Tabler T) (next : NextFn σ M T) (maps : ReductMapE σ M T) (s s' : σ)
    (r : Except (Error T) M) : Prop :=
  Returns (fun n => Parser.parseS t n next maps s) (s', r)

/-- The iterator over a list that is kept around, next to something else. -/
def listNext : NextFn (List (Token M T) × σ) M T
  | ([], s) => (none, ([], s))
  | (t :: ts, s) => (some t, (ts, s))

/-- Reductors that do not touch the list. -/
def apart (maps : ReductMapE σ M T) : ReductMapE (List (Token M T) × σ) M T :=
  maps.map (fun e => (e.1, e.2.map (fun f its s => (f its s.2).map (fun r => (r.1, (s.1, r.2))))))

end Lrp.Spec
