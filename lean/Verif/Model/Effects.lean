import Verif.Model.Dfa

/-!
The run-time half of the parser once more, for reductors with side effects.

`ReductFn` (src/dfa.rs:62) is a Rust function pointer.  It captures nothing, but it may change what is
around it: statics, thread-locals, cells inside the values, files.  Model/Dfa.lean treats reductors as
functions of their items only.  Here they also take and return the state `σ` of everything around, and
the state is threaded through the run in the order in which the code calls them.  The field `reductors`
of the `Dfa` is not used; the reductors are the parameter `maps`.  `Props.C72_pure` relates both models.
-/

namespace Lrp

/-- src/dfa.rs:62 `ReductFn`, with the state around it; `none` is a panic. -/
abbrev ReductFnE (σ M T : Type) := List (Token M T) → σ → Option (M × σ)

/-- src/dfa.rs:63 `ReductMap`. -/
abbrev ReductMapE (σ M T : Type) := OMap T (List (ReductFnE σ M T))

namespace Dfa
variable {σ M T : Type} [LinOrd T] [DecidableEq T]

/-- src/dfa.rs:190-210, `reduce` up to its final `self.travel(name)`. -/
def reduceStacksE (maps : ReductMapE σ M T) (s : σ) (d : Dfa M T) (name : T) (prod : Production T) :
    Out (σ × Dfa M T) := do
  let k := prod.1.length
  Out.assert .itemsUnderflow (decide (k ≤ d.items.length))
  let items := (d.items.take k).reverse
  let fs ← Out.ofOption .missingReductor (maps.get? name)
  let f ← Out.ofOption .missingReductor fs[prod.2]?
  let (value, s) ← Out.ofOption .reductorPanic (f items s)
  let newItems := { item := value, ty := name } :: d.items.drop k
  let top ← Out.ofOption .statesUnderflow d.states[k]?
  return (s, { d with items := newItems, top := top, states := d.states.drop k })

/-- src/dfa.rs:172-185 `travel` and src/dfa.rs:190-212 `reduce`. -/
def travelE (maps : ReductMapE σ M T) : Nat → σ → Dfa M T → T → Out (σ × DfaRes M T Unit)
  | 0, _, _, _ => .fuel
  | n + 1, s, d, symbol =>
    match d.table[d.top]? with
    | none => .ok (s, d, .error .stateNotSpecified)
    | some state =>
      match state.get? symbol with
      | none => .ok (s, d, .error (.unexpectedToken symbol state.keys))
      | some (.shift to) => .ok (s, d.shift to)
      | some (.goto to) => .ok (s, d.goto to)
      | some (.reduce name prod) => do
        let (s, d) ← d.reduceStacksE maps s name prod
        travelE maps n s d name
      | some .acc => .ok (s, d.accept)
      | some (.conflict a b) => .ok (s, d, .error (.conflict a b))

/-- src/dfa.rs:147-158 `trace` with the observer of `start` (src/dfa.rs:141-143), which does nothing. -/
def traceE (maps : ReductMapE σ M T) (tfuel : Nat) : Nat → σ → Dfa M T → Out (σ × DfaRes M T Unit)
  | 0, _, _ => .fuel
  | n + 1, s, d =>
    if d.finished then .ok (s, d, .ok ())
    else do
      match ← travelE maps tfuel s d d.symbol with
      | (s, d, .error e) => return (s, d, .error e)
      | (s, d, .ok ()) => traceE maps tfuel n s d

end Dfa

namespace Parser
variable {σ M T : Type} [LinOrd T] [DecidableEq T]

/-- src/parser.rs:73-88 `Parser::parse`: what the reductors leave around, and the result. -/
def parseE (t : Tabler T) (fuel : Nat) (buffer : List (Token M T)) (maps : ReductMapE σ M T) (s : σ) :
    Out (σ × Except (Error T) M) := do
  let d ← dfa t buffer []
  match ← d.traceE maps fuel fuel s with
  | (s, _, .error e) => return (s, .error e)
  | (s, d, .ok ()) =>
    match d.items with
    | [] => return (s, .error .missingPreviousState)
    | item :: _ => return (s, .ok item.item)

end Parser

end Lrp
