import Verif.Model.Lalr
import Verif.Model.Dfa

/-!
Model of the tables printed by the demonstration program src/main.rs: the rows handed to
`prettytable`, without their rendering.  The program itself is in Model/Demo.lean.
-/

namespace Lrp.Main
variable {T : Type} [LinOrd T] [DecidableEq T]

/-- src/main.rs:63-77 `print_tokens_table`: nonterminal, first tokens, follow tokens. -/
def tokensTable (t : Tabler T) : List (T × OSet T × OSet T) :=
  (t.first.zip t.follow.values).map (fun e => (e.1.1, e.1.2, e.2))

/-- src/main.rs:105-110: a row `goto(state, sym)`, kernel, state, closure. -/
structure GotoRow (T : Type) where
  state : Nat
  sym : T
  kernel : State T
  target : Nat
  closure : State T
  deriving DecidableEq, Repr

/-- src/main.rs:98-110, one iteration of the inner loop (`none`: `continue`). -/
def gotoRow (finalKernel : State T → Option (State T)) (stateFromKernel : State T → Option Nat)
    (t : Tabler T) (i : Nat) (state : State T) (sym : T) : Out (Option (GotoRow T)) :=
  let kernel := Tabler.symFilter state sym
  if kernel = [] then return none
  else do
    let kernel ← Out.ofOption .mainUnwrap (finalKernel kernel)
    let id ← Out.ofOption .mainUnwrap (stateFromKernel kernel)
    let closure ← Out.ofOption .missingState t.states[id]?
    return some { state := i, sym := sym, kernel := kernel, target := id, closure := closure }

/-- src/main.rs:79-114 `print_states_table`, the rows below the first (whose `states[0]` and
`states.len() - 1` need a state). -/
def statesTable (finalKernel : State T → Option (State T)) (stateFromKernel : State T → Option Nat)
    (t : Tabler T) : Out (List (GotoRow T)) := do
  Out.assert .missingState (decide (0 < t.states.length))
  let rows ← (t.states.zipIdx.flatMap (fun e => t.grammar.symbols.map (fun sym => (e, sym)))).mapM
    (fun e => gotoRow finalKernel stateFromKernel t e.1.2 e.1.1 e.2)
  return rows.filterMap id

/-- A cell of the table of actions: an action or nothing, or the number of the state. -/
inductive Cell (T : Type) where
  | action (a : Option (Action T))
  | index (i : Nat)

/-- src/main.rs:122-132, the fold that separates the symbols. -/
def split (t : Tabler T) : OSet T × OSet T :=
  t.grammar.symbols.foldl (fun acc s =>
    if t.grammar.isTerminal s then (OSet.insert s acc.1, acc.2) else (acc.1, OSet.insert s acc.2))
    ([], [])

/-- src/main.rs:134-140, the titles of the table of actions. -/
def actionTitles (t : Tabler T) : List T := (split t).1 ++ (split t).2

/-- src/main.rs:142-162, the rows of the table of actions. -/
def actionRows (t : Tabler T) : List (List (Cell T)) :=
  t.actions.zipIdx.map (fun e =>
    (split t).1.map (fun s => .action (e.1.get? s)) ++ [.index e.2] ++
      (split t).2.map (fun s => .action (e.1.get? s)))

/-- src/main.rs:189-200: a row of the table printed by `print_proc_dfa`: step, stack, buffer, action address
(two columns here), action (`none`: `n/a`). -/
structure TraceRow (T : Type) where
  step : Nat
  stack : String
  buffer : List T
  top : Nat
  symbol : T
  action : Option (Action T)
  deriving Repr

/-- src/main.rs:175-201, the observer: the row for the automaton `d`, below the rows so far. -/
def traceRow {M : Type} (fmtState : Nat → String) (fmtTy : T → String) (rows : List (TraceRow T))
    (d : Dfa M T) : TraceRow T :=
  { step := rows.length + 1
    stack := d.stackFmt fmtState fmtTy
    buffer := d.buffer.map Token.ty ++ [d.eof]
    top := d.top
    symbol := d.symbol
    action := (d.table[d.top]?).bind (fun row => row.get? d.symbol) }

/-- src/main.rs:165-209 `print_proc_dfa`: the rows of the table, and the result written in the last line. -/
def procDfa {M : Type} (fmtState : Nat → String) (fmtTy : T → String) (fuel : Nat) (d : Dfa M T) :
    Out (List (TraceRow T) × Except (Error T) Unit) := do
  let (rows, _, res) ← Dfa.traceWith
    (fun rows d => (rows ++ [traceRow fmtState fmtTy rows d], d)) fuel fuel [] d
  return (rows, res)

end Lrp.Main
