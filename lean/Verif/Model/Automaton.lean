import Verif.Model.Tabler

/-!
Model of src/slr.rs and src/clr.rs.

The two files share, line by line, `proc_closures_first_row`, `prop_closure`, `goto`,
`proc_closures` and `proc_actions`; they differ in `closure` and in the reduction branch of
`decision`.  The shared functions are written once, with the closure step as a parameter; each
definition cites both places.
-/

namespace Lrp

variable {T : Type} [LinOrd T] [DecidableEq T]

/-! ### closures -/

/-- src/slr.rs:46-60 `Slr::closure`. -/
def Slr.closure (t : Tabler T) (state : State T) : State T :=
  let newState := state.foldl (fun acc pos =>
    match pos.top with
    | none => acc
    | some top =>
      match t.grammar.rules.get? top with
      | none => acc            -- `is_terminal(&top)`: continue
      | some rule =>
        rule.prods.foldl (fun acc prod =>
          OSet.insert { rule := top, seq := prod, point := 0, look := [] } acc) acc) []
  OSet.extend newState state

/-- src/clr.rs:77-80 (and src/lalr.rs:104-107): the lookahead of the items added for `pos`. -/
def Clr.closureLook (t : Tabler T) (pos : Position T) : OSet T :=
  match pos.next with
  | none => pos.look
  | some locus => t.firstOf (OSet.ofList [locus])

/-- src/clr.rs:69-88 `Clr::closure` (src/lalr.rs:97-115 `Lalr::closure` is the same code). -/
def Clr.closure (t : Tabler T) (state : State T) : State T :=
  let newState := state.foldl (fun acc pos =>
    match pos.top with
    | none => acc
    | some top =>
      match t.grammar.rules.get? top with
      | none => acc            -- `is_terminal(&top)`: continue
      | some rule =>
        rule.prods.foldl (fun acc prod =>
          OSet.insert { rule := top, seq := prod, point := 0, look := Clr.closureLook t pos } acc)
          acc) []
  OSet.extend newState state

/-- A closure step, given the tables (`Slr::closure` or `Clr::closure`). -/
abbrev ClosureFn (T : Type) := Tabler T → State T → State T

/-- src/slr.rs:151-153, src/clr.rs:164-166, src/lalr.rs:69-72 `prop_closure`. -/
def propClosure (cl : ClosureFn T) (fuel : Nat) (t : Tabler T) (seed : State T) : Out (State T) :=
  transitive (fun s => .ok (cl t s)) fuel seed

/-- src/slr.rs:39-43, src/clr.rs:41-45 `proc_closures_first_row`. -/
def procClosuresFirstRow (cl : ClosureFn T) (fuel : Nat) (t : Tabler T) : Out (Tabler T) := do
  let start ← propClosure cl fuel t (OSet.ofList [t.basisPos])
  return { t with kernels := OMap.insert [] 0 t.kernels, states := t.states ++ [start] }

/-- src/slr.rs:116-127, src/clr.rs:107-118, src/lalr.rs:220-231 `goto`. -/
def goto (cl : ClosureFn T) (fuel : Nat) (t : Tabler T) (kernels : State T) (sym : T) :
    Out (Option (State T × State T)) :=
  let kernels := Tabler.symFilter kernels sym
  if t.kernels.contains kernels then .ok none
  else do
    let new ← propClosure cl fuel t kernels
    return if new.isEmpty then none else some (kernels, new)

/-- src/slr.rs:67-75, src/clr.rs:94-101: one iteration of the inner loop of `proc_closures`. -/
def procSym (cl : ClosureFn T) (dbg : Bool) (fuel : Nat) (idx : Nat) (t : Tabler T) (s : T) :
    Out (Tabler T) := do
  match ← goto cl fuel t (t.states[idx]?.getD []) s with
  | none => return t
  | some (kernel, closures) =>
    Out.assert .dbgKernelTwice (!dbg || !t.kernels.contains kernel)
    return { t with kernels := OMap.insert kernel t.states.length t.kernels,
                    states := t.states ++ [closures] }

/-- src/slr.rs:65-77, src/clr.rs:93-103: the `while idx < states.len()` loop. -/
def procLoop (cl : ClosureFn T) (dbg : Bool) (cfuel : Nat) : Nat → Nat → Tabler T → Out (Tabler T)
  | 0, _, _ => .fuel
  | n + 1, idx, t =>
    if idx < t.states.length then do
      let t ← t.grammar.symbols.foldlM (procSym cl dbg cfuel idx) t
      procLoop cl dbg cfuel n (idx + 1) t
    else .ok t

/-- src/slr.rs:62-78, src/clr.rs:90-104 `proc_closures`. -/
def procClosures (cl : ClosureFn T) (dbg : Bool) (fuel : Nat) (t : Tabler T) : Out (Tabler T) := do
  let t ← procClosuresFirstRow cl fuel t
  procLoop cl dbg fuel fuel 0 t

/-! ### actions -/

/-- src/slr.rs:85-100 with `set = follow[&pos.rule]`, src/clr.rs:131-145 and
src/lalr.rs:237-251 with `set = pos.look`: the decisions of a finished position. -/
def reduceDecision (start : T) (pos : Position T) (set : OSet T) : OMap T (Action T) :=
  OMap.ofList (set.map (fun l =>
    (l, if pos.rule = start then Action.acc else Action.reduce pos.rule pos.seq)))

/-- src/slr.rs:101-111, src/clr.rs:146-156, src/lalr.rs:252-262: the decision of a position with
`locus` at the point, `state_from_kernel` being a parameter. -/
def shiftDecision (t : Tabler T) (stateFromKernel : State T → Option Nat) (row : State T)
    (locus : T) : Out (OMap T (Action T)) := do
  let state ← Out.ofOption .incompleteKernels (stateFromKernel (Tabler.symFilter row locus))
  return if t.grammar.isTerminal locus then OMap.ofList [(locus, Action.shift state)]
    else OMap.ofList [(locus, Action.goto state)]

/-- src/parser.rs:98-106: the default `state_from_kernel` (with the default `final_kernel`), as
used by `Slr` and `Clr`. -/
def stateFromKernel (t : Tabler T) (kernel : State T) : Option Nat := t.kernels.get? kernel

/-- src/slr.rs:84-113 `Slr::decision`. -/
def Slr.decision (t : Tabler T) (start : T) (pos : Position T) (row : State T) :
    Out (OMap T (Action T)) :=
  match pos.top with
  | none => do
    let fs ← Out.ofOption .missingFollow (t.follow.get? pos.rule)
    return reduceDecision start pos fs
  | some locus => shiftDecision t (stateFromKernel t) row locus

/-- src/clr.rs:124-158 `Clr::decision`. -/
def Clr.decision (t : Tabler T) (start : T) (pos : Position T) (row : State T) :
    Out (OMap T (Action T)) :=
  match pos.top with
  | none => .ok (reduceDecision start pos pos.look)
  | some locus => shiftDecision t (stateFromKernel t) row locus

/-- src/slr.rs:138-143, src/clr.rs:56-61, src/lalr.rs:84-89: add one decision to a row. -/
def addAction (map : OMap T (Action T)) (e : T × Action T) : OMap T (Action T) :=
  match map.get? e.1 with
  | some old =>
    if old ≠ e.2 then OMap.insert e.1 (Action.conflict old e.2) map
    else OMap.insert e.1 e.2 map
  | none => OMap.insert e.1 e.2 map

/-- src/slr.rs:135-145, src/clr.rs:53-63, src/lalr.rs:81-91: the actions of one state. -/
def rowActions (decision : Position T → State T → Out (OMap T (Action T))) (row : State T) :
    Out (OMap T (Action T)) :=
  row.foldlM (fun map item => do
    let ds ← decision item row
    return ds.foldl addAction map) []

/-- src/slr.rs:131-148, src/clr.rs:49-66 `proc_actions` (after `proc_closures`). -/
def procRows (decision : Position T → State T → Out (OMap T (Action T))) (t : Tabler T) :
    Out (Tabler T) := do
  let rows ← t.states.mapM (rowActions decision)
  return { t with actions := t.actions ++ rows }

/-- src/slr.rs:131-148 `Slr::proc_actions`; src/slr.rs:16-20 `Slr::with_table`. -/
def Slr.withTable (dbg : Bool) (fuel : Nat) (t : Tabler T) : Out (Tabler T) := do
  let t ← procClosures Slr.closure dbg fuel t
  procRows (fun pos row => Slr.decision t t.basisPos.rule pos row) t

/-- src/clr.rs:49-66 `Clr::proc_actions`; src/clr.rs:16-20 `Clr::with_table`. -/
def Clr.withTable (dbg : Bool) (fuel : Nat) (t : Tabler T) : Out (Tabler T) := do
  let t ← procClosures Clr.closure dbg fuel t
  procRows (fun pos row => Clr.decision t t.basisPos.rule pos row) t

/-- src/parser.rs:12-17 `Parser::new` for `Slr`. -/
def Slr.new (dbg : Bool) (fuel : Nat) (g : Grammar T) : Out (Tabler T) := do
  Slr.withTable dbg fuel (← Tabler.new dbg fuel g)

/-- src/parser.rs:12-17 `Parser::new` for `Clr`. -/
def Clr.new (dbg : Bool) (fuel : Nat) (g : Grammar T) : Out (Tabler T) := do
  Clr.withTable dbg fuel (← Tabler.new dbg fuel g)

end Lrp
