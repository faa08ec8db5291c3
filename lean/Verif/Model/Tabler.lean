import Verif.Model.Grammar

/-!
Model of src/tabler.rs and of the `Action` type of src/dfa.rs.
-/

namespace Lrp

/-- src/dfa.rs:5-12 `Action`. -/
inductive Action (T : Type) where
  | shift (to : Nat)
  | goto (to : Nat)
  | reduce (name : T) (prod : Production T)
  | acc
  | conflict (a b : Action T)
  deriving DecidableEq, Repr

/-- src/lib.rs:24 `ActTable<T> = Vec<Map<T, Action<T>>>`. -/
abbrev ActTable (T : Type) := List (OMap T (Action T))

/-- src/tabler.rs:4-15 `Tabler`. -/
structure Tabler (T : Type) where
  grammar : Grammar T
  first : Table T
  follow : Table T
  actions : ActTable T
  states : List (State T)
  kernels : OMap (State T) Nat
  deriving DecidableEq, Repr

namespace Tabler
variable {T : Type} [LinOrd T] [DecidableEq T]

/-- src/tabler.rs:45-59, the `firsts` of one rule. -/
def ruleFirsts (rule : Rule T) : List (Production T) → Out (OSet T)
  | [] => return []
  | rc :: rest =>
    match rc.1 with
    | [] => .panic .emptyProduction
    | x :: _ => do
      let acc ← ruleFirsts rule rest
      return (if x = rule.name then acc else OSet.insert x acc)

/-- src/tabler.rs:42-63 `gen_first`. -/
def genFirst (g : Grammar T) : Out (Table T) :=
  g.rules.values.foldlM (fun table rule => do
    let firsts ← ruleFirsts rule rule.prods
    return OMap.insert rule.name firsts table) []

/-- src/tabler.rs:130-143, the inner loop of `first_step`. -/
def firstStepSet (g : Grammar T) (input : Table T) (firsts : OSet T) : Out (OSet T) :=
  firsts.foldlM (fun acc first =>
    if g.isTerminal first then return OSet.insert first acc
    else do
      let s ← Out.ofOption .unlistedSymbol (input.get? first)
      return OSet.extend acc s) []

/-- src/tabler.rs:126-149 `first_step`. -/
def firstStep (g : Grammar T) (input : Table T) : Out (Table T) :=
  input.foldlM (fun table e => do
    let s ← firstStepSet g input e.2
    return OMap.insert e.1 (OSet.remove e.1 s) table) []

/-- src/tabler.rs:158-165, the inner loop of `follow_step`. -/
def followStepSet (g : Grammar T) (input : Table T) (terms : OSet T) : OSet T :=
  terms.foldl (fun acc term =>
    if g.isTerminal term then OSet.insert term acc
    else match input.get? term with
      | some s => OSet.extend acc s
      | none => acc) []

/-- src/tabler.rs:154-171 `follow_step`. -/
def followStep (g : Grammar T) (input : Table T) : Table T :=
  input.foldl (fun table e =>
    OMap.insert e.1 (OSet.remove e.1 (followStepSet g input e.2)) table) []

/-- `table.entry(k).or_default()` followed by an in-place update of the entry
(src/tabler.rs:79-86, 93-96). -/
def updateEntry (table : Table T) (k : T) (f : OSet T → OSet T) : Table T :=
  OMap.insert k (f ((table.get? k).getD [])) table

/-- src/tabler.rs:76-88: the loop over adjacent pairs of a production. -/
def followPairs (g : Grammar T) (first : Table T) (table : Table T) (prod : List T) :
    Out (Table T) :=
  (prod.zip prod.tail).foldlM (fun table ab =>
    if g.isTerminal ab.1 then return table
    else if g.isTerminal ab.2 then return updateEntry table ab.1 (OSet.insert ab.2)
    else do
      let fs ← Out.ofOption .missingFirst (first.get? ab.2)
      return updateEntry table ab.1 (fun s => OSet.extend s fs)) table

/-- src/tabler.rs:89-97: the last symbol of a production. -/
def followLast (g : Grammar T) (name : T) (table : Table T) (prod : List T) : Out (Table T) := do
  let last ← Out.ofOption .emptyProduction prod.getLast?
  if !g.isTerminal last && decide (last ≠ name)
  then return updateEntry table last (OSet.insert name)
  else return table

/-- src/tabler.rs:69-101 `gen_follow`. -/
def genFollow (g : Grammar T) (first : Table T) : Out (Table T) :=
  g.rules.values.foldlM (fun table rule =>
    rule.prods.foldlM (fun table prod => do
      let table ← followPairs g first table prod.1
      followLast g rule.name table prod.1) table)
    [(g.basis.rule, g.basis.look)]

/-- The check of the two `debug_assert!`s, src/tabler.rs:106-110, 116-120. -/
def allTerminal (g : Grammar T) (t : Table T) : Bool :=
  t.values.flatten.all (fun x => g.isTerminal x)

/-- src/tabler.rs:103-111 `proc_first`. -/
def procFirst (dbg : Bool) (fuel : Nat) (g : Grammar T) (first : Table T) : Out (Table T) := do
  let first ← transitive (firstStep g) fuel first
  Out.assert .dbgFirstNotTerminal (!dbg || allTerminal g first)
  return first

/-- src/tabler.rs:113-121 `proc_follow`. -/
def procFollow (dbg : Bool) (fuel : Nat) (g : Grammar T) (follow : Table T) : Out (Table T) := do
  let follow ← transitive (fun t => .ok (followStep g t)) fuel follow
  Out.assert .dbgFollowNotTerminal (!dbg || allTerminal g follow)
  return follow

/-- src/tabler.rs:21-36 `Tabler::new`. -/
def new (dbg : Bool) (fuel : Nat) (g : Grammar T) : Out (Tabler T) := do
  let first ← genFirst g
  let first ← procFirst dbg fuel g first
  let follow ← genFollow g first
  let follow ← procFollow dbg fuel g follow
  return { grammar := g, first := first, follow := follow, actions := [], states := [],
           kernels := [] }

/-- src/tabler.rs:173-176 `basis_pos`. -/
def basisPos (t : Tabler T) : Position T := t.grammar.basis

/-- src/tabler.rs:178-189 `first_of`. -/
def firstOf (t : Tabler T) (items : OSet T) : OSet T :=
  items.foldl (fun firsts item =>
    match t.first.get? item with
    | some f => OSet.extend firsts f
    | none => OSet.insert item firsts) []

/-- src/tabler.rs:193-205 `sym_filter`. -/
def symFilter (state : State T) (sym : T) : State T :=
  OSet.ofList (state.filterMap (fun p => if p.top = some sym then p.cloneNext else none))

/-- src/tabler.rs:207-212 `conflicts`. -/
def conflicts (t : Tabler T) : List (Action T) :=
  (t.actions.flatMap OMap.values).filter (fun a => match a with | .conflict _ _ => true | _ => false)

/-- src/tabler.rs:225-237 `update_entry`. -/
def updateAction (travel : OMap Nat Nat) : Action T → Out (Action T)
  | .acc => return .acc
  | .reduce n p => return .reduce n p
  | .goto n => do return .goto (← Out.ofOption .missingTravel (travel.get? n))
  | .shift n => do return .shift (← Out.ofOption .missingTravel (travel.get? n))
  | .conflict a b => do
    let a ← updateAction travel a
    let b ← updateAction travel b
    return .conflict a b

/-- The local variables of `reduced_actions`, src/tabler.rs:244-246.  `actions_map` is a
`BTreeMap` keyed by action rows; only its key equality is observable, so it is an association
list here (no order on `Action` is modelled). -/
structure Reduced (T : Type) where
  actionsMap : List (OMap T (Action T) × Nat)
  travelIdx : OMap Nat Nat
  actions : ActTable T

/-- `actions_map.get(row)`. -/
def Reduced.find (r : Reduced T) (row : OMap T (Action T)) : Option Nat :=
  (r.actionsMap.find? (fun e => decide (e.1 = row))).map Prod.snd

/-- src/tabler.rs:247-253, one iteration. -/
def reducedStep (r : Reduced T) (old : OMap T (Action T) × Nat) : Reduced T :=
  match r.find old.1 with
  | some j => { r with travelIdx := OMap.insert old.2 j r.travelIdx }
  | none =>
    { actionsMap := (old.1, r.actions.length) :: r.actionsMap
      actions := r.actions ++ [old.1]
      travelIdx := OMap.insert old.2 r.actions.length r.travelIdx }

/-- src/tabler.rs:243-256 `reduced_actions`. -/
def reducedActions (dbg : Bool) (t : Tabler T) : Out (OMap Nat Nat × ActTable T) := do
  let r := t.actions.zipIdx.foldl reducedStep { actionsMap := [], travelIdx := [], actions := [] }
  Out.assert .dbgTooManyActions (!dbg || decide (r.actions.length ≤ t.states.length))
  return (r.travelIdx, r.actions)

/-- src/tabler.rs:218-221: update every entry of every row. -/
def updateRow (travel : OMap Nat Nat) (row : OMap T (Action T)) : Out (OMap T (Action T)) :=
  row.mapM (fun e => do return (e.1, ← updateAction travel e.2))

/-- src/tabler.rs:214-222 `reduce_equals`. -/
def reduceEquals (dbg : Bool) (t : Tabler T) : Out (Tabler T) := do
  let (travel, newActions) ← reducedActions dbg t
  let actions ← newActions.mapM (updateRow travel)
  return { t with actions := actions }

end Tabler

end Lrp
