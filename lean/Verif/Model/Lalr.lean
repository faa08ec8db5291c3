import Verif.Model.Automaton

/-!
Model of src/lalr.rs and of `Parser::merged` (src/parser.rs:108-129).
-/

namespace Lrp

variable {T : Type} [LinOrd T] [DecidableEq T]

/-- src/parser.rs:114-127, one iteration of the outer loop of `merged`: `state` is merged into the
first position of `new` (in set order) with an equal body, else inserted. -/
def mergeOne (new : State T) (state : Position T) : State T :=
  match new.find? (fun key => key.bodyEq state) with
  | some key =>
    OSet.insert { state with look := OSet.extend state.look key.look } (OSet.remove key new)
  | none => OSet.insert state new

/-- src/parser.rs:113-129 `Parser::merged`. -/
def merged (states : State T) : State T := states.foldl mergeOne []

/-- src/lalr.rs:4-13 `Lalr`. -/
structure Lalr (T : Type) where
  table : Tabler T
  raws : OMap (State T) (State T)
  deriving DecidableEq, Repr

namespace Lalr

/-- src/lalr.rs:64-67 `without_look`. -/
def withoutLook (state : State T) : State T := OSet.ofList (state.map Position.noLook)

/-- src/lalr.rs:47-50 `final_kernel`. -/
def finalKernel (l : Lalr T) (kernel : State T) : Option (State T) :=
  l.raws.get? (withoutLook kernel)

/-- src/parser.rs:96-101 `state_from_kernel`, with `Lalr::final_kernel`. -/
def stateFromKernel (l : Lalr T) (kernel : State T) : Option Nat := do
  let fk ← l.finalKernel kernel
  l.table.kernels.get? fk

/-- src/lalr.rs:57-62 `proc_closures_first_row`. -/
def firstRow (fuel : Nat) (l : Lalr T) : Out (Lalr T) := do
  let start ← propClosure Clr.closure fuel l.table (OSet.ofList [l.table.basisPos])
  return { table := { l.table with kernels := OMap.insert [] 0 l.table.kernels,
                                   states := l.table.states ++ [start] },
           raws := OMap.insert [] start l.raws }

/-- src/lalr.rs:184-218 `update_state`. -/
def updateState (dbg : Bool) (l : Lalr T) (main inc closures : State T) :
    Out (Lalr T × Option (State T)) :=
  match l.table.kernels.get? main with
  | none => .ok (l, none)
  | some id =>
    let newKernel := merged (OSet.ofList (inc ++ main))
    if newKernel = main then .ok (l, none)
    else do
      let old ← Out.ofOption .missingState l.table.states[id]?
      let bothClosures := OSet.ofList (old ++ closures)
      let kernels := OMap.remove main l.table.kernels
      Out.assert .dbgKernelTwice (!dbg || !kernels.contains newKernel)
      return ({ table := { l.table with kernels := OMap.insert newKernel id kernels,
                                        states := l.table.states.set id (merged bothClosures) },
                raws := OMap.insert (withoutLook newKernel) newKernel l.raws },
              some newKernel)

/-- The two places of `update_closures` at which the model recurses: its entry, and the head of the
`for s in &syms` loop (with what is left of `syms`). -/
inductive Call (T : Type) where
  | enter (main inc closures : State T)
  | loop (id : Nat) (newKernel : State T) (syms : List T)

/-- src/lalr.rs:149-182 `update_closures`: `.enter` is lines 150-158, `.loop` the `'regen` loop of
lines 160-181 (one recursive function with two entries instead of two mutually recursive ones). -/
def update (dbg : Bool) (cfuel : Nat) : Nat → Lalr T → Call T → Out (Lalr T × Option (State T))
  | 0, _, _ => .fuel
  | n + 1, l, .enter main inc closures => do
    match ← updateState dbg l main inc closures with
    | (l, none) => return (l, none)
    | (l, some newKernel) =>
      let id ← Out.ofOption .missingKernel (l.table.kernels.get? newKernel)
      update dbg cfuel n l (.loop id newKernel l.table.grammar.symbols)
  | _ + 1, l, .loop _ newKernel [] => .ok (l, some newKernel)
  | n + 1, l, .loop id newKernel (s :: ss) => do
    match ← goto Clr.closure cfuel l.table newKernel s with
    | none => update dbg cfuel n l (.loop id newKernel ss)
    | some (kernel, closures) =>
      match l.raws.get? (withoutLook kernel) with
      | none => update dbg cfuel n l (.loop id newKernel ss)
      | some mainKernel =>
        match ← update dbg cfuel n l (.enter mainKernel kernel closures) with
        | (l, none) => update dbg cfuel n l (.loop id newKernel ss)
        | (l, some nk) =>
          let updated ← Out.ofOption .missingKernel (l.table.kernels.get? nk)
          if updated = id ∧ nk ≠ newKernel
          then update dbg cfuel n l (.loop id nk l.table.grammar.symbols)    -- continue 'regen
          else update dbg cfuel n l (.loop id newKernel ss)

/-- src/lalr.rs:149 `update_closures`. -/
def updateClosures (dbg : Bool) (cfuel n : Nat) (l : Lalr T) (main inc closures : State T) :
    Out (Lalr T × Option (State T)) :=
  update dbg cfuel n l (.enter main inc closures)

/-- src/lalr.rs:121-146, the `'gen` loop; `todo` is what is left of `for s in &syms`.  `row` is
the clone taken at line 122.  `ufuel` bounds `update_closures`, `cfuel` the closures. -/
def gen (dbg : Bool) (cfuel ufuel : Nat) : Nat → Nat → State T → List T → Lalr T → Out (Lalr T)
  | 0, _, _, _, _ => .fuel
  | n + 1, idx, _, [], l =>                       -- end of the `for`: idx += 1, next row
    match l.table.states[idx + 1]? with
    | none => .ok l
    | some row => gen dbg cfuel ufuel n (idx + 1) row l.table.grammar.symbols l
  | n + 1, idx, row, s :: ss, l => do
    match ← goto Clr.closure cfuel l.table row s with
    | none => gen dbg cfuel ufuel n idx row ss l
    | some (kernel, closures) =>
      match l.raws.get? (withoutLook kernel) with
      | some mainKernel =>
        match ← updateClosures dbg cfuel ufuel l mainKernel kernel closures with
        | (l, none) => gen dbg cfuel ufuel n idx row ss l
        | (l, some nk) =>
          let updated ← Out.ofOption .missingKernel (l.table.kernels.get? nk)
          if updated = idx ∧ nk ≠ row then          -- continue 'gen
            match l.table.states[idx]? with
            | none => .ok l
            | some row => gen dbg cfuel ufuel n idx row l.table.grammar.symbols l
          else gen dbg cfuel ufuel n idx row ss l
      | none =>
        let states := l.table.states ++ [closures]
        Out.assert .dbgKernelTwice (!dbg || !l.table.kernels.contains kernel)
        gen dbg cfuel ufuel n idx row ss
          { table := { l.table with states := states,
                                    kernels := OMap.insert kernel (states.length - 1) l.table.kernels },
            raws := OMap.insert (withoutLook kernel) kernel l.raws }

/-- src/lalr.rs:117-147 `proc_closures`. -/
def procClosures (dbg : Bool) (fuel : Nat) (l : Lalr T) : Out (Lalr T) := do
  let l ← firstRow fuel l
  match l.table.states[0]? with
  | none => return l
  | some row => gen dbg fuel fuel fuel 0 row l.table.grammar.symbols l

/-- src/lalr.rs:234-264 `decision`. -/
def decision (l : Lalr T) (start : T) (pos : Position T) (row : State T) :
    Out (OMap T (Action T)) :=
  match pos.top with
  | none => .ok (reduceDecision start pos pos.look)
  | some locus => shiftDecision l.table (stateFromKernel l) row locus

/-- src/lalr.rs:74-94 `proc_actions`; src/lalr.rs:26-30 `with_table`. -/
def withTable (dbg : Bool) (fuel : Nat) (t : Tabler T) : Out (Lalr T) := do
  let l ← procClosures dbg fuel { table := t, raws := [] }
  let table ← procRows (fun pos row => decision l l.table.basisPos.rule pos row) l.table
  return { l with table := table }

/-- src/lalr.rs:19-24 `Lalr::new`. -/
def new (dbg : Bool) (fuel : Nat) (g : Grammar T) : Out (Lalr T) := do
  withTable dbg fuel (← Tabler.new dbg fuel g)

end Lalr

end Lrp
