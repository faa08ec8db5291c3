import Verif.Model.Tabler

/-!
Model of src/dfa.rs and of the run-time half of src/parser.rs.

The two stacks `states: Vec<usize>` and `items: Vec<Token>` are kept **top first** here (Rust
pushes at the end).  `buffer: Peekable<I>` is modelled by the finite list of the tokens it still
yields (so: a fused iterator that ends).
-/

namespace Lrp

/-- src/dfa.rs:14-34 `Error`. -/
inductive Error (T : Type) where
  | unexpectedToken (found : T) (expected : List T)
  | unexpectedEof
  | conflict (a b : Action T)
  | missingPreviousState
  | stateNotSpecified
  | incompleteExec
  deriving DecidableEq, Repr

/-- src/dfa.rs:62 `ReductFn<T, M> = fn(&[Token<T, M>]) -> T`; `none` is a panic of the reductor. -/
abbrev ReductFn (M T : Type) := List (Token M T) → Option M

/-- src/dfa.rs:63 `ReductMap`. -/
abbrev ReductMap (M T : Type) := OMap T (List (ReductFn M T))

/-- src/dfa.rs:65-79 `Dfa` (stacks top first). -/
structure Dfa (M T : Type) where
  buffer : List (Token M T)
  states : List Nat
  items : List (Token M T)
  table : ActTable T
  top : Nat
  finished : Bool
  reductors : ReductMap M T
  eof : T

/-- `BaseResult<A, Error<T>>` together with the (mutated) `&mut self`. -/
abbrev DfaRes (M T A : Type) := Dfa M T × Except (Error T) A

namespace Dfa
variable {M T : Type} [LinOrd T] [DecidableEq T]

/-- src/dfa.rs:93-104 `Dfa::new`. -/
def new (buffer : List (Token M T)) (table : ActTable T) (reductors : ReductMap M T) (eof : T) :
    Dfa M T :=
  { buffer := buffer, states := [0], items := [], table := table, top := 0, finished := false,
    reductors := reductors, eof := eof }

/-- src/dfa.rs:107-116 `transparent`. -/
def transparent (t : Tabler T) (func : ReductFn M T) : ReductMap M T :=
  OMap.ofList (t.grammar.rules.values.map (fun r => (r.name, r.prods.map (fun _ => func))))

/-- src/dfa.rs:120-126 `shift`. -/
def shift (d : Dfa M T) (to : Nat) : DfaRes M T Unit :=
  match d.buffer with
  | [] => (d, .error .unexpectedEof)
  | item :: rest =>
    ({ d with buffer := rest, items := item :: d.items, top := to, states := to :: d.states },
     .ok ())

/-- src/dfa.rs:130-137 `accept`. -/
def accept (d : Dfa M T) : DfaRes M T Unit :=
  let d := { d with finished := true }
  match d.buffer with
  | [] => (d, .ok ())
  | _ :: _ => (d, .error .incompleteExec)

/-- src/dfa.rs:162-166 `goto`. -/
def goto (d : Dfa M T) (to : Nat) : DfaRes M T Unit :=
  ({ d with states := to :: d.states, top := to }, .ok ())

/-- src/dfa.rs:190-210, `reduce` up to its final `self.travel(name)`. -/
def reduceStacks (d : Dfa M T) (name : T) (prod : Production T) : Out (Dfa M T) := do
  let k := prod.1.length
  -- line 192: items[len - k ..]
  Out.assert .itemsUnderflow (decide (k ≤ d.items.length))
  let items := (d.items.take k).reverse
  -- lines 194-203
  let fs ← Out.ofOption .missingReductor (d.reductors.get? name)
  let f ← Out.ofOption .missingReductor fs[prod.2]?
  let value ← Out.ofOption .reductorPanic (f items)
  -- lines 204-205
  let newItems := { item := value, ty := name } :: d.items.drop k
  -- lines 207-208: states[len - k - 1]
  let top ← Out.ofOption .statesUnderflow d.states[k]?
  -- line 210
  return { d with items := newItems, top := top, states := d.states.drop k }

/-- src/dfa.rs:172-185 `travel` and src/dfa.rs:190-212 `reduce`, which call each other. -/
def travel : Nat → Dfa M T → T → Out (DfaRes M T Unit)
  | 0, _, _ => .fuel
  | n + 1, d, symbol =>
    match d.table[d.top]? with
    | none => .ok (d, .error .stateNotSpecified)
    | some state =>
      match state.get? symbol with
      | none => .ok (d, .error (.unexpectedToken symbol state.keys))
      | some (.shift to) => .ok (d.shift to)
      | some (.goto to) => .ok (d.goto to)
      | some (.reduce name prod) => do
        let d ← d.reduceStacks name prod
        travel n d name
      | some .acc => .ok d.accept
      | some (.conflict a b) => .ok (d, .error (.conflict a b))

/-- src/dfa.rs:150-154: the symbol looked at by one iteration of `trace`. -/
def symbol (d : Dfa M T) : T :=
  match d.buffer with
  | [] => d.eof
  | t :: _ => t.ty

/-- src/dfa.rs:147-158 `trace`.  The observer gets `&mut Self`, so it is a function from `Dfa` to
`Dfa` here (its other side effects are not modelled). -/
def trace (f : Dfa M T → Dfa M T) (tfuel : Nat) : Nat → Dfa M T → Out (DfaRes M T Unit)
  | 0, _ => .fuel
  | n + 1, d =>
    if d.finished then .ok (d, .ok ())
    else do
      let d := f d
      match ← travel tfuel d d.symbol with
      | (d, .error e) => return (d, .error e)
      | (d, .ok ()) => trace f tfuel n d

/-- src/dfa.rs:147-158 `trace` with an observer that keeps something of its own between the calls, as an
`FnMut` may: the outcome and what the observer has in the end. -/
def traceWith {σ : Type} (f : σ → Dfa M T → σ × Dfa M T) (tfuel : Nat) :
    Nat → σ → Dfa M T → Out (σ × DfaRes M T Unit)
  | 0, _, _ => .fuel
  | n + 1, s, d =>
    if d.finished then .ok (s, d, .ok ())
    else do
      let (s, d) := f s d
      match ← travel tfuel d d.symbol with
      | (d, .error e) => return (s, d, .error e)
      | (d, .ok ()) => traceWith f tfuel n s d

/-- src/dfa.rs:141-143 `start`. -/
def start (fuel : Nat) (d : Dfa M T) : Out (DfaRes M T Unit) := trace id fuel fuel d

/-- src/dfa.rs:214-219 `reset`. -/
def reset (d : Dfa M T) : Dfa M T :=
  { d with finished := false, states := [], items := [], top := 0 }

/-- src/dfa.rs:223-230 `Dfa::parse`. -/
def parse (fuel : Nat) (d : Dfa M T) (input : List (Token M T)) : Out (DfaRes M T M) := do
  let d := d.reset
  let d := { d with buffer := input }
  match ← d.start fuel with
  | (d, .error e) => return (d, .error e)
  | (d, .ok ()) =>
    match d.items with
    | [] => return (d, .error .missingPreviousState)
    | res :: rest => return ({ d with items := rest }.reset, .ok res.item)

/-- src/dfa.rs:232-248 `stack_fmt`, as the list of the pieces that are joined with `" "`
(`fmtState`, `fmtTy` render a state number and a symbol). -/
def stackPieces (fmtState : Nat → String) (fmtTy : T → String) : List Nat → List (Token M T) →
    List String
  | [], its => its.map (fun it => fmtTy it.ty)
  | s :: ss, [] => fmtState s :: ss.map fmtState
  | s :: ss, it :: its => fmtState s :: fmtTy it.ty :: stackPieces fmtState fmtTy ss its

/-- src/dfa.rs:232-248 `stack_fmt`. -/
def stackFmt (fmtState : Nat → String) (fmtTy : T → String) (d : Dfa M T) : String :=
  " ".intercalate (stackPieces fmtState fmtTy d.states.reverse d.items.reverse)

end Dfa

/-! ### The run-time half of `trait Parser` (src/parser.rs) -/

namespace Parser
variable {M T : Type} [LinOrd T] [DecidableEq T]

/-- src/parser.rs:26-47 `Parser::dfa`. -/
def dfa (t : Tabler T) (buffer : List (Token M T)) (maps : ReductMap M T) : Out (Dfa M T) := do
  let eof ← Out.ofOption .noEof t.grammar.basis.look.head?
  return Dfa.new buffer t.actions maps eof

/-- src/parser.rs:66-69 `Parser::empty`. -/
def empty (t : Tabler T) : ReductMap Unit T := Dfa.transparent t (fun _ => some ())

/-- src/parser.rs:58-63 `Parser::cloned`: every reductor is `toks[0].ty.clone()`. -/
def cloned (t : Tabler T) : ReductMap T T := Dfa.transparent t (fun toks => toks.head?.map Token.ty)

/-- src/parser.rs:50-55 `Parser::simple_dfa`. -/
def simpleDfa (t : Tabler T) (buffer : List (Token Unit T)) : Out (Dfa Unit T) :=
  dfa t buffer (empty t)

/-- src/parser.rs:73-88 `Parser::parse`. -/
def parse (t : Tabler T) (fuel : Nat) (buffer : List (Token M T)) (maps : ReductMap M T) :
    Out (Except (Error T) M) := do
  let d ← dfa t buffer maps
  match ← d.start fuel with
  | (_, .error e) => return .error e
  | (d, .ok ()) =>
    match d.items with
    | [] => return .error .missingPreviousState
    | item :: _ => return .ok item.item

/-- src/parser.rs:92-94 `Parser::validate`. -/
def validate (t : Tabler T) (fuel : Nat) (buffer : List (Token Unit T)) : Out Bool := do
  match ← parse t fuel buffer (empty t) with
  | .ok _ => return true
  | .error _ => return false

end Parser

end Lrp
