import Verif.Model.Effects

/-!
The run-time half of the parser for token iterators that do something when they are asked for a token.

`Dfa<_, _, I>` takes any `I: Iterator` (src/dfa.rs:65-73) and wraps it in std's `Peekable`.  Model/Dfa.lean
takes the tokens as a finite list.  Here `next` may change what is around it (`σ`, the same state that the
reductors see and change, as in Model/Effects.lean), need not end, and may yield tokens again after `None`.
The field `buffer` of the `Dfa` is not used; the slot of the `Peekable` is kept next to it.
`Props.C78_list` relates both models.
-/

namespace Lrp

/-- `Iterator::next`. -/
abbrev NextFn (σ M T : Type) := σ → Option (Token M T) × σ

/-- The field `peeked` of std's `Peekable`: nothing, or what `next` has returned already. -/
abbrev Slot (M T : Type) := Option (Option (Token M T))

namespace Dfa
variable {σ M T : Type} [LinOrd T] [DecidableEq T]

/-- std `Peekable::peek`: `self.peeked.get_or_insert_with(|| iter.next()).as_ref()`. -/
def peekS (next : NextFn σ M T) (s : σ) (slot : Slot M T) : Option (Token M T) × σ × Slot M T :=
  match slot with
  | some v => (v, s, some v)
  | none =>
    let (v, s) := next s
    (v, s, some v)

/-- std `Peekable::next`: `match self.peeked.take() { Some(v) => v, None => self.iter.next() }`. -/
def pullS (next : NextFn σ M T) (s : σ) (slot : Slot M T) : Option (Token M T) × σ × Slot M T :=
  match slot with
  | some v => (v, s, none)
  | none =>
    let (v, s) := next s
    (v, s, none)

/-- src/dfa.rs:120-126 `shift`. -/
def shiftS (next : NextFn σ M T) (s : σ) (slot : Slot M T) (d : Dfa M T) (to : Nat) :
    σ × Slot M T × DfaRes M T Unit :=
  match pullS next s slot with
  | (none, s, slot) => (s, slot, d, .error .unexpectedEof)
  | (some item, s, slot) =>
    (s, slot, { d with items := item :: d.items, top := to, states := to :: d.states }, .ok ())

/-- src/dfa.rs:130-137 `accept`. -/
def acceptS (next : NextFn σ M T) (s : σ) (slot : Slot M T) (d : Dfa M T) :
    σ × Slot M T × DfaRes M T Unit :=
  let d := { d with finished := true }
  match peekS next s slot with
  | (none, s, slot) => (s, slot, d, .ok ())
  | (some _, s, slot) => (s, slot, d, .error .incompleteExec)

/-- src/dfa.rs:172-185 `travel` and src/dfa.rs:190-212 `reduce`. -/
def travelS (next : NextFn σ M T) (maps : ReductMapE σ M T) :
    Nat → σ → Slot M T → Dfa M T → T → Out (σ × Slot M T × DfaRes M T Unit)
  | 0, _, _, _, _ => .fuel
  | n + 1, s, slot, d, symbol =>
    match d.table[d.top]? with
    | none => .ok (s, slot, d, .error .stateNotSpecified)
    | some state =>
      match state.get? symbol with
      | none => .ok (s, slot, d, .error (.unexpectedToken symbol state.keys))
      | some (.shift to) => .ok (d.shiftS next s slot to)
      | some (.goto to) => .ok (s, slot, d.goto to)
      | some (.reduce name prod) => do
        let (s, d) ← d.reduceStacksE maps s name prod
        travelS next maps n s slot d name
      | some .acc => .ok (d.acceptS next s slot)
      | some (.conflict a b) => .ok (s, slot, d, .error (.conflict a b))

/-- src/dfa.rs:147-158 `trace` with the observer of `start` (src/dfa.rs:141-143), which does nothing. -/
def traceS (next : NextFn σ M T) (maps : ReductMapE σ M T) (tfuel : Nat) :
    Nat → σ → Slot M T → Dfa M T → Out (σ × Slot M T × DfaRes M T Unit)
  | 0, _, _, _ => .fuel
  | n + 1, s, slot, d =>
    if d.finished then .ok (s, slot, d, .ok ())
    else do
      let (peeked, s, slot) := peekS next s slot
      let symbol := match peeked with
        | none => d.eof
        | some t => t.ty
      match ← travelS next maps tfuel s slot d symbol with
      | (s, slot, d, .error e) => return (s, slot, d, .error e)
      | (s, slot, d, .ok ()) => traceS next maps tfuel n s slot d

end Dfa

namespace Parser
variable {σ M T : Type} [LinOrd T] [DecidableEq T]

/-- src/parser.rs:73-88 `Parser::parse` on an iterator: what is left around, and the result.  `Dfa::new`
makes a `Peekable` that has not asked for anything yet. -/
def parseS (t : Tabler T) (fuel : Nat) (next : NextFn σ M T) (maps : ReductMapE σ M T) (s : σ) :
    Out (σ × Except (Error T) M) := do
  let d ← dfa t [] []
  match ← d.traceS next maps fuel fuel s none with
  | (s, _, _, .error e) => return (s, .error e)
  | (s, _, d, .ok ()) =>
    match d.items with
    | [] => return (s, .error .missingPreviousState)
    | item :: _ => return (s, .ok item.item)

end Parser

end Lrp
