/-
Outcomes of a modelled Rust call.

A Rust function may return, panic, or never return.  A loop that is not structurally bounded
takes a fuel argument: `Out.fuel` means "not finished after that many iterations", so
"the call returns `a`" is `∃ n, f n = .ok a`, and "the call never returns" is
`∀ n, f n = .fuel`.
-/

namespace Lrp

/-- Every panic site of the modelled functions (debug-only sites carry the prefix `dbg`). -/
inductive Panic where
  /-- `rules[&start]` with no such rule, src/grammar.rs:77 -/
  | missingStart
  /-- `debug_assert_eq!(prods.len(), 1, ..)`, src/grammar.rs:78 -/
  | dbgManyEntries
  /-- `prods[0]` of a start rule without productions, src/grammar.rs:79 -/
  | noEntry
  /-- `assert!(!rc.0.is_empty(), ..)`, src/tabler.rs:49-52 -/
  | emptyProduction
  /-- `panic!("{name:?} was not listed as terminal or non-terminal")`, src/tabler.rs:137-139 -/
  | unlistedSymbol
  /-- `self.first[&prod[term_idx + 1]]` without an entry, src/tabler.rs:85 -/
  | missingFirst
  /-- `debug_assert!(FIRST subset of TERMINALS)`, src/tabler.rs:106-110 -/
  | dbgFirstNotTerminal
  /-- `debug_assert!(FOLLOW subset of TERMINALS)`, src/tabler.rs:116-120 -/
  | dbgFollowNotTerminal
  /-- `self.table.follow[&pos.rule]` without an entry, src/slr.rs:87 -/
  | missingFollow
  /-- `.expect("`kernels` is incomplete")`, src/slr.rs:105, src/clr.rs:150, src/lalr.rs:256 -/
  | incompleteKernels
  /-- `debug_assert!(old.is_none())`, src/slr.rs:73, src/clr.rs:99, src/lalr.rs:142, src/lalr.rs:216 -/
  | dbgKernelTwice
  /-- `self.table.kernels[&nk]` without an entry, src/lalr.rs:132, 158, 173 -/
  | missingKernel
  /-- `self.table.states[state_id]` out of range, src/lalr.rs:203 -/
  | missingState
  /-- `.collect::<Vec<_>>()[0]` of an empty look set, src/parser.rs:39-44 -/
  | noEof
  /-- `travel[n]` without an entry, src/tabler.rs:228-229 -/
  | missingTravel
  /-- `debug_assert!(actions.len() <= self.states.len())`, src/tabler.rs:254 -/
  | dbgTooManyActions
  /-- `len - prod.0.len()` underflows / slice out of range, src/dfa.rs:192 -/
  | itemsUnderflow
  /-- `self.reductors[name][prod.1]` without an entry, src/dfa.rs:194-203 -/
  | missingReductor
  /-- the reductor called at src/dfa.rs:203 panicked -/
  | reductorPanic
  /-- `self.states[len - prod.0.len() - 1]` underflows, src/dfa.rs:208 -/
  | statesUnderflow
  /-- `.unwrap()` of a `None`, src/main.rs:103-104 -/
  | mainUnwrap
  /-- a slice or string index out of range in wop -/
  | indexRange
  /-- `unreachable!()` in wop -/
  | unreachable
  /-- `.unwrap()` of a `None` in wop -/
  | unwrapNone
  /-- an `assert!`/`assert_ne!` of wop/src/builder.rs failed -/
  | assertion
  deriving DecidableEq, Repr

/-- Outcome of a call. -/
inductive Out (α : Type) where
  | ok (a : α)
  | panic (why : Panic)
  | fuel
  deriving DecidableEq, Repr

namespace Out

def bind {α β : Type} : Out α → (α → Out β) → Out β
  | ok a, f => f a
  | panic p, _ => panic p
  | fuel, _ => fuel

instance : Monad Out where
  pure := ok
  bind := bind

/-- `opt.unwrap()`-like access: a missing value is the panic `p`. -/
def ofOption {α : Type} (p : Panic) : Option α → Out α
  | some a => ok a
  | none => panic p

/-- An assertion: panics with `p` unless `b`. -/
def assert (p : Panic) (b : Bool) : Out Unit := if b then ok () else panic p

end Out

/-- "the call returns `a`": some amount of fuel suffices. -/
def Returns {α : Type} (f : Nat → Out α) (a : α) : Prop := ∃ n, f n = .ok a

/-- "the call panics with `p`". -/
def Panics {α : Type} (f : Nat → Out α) (p : Panic) : Prop := ∃ n, f n = .panic p

/-- "the call never returns and never panics": no amount of fuel suffices. -/
def Diverges {α : Type} (f : Nat → Out α) : Prop := ∀ n, f n = .fuel

/-- src/lib.rs:47-60 `transitive`: iterate `map` from `seed` until `map(x) == x`.
`map` may itself panic, so it returns an `Out`. -/
def transitive {α : Type} [DecidableEq α] (map : α → Out α) : Nat → α → Out α
  | 0, _ => .fuel
  | n + 1, val => do
    let new ← map val
    if new = val then return val else transitive map n new

end Lrp
