import Verif.Model.Main
import Verif.Spec.Knuth
import Verif.Spec.Views
import Verif.Spec.Run

/-! Specification: rightmost derivations with the productions that were used, and the table printed by
`print_proc_dfa`. -/

namespace Lrp.Spec

section
variable {T : Type}

/-- `Rightmost D a ps b`: replacing the last nonterminal again and again leads from `a` to `b`; `ps` are the
productions (rule and number) in the order of their use. -/
inductive Rightmost (D : Decls T) : List T → List (T × Nat) → List T → Prop
  | refl (a : List T) : Rightmost D a [] a
  | head (u v : List T) {A : T} {i : Nat} {body : List T} {ps : List (T × Nat)} {b : List T} :
      IsProd D A i body → Terminals D v → Rightmost D (u ++ body ++ v) ps b →
      Rightmost D (u ++ A :: v) ((A, i) :: ps) b

/-- The production of a `Reduce` in the column of actions. -/
def reduction (row : Main.TraceRow T) : Option (T × Nat) :=
  match row.action with
  | some (.reduce A prod) => some (A, prod.2)
  | _ => none

/-- The productions of the `Reduce`s in the column of actions, from top to bottom. -/
def reductions (rows : List (Main.TraceRow T)) : List (T × Nat) := rows.filterMap reduction

/-- The action of the row is a `Shift` or a `Reduce`. -/
def Proceeds (row : Main.TraceRow T) : Prop :=
  (∃ j, row.action = some (.shift j)) ∨ ∃ A prod, row.action = some (.reduce A prod)

end

variable {M T : Type} [LinOrd T] [DecidableEq T]

/-- `print_proc_dfa` prints the rows and the result for the input. -/
def Traces (t : Tabler T) (maps : ReductMap M T) (fs : Nat → String) (ft : T → String)
    (toks : List (Token M T)) (rows : List (Main.TraceRow T)) (res : Except (Error T) Unit) : Prop :=
  Returns (fun n => do let d ← Parser.dfa t toks maps; Main.procDfa fs ft n d) (rows, res)

/-- What the row below the rows `before` shows: its number; a stack that is a path of the automaton; the rest
of the input; the last state of the path and the next symbol; what the table has there.  The symbols of the
stack and the rest of the input are a rightmost sentential form: the reductions so far, last one first, lead
from it to the input. -/
structure RowShows (D : Decls T) (eof : T) (t : Tabler T) (fs : Nat → String) (ft : T → String)
    (input : List T) (before : List (Main.TraceRow T)) (row : Main.TraceRow T) (path : List (T × Nat))
    (left : List T) : Prop where
  step : row.step = before.length + 1
  chain : Chain t 0 path
  stack : row.stack = " ".intercalate (fs 0 :: path.flatMap (fun e => [ft e.1, fs e.2]))
  buffer : row.buffer = left ++ [eof]
  rest : left <:+ input
  top : (0 :: path.map Prod.snd).getLast? = some row.top
  symbol : row.buffer.head? = some row.symbol
  action : row.action = (t.actions[row.top]?).bind (fun r => r.get? row.symbol)
  form : Rightmost D (path.map Prod.fst ++ left) (reductions before).reverse input

/-- What a run ends with, by the last row: `left` is the rest of the input there. -/
def EndsWith (t : Tabler T) (row : Main.TraceRow T) (left : List T) : Except (Error T) Unit → Prop
  | .ok () => row.action = some .acc ∧ left = []
  | .error (.unexpectedToken x expected) => row.action = none ∧ x = row.symbol ∧
      ∃ r, t.actions[row.top]? = some r ∧ expected = r.keys
  | .error (.conflict a b) => row.action = some (.conflict a b) ∨
      -- the goto after the reduction is in conflict (with a reduction on the nonterminal)
      ∃ A prod, row.action = some (.reduce A prod) ∧
        ∃ (i : Nat) (r : OMap T (Action T)), t.actions[i]? = some r ∧ r.get? A = some (.conflict a b)
  | .error .unexpectedEof => (∃ j, row.action = some (.shift j)) ∧ left = []
  | .error .incompleteExec => row.action = some .acc ∧ left ≠ []
  | .error .missingPreviousState => False
  | .error .stateNotSpecified => False

end Lrp.Spec
