import Verif.Spec.Run
import Verif.Spec.Rename
import Verif.Spec.Reorder

/-! Specification: the same table with its symbols renamed and the alternatives of its rules renumbered. -/

namespace Lrp.Spec
variable {M T U : Type}

/-- The renaming keeps the order of the symbols. -/
def OrderKeeping [LinOrd T] [LinOrd U] (f : T → U) : Prop := ∀ a b, cmp (f a) (f b) = cmp a b

/-- A position with its symbols renamed by `f`, its alternative renumbered by `π`. -/
def movedPos (f : T → U) (π : T → Nat → Nat) (p : Position T) : Position U :=
  { rule := f p.rule, seq := (p.seq.1.map f, π p.rule p.seq.2), point := p.point, look := p.look.map f }

/-- An action with its symbols renamed by `f`, its alternatives renumbered by `π`. -/
def movedAct (f : T → U) (π : T → Nat → Nat) : Action T → Action U
  | .shift to => .shift to
  | .goto to => .goto to
  | .reduce A p => .reduce (f A) (p.1.map f, π A p.2)
  | .acc => .acc
  | .conflict a b => .conflict (movedAct f π a) (movedAct f π b)

/-- An error with its symbols renamed by `f`, its alternatives renumbered by `π`. -/
def movedErr (f : T → U) (π : T → Nat → Nat) : Error T → Error U
  | .unexpectedToken x e => .unexpectedToken (f x) (e.map f)
  | .unexpectedEof => .unexpectedEof
  | .conflict a b => .conflict (movedAct f π a) (movedAct f π b)
  | .missingPreviousState => .missingPreviousState
  | .stateNotSpecified => .stateNotSpecified
  | .incompleteExec => .incompleteExec

/-- The result of a parse, likewise. -/
def movedRes (f : T → U) (π : T → Nat → Nat) : Except (Error T) M → Except (Error U) M
  | .ok v => .ok v
  | .error e => .error (movedErr f π e)

/-- The table `t'` is `t`, row by row and entry by entry, with its symbols renamed by `f` and its alternatives
renumbered by `π`. -/
structure MovedTable (f : T → U) (π : T → Nat → Nat) (t : Tabler T) (t' : Tabler U) : Prop where
  first : t'.first = t.first.map (fun e => (f e.1, e.2.map f))
  follow : t'.follow = t.follow.map (fun e => (f e.1, e.2.map f))
  states : t'.states = t.states.map (List.map (movedPos f π))
  actions : t'.actions = t.actions.map (List.map (fun e => (f e.1, movedAct f π e.2)))

/-- The reductors of `maps'` are those of `maps`, under the new names and numbers: either both are missing, or
they return the same on the same items, and panic on the same items. -/
def MovedReds [LinOrd T] [LinOrd U] (f : T → U) (π : T → Nat → Nat) (D : Decls T) (maps : ReductMap M T)
    (maps' : ReductMap M U) : Prop :=
  ∀ A i b, IsProd D A i b →
    match (maps.get? A).bind (·[i]?), (maps'.get? (f A)).bind (·[π A i]?) with
    | none, none => True
    | some r, some r' => ∀ its, r' (renameToks f its) = r its
    | _, _ => False

end Lrp.Spec
