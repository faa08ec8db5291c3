import Verif.Model.Collections
import Verif.Model.Outcome

/-!
Model of src/pos.rs and src/grammar.rs (and of the small value types of src/lib.rs).

`usize` is modelled by `Nat` (no overflow of positions, indices or lengths is reachable in
memory); `Rc<X>` is modelled by `X` (lrp compares `Rc`s by value and never mutates through
them).
-/

namespace Lrp

/-- src/lib.rs:84-87 `Token`. -/
structure Token (M T : Type) where
  item : M
  ty : T
  deriving DecidableEq, Repr

/-- src/lib.rs:101-103 `to_tokens`. -/
def toTokens {T : Type} (it : List T) : List (Token Unit T) := it.map (fun i => ⟨(), i⟩)

/-- src/grammar.rs:5-6 `Production<T> = (Vec<T>, usize)`: the body and its index in the
declaration of its rule. -/
abbrev Production (T : Type) := List T × Nat

/-- src/grammar.rs:9-16 `Rule`. -/
structure Rule (T : Type) where
  name : T
  prods : List (Production T)
  deriving DecidableEq, Repr

/-- src/grammar.rs:22-35 `Rule::new`: `prods.into_iter().enumerate().map(|(i, p)| Rc::new((p, i)))`. -/
def Rule.new {T : Type} (name : T) (prods : List (List T)) : Rule T :=
  { name := name, prods := prods.zipIdx }

/-- src/grammar.rs:37-40 `Rule::single`. -/
def Rule.single {T : Type} (name : T) (prod : List T) : Rule T := Rule.new name [prod]

/-- src/grammar.rs:7 `RuleMap`. -/
abbrev RuleMap (T : Type) := OMap T (Rule T)

/-- src/lib.rs:151-171 `grammar_map!`: the declarations are inserted one after the other, each
under its own name. -/
def grammarMap {T : Type} [LinOrd T] (decls : List (T × List (List T))) : RuleMap T :=
  decls.foldl (fun m d => OMap.insert d.1 (Rule.new d.1 d.2) m) []

/-- src/pos.rs:8-17 `Position`. -/
structure Position (T : Type) where
  rule : T
  seq : Production T
  point : Nat
  look : OSet T
  deriving DecidableEq, Repr

namespace Position
variable {T : Type}

/-- src/pos.rs:8 `#[derive(PartialOrd, Ord)]`: lexicographic in field order. -/
instance [LinOrd T] : LinOrd (Position T) :=
  LinOrd.pullback (fun p => (p.rule, p.seq, p.point, p.look)) (by
    intro a b h
    cases a; cases b
    simp only [Prod.mk.injEq] at h
    simp [h])

/-- src/pos.rs:46-49 `peek`. -/
def peek (p : Position T) (qty : Nat) : Option T := p.seq.1[p.point + qty]?

/-- src/pos.rs:41-44 `next`. -/
def next (p : Position T) : Option T := p.peek 1

/-- src/pos.rs:53-56 `top`. -/
def top (p : Position T) : Option T := p.peek 0

/-- src/pos.rs:58-61 `finished`. -/
def finished (p : Position T) : Bool := decide (p.point ≥ p.seq.1.length)

/-- src/pos.rs:63-66 `body_eq`. -/
def bodyEq [DecidableEq T] (p q : Position T) : Bool :=
  decide (p.point = q.point) && decide (p.seq = q.seq) && decide (p.rule = q.rule)

/-- src/pos.rs:68-70 `adv`. -/
def adv (p : Position T) : Position T := { p with point := p.point + 1 }

/-- src/pos.rs:72-75 `abs_idx`. -/
def absIdx (p : Position T) (idx : Nat) : Option T := p.seq.1[idx]?

/-- src/pos.rs:34-37 `with_look`. -/
def withLook (p : Position T) (look : OSet T) : Position T := { p with look := look }

/-- src/pos.rs:77-80 `no_look`. -/
def noLook (p : Position T) : Position T := { p with look := [] }

/-- src/pos.rs:82-91 `clone_next`. -/
def cloneNext (p : Position T) : Option (Position T) :=
  if p.finished then none else some p.adv

end Position

/-- src/lib.rs:27 `State<T> = Set<Position<T>>`. -/
abbrev State (T : Type) := OSet (Position T)

/-- src/lib.rs:39 `Table<T> = Map<T, Set<T>>`. -/
abbrev Table (T : Type) := OMap T (OSet T)

/-- src/grammar.rs:47-56 `Grammar`. -/
structure Grammar (T : Type) where
  rules : RuleMap T
  terminals : OSet T
  symbols : OSet T
  basis : Position T
  deriving DecidableEq, Repr

namespace Grammar
variable {T : Type} [LinOrd T]

/-- src/grammar.rs:64-74, the three nested loops collecting the terminals. -/
def collectTerminals (rules : RuleMap T) : OSet T :=
  rules.values.foldl (fun acc rule =>
    rule.prods.foldl (fun acc rc =>
      rc.1.foldl (fun acc term =>
        if !rules.contains term then OSet.insert term acc else acc) acc) acc) []

/-- src/grammar.rs:62-86 `Grammar::new`.  `dbg` says whether `debug_assert`s are compiled in. -/
def new (dbg : Bool) (start : T) (rules : RuleMap T) (eof : T) : Out (Grammar T) := do
  let terminals := OSet.insert eof (collectTerminals rules)
  let symbols := OSet.ofList (rules.keys ++ terminals)
  let rule ← Out.ofOption .missingStart (rules.get? start)
  Out.assert .dbgManyEntries (!dbg || decide (rule.prods.length = 1))
  let prod ← Out.ofOption .noEntry rule.prods[0]?
  let basis : Position T := { rule := start, seq := prod, point := 0, look := OSet.ofList [eof] }
  return { rules := rules, terminals := terminals, symbols := symbols, basis := basis }

/-- src/grammar.rs:93-96 `is_terminal`. -/
def isTerminal (g : Grammar T) (term : T) : Bool := !g.rules.contains term

end Grammar

end Lrp
