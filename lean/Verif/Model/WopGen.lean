import Verif.Model.WopOut

/-! Model of the code generated by `wop`: what the expressions written by `Builder::dump_grammar` and
`Builder::dump_reductor` evaluate to when they are compiled into a program (wop/src/builder.rs:310-390).

The meaning of the texts that come from the source, names of symbols and code blocks, is a parameter
(`Rust`).  A `HashMap` is walked in an arbitrary order: both functions get the rules of the builder as a
list in that order. -/

namespace Lrp.Wop

/-- What the compiler makes of the source texts in the generated code: `sym` is the symbol a name or
path stands for (where the imports are in scope), and `code` runs a code block, with the items of the
production (`toks`) and the variables in scope; `none` is a panic. -/
structure Rust (X T : Type) where
  sym : Text → T
  code : Text → List (Token (Meta X) T) → (Text → Option (Value (Token (Meta X) T))) → Option X

variable {X T : Type}

/-- wop/src/builder.rs:327-344 `write_rule`: `map.insert(name, Rule::new(name, vec![…]))`. -/
def Rust.rule (R : Rust X T) (src : Text) (r : Text × RuleBuild) : Out (T × List (List T)) := do
  let ws ← writeRule src r.2
  return (R.sym r.1, ws.map (List.map R.sym))

/-- wop/src/builder.rs:320-322, the loop of `dump_grammar`. -/
def Rust.rules (R : Rust X T) (src : Text) :
    List (Text × RuleBuild) → Out (List (T × List (List T)))
  | [] => .ok []
  | r :: rs => do
    let d ← R.rule src r
    let ds ← R.rules src rs
    return d :: ds

/-- wop/src/builder.rs:310-325 `dump_grammar`: the declarations that are inserted into the map, in
order; the map itself is `grammarMap` of them. -/
def Rust.dumpGrammar (R : Rust X T) (src : Text) (imports : List Span) (rules : List (Text × RuleBuild)) :
    Out (List (T × List (List T))) := do
  let _ ← texts src imports
  R.rules src rules

/-- wop/src/builder.rs:378-382, a generated function: the `let`s, then the code block, and the span from
the first item to the last. -/
def Rust.call (R : Rust X T) (src : Text) (f : Reductor) : ReductFn (Meta X) T := fun toks =>
  match runLets src toks f.lets with
  | .ok lets => do
    let v ← R.code f.code toks (valueOf lets)
    let first ← toks[0]?
    let last ← toks.getLast?
    return { item := v, span := Span.new first.item.span.start last.item.span.stop }
  | _ => none

/-- wop/src/builder.rs:365-390 `write_rule_reduction`: `map.insert(name, vec![…])`. -/
def Rust.reduction (R : Rust X T) (src : Text) (r : Text × RuleBuild) :
    Out (T × List (ReductFn (Meta X) T)) := do
  let fs ← writeReduction src r.2
  return (R.sym r.1, fs.map (R.call src))

/-- wop/src/builder.rs:357-359, the loop of `dump_reductor`. -/
def Rust.reductions (R : Rust X T) (src : Text) :
    List (Text × RuleBuild) → Out (List (T × List (ReductFn (Meta X) T)))
  | [] => .ok []
  | r :: rs => do
    let d ← R.reduction src r
    let ds ← R.reductions src rs
    return d :: ds

/-- wop/src/builder.rs:346-363 `dump_reductor`, with the field `entry_type` as an argument: it must not
be empty. -/
def Rust.dumpReductor [LinOrd T] (R : Rust X T) (entry : Text) (src : Text) (imports : List Span)
    (rules : List (Text × RuleBuild)) : Out (ReductMap (Meta X) T) :=
  if entry = [] then .panic .assertion
  else do
    let _ ← texts src imports
    let ds ← R.reductions src rules
    return ds.foldl (fun m d => OMap.insert d.1 d.2 m) []

end Lrp.Wop
