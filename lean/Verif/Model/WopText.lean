import Verif.Model.WopGen

/-! Model of the texts that `wop` writes: `Builder::dump_grammar`, `Builder::dump_reductor` and
`ItemAlias::write` (wop/src/builder.rs:51-85, 310-390), byte for byte. -/

namespace Lrp.Wop

/-- The bytes of a text of the program that is written in ASCII. -/
def ascii (s : String) : Text := s.toList.map Char.toNat

/-- How a `usize` is printed. -/
def decimal (n : Nat) : Text :=
  if n < 10 then [48 + n] else decimal (n / 10) ++ [48 + n % 10]

/-- wop/src/builder.rs:60-63: the index, or the range, as `Debug` prints it. -/
def ItemAlias.indexText (a : ItemAlias) : Text :=
  match a.finalIndex with
  | none => decimal a.index
  | some stop => decimal a.index ++ ascii ".." ++ decimal stop

/-- wop/src/builder.rs:64-69. -/
def ItemAlias.suffixText (a : ItemAlias) : Text :=
  if a.clone then
    match a.finalIndex with
    | none => ascii "].clone()"
    | some _ => ascii "].to_vec()"
  else ascii "]"

/-- wop/src/builder.rs:70. -/
def ItemAlias.prefixText (a : ItemAlias) : Text := if a.clone then ascii "toks[" else ascii "&toks["

/-- wop/src/builder.rs:58-84 `ItemAlias::write`, for the text of the alias. -/
def ItemAlias.letText (a : ItemAlias) (alias : Text) : Text :=
  match a.optional with
  | some true =>
    ascii "let " ++ alias ++ ascii " = Some(" ++ a.prefixText ++ a.indexText ++ a.suffixText ++ ascii ");\n"
  | some false =>
    ascii "let mut " ++ alias ++ ascii " = Some(" ++ a.prefixText ++ ascii "0" ++ a.suffixText ++
      ascii "); " ++ alias ++ ascii " = None; let " ++ alias ++ ascii " = " ++ alias ++ ascii ";\n"
  | none =>
    ascii "let " ++ alias ++ ascii " = " ++ a.prefixText ++ a.indexText ++ a.suffixText ++ ascii ";\n"

/-- wop/src/builder.rs:52-56 `ItemAlias::dump`. -/
def ItemAlias.dump (a : ItemAlias) (src : Text) : Out Text := do
  let alias ← slice a.alias src
  return a.letText alias

/-- wop/src/builder.rs:374-377: the `let`s of a function. -/
def letsText (src : Text) : List ItemAlias → Out Text
  | [] => .ok []
  | a :: as => do
    let t ← a.dump src
    let ts ← letsText src as
    return t ++ ts

/-- wop/src/builder.rs:316-318, 353-355: the imports. -/
def importsText (src : Text) : List Span → Out Text
  | [] => .ok []
  | i :: is => do
    let t ← slice i src
    let ts ← importsText src is
    return ascii "\tuse " ++ t ++ ascii ";\n" ++ ts

/-- wop/src/builder.rs:338-340: the symbols of a production. -/
def symbolsText (src : Text) : List Span → Out Text
  | [] => .ok []
  | s :: ss => do
    let t ← slice s src
    let ts ← symbolsText src ss
    return t ++ ascii ", " ++ ts

/-- wop/src/builder.rs:336-342: the productions of a rule. -/
def productionsText (src : Text) : RuleBuild → Out Text
  | [] => .ok []
  | p :: ps => do
    let t ← symbolsText src p.production
    let ts ← productionsText src ps
    return ascii "\t\tvec![" ++ t ++ ascii "],\n" ++ ts

/-- wop/src/builder.rs:327-344 `write_rule`. -/
def ruleText (src : Text) (r : Text × RuleBuild) : Out Text := do
  let t ← productionsText src r.2
  return ascii "\tmap.insert(" ++ r.1 ++ ascii ", lrp::grammar::Rule::new(" ++ r.1 ++ ascii ", vec![\n" ++ t ++
    ascii "\n\t]));\n"

/-- wop/src/builder.rs:320-322, 357-359: a loop over the rules. -/
def eachText (f : Text × RuleBuild → Out Text) : List (Text × RuleBuild) → Out Text
  | [] => .ok []
  | r :: rs => do
    let t ← f r
    let ts ← eachText f rs
    return t ++ ts

/-- wop/src/builder.rs:310-325 `dump_grammar`, with the rules in the order in which the hash map is
walked. -/
def grammarText (src : Text) (imports : List Span) (rules : List (Text × RuleBuild)) : Out Text := do
  let is ← importsText src imports
  let rs ← eachText (ruleText src) rules
  return ascii "{\n" ++ is ++ ascii "\tlet mut map = lrp::RuleMap::new();\n" ++ rs ++ ascii "\n\tmap\n}"

/-- wop/src/builder.rs:380, 386: the name of a generated function. -/
def fnName (name : Text) (i : Nat) : Text := ascii "lrp_wop_" ++ name ++ ascii "_" ++ decimal i

/-- wop/src/builder.rs:373-384: the functions of a rule, from number `i` on. -/
def functionsText (src entry name ty : Text) : Nat → RuleBuild → Out Text
  | _, [] => .ok []
  | i, p :: ps => do
    let lets ← letsText src p.aliases
    let block ← slice p.codeblock src
    let code ← stripBlock block
    let ts ← functionsText src entry name ty (i + 1) ps
    return ascii "\tfn " ++ fnName name i ++ ascii "(toks: &[" ++ entry ++ ascii "]) -> lrp::Meta<" ++ ty ++
      ascii "> {\n\t\tlrp::Meta::new({ " ++ lets ++ ascii " " ++ code ++
      ascii "}, lrp::Span::new(toks[0].item.span.start, toks.last().unwrap().item.span.end))\n\t}\n" ++ ts

/-- wop/src/builder.rs:386-388: the names of `n` functions, from number `i` on. -/
def fnNamesText (name : Text) : Nat → Nat → Text
  | _, 0 => []
  | i, n + 1 => fnName name i ++ ascii ", " ++ fnNamesText name (i + 1) n

/-- wop/src/builder.rs:365-390 `write_rule_reduction`. -/
def reductionText (src entry : Text) (r : Text × RuleBuild) : Out Text :=
  match r.2 with
  | [] => .panic .indexRange
  | p :: _ => do
    let ty ← slice p.ty src
    let fs ← functionsText src entry r.1 ty 0 r.2
    return fs ++ ascii "\tmap.insert(" ++ r.1 ++ ascii ", vec![" ++ fnNamesText r.1 0 r.2.length ++
      ascii "\t]);\n\n"

/-- wop/src/builder.rs:346-363 `dump_reductor`, with the field `entry_type` as an argument, and the rules
in the order in which the hash map is walked. -/
def reductorText (entry src : Text) (imports : List Span) (rules : List (Text × RuleBuild)) : Out Text :=
  if entry = [] then .panic .assertion
  else do
    let is ← importsText src imports
    let rs ← eachText (reductionText src entry) rules
    return ascii "{\n" ++ is ++ ascii "\tlet mut map = lrp::ReductMap::new();\n\n" ++ rs ++ ascii "\tmap\n}"

end Lrp.Wop
