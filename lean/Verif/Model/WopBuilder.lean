import Verif.Model.WopAst

/-! Model of the code builder of `wop` (wop/src/builder.rs).

A source is a sequence of bytes.  The iteration order of a
`HashSet` is arbitrary and may change from set to set: `Env.order n` is the order in which the `n`-th
set made by `set_sub_aliases` is walked. -/

namespace Lrp.Wop

/-- A piece of source text. -/
abbrev Text := List Nat

/-- std's `str::is_char_boundary` on UTF-8, for `i` up to the length of the text: the first byte, the end, and
every byte that does not continue a character. -/
def boundary (src : Text) (i : Nat) : Bool :=
  i == 0 || (match src[i]? with | some c => c < 128 || 192 ≤ c | none => true)

/-- src/lib.rs:125-130 `Span::from_source` on a `str`: `slice[self.start..self.end]`, which panics when
`start > end`, when `end > len`, and when one of them is not on a character boundary (std). -/
def slice (sp : Span) (src : Text) : Out Text :=
  if sp.start ≤ sp.stop ∧ sp.stop ≤ src.length ∧ boundary src sp.start = true ∧ boundary src sp.stop = true
  then .ok ((src.drop sp.start).take (sp.stop - sp.start))
  else .panic .indexRange

/-- wop/src/builder.rs:22-29 `ItemAlias`. -/
structure ItemAlias where
  alias : Span
  optional : Option Bool
  index : Nat
  finalIndex : Option Nat
  clone : Bool
  deriving DecidableEq, Repr

/-- wop/src/builder.rs:31-38 `ProductionBuild`. -/
structure ProductionBuild where
  production : List Span
  codeblock : Span
  ty : Span
  aliases : List ItemAlias
  deriving DecidableEq, Repr

/-- wop/src/builder.rs:50 `RuleBuild`. -/
abbrev RuleBuild := List ProductionBuild

/-- wop/src/builder.rs:41-47 `push_alias`. -/
def ProductionBuild.pushAlias (p : ProductionBuild) (a : ItemAlias) : ProductionBuild :=
  { p with aliases := p.aliases ++
      [{ a with index := a.index + p.production.length
                finalIndex := a.finalIndex.map (· + p.production.length) }] }

/-- wop/src/builder.rs:15-20 `Builder`, with the hash maps as lists of pairs (in the order of
insertion, which nothing observes) and without the field `entry_type`. -/
structure Builder where
  aliases : List (Text × Span)
  rules : List (Text × RuleBuild)
  imports : List Span
  deriving DecidableEq, Repr

/-- `Builder::default()`, wop/src/builder.rs:14. -/
def Builder.empty : Builder := { aliases := [], rules := [], imports := [] }

/-- What the expansion of a rule reads: the source, the token aliases declared so far, and the orders
in which the hash sets are walked. -/
structure Env where
  src : Text
  aliases : List (Text × Span)
  order : Nat → List Span → List Span

/-- `last_mut().unwrap()` followed by an assignment, wop/src/builder.rs:209, 219, 250. -/
def modifyLast (f : ItemAlias → ItemAlias) : List ItemAlias → Out (List ItemAlias)
  | [] => .panic .unwrapNone
  | [a] => .ok [f a]
  | a :: as => do
    let r ← modifyLast f as
    return a :: r

/-- The assignment to the last alias of a production. -/
def ProductionBuild.modifyLast (f : ItemAlias → ItemAlias) (p : ProductionBuild) :
    Out ProductionBuild := do
  let r ← Wop.modifyLast f p.aliases
  return { p with aliases := r }

/-- wop/src/builder.rs:182-194 `get_definition`: the target of a token alias, or the span itself. -/
def Env.definition (E : Env) (sp : Span) : Out Span := do
  let text ← slice sp E.src
  return (E.aliases.lookup text).getD sp

/-- wop/src/builder.rs:274-290, the body of the inner loop: the first alias of that text becomes
`Some(true)`; without one, an alias `Some(false)` is added at the end. -/
def markAlias (src : Text) (name : Span) : List ItemAlias → Out (List ItemAlias)
  | [] => .ok [{ alias := name, optional := some false, index := 0, finalIndex := none,
                 clone := false }]
  | a :: as => do
    let x ← slice a.alias src
    let y ← slice name src
    if x = y then
      return { a with optional := some true } :: as
    else
      let r ← markAlias src name as
      return a :: r

/-- wop/src/builder.rs:273-291: the inner loop, over the alias names. -/
def markAliases (src : Text) : List Span → List ItemAlias → Out (List ItemAlias)
  | [], as => .ok as
  | name :: names, as => do
    let as ← markAlias src name as
    markAliases src names as

/-- The outer loop of wop/src/builder.rs:272-292, over the productions. -/
def markProds (src : Text) (names : List Span) : RuleBuild → Out RuleBuild
  | [] => .ok []
  | p :: ps => do
    let as ← markAliases src names p.aliases
    let ps ← markProds src names ps
    return { p with aliases := as } :: ps

/-- The elements of a list without repetition: a `HashSet` made from it, in one of its orders. -/
def dedup : List Span → List Span
  | [] => []
  | a :: as => if a ∈ as then dedup as else a :: dedup as

/-- wop/src/builder.rs:265-271: the alias names of the productions that are not in `base`. -/
def subNames (base : ProductionBuild) (prods : RuleBuild) : List Span :=
  (dedup (prods.flatMap (fun p => p.aliases.map (·.alias)))).filter
    (fun a => a ∉ base.aliases.map (·.alias))

/-- wop/src/builder.rs:264-293 `set_sub_aliases`, with the `n`-th hash set. -/
def Env.setSubAliases (E : Env) (n : Nat) (base : ProductionBuild) (prods : RuleBuild) :
    Out RuleBuild :=
  markProds E.src (E.order n (subNames base prods)) prods

/-- wop/src/builder.rs:223-234: the aliases of the first production that are missing from the
production that skips the group are added to it as `Some(false)`. -/
def addIgnored (clone : Bool) : List ItemAlias → List ItemAlias → List ItemAlias
  | [], as => as
  | a :: rest, as =>
    if as.any (fun b => b.alias = a.alias) then addIgnored clone rest as
    else addIgnored clone rest
      (as ++ [{ alias := a.alias, optional := some false, index := 0, finalIndex := none,
                clone := clone }])

/-- wop/src/builder.rs:150-154, the loop of `get_production` over the origins. -/
def forOrigins (f : ProductionBuild → Nat → Out (RuleBuild × Nat)) :
    List ProductionBuild → Nat → Out (RuleBuild × Nat)
  | [], n => .ok ([], n)
  | o :: os, n => do
    let (a, n) ← f o n
    let (b, n) ← forOrigins f os n
    return (a ++ b, n)

/-- wop/src/builder.rs:146-156 `get_production`, with the expansion of a single production as a
parameter. -/
def getProduction (f : ProductionBuild → Nat → Out (RuleBuild × Nat))
    (origins : List ProductionBuild) (pipe : List Gramem) (n : Nat) : Out (RuleBuild × Nat) :=
  if pipe.isEmpty then .ok (origins, n) else forOrigins f origins n

/-- wop/src/builder.rs:172-181: the alias of an item is recorded before the item. -/
def withAlias (prod : ProductionBuild) (opt : Bool) (alias : Option Span) (clone : Bool) :
    ProductionBuild :=
  match alias with
  | none => prod
  | some a =>
    prod.pushAlias { alias := a, optional := if opt then some true else none, index := 0,
                     finalIndex := none, clone := clone }

/-- wop/src/builder.rs:218-220, 249-251: the alias of a skipped item. -/
def skipAlias (prod : ProductionBuild) (alias : Option Span) : Out ProductionBuild :=
  if alias.isSome then prod.modifyLast (fun a => { a with optional := some false }) else .ok prod

/-- wop/src/builder.rs:208-211: the end of the range of the alias of a group. -/
def groupAlias (aliased : Bool) (prod : ProductionBuild) (len : Nat) : Out ProductionBuild :=
  if aliased then
    prod.modifyLast (fun a => { a with finalIndex := some (prod.production.length + len) })
  else .ok prod

mutual

/-- wop/src/builder.rs:158-259 `get_from_single_production`.  The counter is the number of hash sets
made so far. -/
def Env.single (E : Env) (prod : ProductionBuild) (pipe : List Gramem) (n : Nat) :
    Out (RuleBuild × Nat) :=
  match pipe with
  | [] => .ok ([prod], n)
  | ⟨⟨.ruleItem ⟨⟨inner, sp⟩, ty⟩ opt alias clone, _⟩, _⟩ :: rest =>
    let prod := withAlias prod opt alias clone
    if ty = .strLit ∨ ty = .identPath then do
      let d ← E.definition sp
      let full := { prod with production := prod.production ++ [d] }
      if opt then
        let ignored ← skipAlias prod alias
        getProduction (fun p n => E.single p rest n) [full, ignored] rest n
      else E.single full rest n
    else if ty = .rule then
      match inner with
      | .rule variants => do
        let (prod, prods, n) ← E.variants alias.isSome prod variants n
        let prods ← E.setSubAliases n prod prods
        if opt then
          let ignored ← skipAlias prod alias
          match prods with
          | [] => .panic .indexRange
          | first :: _ =>
            let ignored := { ignored with aliases := addIgnored clone first.aliases ignored.aliases }
            getProduction (fun p n => E.single p rest n) (prods ++ [ignored]) rest (n + 1)
        else getProduction (fun p n => E.single p rest n) prods rest (n + 1)
      | _ => .panic .unreachable
    else .panic .unreachable
  | _ :: _ => .panic .unreachable

/-- wop/src/builder.rs:201-214, the loop over the alternatives of a group.  Also returns `prod`,
whose last alias is assigned in the loop. -/
def Env.variants (E : Env) (aliased : Bool) (prod : ProductionBuild) (vs : List RulePipe) (n : Nat) :
    Out (ProductionBuild × RuleBuild × Nat) :=
  match vs with
  | [] => .ok (prod, [], n)
  | ⟨variant, block⟩ :: vs =>
    if block ≠ Span.new 0 0 then .panic .assertion
    else do
      let prod ← groupAlias aliased prod variant.length
      let (news, n) ← E.single prod variant n
      let (prod, prods, n) ← E.variants aliased prod vs n
      return (prod, news ++ prods, n)

end

/-- wop/src/builder.rs:121-135, the loop of `rule_decl` over the alternatives. -/
def Env.alternatives (E : Env) (ty : Span) : List RulePipe → Nat → Out (RuleBuild × Nat)
  | [], n => .ok ([], n)
  | (pipe, block) :: alts, n => do
    let text ← slice block E.src
    if text = [] then .panic .assertion
    else
      let base : ProductionBuild :=
        { production := [], codeblock := block, ty := ty, aliases := [] }
      let (a, n) ← getProduction (fun p n => E.single p pipe n) [base] pipe n
      let (b, n) ← E.alternatives ty alts n
      return (a ++ b, n)

/-- wop/src/builder.rs:119-144 `rule_decl`. -/
def Builder.ruleDecl (b : Builder) (order : Nat → List Span → List Span) (src : Text)
    (ident ty : Span) (rule : List RulePipe) (n : Nat) : Out (Builder × Nat) := do
  let E : Env := { src := src, aliases := b.aliases, order := order }
  let (prods, n) ← E.alternatives ty rule n
  let name ← slice ident src
  if (b.rules.lookup name).isSome then .panic .assertion
  else return ({ b with rules := b.rules ++ [(name, prods)] }, n)

/-- wop/src/builder.rs:295-304 `token_decl`. -/
def Builder.tokenDecl (b : Builder) (src : Text) (tk alias : Span) : Out Builder := do
  let name ← slice tk src
  if (b.aliases.lookup name).isSome then .panic .assertion
  else return { b with aliases := b.aliases ++ [(name, alias)] }

/-- wop/src/builder.rs:306-308 `use_decl`. -/
def Builder.useDecl (b : Builder) (decl : Span) : Builder :=
  { b with imports := b.imports ++ [decl] }

/-- wop/src/builder.rs:107-116, the loop of `process` over the declarations. -/
def Builder.declarations (order : Nat → List Span → List Span) (src : Text) :
    List Gramem → Builder → Nat → Out (Builder × Nat)
  | [], b, n => .ok (b, n)
  | d :: ds, b, n =>
    match d.item.item with
    | .ruleDecl ident ty rule => do
      let (b, n) ← b.ruleDecl order src ident ty rule n
      declarations order src ds b n
    | .import_ decl => declarations order src ds (b.useDecl decl) n
    | .alias tk target => do
      let b ← b.tokenDecl src tk target
      declarations order src ds b n
    | _ => .panic .unreachable

/-- wop/src/builder.rs:97-117 `process` and `get_program_instructions`. -/
def Builder.process (order : Nat → List Span → List Span) (src : Text) (b : Builder) (ast : Gramem) :
    Out Builder :=
  match ast.item.item with
  | .program ds => do
    let (b, _) ← Builder.declarations order src ds b 0
    return b
  | _ => .panic .unreachable

/-! ### The generated code -/

/-- A token or a slice of tokens. -/
inductive Piece (τ : Type) where
  | one (t : τ)
  | many (ts : List τ)
  deriving DecidableEq, Repr

/-- What a generated `let` binds its variable to: a piece, `Some` of one, or `None`.  Copies and
references are not distinguished. -/
inductive Value (τ : Type) where
  | bare (v : Piece τ)
  | some (v : Piece τ)
  | none
  deriving DecidableEq, Repr

/-- wop/src/builder.rs:60-63: the value of the index expression, `toks[i]` or `toks[i..j]`. -/
def piece {τ : Type} (toks : List τ) (index : Nat) (finalIndex : Option Nat) : Out (Piece τ) :=
  match finalIndex with
  | none =>
    match toks[index]? with
    | some t => .ok (.one t)
    | none => .panic .indexRange
  | some stop => do
    let ts ← (Span.new index stop).fromSource toks
    return .many ts

/-- wop/src/builder.rs:58-84 `ItemAlias::write`: the value the emitted line binds the alias to, when
the reductor is called with the items `toks`.  The line emitted for `Some(false)` evaluates `toks[0]`
before it assigns `None`. -/
def ItemAlias.value {τ : Type} (a : ItemAlias) (toks : List τ) : Out (Value τ) :=
  match a.optional with
  | some true => do
    let v ← piece toks a.index a.finalIndex
    return .some v
  | some false =>
    match toks with
    | [] => .panic .indexRange
    | _ :: _ => .ok .none
  | none => do
    let v ← piece toks a.index a.finalIndex
    return .bare v

/-- wop/src/builder.rs:374-377, the generated `let`s of a reductor, run in order on `toks`: the names
with their values. -/
def runLets {τ : Type} (src : Text) (toks : List τ) : List ItemAlias → Out (List (Text × Value τ))
  | [] => .ok []
  | a :: as => do
    let name ← slice a.alias src
    let v ← a.value toks
    let r ← runLets src toks as
    return (name, v) :: r

/-- The value of a variable after the `let`s: the last one of that name counts. -/
def valueOf {τ : Type} (lets : List (Text × Value τ)) (name : Text) : Option (Value τ) :=
  lets.reverse.lookup name

/-- `strip_prefix("->").unwrap().strip_suffix('%').unwrap()`, wop/src/builder.rs:381. -/
def stripBlock (text : Text) : Out Text :=
  match text with
  | 45 :: 62 :: rest =>
    match rest.reverse with
    | 37 :: r => .ok r.reverse
    | _ => .panic .unwrapNone
  | _ => .panic .unwrapNone

/-- The texts of spans, in order; `from_source` panics out of range. -/
def texts (src : Text) : List Span → Out (List Text)
  | [] => .ok []
  | s :: ss => do
    let t ← slice s src
    let ts ← texts src ss
    return t :: ts

/-- wop/src/builder.rs:336-342, the body of `write_rule`: the symbol texts of every production. -/
def writeRule (src : Text) : RuleBuild → Out (List (List Text))
  | [] => .ok []
  | p :: ps => do
    let t ← texts src p.production
    let ts ← writeRule src ps
    return t :: ts

/-- A generated reductor: the return type, the `let`s and the code. -/
structure Reductor where
  ty : Text
  lets : List ItemAlias
  code : Text
  deriving DecidableEq, Repr

/-- wop/src/builder.rs:373-384, the loop of `write_rule_reduction`. -/
def writeReductors (src : Text) (ty : Text) : RuleBuild → Out (List Reductor)
  | [] => .ok []
  | p :: ps => do
    let _ ← texts src (p.aliases.map (·.alias))
    let block ← slice p.codeblock src
    let code ← stripBlock block
    let rs ← writeReductors src ty ps
    return { ty := ty, lets := p.aliases, code := code } :: rs

/-- wop/src/builder.rs:365-390 `write_rule_reduction`: the functions, in the order in which they are
listed in the reductor vector. -/
def writeReduction (src : Text) (prods : RuleBuild) : Out (List Reductor) :=
  match prods with
  | [] => .panic .indexRange
  | p :: _ => do
    let ty ← slice p.ty src
    writeReductors src ty prods

end Lrp.Wop
