import Verif.Model.Automaton
import Verif.Model.Dfa
import Verif.Model.WopBuilder

/-! Model of the parser of the grammar language `wop` (wop/src/out.rs), of `build_parser`
(wop/src/lib.rs:130-134) and of `Builder::from_str` (wop/src/builder.rs:391-403).

The lexer (logos) is not modelled: a source is given together with the tokens the lexer makes of
it. -/

namespace Lrp.Wop

/-- wop/src/out.rs:9-108, the rules of `grammar()`, in the order of their insertion. -/
def outRules : List (Sym × List (List Sym)) :=
  [(.ruleItem,
     [[.identPath, .optional, .twoDots, .clone, .ident],
      [.identPath, .optional, .twoDots, .ident],
      [.identPath, .optional],
      [.identPath, .twoDots, .clone, .ident],
      [.identPath, .twoDots, .ident],
      [.identPath],
      [.strLit, .optional, .twoDots, .clone, .ident],
      [.strLit, .optional, .twoDots, .ident],
      [.strLit, .optional],
      [.strLit, .twoDots, .clone, .ident],
      [.strLit, .twoDots, .ident],
      [.strLit],
      [.openParen, .rule, .closeParen, .optional, .twoDots, .clone, .ident],
      [.openParen, .rule, .closeParen, .optional, .twoDots, .ident],
      [.openParen, .rule, .closeParen, .optional],
      [.openParen, .rule, .closeParen, .twoDots, .clone, .ident],
      [.openParen, .rule, .closeParen, .twoDots, .ident],
      [.openParen, .rule, .closeParen]]),
   (.identPath, [[.identPath, .pathAccess, .ident], [.ident]]),
   (.entryPoint, [[.program]]),
   (.rule,
     [[.rule, .pipe, .rulePipe, .codeBlock],
      [.rule, .pipe, .rulePipe],
      [.rulePipe, .codeBlock],
      [.rulePipe]]),
   (.rulePipe, [[.rulePipe, .ruleItem], [.ruleItem]]),
   (.import_, [[.useWord, .identPath, .pathAccess, .glob], [.useWord, .identPath]]),
   (.alias, [[.aliasWord, .ident, .identPath], [.aliasWord, .strLit, .identPath]]),
   (.program,
     [[.program, .import_, .sc],
      [.program, .alias, .sc],
      [.program, .ruleDecl, .sc],
      [.alias, .sc],
      [.import_, .sc],
      [.ruleDecl, .sc]]),
   (.ruleDecl, [[.identPath, .twoDots, .identPath, .assign, .rule]])]

/-- wop/src/out.rs:6-112 `grammar()`. -/
def outGrammar (dbg : Bool) : Out (Grammar Sym) :=
  Grammar.new dbg .entryPoint (grammarMap outRules) .eof

/-! ### The reductors

`none` stands for a panic: an index out of range, `unwrap` of `None`, or `unreachable!`. -/

/-- The frame of every generated reductor: `Meta::new({…}, Span::new(toks[0].item.span.start,
toks.last().unwrap().item.span.end))`. -/
def framed (f : List Gramem → Option Ast) (toks : List Gramem) : Option (Meta Ast) := do
  let ast ← f toks
  let first ← toks[0]?
  let last ← toks.getLast?
  return { item := ast, span := Span.new first.item.span.start last.item.span.stop }

/-- The lets of an optional alias: `let x = Some(toks[i].clone());`, or, when it was not taken,
`let mut x = Some(toks[0].clone()); x = None; let x = x;`. -/
def optLet (toks : List Gramem) : Option Nat → Option (Option Gramem)
  | some i => toks[i]?.map some
  | none => toks[0]?.map (fun _ => none)

/-- wop/src/out.rs:127-510 `lrp_wop_RuleItem_0` to `_17`: the positions of `item` (or `rule`), `opt`,
`cl` and `id`. -/
def outRuleItem (item : Nat) (opt cl id : Option Nat) (toks : List Gramem) : Option Ast := do
  let it ← toks[item]?
  let opt ← optLet toks opt
  let cl ← optLet toks cl
  let id ← optLet toks id
  return .ruleItem it opt.isSome (id.map (fun id => id.item.span)) cl.isSome

/-- wop/src/out.rs:535-547 `lrp_wop_IdentPath_0`. -/
def outIdentPath0 (toks : List Gramem) : Option Ast := do
  let ip ← toks[0]?
  let ext ← toks[2]?
  return .identPath (Span.new ip.item.span.start ext.item.span.stop)

/-- wop/src/out.rs:548-557 `lrp_wop_IdentPath_1`. -/
def outIdentPath1 (toks : List Gramem) : Option Ast := do
  let t ← toks[0]?
  return .identPath t.item.span

/-- wop/src/out.rs:560-570 `lrp_wop_EntryPoint_0`. -/
def outEntryPoint (toks : List Gramem) : Option Ast := do
  let p ← toks[0]?
  return .entryPoint p

/-- `match x { Ast::Rule(ref v) => v.clone(), _ => unreachable!() }`. -/
def Ast.asRule : Ast → Option (List RulePipe)
  | .rule v => some v
  | _ => none

/-- The same for `Ast::RulePipe`. -/
def Ast.asRulePipe : Ast → Option (List Gramem)
  | .rulePipe v => some v
  | _ => none

/-- The same for `Ast::Program`. -/
def Ast.asProgram : Ast → Option (List Gramem)
  | .program v => some v
  | _ => none

/-- `cb.map_or_else(|| Span::new(0, 0), |g| g.item.span)`. -/
def blockSpan (cb : Option Gramem) : Span :=
  match cb with
  | none => Span.new 0 0
  | some g => g.item.span

/-- wop/src/out.rs:573-618 `lrp_wop_Rule_0` (`cb` at 3) and `lrp_wop_Rule_1` (no code block). -/
def outRuleMore (cb : Option Nat) (toks : List Gramem) : Option Ast := do
  let cb ← optLet toks cb
  let t0 ← toks[0]?
  let vec ← t0.item.item.asRule
  let t2 ← toks[2]?
  let v ← t2.item.item.asRulePipe
  return .rule (vec ++ [(v, blockSpan cb)])

/-- wop/src/out.rs:619-654 `lrp_wop_Rule_2` (`cb` at 1) and `lrp_wop_Rule_3` (no code block). -/
def outRuleOne (cb : Option Nat) (toks : List Gramem) : Option Ast := do
  let cb ← optLet toks cb
  let t0 ← toks[0]?
  let prod ← t0.item.item.asRulePipe
  return .rule [(prod, blockSpan cb)]

/-- wop/src/out.rs:665-680 `lrp_wop_RulePipe_0`. -/
def outRulePipe0 (toks : List Gramem) : Option Ast := do
  let item ← toks[1]?
  let t0 ← toks[0]?
  let v ← t0.item.item.asRulePipe
  return .rulePipe (v ++ [item])

/-- wop/src/out.rs:681-690 `lrp_wop_RulePipe_1`: `toks[..1].to_vec()`. -/
def outRulePipe1 (toks : List Gramem) : Option Ast := do
  if 1 ≤ toks.length then return .rulePipe (toks.take 1) else none

/-- wop/src/out.rs:693-718 `lrp_wop_Import_0` and `_1`. -/
def outImport (toks : List Gramem) : Option Ast := do
  let t1 ← toks[1]?
  let last ← toks.getLast?
  return .import_ (Span.new t1.item.span.start last.item.span.stop)

/-- wop/src/out.rs:721-740 `lrp_wop_Alias_0` and `_1`. -/
def outAlias (toks : List Gramem) : Option Ast := do
  let t1 ← toks[1]?
  let t2 ← toks[2]?
  return .alias t1.item.span t2.item.span

/-- wop/src/out.rs:743-793 `lrp_wop_Program_0` to `_2`. -/
def outProgramMore (toks : List Gramem) : Option Ast := do
  let ext ← toks[1]?
  let t0 ← toks[0]?
  let vec ← t0.item.item.asProgram
  return .program (vec ++ [ext])

/-- wop/src/out.rs:794-826 `lrp_wop_Program_3` to `_5`: `toks[0..1].to_vec()`. -/
def outProgramOne (toks : List Gramem) : Option Ast := do
  if 1 ≤ toks.length then return .program (toks.take 1) else none

/-- wop/src/out.rs:839-854 `lrp_wop_RuleDecl_0`. -/
def outRuleDecl (toks : List Gramem) : Option Ast := do
  let t0 ← toks[0]?
  let ident ← t0.item.item.srcRef
  let t2 ← toks[2]?
  let ty ← t2.item.item.srcRef
  let t4 ← toks[4]?
  let vec ← t4.item.item.asRule
  return .ruleDecl ident ty vec

/-- wop/src/out.rs:122-858 `reduct_map()`. -/
def outReducts : ReductMap (Meta Ast) Sym :=
  OMap.ofList
    [(.ruleItem,
       [framed (outRuleItem 0 (some 1) (some 3) (some 4)),
        framed (outRuleItem 0 (some 1) (some 3) (some 3)),
        framed (outRuleItem 0 (some 1) none none),
        framed (outRuleItem 0 none (some 2) (some 3)),
        framed (outRuleItem 0 none (some 2) (some 2)),
        framed (outRuleItem 0 none none none),
        framed (outRuleItem 0 (some 1) (some 3) (some 4)),
        framed (outRuleItem 0 (some 1) (some 3) (some 3)),
        framed (outRuleItem 0 (some 1) none none),
        framed (outRuleItem 0 none (some 2) (some 3)),
        framed (outRuleItem 0 none (some 2) (some 2)),
        framed (outRuleItem 0 none none none),
        framed (outRuleItem 1 (some 3) (some 5) (some 6)),
        framed (outRuleItem 1 (some 3) (some 5) (some 5)),
        framed (outRuleItem 1 (some 3) none none),
        framed (outRuleItem 1 none (some 4) (some 5)),
        framed (outRuleItem 1 none (some 4) (some 4)),
        framed (outRuleItem 1 none none none)]),
     (.identPath, [framed outIdentPath0, framed outIdentPath1]),
     (.entryPoint, [framed outEntryPoint]),
     (.rule,
       [framed (outRuleMore (some 3)), framed (outRuleMore none),
        framed (outRuleOne (some 1)), framed (outRuleOne none)]),
     (.rulePipe, [framed outRulePipe0, framed outRulePipe1]),
     (.import_, [framed outImport, framed outImport]),
     (.alias, [framed outAlias, framed outAlias]),
     (.program,
       [framed outProgramMore, framed outProgramMore, framed outProgramMore,
        framed outProgramOne, framed outProgramOne, framed outProgramOne]),
     (.ruleDecl, [framed outRuleDecl])]

/-- wop/src/lib.rs:130-134 `build_parser`. -/
def buildParser (dbg : Bool) (fuel : Nat) (buffer : List Gramem) : Out (Dfa (Meta Ast) Sym) := do
  let g ← outGrammar dbg
  let t ← Slr.new dbg fuel g
  Parser.dfa t buffer outReducts

/-- wop/src/builder.rs:391-403 `Builder::from_str`, given the tokens of the source.  `dfa.items[0]`
is the bottom of the stack. -/
def Builder.fromStr (dbg : Bool) (order : Nat → List Span → List Span) (fuel : Nat) (src : Text)
    (toks : List Gramem) : Out (Except (Error Sym) Builder) := do
  let dfa ← buildParser dbg fuel toks
  match ← dfa.start fuel with
  | (_, .error e) => return .error e
  | (dfa, .ok ()) =>
    match dfa.items.getLast? with
    | none => .panic .indexRange
    | some ast => do
      let b ← Builder.process order src Builder.empty ast
      return .ok b

end Lrp.Wop
