import Verif.Model.WopText
import Verif.Model.WopOut

/-! Model of what the command line program `wop` prints of a syntax tree (wop/src/main.rs:72-145), byte
for byte. -/

namespace Lrp.Wop

/-- The derived `Debug` of `Sym` (wop/src/lib.rs:40-118). -/
def Sym.debug : Sym → Text
  | .aliasWord => ascii "AliasWord"
  | .useWord => ascii "UseWord"
  | .assign => ascii "Assign"
  | .pipe => ascii "Pipe"
  | .openParen => ascii "OpenParen"
  | .closeParen => ascii "CloseParen"
  | .sc => ascii "Sc"
  | .pathAccess => ascii "PathAccess"
  | .twoDots => ascii "TwoDots"
  | .glob => ascii "Glob"
  | .optional => ascii "Optional"
  | .clone => ascii "Clone"
  | .ident => ascii "Ident"
  | .strLit => ascii "StrLit"
  | .blockComment => ascii "BlockComment"
  | .lineComment => ascii "LineComment"
  | .codeBlock => ascii "CodeBlock"
  | .error => ascii "Error"
  | .ws => ascii "Ws"
  | .eof => ascii "Eof"
  | .token => ascii "Token"
  | .entryPoint => ascii "EntryPoint"
  | .program => ascii "Program"
  | .rule => ascii "Rule"
  | .import_ => ascii "Import"
  | .alias => ascii "Alias"
  | .rulePipe => ascii "RulePipe"
  | .ruleDecl => ascii "RuleDecl"
  | .identPath => ascii "IdentPath"
  | .ruleItem => ascii "RuleItem"

/-- wop/src/main.rs:72: `TAB_C.repeat(lvl)`. -/
def tabs : Nat → Text
  | 0 => []
  | n + 1 => ascii "  " ++ tabs n

/-- The text in quotes and yellow, and the end of the line (wop/src/main.rs:85 and others). -/
def yellow (t : Text) : Text := ascii "\x1b[1;33m\"" ++ t ++ ascii "\"\x1b[0;m\n"

/-- `strip_prefix("->").unwrap_or("(null)")` (wop/src/main.rs:111, 122). -/
def stripArrow : Text → Text
  | 45 :: 62 :: t => t
  | _ => ascii "(null)"

/-- How a `bool` is printed. -/
def boolText (b : Bool) : Text := if b then ascii "true" else ascii "false"

mutual

/-- wop/src/main.rs:74-145 `print_nested`: what is printed for a token of the tree.  `quote` is the `Debug`
of `str` (line 139). -/
def printNested (quote : Text → Text) (txt : Text) : Gramem → Text → Nat → Out Text
  | ⟨⟨ast, sp⟩, ty⟩, pre, lvl => do
    let t ← slice sp txt
    let ts ← printAst quote txt (lvl + 1) ast
    return tabs lvl ++ pre ++ ty.debug ++ ascii ": " ++ yellow t ++ ts

/-- wop/src/main.rs:92-144, the `match`. -/
def printAst (quote : Text → Text) (txt : Text) (lvl : Nat) : Ast → Out Text
  | .token s => .ok (tabs lvl ++ ascii "|> sym: " ++ s.debug ++ ascii "\n")
  | .entryPoint g => printNested quote txt g [] lvl
  | .program gs => printAll quote txt lvl gs
  | .ruleDecl ident ty rule => do
    let i ← slice ident txt
    let t ← slice ty txt
    let ps ← printPipes quote txt lvl 0 rule
    return tabs lvl ++ ascii "|> rule_name: " ++ yellow i ++ tabs lvl ++ ascii "|> rule_type: " ++ yellow t ++ ps
  | .rule pipes => printPipes quote txt lvl 0 pipes
  | .rulePipe gs => printAll quote txt lvl gs
  | .import_ g => do
    let t ← slice g txt
    return tabs lvl ++ ascii "|> path: " ++ t ++ ascii "\n"
  | .alias g h => do
    let t ← slice g txt
    let u ← slice h txt
    return tabs lvl ++ ascii "|> alias: " ++ t ++ ascii "\n" ++ tabs lvl ++ ascii "|> definition: " ++ u ++
      ascii "\n"
  | .identPath g => do
    let t ← slice g txt
    return tabs lvl ++ ascii " " ++ t ++ ascii "\n"
  | .ruleItem g o a c => do
    let t ← printNested quote txt g [] lvl
    let u ← match a with
      | none => .ok (ascii "(null)")
      | some a => do
        let u ← slice a txt
        return quote u
    return t ++ tabs lvl ++ ascii "|> optional: " ++ boolText o ++ ascii "\n" ++ tabs lvl ++
      ascii "|> clone: " ++ boolText c ++ ascii "\n" ++ tabs lvl ++ ascii "|> alias: " ++ u ++ ascii "\n"

/-- wop/src/main.rs:75-82 `print_iter_nested`, with the prefix `"- "` of all its calls. -/
def printAll (quote : Text → Text) (txt : Text) (lvl : Nat) : List Gramem → Out Text
  | [] => .ok []
  | g :: gs => do
    let t ← printNested quote txt g (ascii "- ") lvl
    let ts ← printAll quote txt lvl gs
    return t ++ ts

/-- wop/src/main.rs:105-113, 116-124: the alternatives of a rule, from number `i` on. -/
def printPipes (quote : Text → Text) (txt : Text) (lvl : Nat) : Nat → List RulePipe → Out Text
  | _, [] => .ok []
  | i, ⟨gs, block⟩ :: ps => do
    let t ← printAll quote txt (lvl + 1) gs
    let u ← slice block txt
    let ts ← printPipes quote txt lvl (i + 1) ps
    return tabs lvl ++ ascii "|> production " ++ decimal i ++ ascii ":\n" ++ t ++ tabs lvl ++
      ascii "|> reductor " ++ decimal i ++ ascii ": " ++ yellow (stripArrow u) ++ ts

end

end Lrp.Wop
