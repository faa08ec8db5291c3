import Verif.Model.Grammar
import Verif.Model.Span

/-! Model of the syntax trees and symbols of the grammar language `wop` (wop/src/lib.rs). -/

namespace Lrp.Wop

/-- wop/src/lib.rs:41-118 `Sym`, in declaration order (the order of the derived `Ord`). -/
inductive Sym where
  | aliasWord
  | useWord
  | assign
  | pipe
  | openParen
  | closeParen
  | sc
  | pathAccess
  | twoDots
  | glob
  | optional
  | clone
  | ident
  | strLit
  | blockComment
  | lineComment
  | codeBlock
  | error
  | ws
  | eof
  | token
  | entryPoint
  | program
  | rule
  | import_
  | alias
  | rulePipe
  | ruleDecl
  | identPath
  | ruleItem
  deriving DecidableEq, Repr

/-- The position of a symbol in the declaration of `Sym`. -/
def Sym.idx (s : Sym) : Nat := s.ctorIdx

theorem Sym.idx_inj {a b : Sym} (h : a.idx = b.idx) : a = b := by
  cases a <;> cases b <;> first | rfl | exact absurd h (by decide)

/-- The derived `Ord` of `Sym` (wop/src/lib.rs:40). -/
instance : LinOrd Sym where
  cmp a b := cmp a.idx b.idx
  cmp_eq := ⟨fun h => Sym.idx_inj (LinOrd.cmp_eq.mp h), fun h => h ▸ LinOrd.cmp_eq.mpr rfl⟩
  cmp_swap a b := LinOrd.cmp_swap a.idx b.idx
  cmp_trans := LinOrd.cmp_trans

/-- src/lib.rs:72-75 `Meta`. -/
structure Meta (α : Type) where
  item : α
  span : Span

/-- wop/src/lib.rs:8-24 `Ast`.  `Box` is not modelled; the tuple `RuleDecl` (line 36) is spelled
out. -/
inductive Ast where
  | token (s : Sym)
  | entryPoint (g : Token (Meta Ast) Sym)
  | program (gs : List (Token (Meta Ast) Sym))
  | ruleDecl (ident ty : Span) (rule : List (List (Token (Meta Ast) Sym) × Span))
  | rule (pipes : List (List (Token (Meta Ast) Sym) × Span))
  | rulePipe (gs : List (Token (Meta Ast) Sym))
  | ruleItem (item : Token (Meta Ast) Sym) (optional : Bool) (alias : Option Span) (clone : Bool)
  | import_ (decl : Span)
  | alias (tk target : Span)
  | identPath (sp : Span)

/-- wop/src/lib.rs:38 `Gramem`. -/
abbrev Gramem := Token (Meta Ast) Sym

/-- wop/src/lib.rs:37 `RulePipe`: an alternative with its code block. -/
abbrev RulePipe := List Gramem × Span

/-- wop/src/lib.rs:26-34 `Ast::get_src_ref`. -/
def Ast.srcRef : Ast → Option Span
  | .identPath o => some o
  | _ => none

end Lrp.Wop
