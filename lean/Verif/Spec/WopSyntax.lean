import Verif.Spec.Wop

/-! The concrete syntax of `wop`: which tokens a program may be written with, and the declarations that
they then stand for.  Nothing here mentions the grammar, the parser or the syntax trees of wop. -/

namespace Lrp.Wop.Spec

/-- The symbols the lexer returns (wop/src/lib.rs:42-103): those with a pattern that is not skipped, and
`Error`. -/
def lexSyms : List Sym :=
  [.aliasWord, .useWord, .assign, .pipe, .openParen, .closeParen, .sc, .pathAccess, .twoDots, .glob,
   .optional, .clone, .ident, .strLit, .codeBlock, .error]

/-- The tokens may come from the lexer (wop/src/lib.rs:121-127) on the source: they are not empty, lie
in the source one after the other, cut no character in two, and each carries its symbol. -/
structure Lexed (src : Text) (toks : List Gramem) : Prop where
  plain : ∀ t ∈ toks, t.item.item = .token t.ty ∧ t.ty ∈ lexSyms
  inside : ∀ t ∈ toks, t.item.span.start < t.item.span.stop ∧ t.item.span.stop ≤ src.length
  whole : ∀ t ∈ toks, Boundary src t.item.span.start ∧ Boundary src t.item.span.stop
  ordered : toks.Pairwise (fun a b => a.item.span.stop ≤ b.item.span.start)

/-- `a :: b :: c`, with the span it covers. -/
inductive ReadsPath : List Gramem → Span → Prop
  | one {t : Gramem} : t.ty = .ident → ReadsPath [t] t.item.span
  | more {ts : List Gramem} {sp : Span} {c i : Gramem} : ReadsPath ts sp → c.ty = .pathAccess →
      i.ty = .ident → ReadsPath (ts ++ [c, i]) (Span.new sp.start i.item.span.stop)

/-- The marks of an item: `?` if it is optional. -/
inductive ReadsOpt : List Gramem → Bool → Prop
  | no : ReadsOpt [] false
  | yes {t : Gramem} : t.ty = .optional → ReadsOpt [t] true

/-- The marks of an item: `:name` or `:&name` if it has an alias. -/
inductive ReadsAlias : List Gramem → Option Span → Bool → Prop
  | none : ReadsAlias [] .none false
  | ref {c i : Gramem} : c.ty = .twoDots → i.ty = .ident →
      ReadsAlias [c, i] (some i.item.span) false
  | clone {c e i : Gramem} : c.ty = .twoDots → e.ty = .clone → i.ty = .ident →
      ReadsAlias [c, e, i] (some i.item.span) true

/-- A code block; `(0, 0)` stands for none. -/
inductive ReadsBlock : List Gramem → Span → Prop
  | none : ReadsBlock [] (Span.new 0 0)
  | some {t : Gramem} : t.ty = .codeBlock → ReadsBlock [t] t.item.span

mutual

/-- An item, with the code blocks written inside of it. -/
inductive ReadsItem : List Gramem → Item → List Span → Prop
  | path {ts os as : List Gramem} {sp : Span} {opt clone : Bool} {alias : Option Span} :
      ReadsPath ts sp → ReadsOpt os opt → ReadsAlias as alias clone →
      ReadsItem (ts ++ os ++ as) (.sym sp opt alias clone) []
  | lit {t : Gramem} {os as : List Gramem} {opt clone : Bool} {alias : Option Span} :
      t.ty = .strLit → ReadsOpt os opt → ReadsAlias as alias clone →
      ReadsItem ([t] ++ os ++ as) (.sym t.item.span opt alias clone) []
  | group {o c : Gramem} {ts os as : List Gramem} {alts : List Alt} {opt clone : Bool}
      {alias : Option Span} : o.ty = .openParen → ReadsRule ts alts → c.ty = .closeParen →
      ReadsOpt os opt → ReadsAlias as alias clone →
      ReadsItem ((o :: ts ++ [c]) ++ os ++ as) (.group (alts.map Alt.items) opt alias clone)
        (alts.flatMap (fun a => a.block :: a.inner))

/-- Items one after the other. -/
inductive ReadsItems : List Gramem → List Item → List Span → Prop
  | one {ts : List Gramem} {i : Item} {bs : List Span} : ReadsItem ts i bs → ReadsItems ts [i] bs
  | more {ts us : List Gramem} {is : List Item} {i : Item} {bs cs : List Span} :
      ReadsItems ts is bs → ReadsItem us i cs → ReadsItems (ts ++ us) (is ++ [i]) (bs ++ cs)

/-- Alternatives separated by `|`, each with at most one code block at its end. -/
inductive ReadsRule : List Gramem → List Alt → Prop
  | one {ts us : List Gramem} {is : List Item} {bs : List Span} {b : Span} :
      ReadsItems ts is bs → ReadsBlock us b → ReadsRule (ts ++ us) [⟨is, b, bs⟩]
  | more {rs ts us : List Gramem} {p : Gramem} {alts : List Alt} {is : List Item} {bs : List Span}
      {b : Span} : ReadsRule rs alts → p.ty = .pipe → ReadsItems ts is bs → ReadsBlock us b →
      ReadsRule (rs ++ (p :: ts) ++ us) (alts ++ [⟨is, b, bs⟩])

end

/-- A declaration. -/
inductive ReadsDecl : List Gramem → Decl → Prop
  | rule {is ts rs : List Gramem} {ident ty : Span} {c e : Gramem} {alts : List Alt} :
      ReadsPath is ident → c.ty = .twoDots → ReadsPath ts ty → e.ty = .assign → ReadsRule rs alts →
      ReadsDecl (is ++ c :: ts ++ e :: rs) (.rule ident ty alts)
  | use {u : Gramem} {ts : List Gramem} {sp : Span} : u.ty = .useWord → ReadsPath ts sp →
      ReadsDecl (u :: ts) (.use sp)
  | useAll {u c g : Gramem} {ts : List Gramem} {sp : Span} : u.ty = .useWord → ReadsPath ts sp →
      c.ty = .pathAccess → g.ty = .glob →
      ReadsDecl (u :: ts ++ [c, g]) (.use (Span.new sp.start g.item.span.stop))
  | token {a n : Gramem} {ts : List Gramem} {sp : Span} : a.ty = .aliasWord →
      n.ty = .ident ∨ n.ty = .strLit → ReadsPath ts sp →
      ReadsDecl (a :: n :: ts) (.token n.item.span sp)

/-- A program: at least one declaration, each with a semicolon. -/
inductive ReadsProgram : List Gramem → List Decl → Prop
  | one {ts : List Gramem} {d : Decl} {s : Gramem} : ReadsDecl ts d → s.ty = .sc →
      ReadsProgram (ts ++ [s]) [d]
  | more {ps ts : List Gramem} {ds : List Decl} {d : Decl} {s : Gramem} : ReadsProgram ps ds →
      ReadsDecl ts d → s.ty = .sc → ReadsProgram (ps ++ ts ++ [s]) (ds ++ [d])

/-- From the start of the first token to the end of the last. -/
def cover (toks : List Gramem) : Option Span :=
  match toks.head?, toks.getLast? with
  | some a, some b => some (Span.new a.item.span.start b.item.span.stop)
  | _, _ => none

mutual

/-- The item, with the flag `&` on every alias. -/
def Item.cloning : Item → Item
  | .sym sp opt alias _ => .sym sp opt alias alias.isSome
  | .group alts opt alias _ => .group (altCloning alts) opt alias alias.isSome

/-- The same for lists of items. -/
def cloning : List Item → List Item
  | [] => []
  | i :: is => i.cloning :: cloning is

/-- The same for alternatives. -/
def altCloning : List (List Item) → List (List Item)
  | [] => []
  | a :: as => cloning a :: altCloning as

end

/-- The same for an alternative of a rule. -/
def Alt.cloning (a : Alt) : Alt := { a with items := Spec.cloning a.items }

/-- The same for declarations. -/
def Decl.cloning : Decl → Decl
  | .rule ident ty alts => .rule ident ty (alts.map Alt.cloning)
  | .use path => .use path
  | .token name target => .token name target

end Lrp.Wop.Spec
