import Verif.Spec.WopLang
import Verif.Model.WopText

/-! How the texts written by `wop` are read: the tokens of Rust, and the few kinds of statements that occur
in them.  Comments and character literals are not known here. -/

namespace Lrp.Wop.Spec

/-! ### Tokens -/

/-- A token: a word (an identifier, a keyword or a number), a string literal, or another character. -/
inductive Tok where
  | word (w : Text)
  | str (w : Text)
  | char (c : Nat)
  deriving DecidableEq, Repr

/-- The bytes of words. -/
def wordByte (c : Nat) : Bool :=
  (97 ≤ c && c ≤ 122) || (65 ≤ c && c ≤ 90) || (48 ≤ c && c ≤ 57) || c == 95 || 128 ≤ c

/-- White space. -/
def blankByte (c : Nat) : Bool := c == 32 || c == 9 || c == 10 || c == 13

/-- Where the reader stands: between tokens, after the bytes of a word, or in a string literal (after a
backslash or not). -/
inductive Scan where
  | idle
  | word (w : Text)
  | str (w : Text) (esc : Bool)
  deriving DecidableEq, Repr

/-- One byte, between tokens. -/
def stepIdle (c : Nat) : Scan × List Tok :=
  if wordByte c then (.word [c], [])
  else if c = 34 then (.str [34] false, [])
  else if blankByte c then (.idle, [])
  else (.idle, [.char c])

/-- One byte. -/
def step : Scan → Nat → Scan × List Tok
  | .idle, c => stepIdle c
  | .word w, c =>
    if wordByte c then (.word (w ++ [c]), [])
    else ((stepIdle c).1, .word w :: (stepIdle c).2)
  | .str w esc, c =>
    if esc then (.str (w ++ [c]) false, [])
    else if c = 92 then (.str (w ++ [c]) true, [])
    else if c = 34 then (.idle, [.str (w ++ [c])])
    else (.str (w ++ [c]) false, [])

/-- A text. -/
def scan : Scan → Text → Scan × List Tok
  | s, [] => (s, [])
  | s, c :: t => ((scan (step s c).1 t).1, (step s c).2 ++ (scan (step s c).1 t).2)

/-- The last token. -/
def Scan.rest : Scan → List Tok
  | .idle => []
  | .word w => [.word w]
  | .str w _ => [.str w]

/-- The tokens of a text. -/
def toksOf (t : Text) : List Tok := (scan .idle t).2 ++ (scan .idle t).1.rest

/-- All string literals of the text are closed. -/
def Closed (t : Text) : Prop := ∀ w e, (scan .idle t).1 ≠ .str w e

/-- The tokens of a piece of Rust. -/
def rust (s : String) : List Tok := toksOf (ascii s)

/-- A single word. -/
def IsWord (t : Text) : Prop := t ≠ [] ∧ ∀ c ∈ t, wordByte c = true

/-! ### Reading -/

/-- The given tokens come first. -/
def expect : List Tok → List Tok → Option (List Tok)
  | [], ts => some ts
  | _ :: _, [] => none
  | p :: ps, t :: ts => if p = t then expect ps ts else none

/-- The tokens up to the given one. -/
def upTo (stop : Tok) : List Tok → Option (List Tok × List Tok)
  | [] => none
  | t :: ts =>
    if t = stop then some ([], ts)
    else
      match upTo stop ts with
      | some (u, rest) => some (t :: u, rest)
      | none => none

/-- The tokens up to the brace that closes. -/
def upToBrace : Nat → List Tok → Option (List Tok × List Tok)
  | _, [] => none
  | d, t :: ts =>
    if t = .char 125 ∧ d = 0 then some ([], ts)
    else
      match upToBrace (if t = .char 123 then d + 1 else if t = .char 125 then d - 1 else d) ts with
      | some (u, rest) => some (t :: u, rest)
      | none => none

/-- The braces that are open after the tokens, if no more are closed than were open. -/
def balance : Nat → List Tok → Option Nat
  | d, [] => some d
  | d, t :: ts =>
    if t = .char 123 then balance (d + 1) ts
    else if t = .char 125 then (match d with | 0 => none | d + 1 => balance d ts)
    else balance d ts

/-- A word. -/
def readWord : List Tok → Option (Text × List Tok)
  | .word w :: ts => some (w, ts)
  | _ => none

/-- The digits of a number. -/
def readDigits : Nat → Text → Option Nat
  | n, [] => some n
  | n, c :: t => if 48 ≤ c ∧ c ≤ 57 then readDigits (10 * n + (c - 48)) t else none

/-- A number. -/
def readNat (ts : List Tok) : Option (Nat × List Tok) :=
  match readWord ts with
  | some (c :: w, ts) =>
    match readDigits 0 (c :: w) with
    | some n => some (n, ts)
    | none => none
  | _ => none

/-! ### The imports and the grammar -/

/-- `use path; …`. -/
def readUses : Nat → List Tok → Option (List (List Tok) × List Tok)
  | 0, _ => none
  | n + 1, ts =>
    match expect (rust "use") ts with
    | none => some ([], ts)
    | some ts => do
      let (u, ts) ← upTo (.char 59) ts
      let (us, ts) ← readUses n ts
      return (u :: us, ts)

/-- `a, b, c, ]`. -/
def readItems : Nat → List Tok → Option (List (List Tok) × List Tok)
  | 0, _ => none
  | n + 1, ts =>
    match expect (rust "]") ts with
    | some ts => some ([], ts)
    | none => do
      let (u, ts) ← upTo (.char 44) ts
      let (us, ts) ← readItems n ts
      return (u :: us, ts)

/-- `vec![a, b, ], vec![…], … ]`. -/
def readProds : Nat → List Tok → Option (List (List (List Tok)) × List Tok)
  | 0, _ => none
  | n + 1, ts =>
    match expect (rust "]") ts with
    | some ts => some ([], ts)
    | none => do
      let ts ← expect (rust "vec![") ts
      let (p, ts) ← readItems n ts
      let ts ← expect (rust ",") ts
      let (ps, ts) ← readProds n ts
      return (p :: ps, ts)

/-- `map.insert(name, lrp::grammar::Rule::new(name, vec![…])); … map }`. -/
def readRules : Nat → List Tok → Option (List (List Tok × List (List (List Tok))))
  | 0, _ => none
  | n + 1, ts =>
    if ts = rust "map }" then some []
    else do
      let ts ← expect (rust "map.insert(") ts
      let (name, ts) ← upTo (.char 44) ts
      let ts ← expect (rust "lrp::grammar::Rule::new(") ts
      let ts ← expect name ts
      let ts ← expect (rust ", vec![") ts
      let (ps, ts) ← readProds n ts
      let ts ← expect (rust "));") ts
      let rs ← readRules n ts
      return (name, ps) :: rs

/-- The expression `{ use …; let mut map = lrp::RuleMap::new(); map.insert(…); … map }`: what is
imported, and the rules that are inserted, each with its productions. -/
def readGrammarToks (ts : List Tok) : Option (List (List Tok) × List (List Tok × List (List (List Tok)))) := do
  let ts ← expect (rust "{") ts
  let (us, ts) ← readUses (ts.length + 1) ts
  let ts ← expect (rust "let mut map = lrp::RuleMap::new();") ts
  let rs ← readRules (ts.length + 1) ts
  return (us, rs)

/-- The same for a text. -/
def readGrammar (t : Text) : Option (List (List Tok) × List (List Tok × List (List (List Tok)))) :=
  readGrammarToks (toksOf t)

/-! ### The reductors -/

/-- A generated function: its name, the type of the items, the type of the value, and the statements and
the expression that compute the value. -/
structure Fn where
  name : Text
  entry : List Tok
  ty : List Tok
  body : List Tok
  deriving DecidableEq, Repr

/-- A function `fn name(toks: &[entry]) -> lrp::Meta<ty> { lrp::Meta::new({ body }, span) }`, where the
span goes from the first item to the last. -/
def readFn (ts : List Tok) : Option (Fn × List Tok) := do
  let ts ← expect (rust "fn") ts
  let (name, ts) ← readWord ts
  let ts ← expect (rust "(toks: &[") ts
  let (entry, ts) ← upTo (.char 93) ts
  let ts ← expect (rust ") -> lrp::Meta<") ts
  let (ty, ts) ← upTo (.char 62) ts
  let ts ← expect (rust "{ lrp::Meta::new({") ts
  let (body, ts) ← upToBrace 0 ts
  let ts ← expect
    (rust ", lrp::Span::new(toks[0].item.span.start, toks.last().unwrap().item.span.end)) }") ts
  return (⟨name, entry, ty, body⟩, ts)

/-- A word for every list of tokens, if each is a single one. -/
def words : List (List Tok) → Option (List Text)
  | [] => some []
  | [.word w] :: us => (words us).map (w :: ·)
  | _ :: _ => none

/-- What the block does: it declares functions, and inserts lists of functions into the map. -/
inductive Stmt where
  | define (f : Fn)
  | insert (name : List Tok) (fns : List Text)
  deriving DecidableEq, Repr

/-- `fn …`, `map.insert(name, vec![f, g, ]);`, … `map }`. -/
def readActions : Nat → List Tok → Option (List Stmt)
  | 0, _ => none
  | n + 1, ts =>
    if ts = rust "map }" then some []
    else
      match readFn ts with
      | some (f, ts) => do
        let rs ← readActions n ts
        return .define f :: rs
      | none => do
        let ts ← expect (rust "map.insert(") ts
        let (name, ts) ← upTo (.char 44) ts
        let ts ← expect (rust "vec![") ts
        let (us, ts) ← readItems n ts
        let fns ← words us
        let ts ← expect (rust ");") ts
        let rs ← readActions n ts
        return .insert name fns :: rs

/-- The expression `{ use …; let mut map = lrp::ReductMap::new(); fn …; map.insert(…); … map }`. -/
def readReductorToks (ts : List Tok) : Option (List (List Tok) × List Stmt) := do
  let ts ← expect (rust "{") ts
  let (us, ts) ← readUses (ts.length + 1) ts
  let ts ← expect (rust "let mut map = lrp::ReductMap::new();") ts
  let rs ← readActions (ts.length + 1) ts
  return (us, rs)

/-- The same for a text. -/
def readReductor (t : Text) : Option (List (List Tok) × List Stmt) := readReductorToks (toksOf t)

/-! ### The file -/

/-- A block, from its brace to the one that closes it. -/
def readBlock (ts : List Tok) : Option (List Tok × List Tok) := do
  let ts ← expect (rust "{") ts
  let (b, ts) ← upToBrace 0 ts
  return (rust "{" ++ b ++ rust "}", ts)

/-- The file `out.rs`: the imports, the function `grammar`, which returns
`Grammar::new(Sym::EntryPoint, { … }, Sym::Eof)`, and the function `reduct_map`, which returns `{ … }`: the
two blocks.  The lints that are allowed are read over. -/
def readFile (t : Text) : Option (List Tok × List Tok) := do
  let ts ← expect (rust "use crate::{Ast, Gramem, Meta, Sym}; use lrp::{Grammar, ReductMap, Span}; #[allow(") (toksOf t)
  let (_, ts) ← upTo (.char 93) ts
  let ts ← expect (rust "#[must_use] pub fn grammar() -> Grammar<Sym> { Grammar::new(Sym::EntryPoint,") ts
  let (g, ts) ← readBlock ts
  let ts ← expect (rust ", Sym::Eof) } #[allow(") ts
  let (_, ts) ← upTo (.char 93) ts
  let ts ← expect (rust "pub fn reduct_map() -> ReductMap<Meta<Ast>, Sym>") ts
  let (r, ts) ← readBlock ts
  if ts = [] then return (g, r) else none

/-- The functions that are declared. -/
def defined : List Stmt → List Fn
  | [] => []
  | .define f :: as => f :: defined as
  | .insert _ _ :: as => defined as

/-- The lists that are inserted. -/
def inserted : List Stmt → List (List Tok × List Text)
  | [] => []
  | .define _ :: as => inserted as
  | .insert name fns :: as => (name, fns) :: inserted as

/-! ### The statements of a function -/

/-- `toks[i]` or `toks[i..j]`. -/
inductive Access where
  | one (i : Nat)
  | range (i j : Nat)
  deriving DecidableEq, Repr

/-- `&e`, `e.clone()` or `e.to_vec()`. -/
inductive Form where
  | ref
  | clone
  | toVec
  deriving DecidableEq, Repr

/-- `e`, or `Some(e)`. -/
structure Rhs where
  wrapped : Bool
  form : Form
  access : Access
  deriving DecidableEq, Repr

/-- `let name = rhs;`, or `let mut name = rhs; name = None; let name = name;`. -/
structure Let where
  name : Text
  rhs : Rhs
  reset : Bool
  deriving DecidableEq, Repr

/-- `toks[i]` or `toks[i..j]`. -/
def readAccess (ts : List Tok) : Option (Access × List Tok) := do
  let ts ← expect (rust "toks[") ts
  let (i, ts) ← readNat ts
  match expect (rust "..") ts with
  | some ts =>
    let (j, ts) ← readNat ts
    let ts ← expect (rust "]") ts
    return (.range i j, ts)
  | none =>
    let ts ← expect (rust "]") ts
    return (.one i, ts)

/-- `&e`, `e.clone()` or `e.to_vec()`. -/
def readForm (ts : List Tok) : Option (Form × Access × List Tok) :=
  match expect (rust "&") ts with
  | some ts => do
    let (a, ts) ← readAccess ts
    return (.ref, a, ts)
  | none => do
    let (a, ts) ← readAccess ts
    match expect (rust ".clone()") ts with
    | some ts => return (.clone, a, ts)
    | none =>
      let ts ← expect (rust ".to_vec()") ts
      return (.toVec, a, ts)

/-- `e`, or `Some(e)`. -/
def readRhs (ts : List Tok) : Option (Rhs × List Tok) :=
  match expect (rust "Some(") ts with
  | some ts => do
    let (f, a, ts) ← readForm ts
    let ts ← expect (rust ")") ts
    return (⟨true, f, a⟩, ts)
  | none => do
    let (f, a, ts) ← readForm ts
    return (⟨false, f, a⟩, ts)

/-- A `let`. -/
def readLet (ts : List Tok) : Option (Let × List Tok) := do
  let ts ← expect (rust "let") ts
  match expect (rust "mut") ts with
  | some ts =>
    let (x, ts) ← readWord ts
    let ts ← expect (rust "=") ts
    let (r, ts) ← readRhs ts
    let ts ← expect (rust ";" ++ .word x :: rust "= None; let" ++ .word x :: rust "=" ++ .word x :: rust ";") ts
    return (⟨x, r, true⟩, ts)
  | none =>
    let (x, ts) ← readWord ts
    let ts ← expect (rust "=") ts
    let (r, ts) ← readRhs ts
    let ts ← expect (rust ";") ts
    return (⟨x, r, false⟩, ts)

/-- As many `let`s as given. -/
def readLets : Nat → List Tok → Option (List Let × List Tok)
  | 0, ts => some ([], ts)
  | n + 1, ts => do
    let (l, ts) ← readLet ts
    let (ls, ts) ← readLets n ts
    return (l :: ls, ts)

/-! ### What the statements mean -/

/-- The types that occur, where `G` is the type of the items, which has `clone` and no `to_vec`: `&G`, `G`,
`&[G]`, `Vec<G>` and `Option`s of these. -/
inductive Ty where
  | ref
  | own
  | slice
  | vec
  | option (t : Ty)
  deriving DecidableEq, Repr

/-- The type of `&e`, `e.clone()` or `e.to_vec()`, if there is one. -/
def Form.ty : Form → Access → Option Ty
  | .ref, .one _ => some .ref
  | .clone, .one _ => some .own
  | .ref, .range _ _ => some .slice
  | .toVec, .range _ _ => some .vec
  | _, _ => none

/-- The type of the variable that a `let` declares, if there is one; only an `Option` may be set to
`None`. -/
def Let.ty (l : Let) : Option Ty :=
  match l.rhs.form.ty l.rhs.access with
  | none => none
  | some t => if l.rhs.wrapped then some (.option t) else if l.reset then none else some t

/-- The value of `toks[i]` or `toks[i..j]`; `none` is a panic. -/
def Access.eval {τ : Type} (toks : List τ) : Access → Option (Piece τ)
  | .one i => toks[i]?.map .one
  | .range i j =>
    if i ≤ j ∧ j ≤ toks.length then some (.many ((toks.drop i).take (j - i))) else none

/-- The value of the variable. -/
def Let.eval {τ : Type} (toks : List τ) (l : Let) : Option (Value τ) :=
  match l.rhs.access.eval toks with
  | none => none
  | some v => some (if l.reset then .none else if l.rhs.wrapped then .some v else .bare v)

/-- The variables after the statements; `none` is a panic.  Statements after one that declares `toks` anew
are given no meaning. -/
def evalLets {τ : Type} (toks : List τ) : List Let → Option (List (Text × Value τ))
  | [] => some []
  | l :: ls =>
    match l.eval toks with
    | none => none
    | some v =>
      if l.name = ascii "toks" ∧ ls ≠ [] then none else (evalLets toks ls).map ((l.name, v) :: ·)

/-! ### The types of aliases -/

mutual

/-- Groups with an alias, or with aliases inside, are not optional, and an alias of one alternative of a
group is one of all the alternatives. -/
def Item.Steady (src : Text) : Item → Prop
  | .sym _ _ _ _ => True
  | .group alts opt alias _ =>
    (opt = true → alias = none ∧ altNames alts = []) ∧
    (∀ A ∈ alts, ∀ B ∈ alts, ∀ n ∈ names A, textOf src n ∈ (names B).map (textOf src)) ∧
    AltsSteady src alts

/-- The same for lists of items. -/
def ItemsSteady (src : Text) : List Item → Prop
  | [] => True
  | i :: is => i.Steady src ∧ ItemsSteady src is

/-- The same for alternatives. -/
def AltsSteady (src : Text) : List (List Item) → Prop
  | [] => True
  | a :: as => ItemsSteady src a ∧ AltsSteady src as

end

/-- In addition, no name is put both on a symbol and on a group. -/
def Steady (src : Text) (is : List Item) : Prop :=
  ItemsSteady src is ∧ ∀ a ∈ marked is, ∀ b ∈ groups is, textOf src a.1 ≠ textOf src b.1

/-- The type of an alias: a copy of the item, or of the items of a group, in an `Option` unless it is bound
in any case. -/
def aliasTy (src : Text) (is : List Item) (t : Text) : Ty :=
  let base := if t ∈ (groups is).map (fun b => textOf src b.1) then Ty.vec else Ty.own
  if t ∈ (bare is).map (textOf src) then base else .option base

/-! ### Sources whose names and code are legible -/

/-- The text has closed string literals and none of the characters. -/
def Without (cs : List Nat) (t : Text) : Prop := Closed t ∧ ∀ c ∈ cs, Tok.char c ∉ toksOf t

/-- What is written into the grammar can be told apart: imported paths have no semicolon, rule names no
comma, and symbols neither a comma nor a bracket. -/
structure GrammarLegible (src : Text) (ds : List Decl) : Prop where
  uses : ∀ sp ∈ uses ds, Without [59] (textOf src sp)
  rules : ∀ pre ident alts, HasRule ds pre ident alts → Without [44] (textOf src ident)
  symbols : ∀ pre ident alts, HasRule ds pre ident alts → ∀ a ∈ alts, ∀ sp ∈ symbols a.items,
    Without [44, 93] (textOf src (resolve src (tokens src pre) sp))

/-- What is written into the reductors can be told apart: the names of rules and aliases are words, types
have no `>`, and the braces of the code are balanced. -/
structure ReductorLegible (entry src : Text) (ds : List Decl) : Prop where
  entry : Without [93] entry
  uses : ∀ sp ∈ uses ds, Without [59] (textOf src sp)
  rules : ∀ ident ty alts, Decl.rule ident ty alts ∈ ds → IsWord (textOf src ident) ∧
    Without [62] (textOf src ty)
  names : ∀ ident ty alts, Decl.rule ident ty alts ∈ ds → ∀ a ∈ alts, ∀ n ∈ names a.items,
    IsWord (textOf src n) ∧ textOf src n ≠ ascii "mut"
  code : ∀ ident ty alts, Decl.rule ident ty alts ∈ ds → ∀ a ∈ alts, ∀ code,
    textOf src a.block = 45 :: 62 :: (code ++ [37]) → Closed code ∧ balance 0 (toksOf code) = some 0

/-- No name contains a brace: so the braces in `out.rs` are those of its blocks, and those of the code. -/
structure Braceless (src : Text) (ds : List Decl) : Prop where
  uses : ∀ sp ∈ uses ds, Without [123, 125] (textOf src sp)
  rules : ∀ ident ty alts, Decl.rule ident ty alts ∈ ds →
    Without [123, 125] (textOf src ident) ∧ Without [123, 125] (textOf src ty)
  symbols : ∀ pre ident alts, HasRule ds pre ident alts → ∀ a ∈ alts, ∀ sp ∈ symbols a.items,
    Without [123, 125] (textOf src (resolve src (tokens src pre) sp))

/-- No comment stands inside of a path: paths have no slash in them. -/
structure Commentless (src : Text) (ds : List Decl) : Prop where
  uses : ∀ sp ∈ uses ds, 47 ∉ textOf src sp
  rules : ∀ ident ty alts, Decl.rule ident ty alts ∈ ds → 47 ∉ textOf src ident ∧ 47 ∉ textOf src ty ∧
    ∀ a ∈ alts, ∀ sp ∈ symbols a.items, 47 ∈ textOf src sp → (textOf src sp).head? = some 34
  tokens : ∀ name target, Decl.token name target ∈ ds → 47 ∉ textOf src target

end Lrp.Wop.Spec
