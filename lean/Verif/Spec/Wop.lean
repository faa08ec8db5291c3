import Verif.Model.WopBuilder

/-! What the alternatives of a `wop` rule mean, independently of the code builder. -/

namespace Lrp.Wop.Spec

/-- An item of an alternative, as written: a symbol or a parenthesised group of alternatives, with
its marks `?` (optional), `:name` (alias) and `&` (clone). -/
inductive Item where
  | sym (sp : Span) (opt : Bool) (alias : Option Span) (clone : Bool)
  | group (alts : List (List Item)) (opt : Bool) (alias : Option Span) (clone : Bool)

mutual

/-- The items a syntax tree stands for, if it has the shape the parser gives it: a list of rule
items, each a string literal, a path or a group with at least one alternative. -/
def itemsOf : List Gramem → Option (List Item)
  | [] => some []
  | ⟨⟨.ruleItem ⟨⟨inner, sp⟩, ty⟩ opt alias clone, _⟩, _⟩ :: rest =>
    if ty = .strLit ∨ ty = .identPath then
      match itemsOf rest with
      | some is => some (.sym sp opt alias clone :: is)
      | none => none
    else if ty = .rule then
      match inner with
      | .rule (v :: vs) =>
        match altsOf (v :: vs), itemsOf rest with
        | some alts, some is => some (.group alts opt alias clone :: is)
        | _, _ => none
      | _ => none
    else none
  | _ :: _ => none

/-- The alternatives of a group. -/
def altsOf : List RulePipe → Option (List (List Item))
  | [] => some []
  | ⟨variant, _⟩ :: vs =>
    match itemsOf variant, altsOf vs with
    | some is, some alts => some (is :: alts)
    | _, _ => none

end

mutual

/-- The code blocks of the alternatives of groups, at any depth; `(0, 0)` stands for none. -/
def blocksOf : List Gramem → List Span
  | [] => []
  | ⟨⟨.ruleItem ⟨⟨.rule vs, _⟩, .rule⟩ _ _ _, _⟩, _⟩ :: rest => altBlocks vs ++ blocksOf rest
  | _ :: rest => blocksOf rest

/-- The code blocks of the alternatives of a group and of the groups inside. -/
def altBlocks : List RulePipe → List Span
  | [] => []
  | ⟨variant, block⟩ :: vs => block :: (blocksOf variant ++ altBlocks vs)

end

/-- Where the symbols an alias stands for are in an expansion: from `start` until `stop`.  For a
group, `items` is the number of items written in the alternative that was taken. -/
structure Place where
  start : Nat
  stop : Nat
  items : Option Nat
  clone : Bool
  deriving DecidableEq, Repr

/-- One of the symbol sequences an alternative describes, with the places of the aliases whose item
was taken, and the aliases occurring in the alternatives taken of the groups that are not themselves
inside a group. -/
structure Expansion where
  word : List Span
  places : List (Span × Place)
  entered : List Span
  deriving DecidableEq, Repr

namespace Expansion

/-- Nothing. -/
def empty : Expansion := ⟨[], [], []⟩

/-- Later by `n` symbols. -/
def shift (n : Nat) (x : Span × Place) : Span × Place :=
  (x.1, { x.2 with start := x.2.start + n, stop := x.2.stop + n })

/-- One after the other. -/
def append (e r : Expansion) : Expansion :=
  { word := e.word ++ r.word
    places := e.places ++ r.places.map (shift e.word.length)
    entered := e.entered ++ r.entered }

end Expansion

mutual

/-- The names of the aliases of an item, outside and inside of it. -/
def Item.names : Item → List Span
  | .sym _ _ alias _ => alias.toList
  | .group alts _ alias _ => alias.toList ++ altNames alts

/-- The names of the aliases of a list of items. -/
def names : List Item → List Span
  | [] => []
  | i :: is => i.names ++ names is

/-- The names of the aliases of alternatives. -/
def altNames : List (List Item) → List Span
  | [] => []
  | a :: as => names a ++ altNames as

end

mutual

/-- The symbols of an item. -/
def Item.symbols : Item → List Span
  | .sym sp _ _ _ => [sp]
  | .group alts _ _ _ => altSymbols alts

/-- The symbols of a list of items. -/
def symbols : List Item → List Span
  | [] => []
  | i :: is => i.symbols ++ symbols is

/-- The symbols of alternatives. -/
def altSymbols : List (List Item) → List Span
  | [] => []
  | a :: as => symbols a ++ altSymbols as

end

mutual

/-- What an item may stand for: a symbol, or one of the alternatives of a group; or nothing, if it is
optional. -/
def Item.expand : Item → List Expansion
  | .sym sp opt alias clone =>
    { word := [sp]
      places := alias.toList.map (fun a => (a, ⟨0, 1, none, clone⟩))
      entered := alias.toList } ::
    (if opt then [Expansion.empty] else [])
  | .group alts opt alias clone =>
    expandAlts alias clone alts ++ (if opt then [Expansion.empty] else [])

/-- What a list of items stands for: every choice for the first with every choice for the rest. -/
def expand : List Item → List Expansion
  | [] => [Expansion.empty]
  | i :: is => i.expand.flatMap (fun e => (expand is).map e.append)

/-- What a group stands for: any of its alternatives. -/
def expandAlts (alias : Option Span) (clone : Bool) : List (List Item) → List Expansion
  | [] => []
  | a :: as =>
    (expand a).map (fun e =>
      { word := e.word
        places := alias.toList.map (fun n => (n, ⟨0, e.word.length, some a.length, clone⟩)) ++ e.places
        entered := alias.toList ++ names a }) ++
    expandAlts alias clone as

end

/-- The aliases that are bound in any case: those of items that are neither optional nor inside a
group. -/
def Item.bare : Item → List Span
  | .sym _ opt alias _ => if opt then [] else alias.toList
  | .group _ opt alias _ => if opt then [] else alias.toList

/-- The aliases of a list of items that are bound in any case. -/
def bare (is : List Item) : List Span := is.flatMap Item.bare

/-- The text a span covers. -/
def textOf (src : Text) (sp : Span) : Text := (src.drop sp.start).take (sp.stop - sp.start)

/-- No character of the source is cut in two at `i`. -/
def Boundary (src : Text) (i : Nat) : Prop := i = 0 ∨ ∀ c, src[i]? = some c → c < 128 ∨ 192 ≤ c

/-- The span lies in the source, and consists of whole characters. -/
structure InSrc (src : Text) (sp : Span) : Prop where
  le : sp.start ≤ sp.stop
  len : sp.stop ≤ src.length
  first : Boundary src sp.start
  last : Boundary src sp.stop

/-- The bytes of a character in UTF-8. -/
def utf8 (c : Char) : Text :=
  let n := c.toNat
  if n < 128 then [n]
  else if n < 2048 then [192 + n / 64, 128 + n % 64]
  else if n < 65536 then [224 + n / 4096, 128 + n / 64 % 64, 128 + n % 64]
  else [240 + n / 262144, 128 + n / 4096 % 64, 128 + n / 64 % 64, 128 + n % 64]

/-- The text is the UTF-8 encoding of a sequence of characters, as every `str` is. -/
def Utf8 (src : Text) : Prop := ∃ cs : List Char, src = cs.flatMap utf8

/-- All symbols and aliases of the items lie in the source. -/
def Readable (src : Text) (is : List Item) : Prop := ∀ sp ∈ symbols is ++ names is, InSrc src sp

/-- What a symbol is written as in the generated grammar: the target of the token alias declared for
its text, or the symbol itself. -/
def resolve (src : Text) (aliases : List (Text × Span)) (sp : Span) : Span :=
  (aliases.lookup (textOf src sp)).getD sp

/-- Orders in which hash sets may be walked: any, but every element once. -/
def Orders (order : Nat → List Span → List Span) : Prop := ∀ n l, (order n l).Perm l

/-- No two aliases have the same name. -/
def DistinctNames (src : Text) (is : List Item) : Prop := ((names is).map (textOf src)).Nodup

/-- None of the first names has the text of one of the second. -/
def Apart (src : Text) (as bs : List Span) : Prop := ∀ a ∈ as, ∀ b ∈ bs, textOf src a ≠ textOf src b

/-- A name that is put on several items of the alternatives occurs in every one of the
alternatives. -/
def Balanced (src : Text) (alts : List (List Item)) : Prop :=
  ∀ a ∈ altNames alts, ∀ b ∈ altNames alts, textOf src a = textOf src b → a = b ∨
    ∀ A ∈ alts, textOf src a ∈ (names A).map (textOf src)

mutual

/-- No name of the item is used twice, except that alternatives of a group may use the same name if
all of them do. -/
def Item.WellNamed (src : Text) : Item → Prop
  | .sym _ _ _ _ => True
  | .group alts _ alias _ =>
    Apart src alias.toList (altNames alts) ∧ Balanced src alts ∧ AltsWellNamed src alts

/-- No name of the items is used twice, except that alternatives of a group may use the same name if
all of them do. -/
def WellNamed (src : Text) : List Item → Prop
  | [] => True
  | i :: is => i.WellNamed src ∧ WellNamed src is ∧ Apart src i.names (names is)

/-- The same in every alternative. -/
def AltsWellNamed (src : Text) : List (List Item) → Prop
  | [] => True
  | a :: as => WellNamed src a ∧ AltsWellNamed src as

end

/-! ### Programs -/

/-- An alternative of a rule: its items, its code block and the code blocks written in its groups. -/
structure Alt where
  items : List Item
  block : Span
  inner : List Span

/-- A declaration of a program. -/
inductive Decl where
  | rule (ident ty : Span) (alts : List Alt)
  | use (path : Span)
  | token (name target : Span)

/-- The alternatives a syntax tree stands for. -/
def ruleOf : List RulePipe → Option (List Alt)
  | [] => some []
  | ⟨pipe, block⟩ :: rest =>
    match itemsOf pipe, ruleOf rest with
    | some items, some alts => some (⟨items, block, blocksOf pipe⟩ :: alts)
    | _, _ => none

/-- The declarations a syntax tree stands for. -/
def declsOf : List Gramem → Option (List Decl)
  | [] => some []
  | d :: rest =>
    match declsOf rest with
    | none => none
    | some ds =>
      match d.item.item with
      | .ruleDecl ident ty rule =>
        match ruleOf rule with
        | some alts => some (.rule ident ty alts :: ds)
        | none => none
      | .import_ path => some (.use path :: ds)
      | .alias name target => some (.token name target :: ds)
      | _ => none

/-- The names of the rules declared. -/
def ruleNames (src : Text) : List Decl → List Text
  | [] => []
  | .rule ident _ _ :: ds => textOf src ident :: ruleNames src ds
  | _ :: ds => ruleNames src ds

/-- The token aliases declared. -/
def tokens (src : Text) : List Decl → List (Text × Span)
  | [] => []
  | .token name target :: ds => (textOf src name, target) :: tokens src ds
  | _ :: ds => tokens src ds

/-- The paths imported. -/
def uses : List Decl → List Span
  | [] => []
  | .use path :: ds => path :: uses ds
  | _ :: ds => uses ds

/-- All that is read of the alternative lies in the source. -/
def Alt.Readable (src : Text) (a : Alt) : Prop := InSrc src a.block ∧ Spec.Readable src a.items

/-- All that is read of the declaration lies in the source. -/
def Decl.Readable (src : Text) : Decl → Prop
  | .rule ident ty alts => InSrc src ident ∧ InSrc src ty ∧ ∀ a ∈ alts, a.Readable src
  | .use path => InSrc src path
  | .token name target => InSrc src name ∧ InSrc src target

/-- The alternative has a code block, and none in its groups. -/
def Alt.Placed (src : Text) (a : Alt) : Prop :=
  textOf src a.block ≠ [] ∧ ∀ b ∈ a.inner, b = Span.new 0 0

/-- Every alternative of every rule has a code block, and none in its groups. -/
def Placed (src : Text) (ds : List Decl) : Prop :=
  ∀ ident ty alts, Decl.rule ident ty alts ∈ ds → ∀ a ∈ alts, a.Placed src

/-- The program declares no name twice and has its code blocks where they belong. -/
structure Proper (src : Text) (ds : List Decl) : Prop where
  rules : (ruleNames src ds).Nodup
  tokens : ((tokens src ds).map (·.1)).Nodup
  blocks : Placed src ds

/-- The program is proper and declares no name that was declared to the builder before. -/
def Addable (src : Text) (b : Builder) (ds : List Decl) : Prop :=
  Proper src ds ∧ (∀ t ∈ ruleNames src ds, t ∉ b.rules.map (·.1)) ∧
    ∀ t ∈ (tokens src ds).map (·.1), t ∉ b.aliases.map (·.1)

/-- The syntax tree is that of a program over the source, with these declarations. -/
structure IsProgram (src : Text) (ast : Gramem) (ds : List Decl) : Prop where
  shape : ∃ gs, ast.item.item = .program gs ∧ declsOf gs = some ds
  inside : ∀ d ∈ ds, d.Readable src

/-- The expansions of the alternatives of a rule, in order, each with its alternative. -/
def expansions (alts : List Alt) : List (Alt × Expansion) :=
  alts.flatMap (fun a => (expand a.items).map (fun x => (a, x)))

/-! ### The values of aliases -/

mutual

/-- The aliases of plain items, at any depth, with the symbols they are put on. -/
def Item.marked : Item → List (Span × Span)
  | .sym sp _ alias _ => alias.toList.map (fun a => (a, sp))
  | .group alts _ _ _ => altMarked alts

/-- The same of a list of items. -/
def marked : List Item → List (Span × Span)
  | [] => []
  | i :: is => i.marked ++ marked is

/-- The same of alternatives. -/
def altMarked : List (List Item) → List (Span × Span)
  | [] => []
  | a :: as => marked a ++ altMarked as

end

/-- The item the alias is put on is part of the expansion. -/
def Expansion.Takes (x : Expansion) (a : Span) : Prop := ∃ pl, (a, pl) ∈ x.places

/-- An item that an alias of this name is put on is part of the expansion. -/
def Expansion.TakesName (src : Text) (x : Expansion) (t : Text) : Prop :=
  t ∈ x.places.map (fun p => textOf src p.1)

/-- The alternatives of a group. -/
def Item.alts : Item → List (List Item)
  | .sym _ _ _ _ => []
  | .group alts _ _ _ => alts

/-- If the name occurs in an alternative of a group outside of groups, then it is taken whenever the
alternative is. -/
def Sure (src : Text) (is : List Item) (t : Text) : Prop :=
  ∀ i ∈ is, ∀ A ∈ i.alts, t ∈ (names A).map (textOf src) → ∀ x ∈ expand A, x.TakesName src t

/-- A plain item that is not optional. -/
def Item.Solid : Item → Prop
  | .sym _ opt _ _ => opt = false
  | .group _ _ _ _ => False

mutual

/-- The groups with an alias, at any depth, with their alternatives. -/
def Item.groups : Item → List (Span × List (List Item))
  | .sym _ _ _ _ => []
  | .group alts _ alias _ => alias.toList.map (fun a => (a, alts)) ++ altGroups alts

/-- The same of a list of items. -/
def groups : List Item → List (Span × List (List Item))
  | [] => []
  | i :: is => i.groups ++ groups is

/-- The same of alternatives. -/
def altGroups : List (List Item) → List (Span × List (List Item))
  | [] => []
  | a :: as => groups a ++ altGroups as

end

/-- The items a place covers, among the items a production was reduced from: one for a plain item, a
range for a group. -/
def Place.covers {τ : Type} (pl : Place) (toks : List τ) : Option (Piece τ) :=
  match pl.items with
  | none => toks[pl.start]?.map .one
  | some _ => some (.many ((toks.drop pl.start).take (pl.stop - pl.start)))

/-- A value as the code block sees it: inside `Some` unless it is bound in any case. -/
def wrap {τ : Type} (anyCase : Bool) (v : Piece τ) : Value τ :=
  if anyCase then .bare v else .some v

/-- The alternatives of groups with an alias always have as many symbols as they have items written. -/
def Even (is : List Item) : Prop :=
  ∀ p ∈ groups is, ∀ A ∈ p.2, ∀ x ∈ expand A, x.word.length = A.length

/-- All names are taken whenever the alternatives they occur in are, and groups with an alias have as
many symbols as items written. -/
def Tidy (src : Text) (is : List Item) : Prop :=
  (∀ n ∈ names is, Sure src is (textOf src n)) ∧ Even is

/-- The groups contain only plain items that are not optional. -/
def Flat (is : List Item) : Prop := ∀ i ∈ is, ∀ A ∈ i.alts, ∀ j ∈ A, j.Solid

end Lrp.Wop.Spec
