import Verif.Spec.Wop
import Verif.Model.WopGen

/-! What a `wop` program describes: the token sequences of its rules, and the values its code blocks give
them.  Nothing here mentions productions, tables or generated reductors. -/

namespace Lrp.Wop.Spec

variable {X T : Type}

/-- The program declares the rule `ident` with these alternatives, after the declarations `pre`. -/
def HasRule (ds pre : List Decl) (ident : Span) (alts : List Alt) : Prop :=
  ∃ ty post, ds = pre ++ .rule ident ty alts :: post

/-- No rule of the program is named like the symbol. -/
def IsToken (src : Text) (sym : Text → T) (ds : List Decl) (x : T) : Prop :=
  ∀ pre ident alts, HasRule ds pre ident alts → sym (textOf src ident) ≠ x

/-- The symbol an item stands for, in a rule after the declarations `pre`. -/
def denotes (src : Text) (sym : Text → T) (pre : List Decl) (sp : Span) : T :=
  sym (textOf src (resolve src (tokens src pre) sp))

section
variable (src : Text) (sym : Text → T) (ds : List Decl)

mutual

/-- The token sequences described by a symbol: a token by itself, or what an alternative of the rule of
that name describes. -/
inductive SymWord : T → List T → Prop
  | token {x : T} : IsToken src sym ds x → SymWord x [x]
  | rule {pre : List Decl} {ident : Span} {alts : List Alt} {a : Alt} {w : List T} :
      HasRule ds pre ident alts → a ∈ alts → ItemsWord pre a.items w →
      SymWord (sym (textOf src ident)) w

/-- The token sequences described by an item of a rule after the declarations `pre`: those of the
symbol, or of one of the alternatives in parentheses; and nothing, if it is marked with `?`. -/
inductive ItemWord : List Decl → Item → List T → Prop
  | sym {pre : List Decl} {sp : Span} {opt clone : Bool} {alias : Option Span} {w : List T} :
      SymWord (denotes src sym pre sp) w → ItemWord pre (.sym sp opt alias clone) w
  | skip {pre : List Decl} {sp : Span} {clone : Bool} {alias : Option Span} :
      ItemWord pre (.sym sp true alias clone) []
  | group {pre : List Decl} {alts : List (List Item)} {opt clone : Bool} {alias : Option Span}
      {is : List Item} {w : List T} : is ∈ alts → ItemsWord pre is w →
      ItemWord pre (.group alts opt alias clone) w
  | skipGroup {pre : List Decl} {alts : List (List Item)} {clone : Bool} {alias : Option Span} :
      ItemWord pre (.group alts true alias clone) []

/-- The token sequences described by items one after the other. -/
inductive ItemsWord : List Decl → List Item → List T → Prop
  | nil {pre : List Decl} : ItemsWord pre [] []
  | cons {pre : List Decl} {i : Item} {is : List Item} {u v : List T} :
      ItemWord pre i u → ItemsWord pre is v → ItemsWord pre (i :: is) (u ++ v)

end

end

/-- The variables a code block sees are the aliases of its alternative: an alias of an item that was
taken is bound to the items it stands for, inside `Some` unless it is bound in any case, and a name of
which no item was taken to `None`. -/
def Binds {τ : Type} (src : Text) (a : Alt) (x : Expansion) (toks : List τ)
    (vars : Text → Option (Value τ)) : Prop :=
  (∀ name, (∀ n ∈ names a.items, textOf src n ≠ name) → vars name = none) ∧
  ∀ n ∈ names a.items, (¬ x.TakesName src (textOf src n) → vars (textOf src n) = some .none) ∧
    ∀ pl, (n, pl) ∈ x.places → ∃ v, pl.covers toks = some v ∧
      vars (textOf src n) = some (wrap (decide (n ∈ bare a.items)) v)

section
variable (src : Text) (R : Rust X T) (ds : List Decl)

mutual

/-- The values of a symbol that reads these tokens: a token has its own value, and a rule the value that
the code block of the alternative computes from the values of its items, with the span from the first
to the last. -/
inductive SymValue : T → List (Token (Meta X) T) → Meta X → Prop
  | token {x : T} {v : Meta X} : IsToken src R.sym ds x → SymValue x [⟨v, x⟩] v
  | rule {pre : List Decl} {ident : Span} {alts : List Alt} {a : Alt} {x : Expansion}
      {toks vals : List (Token (Meta X) T)} {code : Text}
      {vars : Text → Option (Value (Token (Meta X) T))} {v : X} {first last : Token (Meta X) T} :
      HasRule ds pre ident alts → a ∈ alts → x ∈ expand a.items →
      SymsValue (x.word.map (denotes src R.sym pre)) toks vals →
      textOf src a.block = 45 :: 62 :: (code ++ [37]) → Binds src a x vals vars →
      R.code code vals vars = some v → vals.head? = some first → vals.getLast? = some last →
      SymValue (R.sym (textOf src ident)) toks
        ⟨v, Span.new first.item.span.start last.item.span.stop⟩

/-- The values of symbols that read these tokens one after the other. -/
inductive SymsValue : List T → List (Token (Meta X) T) → List (Token (Meta X) T) → Prop
  | nil : SymsValue [] [] []
  | cons {x : T} {xs : List T} {us ws vals : List (Token (Meta X) T)} {v : Meta X} :
      SymValue x us v → SymsValue xs ws vals → SymsValue (x :: xs) (us ++ ws) (⟨v, x⟩ :: vals)

end

end

/-- The alternatives of the rules use their alias names well, and have no optional items or groups inside
of groups where this would make a difference to their aliases. -/
def Plain (src : Text) (ds : List Decl) : Prop :=
  ∀ pre ident alts, HasRule ds pre ident alts → ∀ a ∈ alts, WellNamed src a.items ∧ Tidy src a.items

end Lrp.Wop.Spec
