import Verif.Spec.WopLang

/-! What has to be read off a `wop` program to see whether a parser can be made from it: which items can
be left out, what alternatives begin and end with, and what stands side by side in them. -/

namespace Lrp.Wop.Spec

variable {T : Type}

/-- The item can be left out: it is marked with `?`, or it is a group with an alternative all of whose
items can be left out. -/
inductive Skips : Item → Prop
  | sym {sp : Span} {alias : Option Span} {clone : Bool} : Skips (.sym sp true alias clone)
  | group {alts : List (List Item)} {alias : Option Span} {clone : Bool} :
      Skips (.group alts true alias clone)
  | inside {alts : List (List Item)} {opt clone : Bool} {alias : Option Span} {is : List Item} :
      is ∈ alts → (∀ i ∈ is, Skips i) → Skips (.group alts opt alias clone)

/-- The item leaves no choice: nothing in it is marked with `?`, and no group in it has alternatives. -/
inductive Rigid : Item → Prop
  | sym {sp : Span} {alias : Option Span} {clone : Bool} : Rigid (.sym sp false alias clone)
  | group {is : List Item} {alias : Option Span} {clone : Bool} :
      (∀ i ∈ is, Rigid i) → Rigid (.group [is] false alias clone)

section
variable (src : Text) (sym : Text → T) (pre : List Decl)

mutual

/-- The item, in a rule after the declarations `pre`, can begin with the symbol. -/
inductive ItemOpens : Item → T → Prop
  | sym {sp : Span} {opt clone : Bool} {alias : Option Span} :
      ItemOpens (.sym sp opt alias clone) (denotes src sym pre sp)
  | group {alts : List (List Item)} {opt clone : Bool} {alias : Option Span} {is : List Item} {B : T} :
      is ∈ alts → Opens is B → ItemOpens (.group alts opt alias clone) B

/-- Items one after the other can begin with the symbol: the first can, or it can be left out and the
rest can. -/
inductive Opens : List Item → T → Prop
  | here {i : Item} {is : List Item} {B : T} : ItemOpens i B → Opens (i :: is) B
  | later {i : Item} {is : List Item} {B : T} : Skips i → Opens is B → Opens (i :: is) B

end

mutual

/-- The item can end with the symbol. -/
inductive ItemCloses : Item → T → Prop
  | sym {sp : Span} {opt clone : Bool} {alias : Option Span} :
      ItemCloses (.sym sp opt alias clone) (denotes src sym pre sp)
  | group {alts : List (List Item)} {opt clone : Bool} {alias : Option Span} {is : List Item} {B : T} :
      is ∈ alts → Closes is B → ItemCloses (.group alts opt alias clone) B

/-- Items one after the other can end with the symbol. -/
inductive Closes : List Item → T → Prop
  | here {i : Item} {is : List Item} {B : T} : ItemCloses i B → (∀ j ∈ is, Skips j) → Closes (i :: is) B
  | later {i : Item} {is : List Item} {B : T} : Closes is B → Closes (i :: is) B

end

mutual

/-- The symbols can stand side by side in the item. -/
inductive ItemBeside : Item → T → T → Prop
  | group {alts : List (List Item)} {opt clone : Bool} {alias : Option Span} {is : List Item} {A B : T} :
      is ∈ alts → Beside is A B → ItemBeside (.group alts opt alias clone) A B

/-- The symbols can stand side by side in the items: inside of one, or where one ends and a later one
begins. -/
inductive Beside : List Item → T → T → Prop
  | inside {i : Item} {is : List Item} {A B : T} : ItemBeside i A B → Beside (i :: is) A B
  | across {i : Item} {is : List Item} {A B : T} : ItemCloses src sym pre i A → Opens src sym pre is B →
      Beside (i :: is) A B
  | later {i : Item} {is : List Item} {A B : T} : Beside is A B → Beside (i :: is) A B

end

end

section
variable (src : Text) (sym : Text → T) (ds : List Decl)

/-- The rule `A` has an alternative that meets `P`. -/
def HasAlt (A : T) (P : List Decl → List Item → Prop) : Prop :=
  ∃ pre ident alts, HasRule ds pre ident alts ∧ sym (textOf src ident) = A ∧ ∃ a ∈ alts, P pre a.items

/-- An alternative of the rule `A` can begin with the rule `B`. -/
def BeginsWith (A B : T) : Prop :=
  ¬ IsToken src sym ds B ∧ HasAlt src sym ds A (fun pre is => Opens src sym pre is B)

/-- An alternative of the rule `B` can end with the rule `A`. -/
def EndsWith (A B : T) : Prop :=
  ¬ IsToken src sym ds A ∧ HasAlt src sym ds B (fun pre is => Closes src sym pre is A)

/-- What may follow: `eof` follows the start; what follows a rule follows the rule it ends with; and if
`L b B` then `B` follows the rule that stands before `b`. -/
def FollowsWith (S eof : T) (L : T → T → Prop) (A B : T) : Prop :=
  ¬ IsToken src sym ds B ∧ ((A = S ∧ B = eof) ∨ (A ≠ B ∧ EndsWith src sym ds A B) ∨
    ∃ C b, HasAlt src sym ds C (fun pre is => Beside src sym pre is A b) ∧
      ¬ IsToken src sym ds A ∧ ¬ IsToken src sym ds b ∧ L b B)

/-- An alternative of a rule can be left out altogether. -/
def CanBeEmpty : Prop := ∃ A, HasAlt src sym ds A (fun _ is => ∀ i ∈ is, Skips i)

/-- The start is a rule; and, if `one`, it has one alternative, that leaves no choice. -/
def StartsAt (one : Bool) (S : T) : Prop :=
  ∃ pre ident alts, HasRule ds pre ident alts ∧ sym (textOf src ident) = S ∧
    (one = true → ∃ a, alts = [a] ∧ ∀ i ∈ a.items, Rigid i)

end

end Lrp.Wop.Spec
