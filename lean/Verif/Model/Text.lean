import Verif.Model.Dfa

/-!
Model of the texts of positions, actions and errors: `Display` and `Debug` of `Position` (src/pos.rs), the
derived `Debug` of `Action` and `Display` of `Error` (src/dfa.rs),
      without the alternate form `{:#?}`.  `Debug` of
the symbols is a parameter.
-/

namespace Lrp.Text

/-- A text. -/
abbrev Txt := List Char

variable {T : Type}

/-- The part of a list after its first item: a comma and a blank before every item, and the closing bracket. -/
def listTail {α : Type} (r : Char) (fmt : α → Txt) : List α → Txt
  | [] => [r]
  | x :: xs => ',' :: ' ' :: fmt x ++ listTail r fmt xs

/-- `Debug` of a vector (`[a, b]`) and of a set (`{a, b}`). -/
def debugList {α : Type} (l r : Char) (fmt : α → Txt) : List α → Txt
  | [] => [l, r]
  | x :: xs => l :: fmt x ++ listTail r fmt xs

/-- `Debug` of a `usize`. -/
def decimal (n : Nat) : Txt :=
  if n < 10 then [Char.ofNat (48 + n)] else decimal (n / 10) ++ [Char.ofNat (48 + n % 10)]

/-- src/pos.rs:100-108, one round of the loop in `fmt`. -/
def positionPiece (fmt : T → Txt) (p : Position T) (i : Nat) : Txt :=
  ' ' :: (if i = p.point then ['.', ' '] else []) ++
    (match p.absIdx i with
      | some term => fmt term
      | none => [])

/-- src/pos.rs:94-111, `Display` of `Position`; src/pos.rs:113-120, its `Debug`. -/
def position (fmt : T → Txt) (p : Position T) : Txt :=
  fmt p.rule ++ [' ', '='] ++
    (List.range (max p.point p.seq.1.length + 1)).flatMap (positionPiece fmt p) ++
    ' ' :: debugList '{' '}' fmt p.look

/-- `Debug` of a state, which is a set of positions. -/
def state (fmt : T → Txt) (s : State T) : Txt := debugList '{' '}' (position fmt) s

/-- `Debug` of a production, which is a pair. -/
def production (fmt : T → Txt) (p : Production T) : Txt :=
  '(' :: debugList '[' ']' fmt p.1 ++ ',' :: ' ' :: decimal p.2 ++ [')']

/-- src/dfa.rs:5, the derived `Debug` of `Action`. -/
def action (fmt : T → Txt) : Action T → Txt
  | .shift n => ['S', 'h', 'i', 'f', 't', '('] ++ decimal n ++ [')']
  | .goto n => ['G', 'o', 't', 'o', '('] ++ decimal n ++ [')']
  | .reduce A prod => ['R', 'e', 'd', 'u', 'c', 'e', '('] ++ fmt A ++ ',' :: ' ' :: production fmt prod ++ [')']
  | .acc => ['A', 'c', 'c']
  | .conflict a b => ['C', 'o', 'n', 'f', 'l', 'i', 'c', 't',
      '('] ++ action fmt a ++ ',' :: ' ' :: action fmt b ++ [')']

/-- src/dfa.rs:36-56, `Display` of `Error`. -/
def error (fmt : T → Txt) : Error T → Txt
  | .unexpectedToken found expected =>
    ['u', 'n', 'e', 'x', 'p', 'e', 'c', 't', 'e', 'd', ' ', 't', 'o', 'k', 'e', 'n',
      ' '] ++ fmt found ++ ['.', ' ', 'e', 'x', 'p', 'e', 'c', 't', 'e', 'd',
      ' '] ++ debugList '[' ']' fmt expected
  | .unexpectedEof => ['u', 'n', 'e', 'x', 'p', 'e', 'c', 't', 'e', 'd', ' ', 'e', 'o', 'f']
  | .conflict a b => ['c', 'o', 'n', 'f', 'l', 'i', 'c', 't', 'i', 'n', 'g', ' ', 'a', 'c', 't', 'i', 'o',
      'n', ' '] ++ action fmt a ++ [' ', 'a', 'n', 'd', ' '] ++ action fmt b
  | .missingPreviousState => ['m', 'i', 's', 's', 'i', 'n', 'g', ' ', 'p', 'r', 'e', 'v', 'i', 'o', 'u', 's',
      ' ', 's', 't', 'a', 't', 'e', '.', ' ', 'i', 'm', 'p', 'o', 's', 's', 'i', 'b', 'l', 'e', ' ', 't',
      'o', ' ', 'c', 'o', 'n', 't', 'i', 'n', 'u', 'e', ' ', 'd', 'f', 'a', ' ', 'e', 'x', 'e', 'c', 'u',
      't', 'i', 'o', 'n']
  | .stateNotSpecified => ['s', 't', 'a', 't', 'e', ' ', 'n', 'o', 't', ' ', 's', 'p', 'e', 'c', 'i', 'f',
      'i', 'e', 'd', ' ', 'i', 'n', ' ', 'a', 'c', 't', 'i', 'o', 'n', 's', ' ', 't', 'a', 'b', 'l', 'e']
  | .incompleteExec => ['f', 'i', 'n', 'i', 's', 'h', 'e', 'd', ' ', 't', 'h', 'e', ' ', 'p', 'a', 'r', 's',
      'i', 'n', 'g', ' ', 'w', 'i', 't', 'h', 'o', 'u', 't', ' ', 'c', 'o', 'n', 's', 'u', 'm', 'e', ' ',
      'e', 'n', 't', 'i', 'r', 'e', ' ', 'b', 'u', 'f', 'f', 'e', 'r']

end Lrp.Text
