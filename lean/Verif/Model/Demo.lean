import Verif.Model.Main

/-!
Model of `main` in src/main.rs, the demonstration program.  Printing is not modelled.

Symbols are strings (`&'static str`), here lists of characters; Rust orders strings by their bytes in
UTF-8, which is the order by code points.
-/

namespace Lrp

/-- Rust's `Ord` on `char`. -/
instance : LinOrd Char where
  cmp a b := cmp a.toNat b.toNat
  cmp_eq := by
    intro a b
    rw [LinOrd.cmp_eq]
    exact ⟨fun h => Char.ext (UInt32.toNat_inj.mp h), fun h => by rw [h]⟩
  cmp_swap := fun a b => LinOrd.cmp_swap a.toNat b.toNat
  cmp_trans := LinOrd.cmp_trans

namespace Demo
open Main

/-- The type of the symbols. -/
abbrev Str := List Char

/-- src/main.rs:11-19, the rules. -/
def rules : List (Str × List (List Str)) :=
  [(['\'', 'S'], [[['S']]]),
   (['S'],
     [[['('], [')']],
      [['('], ['S'], [')']],
      [['['], [']']],
      [['['], ['S'], [']']],
      [['{'], ['}']],
      [['{'], ['S'], ['}']]])]

/-- src/main.rs:35, `terminals`. -/
def terminals : OSet Str :=
  OSet.ofList [['['], [']'], ['('], [')'], ['{'], ['}'], ['d'], ['c']]

/-- src/main.rs:11-38: the parser. -/
def parser (dbg : Bool) (fuel : Nat) : Out (Lalr Str) := do
  let g ← Grammar.new dbg ['\'', 'S'] (grammarMap rules) ['$']
  Lalr.new dbg fuel g

/-- `char::is_whitespace`: the property White_Space of Unicode. -/
def isWhitespace (c : Char) : Bool :=
  let n := c.toNat
  (9 ≤ n && n ≤ 13) || n == 32 || n == 133 || n == 160 || n == 5760 || (8192 ≤ n && n ≤ 8202) ||
    n == 8232 || n == 8233 || n == 8239 || n == 8287 || n == 12288

/-- `str::trim`. -/
def trim (line : List Char) : List Char :=
  ((line.dropWhile isWhitespace).reverse.dropWhile isWhitespace).reverse

/-- src/main.rs:58: `Token::new((), *terminals.get(t.as_str()).unwrap())`. -/
def token (c : Char) : Out (Token Unit Str) :=
  if [c] ∈ terminals then .ok { item := (), ty := [c] } else .panic .mainUnwrap

/-- src/main.rs:53-60, an iteration of the loop from the line that was read.  The iterator makes its tokens
when it is asked for them; the first thing the observer of `print_proc_dfa` does is to collect all of them
for the column `buffer`, so a character that is no terminal panics at once. -/
def answer (t : Tabler Str) (fmtState : Nat → String) (fmtTy : Str → String) (fuel : Nat)
    (line : List Char) : Out (List (TraceRow Str) × Except (Error Str) Unit) := do
  let toks ← (trim line).mapM token
  let dfa ← Parser.simpleDfa t toks
  procDfa fmtState fmtTy fuel dfa

/-- src/main.rs:47-61, the loop.  `lines i` is what `read_line` gives the `i`-th time: after the end of the
input, the empty string, again and again. -/
def loop (t : Tabler Str) (fmtState : Nat → String) (fmtTy : Str → String) (fuel : Nat) :
    Nat → Nat → (Nat → List Char) → Out Unit
  | 0, _, _ => .fuel
  | n + 1, i, lines => do
    let _ ← answer t fmtState fmtTy fuel (lines i)
    loop t fmtState fmtTy fuel n (i + 1) lines

/-- src/main.rs:10-62 `main`: the three tables (of which `print_states_table` might panic), then the loop. -/
def main (dbg : Bool) (fmtState : Nat → String) (fmtTy : Str → String) (fuel : Nat)
    (lines : Nat → List Char) : Out Unit := do
  let l ← parser dbg fuel
  let _ ← statesTable l.finalKernel l.stateFromKernel l.table
  loop l.table fmtState fmtTy fuel fuel 0 lines

end Demo

end Lrp
