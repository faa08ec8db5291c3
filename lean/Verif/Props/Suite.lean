import Verif.Model.Dfa
import Verif.Model.Lalr

/-! The unit tests of the repository (grammars_tests.rs and the `tests` modules of src/tabler.rs,
src/slr.rs, src/clr.rs and src/lalr.rs), run on the model.  The symbols are numbered in the order of
their strings.  This checks the model against the code; it is not a claim about all grammars. -/

set_option maxRecDepth 100000

namespace Lrp.Suite

/-- A test grammar: the start symbol, the declarations and eof. -/
structure Test where
  start : Nat
  decls : List (Nat × List (List Nat))
  eof : Nat

def Test.grammar (t : Test) : Out (Grammar Nat) := Grammar.new true t.start (grammarMap t.decls) t.eof

/-- `table.first` and `table.follow`. -/
def Test.sets (t : Test) : Option (Table Nat × Table Nat) :=
  match (do let g ← t.grammar; Tabler.new true 100 g) with
  | .ok t => some (t.first, t.follow)
  | _ => none

/-- The number of conflicts and the answers of `validate`. -/
def answers (t : Out (Tabler Nat)) (inputs : List (List Nat)) : Option (Nat × List Bool) :=
  match t with
  | .ok t => some (t.conflicts.length, inputs.map (fun i =>
      match Parser.validate t 200 (toTokens i) with | .ok b => b | _ => false))
  | _ => none

def Test.slr (t : Test) : List (List Nat) → Option (Nat × List Bool) :=
  answers (do let g ← t.grammar; Slr.new true 200 g)

def Test.clr (t : Test) : List (List Nat) → Option (Nat × List Bool) :=
  answers (do let g ← t.grammar; Clr.new true 200 g)

def Test.lalr (t : Test) : List (List Nat) → Option (Nat × List Bool) :=
  answers (do let g ← t.grammar; let l ← Lalr.new true 3000 g; return l.table)

/-- grammars_tests.rs `dragon_book`; the symbols are `$`, `C`, `S`, `c`, `d`. -/
def dragon_book : Test where
  start := 2
  decls := [(2, [[1, 1]]), (1, [[3, 1], [4]])]
  eof := 0

def dragon_bookInputs : List (List Nat) :=
  [[4, 4], [4, 3, 4], [3, 4, 4], [4, 3, 3, 4], [3, 4, 3, 4], [3, 3, 4, 4], [4, 3, 3, 3, 4], [3, 4, 3,
   3, 4], [3, 3, 4, 3, 4], [3, 3, 3, 4, 4], [4, 3, 3, 3, 3, 4], [3, 4, 3, 3, 3, 4], [3, 3, 4, 3, 3, 4],
   [3, 3, 3, 4, 3, 4], [3, 3, 3, 3, 4, 4], [4, 3, 3, 3, 3, 3, 4], [3, 4, 3, 3, 3, 3, 4], [3, 3, 4, 3,
   3, 3, 4], [3, 3, 3, 4, 3, 3, 4], [3, 3, 3, 3, 4, 3, 4], [3, 3, 3, 3, 3, 4, 4], [4, 3, 3, 3, 3, 3, 3,
   3, 3, 4], [3, 4, 3, 3, 3, 3, 3, 3, 3, 4], [3, 3, 4, 3, 3, 3, 3, 3, 3, 4], [3, 3, 3, 4, 3, 3, 3, 3,
   3, 4], [3, 3, 3, 3, 3, 3, 4, 3, 3, 4], [3, 3, 3, 3, 3, 3, 3, 4, 3, 4], [3, 3, 3, 3, 3, 3, 3, 3, 4,
   4], [4, 3, 3, 3, 3, 3, 3, 3, 4], [3, 4, 3, 3, 3, 3, 3, 3, 4]]

/-- src/tabler.rs `dragon_book`. -/
example : dragon_book.sets = some ([(1, [3, 4]), (2, [3, 4])], [(1, [0, 3, 4]), (2, [0])]) := by decide +kernel

/-- src/slr.rs `dragon_book`. -/
example : dragon_book.slr dragon_bookInputs = some (0, dragon_bookInputs.map (fun _ => true)) := by
  decide +kernel

/-- src/clr.rs `dragon_book`. -/
example : dragon_book.clr dragon_bookInputs = some (0, dragon_bookInputs.map (fun _ => true)) := by
  decide +kernel

/-- src/lalr.rs `dragon_book`. -/
example : dragon_book.lalr dragon_bookInputs = some (0, dragon_bookInputs.map (fun _ => true)) := by
  decide +kernel

/-- grammars_tests.rs `serokell`; the symbols are `$`, `(`, `)`, `*`, `+`, `Add`, `Factor`, `Start`, `Term`, `ident`, `int`. -/
def serokell : Test where
  start := 7
  decls := [(7, [[5]]), (5, [[5, 4, 6], [6]]), (6, [[6, 3, 8], [8]]), (8, [[1, 5, 2], [10], [9]])]
  eof := 0

def serokellInputs : List (List Nat) :=
  [[10], [10, 3, 10], [9, 3, 10], [1, 10, 2], [10, 4, 10], [9, 4, 10], [10, 3, 10, 3, 10], [10, 3, 9,
   3, 10], [9, 3, 10, 3, 10], [9, 3, 9, 3, 10], [10, 3, 1, 10, 2], [9, 3, 1, 10, 2], [10, 3, 10, 4,
   10], [10, 3, 1, 9, 4, 10, 2], [9, 3, 10, 4, 10], [1, 1, 1, 1, 1, 1, 1, 1, 1, 1, 1, 1, 1, 1, 1, 1, 1,
   1, 1, 1, 1, 1, 10, 2, 2, 2, 2, 2, 2, 2, 2, 2, 2, 2, 2, 2, 2, 2, 2, 2, 2, 2, 2, 2, 2]]

/-- src/tabler.rs `serokell`. -/
example : serokell.sets = some ([(5, [1, 9, 10]), (6, [1, 9, 10]), (7, [1, 9, 10]), (8, [1, 9, 10])], [(5, [0, 2, 4]), (6, [0, 2, 3,
   4]), (7, [0]), (8, [0, 2, 3, 4])]) := by decide +kernel

/-- src/slr.rs `serokell`. -/
example : serokell.slr serokellInputs = some (0, serokellInputs.map (fun _ => true)) := by
  decide +kernel

/-- src/clr.rs `serokell`. -/
example : serokell.clr serokellInputs = some (0, serokellInputs.map (fun _ => true)) := by
  decide +kernel

/-- src/lalr.rs `serokell`. -/
example : serokell.lalr serokellInputs = some (0, serokellInputs.map (fun _ => true)) := by
  decide +kernel

/-- grammars_tests.rs `ucalgary_uni_oth_lr1`; the symbols are `$`, `A`, `B`, `C`, `D`, `E`, `F`, `S`, `a`, `b`, `c`, `d`, `e`. -/
def ucalgary_uni_oth_lr1 : Test where
  start := 7
  decls := [(7, [[5]]), (5, [[11, 4], [4], [6]]), (6, [[12, 3], [3]]), (4, [[11, 12, 2, 9], [12, 1, 10]]), (3,
   [[12, 11, 2, 10], [11, 1, 9]]), (2, [[8]]), (1, [[8]])]
  eof := 0

def ucalgary_uni_oth_lr1Inputs : List (List Nat) :=
  [[12, 8, 10], [11, 8, 9], [11, 12, 8, 10], [11, 12, 8, 9], [12, 11, 8, 9], [12, 11, 8, 10], [11, 11,
   12, 8, 9], [12, 12, 11, 8, 10]]

/-- src/tabler.rs `ucalgary_uni_oth_lr1`. -/
example : ucalgary_uni_oth_lr1.sets = some ([(1, [8]), (2, [8]), (3, [11, 12]), (4, [11, 12]), (5, [11, 12]), (6, [11, 12]), (7, [11, 12])],
   [(1, [9, 10]), (2, [9, 10]), (3, [0]), (4, [0]), (5, [0]), (6, [0]), (7, [0])]) := by decide +kernel

/-- src/slr.rs `ucalgary_uni_oth_lr1`. -/
example : ucalgary_uni_oth_lr1.slr ucalgary_uni_oth_lr1Inputs = some (2, [true, true, false, false, false, false, true, true]) := by
  decide +kernel

/-- src/clr.rs `ucalgary_uni_oth_lr1`. -/
example : ucalgary_uni_oth_lr1.clr ucalgary_uni_oth_lr1Inputs = some (0, ucalgary_uni_oth_lr1Inputs.map (fun _ => true)) := by
  decide +kernel

/-- src/lalr.rs `ucalgary_uni_oth_lr1`. -/
example : ucalgary_uni_oth_lr1.lalr ucalgary_uni_oth_lr1Inputs = some (2, [true, true, false, false, false, false, true, true]) := by
  decide +kernel

/-- grammars_tests.rs `wikipedia`; the symbols are `$`, `*`, `+`, `0`, `1`, `B`, `E`, `S`. -/
def wikipedia : Test where
  start := 7
  decls := [(7, [[6]]), (6, [[6, 1, 5], [6, 2, 5], [5]]), (5, [[3], [4]])]
  eof := 0

def wikipediaInputs : List (List Nat) :=
  [[3], [4], [3, 1, 3], [3, 1, 4], [4, 1, 3], [4, 1, 4], [3, 2, 3], [3, 2, 4], [4, 2, 3], [4, 2, 4],
   [3, 1, 3, 1, 3], [3, 1, 3, 1, 4], [3, 1, 4, 1, 3], [3, 1, 4, 1, 4], [4, 1, 3, 1, 3], [4, 1, 3, 1,
   4], [4, 1, 4, 1, 3], [4, 1, 4, 1, 4], [3, 2, 3, 1, 3], [3, 2, 3, 1, 4], [3, 2, 4, 1, 3], [3, 2, 4,
   1, 4], [4, 2, 3, 1, 3], [4, 2, 3, 1, 4], [4, 2, 4, 1, 3], [4, 2, 4, 1, 4], [3, 1, 3, 2, 3], [3, 1,
   3, 2, 4], [3, 1, 4, 2, 3], [3, 1, 4, 2, 4]]

/-- src/tabler.rs `wikipedia`. -/
example : wikipedia.sets = some ([(5, [3, 4]), (6, [3, 4]), (7, [3, 4])], [(5, [0, 1, 2]), (6, [0, 1, 2]), (7, [0])]) := by decide +kernel

/-- src/slr.rs `wikipedia`. -/
example : wikipedia.slr wikipediaInputs = some (0, wikipediaInputs.map (fun _ => true)) := by
  decide +kernel

/-- src/clr.rs `wikipedia`. -/
example : wikipedia.clr wikipediaInputs = some (0, wikipediaInputs.map (fun _ => true)) := by
  decide +kernel

/-- src/lalr.rs `wikipedia`. -/
example : wikipedia.lalr wikipediaInputs = some (0, wikipediaInputs.map (fun _ => true)) := by
  decide +kernel

/-- grammars_tests.rs `puncs`; the symbols are `$`, `(`, `)`, `S`, `S'`, `[`, `]`, `{`, `}`. -/
def puncs : Test where
  start := 4
  decls := [(4, [[3]]), (3, [[1, 2], [1, 3, 2], [5, 6], [5, 3, 6], [7, 8], [7, 3, 8]])]
  eof := 0

def puncsInputs : List (List Nat) :=
  [[1, 2], [5, 6], [7, 8], [1, 1, 2, 2], [1, 5, 6, 2], [1, 7, 8, 2], [5, 1, 2, 6], [5, 5, 6, 6], [5,
   7, 8, 6], [7, 1, 2, 8], [7, 5, 6, 8], [7, 7, 8, 8], [1, 1, 1, 2, 2, 2], [1, 1, 5, 6, 2, 2], [1, 1,
   7, 8, 2, 2], [1, 5, 1, 2, 6, 2], [1, 5, 5, 6, 6, 2], [1, 5, 7, 8, 6, 2], [1, 7, 1, 2, 8, 2], [1, 7,
   5, 6, 8, 2], [1, 7, 7, 8, 8, 2], [5, 1, 1, 2, 2, 6], [5, 1, 5, 6, 2, 6], [5, 1, 7, 8, 2, 6], [5, 5,
   1, 2, 6, 6], [5, 5, 5, 6, 6, 6], [5, 5, 7, 8, 6, 6], [5, 7, 1, 2, 8, 6], [5, 7, 5, 6, 8, 6], [5, 7,
   7, 8, 8, 6]]

/-- src/tabler.rs `puncs`. -/
example : puncs.sets = some ([(3, [1, 5, 7]), (4, [1, 5, 7])], [(3, [0, 2, 6, 8]), (4, [0])]) := by decide +kernel

/-- src/slr.rs `puncs`. -/
example : puncs.slr puncsInputs = some (0, puncsInputs.map (fun _ => true)) := by
  decide +kernel

/-- src/clr.rs `puncs`. -/
example : puncs.clr puncsInputs = some (0, puncsInputs.map (fun _ => true)) := by
  decide +kernel

/-- src/lalr.rs `puncs`. -/
example : puncs.lalr puncsInputs = some (0, puncsInputs.map (fun _ => true)) := by
  decide +kernel

/-- grammars_tests.rs `scanner`. -/
def scanner : Test where
  start := 16
  decls := [(16, [[15]]), (15, [[13, 17, 15], [13]]), (13, [[18], [14]]), (18, [[11, 18], [11]]), (14, [[12,
   14], [12]]), (11, [[20], [21], [22], [23], [24], [25], [26], [27], [28], [29], [30], [31], [32],
   [33], [34], [35], [36], [37], [39], [38], [40], [41], [42], [43], [44], [45]]), (12, [[1], [2], [3],
   [4], [5], [6], [7], [8], [9], [10]]), (17, [[19]])]
  eof := 0

def scannerInputs : List (List Nat) :=
  [[31, 34, 37, 24, 32, 19, 28, 35, 38, 40, 32, 19, 23, 34, 31, 34, 37, 19, 38, 28, 39, 19, 20, 32,
   24, 39], [28, 33, 19, 41, 28, 33, 34, 19, 41, 24, 37, 28, 39, 20, 38, 19, 21, 24, 25, 34, 37, 24,
   19, 8, 10, 19, 20, 22], [2, 3, 19, 39, 28, 32, 24, 38, 19, 4, 19, 28, 38, 19, 24, 36, 40, 20, 31,
   19, 39, 34, 19, 5, 1, 19, 32, 28, 33, 40, 38, 19, 5], [1, 2, 3, 4, 5, 6, 7, 8, 9, 10], [25, 28, 33,
   20, 31, 19, 23, 24, 19, 38, 24, 32, 20, 33, 20, 19, 24, 31, 20, 19, 41, 20, 28, 19, 35, 37, 20, 19,
   37, 40, 20]]

/-- src/tabler.rs `scanner`. -/
example : scanner.sets = some ([(11, [20, 21, 22, 23, 24, 25, 26, 27, 28, 29, 30, 31, 32, 33, 34, 35, 36, 37, 38, 39, 40, 41, 42,
   43, 44, 45]), (12, [1, 2, 3, 4, 5, 6, 7, 8, 9, 10]), (13, [1, 2, 3, 4, 5, 6, 7, 8, 9, 10, 20, 21,
   22, 23, 24, 25, 26, 27, 28, 29, 30, 31, 32, 33, 34, 35, 36, 37, 38, 39, 40, 41, 42, 43, 44, 45]),
   (14, [1, 2, 3, 4, 5, 6, 7, 8, 9, 10]), (15, [1, 2, 3, 4, 5, 6, 7, 8, 9, 10, 20, 21, 22, 23, 24, 25,
   26, 27, 28, 29, 30, 31, 32, 33, 34, 35, 36, 37, 38, 39, 40, 41, 42, 43, 44, 45]), (16, [1, 2, 3, 4,
   5, 6, 7, 8, 9, 10, 20, 21, 22, 23, 24, 25, 26, 27, 28, 29, 30, 31, 32, 33, 34, 35, 36, 37, 38, 39,
   40, 41, 42, 43, 44, 45]), (17, [19]), (18, [20, 21, 22, 23, 24, 25, 26, 27, 28, 29, 30, 31, 32, 33,
   34, 35, 36, 37, 38, 39, 40, 41, 42, 43, 44, 45])], [(11, [0, 19, 20, 21, 22, 23, 24, 25, 26, 27, 28,
   29, 30, 31, 32, 33, 34, 35, 36, 37, 38, 39, 40, 41, 42, 43, 44, 45]), (12, [0, 1, 2, 3, 4, 5, 6, 7,
   8, 9, 10, 19]), (13, [0, 19]), (14, [0, 19]), (15, [0]), (16, [0]), (17, [1, 2, 3, 4, 5, 6, 7, 8, 9,
   10, 20, 21, 22, 23, 24, 25, 26, 27, 28, 29, 30, 31, 32, 33, 34, 35, 36, 37, 38, 39, 40, 41, 42, 43,
   44, 45]), (18, [0, 19])]) := by decide +kernel

/-- src/slr.rs `scanner`. -/
example : scanner.slr scannerInputs = some (0, scannerInputs.map (fun _ => true)) := by
  decide +kernel

/-- src/clr.rs `scanner`. -/
example : scanner.clr scannerInputs = some (0, scannerInputs.map (fun _ => true)) := by
  decide +kernel

/-- src/lalr.rs `scanner`. -/
example : scanner.lalr scannerInputs = some (0, scannerInputs.map (fun _ => true)) := by
  decide +kernel

end Lrp.Suite
