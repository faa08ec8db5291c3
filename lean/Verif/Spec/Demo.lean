/-! Specification of the demonstration program: bracketed words, and lines. -/

namespace Lrp.Spec

/-- One pair of brackets in another one, and so on, with an innermost empty pair. -/
inductive Nested : List Char → Prop
  | round : Nested ['(', ')']
  | square : Nested ['[', ']']
  | curly : Nested ['{', '}']
  | inRound {w : List Char} : Nested w → Nested ('(' :: w ++ [')'])
  | inSquare {w : List Char} : Nested w → Nested ('[' :: w ++ [']'])
  | inCurly {w : List Char} : Nested w → Nested ('{' :: w ++ ['}'])

/-- The characters of Unicode that are white space. -/
def White (c : Char) : Prop :=
  c.toNat ∈ [9, 10, 11, 12, 13, 32, 133, 160, 5760, 8192, 8193, 8194, 8195, 8196, 8197, 8198, 8199, 8200,
    8201, 8202, 8232, 8233, 8239, 8287, 12288]

/-- The line consists of the word `w` over the characters of the program, with white space around it. -/
def Entered (line w : List Char) : Prop :=
  (∀ c ∈ w, c ∈ ['(', ')', '[', ']', '{', '}', 'c', 'd']) ∧
  ∃ a b, line = a ++ w ++ b ∧ (∀ c ∈ a, White c) ∧ ∀ c ∈ b, White c

end Lrp.Spec
