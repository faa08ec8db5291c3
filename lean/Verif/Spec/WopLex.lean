import Verif.Spec.WopSyntax

/-! Where code blocks and comments of `wop` end. -/

namespace Lrp.Wop.Spec

/-- The bytes `a`, `b` stand in the text at `k`. -/
def MarkAt (a b : Nat) (s : Text) (k : Nat) : Prop := s[k]? = some a ∧ s[k + 1]? = some b

/-- How many bytes `a` the text ends with. -/
def closing (a : Nat) (s : Text) : Nat := (s.reverse.takeWhile (· == a)).length

/-- The mark at `k` is the first one before which stands an even number of bytes `a`. -/
structure Ends (a b : Nat) (s : Text) (k : Nat) : Prop where
  mark : MarkAt a b s k
  even : closing a (s.take k) % 2 = 0
  first : ∀ j, j < k → MarkAt a b s j → closing a (s.take j) % 2 = 1

/-- White space. -/
def Blank (s : Text) : Prop := ∀ c ∈ s, c = 32 ∨ c = 9 ∨ c = 10 ∨ c = 13

end Lrp.Wop.Spec
