import Verif.Props.Errors
import Verif.Props.Halt

set_option maxRecDepth 100000

/-! C25 for `Lalr`: a table without conflicts does not certify that the grammar is unambiguous. -/

namespace Lrp.Props
open Spec

/-- `S → A x | z A y | z A`, `A → c B`, `B → d e | d e y`: the input `z c d e y` has two parse trees, and
the conflict between them shows only under a lookahead that `Lalr` loses. -/
def hiddenTwo : Decls Nat :=
  [(0, [[1]]), (1, [[2, 10], [13, 2, 12], [13, 2]]), (2, [[11, 3]]), (3, [[14, 15], [14, 15, 12]])]

/-- A leaf without a value. -/
def leafOf (a : Nat) : Tree Unit Nat := .leaf ⟨(), a⟩

/-- `S → z A y` with `B → d e`. -/
def hiddenLeft : Tree Unit Nat :=
  .node 0 0 [.node 1 1 [leafOf 13, .node 2 0 [leafOf 11, .node 3 0 [leafOf 14, leafOf 15]], leafOf 12]]

/-- `S → z A` with `B → d e y`. -/
def hiddenRight : Tree Unit Nat :=
  .node 0 0 [.node 1 2 [leafOf 13, .node 2 0 [leafOf 11, .node 3 1 [leafOf 14, leafOf 15, leafOf 12]]]]

theorem hiddenTwo_leaf {a : Nat} (h : 10 ≤ a) : Tree.Valid hiddenTwo (leafOf a) := by
  refine .leaf ?_
  intro d hd
  simp only [hiddenTwo, List.mem_cons, List.not_mem_nil, or_false] at hd
  simp only
  rcases hd with rfl | rfl | rfl | rfl <;> simp only <;> omega

theorem hiddenLeft_valid : Tree.Valid hiddenTwo hiddenLeft := by
  have p0 : IsProd hiddenTwo 0 0 [1] := isProd_of_mem (by decide) (bs := [[1]]) (by decide) rfl
  have p1 : IsProd hiddenTwo 1 1 [13, 2, 12] :=
    isProd_of_mem (by decide) (bs := [[2, 10], [13, 2, 12], [13, 2]]) (by decide) rfl
  have p2 : IsProd hiddenTwo 2 0 [11, 3] := isProd_of_mem (by decide) (bs := [[11, 3]]) (by decide) rfl
  have p3 : IsProd hiddenTwo 3 0 [14, 15] :=
    isProd_of_mem (by decide) (bs := [[14, 15], [14, 15, 12]]) (by decide) rfl
  have l := @hiddenTwo_leaf
  refine .node p0 fun c hc => ?_
  simp only [List.mem_cons, List.not_mem_nil, or_false] at hc
  subst hc
  refine .node p1 fun c hc => ?_
  simp only [List.mem_cons, List.not_mem_nil, or_false] at hc
  rcases hc with rfl | rfl | rfl
  · exact l (by decide)
  · refine .node p2 fun c hc => ?_
    simp only [List.mem_cons, List.not_mem_nil, or_false] at hc
    rcases hc with rfl | rfl
    · exact l (by decide)
    · refine .node p3 fun c hc => ?_
      simp only [List.mem_cons, List.not_mem_nil, or_false] at hc
      rcases hc with rfl | rfl <;> exact l (by decide)
  · exact l (by decide)

theorem hiddenRight_valid : Tree.Valid hiddenTwo hiddenRight := by
  have p0 : IsProd hiddenTwo 0 0 [1] := isProd_of_mem (by decide) (bs := [[1]]) (by decide) rfl
  have p1 : IsProd hiddenTwo 1 2 [13, 2] :=
    isProd_of_mem (by decide) (bs := [[2, 10], [13, 2, 12], [13, 2]]) (by decide) rfl
  have p2 : IsProd hiddenTwo 2 0 [11, 3] := isProd_of_mem (by decide) (bs := [[11, 3]]) (by decide) rfl
  have p3 : IsProd hiddenTwo 3 1 [14, 15, 12] :=
    isProd_of_mem (by decide) (bs := [[14, 15], [14, 15, 12]]) (by decide) rfl
  have l := @hiddenTwo_leaf
  refine .node p0 fun c hc => ?_
  simp only [List.mem_cons, List.not_mem_nil, or_false] at hc
  subst hc
  refine .node p1 fun c hc => ?_
  simp only [List.mem_cons, List.not_mem_nil, or_false] at hc
  rcases hc with rfl | rfl
  · exact l (by decide)
  · refine .node p2 fun c hc => ?_
    simp only [List.mem_cons, List.not_mem_nil, or_false] at hc
    rcases hc with rfl | rfl
    · exact l (by decide)
    · refine .node p3 fun c hc => ?_
      simp only [List.mem_cons, List.not_mem_nil, or_false] at hc
      rcases hc with rfl | rfl | rfl <;> exact l (by decide)

/-- C25 does not extend to all Lalr tables: this one has no conflicts although the grammar is ambiguous.
(The condition of `C25_unambiguous` on Lalr tables cannot be left out.) -/
theorem C25_false_lalr : ∃ t, Makes .lalr true hiddenTwo 0 99 t ∧ t.conflicts = [] ∧
    InNoBody hiddenTwo 0 ∧ SingleStart hiddenTwo 0 ∧ Terminal hiddenTwo 99 ∧
    ∃ t1 t2 : Tree Unit Nat, Tree.Valid hiddenTwo t1 ∧ Tree.Valid hiddenTwo t2 ∧ t1.root = 0 ∧ t2.root = 0 ∧
      t1.yield = t2.yield ∧ t1 ≠ t2 := by
  have hg : Grammar.new true 0 (grammarMap hiddenTwo) 99 = .ok (Samples.grammar hiddenTwo) := by
    decide +kernel
  have h : ∃ l, Lalr.new true 500 (Samples.grammar hiddenTwo) = .ok l ∧ l.table.conflicts = [] := by
    refine ⟨_, rfl, ?_⟩; decide +kernel
  obtain ⟨l, h1, h2⟩ := h
  refine ⟨l.table, ⟨_, hg, 500, ?_⟩, h2, Samples.inNoBody (by decide), Samples.singleStart (by decide),
    by unfold Terminal; decide, hiddenLeft, hiddenRight, hiddenLeft_valid, hiddenRight_valid, rfl, rfl,
    rfl, ?_⟩
  · show (do let l ← Lalr.new true 500 (Samples.grammar hiddenTwo); return l.table) = _
    rw [h1]; rfl
  · intro h
    unfold hiddenLeft hiddenRight at h
    simp at h

/-- `C25_panics` is met by the expression grammar: without reductors, the parser panics on a number. -/
example : ∃ p, Panics (fun n => Parser.parse exprSlr n [(⟨7, 14⟩ : Token Nat Nat)] []) p := by
  have p0 : IsProd Samples.expr 0 0 [1] := isProd_of_mem (by decide) (bs := [[1]]) (by decide) rfl
  have p1 : IsProd Samples.expr 1 1 [2] :=
    isProd_of_mem (by decide) (bs := [[1, 10, 2], [2]]) (by decide) rfl
  have p2 : IsProd Samples.expr 2 1 [3] :=
    isProd_of_mem (by decide) (bs := [[2, 11, 3], [3]]) (by decide) rfl
  have p3 : IsProd Samples.expr 3 1 [14] :=
    isProd_of_mem (by decide) (bs := [[12, 1, 13], [14]]) (by decide) rfl
  refine C25_panics (cs := []) (last := .node 1 1 [.node 2 1 [.node 3 1 [.leaf ⟨7, 14⟩]]]) makes_exprSlr
    (by simp) exprSlr_ok.2.2 expr_start expr_eof ⟨_, List.mem_singleton.mpr rfl, rfl⟩ ?_
  refine .node p0 fun c hc => ?_
  obtain rfl := List.mem_singleton.mp hc
  refine .node p1 fun c hc => ?_
  obtain rfl := List.mem_singleton.mp hc
  refine .node p2 fun c hc => ?_
  obtain rfl := List.mem_singleton.mp hc
  refine .node p3 fun c hc => ?_
  obtain rfl := List.mem_singleton.mp hc
  exact .leaf (by unfold Terminal; decide)

end Lrp.Props
