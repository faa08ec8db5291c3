import Verif.Props.Views
import Verif.Props.Halt
import Verif.Proofs.Stack

set_option maxRecDepth 100000
set_option linter.unusedSectionVars false

/-! C93: how high the stack of a run gets. -/

namespace Lrp.Props
open Spec
variable {T : Type} [LinOrd T] [DecidableEq T] {M : Type}

/-- C93: at every moment of a run on terminals there is one more state than items on the stacks, and there are no
more items than tokens that have been read. -/
theorem C93_height {k : Method} {dbg : Bool} {D : Decls T} {S eof : T} {t : Tabler T}
    (ht : Makes k dbg D S eof t) (he : Terminal D eof) {maps : ReductMap M T} {toks : List (Token M T)}
    (hT : TerminalToks D toks) {d : Dfa M T} (hd : Reached t maps toks d) :
    d.states.length = d.items.length + 1 ∧ d.items.length + d.buffer.length ≤ toks.length := by
  obtain ⟨rest, _, h2, h3, _⟩ := C55_stack ht he hT hd (fun _ => "") (fun _ => "")
  obtain ⟨trs, h4, h5, h6⟩ := C38_parse_trees ht he hT hd
  obtain ⟨_, _, _, ha, _⟩ := ht.auto
  constructor
  · have e1 := congrArg List.length h2
    have e2 := congrArg List.length h3
    simp only [List.length_map, List.length_reverse, List.length_cons] at e1 e2
    omega
  · have key : ∀ {cs : List (Tree M T)}, (∀ c ∈ cs, Tree.Valid D c) → cs.length ≤ (Tree.yields cs).length := by
      intro cs
      induction cs with
      | nil => intro _; simp [Tree.yields]
      | cons c cs ih =>
        intro hv
        obtain ⟨tok, r, hy, _⟩ := Tree.valid_yield ha.noEmpty (hv c (by simp))
        have := ih (fun c hc => hv c (by simp [hc]))
        simp only [Tree.yields, List.length_append, List.length_cons, hy]
        omega
    have e1 := key h6
    have e2 := congrArg List.length (evals_iff.mp h5)
    have e3 := congrArg List.length h4
    simp only [List.length_map, List.length_reverse, List.length_append] at e1 e2 e3
    omega

/-- C93: if no rule that can be reached derives a form that contains it with something to the left of it, the
stack never gets higher than a number that depends on the grammar only. -/
theorem C93_bounded {k : Method} {dbg : Bool} {D : Decls T} {S eof : T} {t : Tabler T}
    (ht : Makes k dbg D S eof t) (he : Terminal D eof) (hn : ∀ A, Reachable D S A → ¬ Nests D A) {m : Nat}
    (hm : BodiesWithin D m) {maps : ReductMap M T} {toks : List (Token M T)} (hT : TerminalToks D toks)
    {d : Dfa M T} (hd : Reached t maps toks d) : d.items.length ≤ (D.length + 1) * m := by
  obtain ⟨b0, next, red, ha, _⟩ := ht.auto
  obtain ⟨c, hmv, hs⟩ := ha.reached ht.eofHead he hT hd
  have hi := ha.inv_moves (inv_init D t.states next toks) hmv
  have := ha.stack_bound hm hn hi.path
  have e : c.trees.map (valTok (redOf maps)) = d.items.map some := by
    rcases hs with hs | ⟨d0, hs, _, rfl⟩
    · exact hs.items
    · exact hs.items
  have e := congrArg List.length e
  simp only [List.length_map] at e this
  omega

/-- C93: and if there is such a rule, there are sentences on which the parser needs a stack as high as you like
(and accepts): for tables without conflicts, and rules that all derive something. -/
theorem C93_unbounded {k : Method} {dbg : Bool} {D : Decls T} {S eof : T} {t : Tabler T}
    (ht : Makes k dbg D S eof t) (hk : k = .lalr → Propagated t) (hc : t.conflicts = []) (he : Terminal D eof)
    (hS : InNoBody D S) (h1 : SingleStart D S) (hpr : AllProductive D) {A : T} (hr : Reachable D S A)
    (hN : Nests D A) (n : Nat) :
    ∃ toks : List (Token Unit T), Sentence D S (toks.map Token.ty) ∧ Validates t toks true ∧
      ∃ d, Reached t (Parser.empty t) toks d ∧ n ≤ d.items.length := by
  obtain ⟨b0, next, red, ha, hl⟩ := ht.looks hk he
  obtain ⟨toks, hsent, hcl | ⟨c, hm, hlen⟩⟩ := Looks.high (M := Unit) ha hl hS h1 hpr hr hN () n
  · exact (hcl.false (ht.no_conflict.mp hc)).elim
  · have hT : TerminalToks D toks := fun tok htok => hsent.2 _ (List.mem_map_of_mem htok)
    refine ⟨toks, hsent, complete_validates ht hk hc hS h1 he hsent, ?_⟩
    have hinit : Parser.dfa t toks (Parser.empty t) = .ok (Dfa.new toks t.actions (Parser.empty t) eof) := by
      unfold Parser.dfa
      rw [ht.eofHead]
      rfl
    obtain ⟨d, k1, k2⟩ := ha.reached_moves he ((C26_validate ht).evaluates toks) hm (.init hinit)
      (inv_init D t.states next toks) (sim_init t.actions eof (Parser.empty t) toks) hT
      (by simp [Conf.all])
    refine ⟨d, k1, ?_⟩
    have hh := (C93_height ht he hT k1).1
    rw [k2.states] at hh
    omega

/-- C93: exactly which parsers get by with a stack of limited height. -/
theorem C93_iff {k : Method} {dbg : Bool} {D : Decls T} {S eof : T} {t : Tabler T}
    (ht : Makes k dbg D S eof t) (hk : k = .lalr → Propagated t) (hc : t.conflicts = []) (he : Terminal D eof)
    (hS : InNoBody D S) (h1 : SingleStart D S) (hpr : AllProductive D) {m : Nat} (hm : BodiesWithin D m) :
    (∃ most, ∀ (toks : List (Token Unit T)) d, TerminalToks D toks → Reached t (Parser.empty t) toks d →
      d.items.length ≤ most) ↔ ∀ A, Reachable D S A → ¬ Nests D A := by
  constructor
  · rintro ⟨most, h⟩ A hr hN
    obtain ⟨toks, hs, _, d, h2, h3⟩ := C93_unbounded ht hk hc he hS h1 hpr hr hN (most + 1)
    have := h toks d (fun tok htok => hs.2 _ (List.mem_map_of_mem htok)) h2
    omega
  · intro h
    exact ⟨(D.length + 1) * m, fun toks d hT hd => C93_bounded ht he h hm hT hd⟩

/-- A ranking that shows that nothing nests: along every production, ranks do not rise to the first symbol and
fall to the others. -/
theorem not_nests_of_rank {D : Decls T} (rank : T → Nat)
    (hr : ∀ A i x C y, IsProd D A i (x ++ C :: y) → Nonterminal D C → rank C ≤ rank A ∧ (x ≠ [] → rank C < rank A))
    (A : T) : ¬ Nests D A := by
  intro hN
  obtain ⟨w, hw, h⟩ := nests_iff.mp hN
  have key : ∀ {u B}, Under D A u B → Nonterminal D B → rank B ≤ rank A ∧ (u ≠ [] → rank B < rank A) := by
    intro u B hu
    induction hu with
    | refl => intro _; exact ⟨Nat.le_refl _, fun h => absurd rfl h⟩
    | @snoc u B C i x y _ hp ih =>
      intro hC
      obtain ⟨h1, h2⟩ := ih hp.nonterminal
      obtain ⟨h3, h4⟩ := hr _ _ _ _ _ hp hC
      refine ⟨by omega, fun hne => ?_⟩
      by_cases hu : u = []
      · have : x ≠ [] := by rintro rfl; exact hne (by simp [hu])
        have := h4 this
        omega
      · have := h2 hu
        omega
  have hA : Nonterminal D A := by
    have : ∀ {u B}, Under D A u B → Nonterminal D B → Nonterminal D A := by
      intro u B hu
      induction hu with
      | refl => exact id
      | snoc _ hp ih => exact fun _ => ih hp.nonterminal
    cases h with
    | refl => exact absurd rfl hw
    | snoc hB hp => exact this hB hp.nonterminal
  exact Nat.lt_irrefl _ ((key h hA).2 hw)

/-- Sums of products without brackets: S → E, E → E + T | T, T → T * n | n. -/
def flat : Decls Nat := [(0, [[1]]), (1, [[1, 10, 2], [2]]), (2, [[2, 11, 12], [12]])]

theorem flat_prods {A i : Nat} {b : List Nat} (h : IsProd flat A i b) :
    (A = 0 ∧ b = [1]) ∨ (A = 1 ∧ (b = [1, 10, 2] ∨ b = [2])) ∨ (A = 2 ∧ (b = [2, 11, 12] ∨ b = [12])) := by
  obtain ⟨d, h1, h2, h3⟩ := Samples.mem_of_isProd h
  have hk := List.mem_of_getElem? h3
  simp only [flat, List.mem_cons, List.not_mem_nil, or_false] at h1
  rcases h1 with rfl | rfl | rfl <;> simp only [List.mem_cons, List.not_mem_nil, or_false] at h2 hk <;>
    simp [← h2, hk]

theorem flat_not_nests (A : Nat) : ¬ Nests flat A := by
  refine not_nests_of_rank (fun A => 3 - A) ?_ A
  intro A i x C y hp hC
  have hC' : C = 0 ∨ C = 1 ∨ C = 2 := by
    obtain ⟨d, hd, rfl⟩ := hC
    simp only [flat, List.mem_cons, List.not_mem_nil, or_false] at hd
    rcases hd with rfl | rfl | rfl <;> simp
  have hmem : C ∈ x ++ C :: y := by simp
  rcases flat_prods hp with ⟨rfl, e⟩ | ⟨rfl, e | e⟩ | ⟨rfl, e | e⟩ <;> cases x with
  | nil => simp only [List.nil_append, List.cons.injEq] at e; simp [e.1]
  | cons a x =>
    simp only [List.cons_append, List.cons.injEq] at e
    have h2 := e.2
    cases x with
    | nil => simp_all
    | cons b x =>
      cases x with
      | nil => simp_all
      | cons c x => simp at h2

/-- Not vacuous: sums of products of any length are parsed with at most 12 items on the stack. -/
example {t : Tabler Nat} (ht : Makes .slr true flat 0 99 t) {toks : List (Token Unit Nat)}
    (hT : TerminalToks flat toks) {d : Dfa Unit Nat} (hd : Reached t (Parser.empty t) toks d) :
    d.items.length ≤ 12 := by
  refine C93_bounded (m := 3) ht (by unfold Terminal; decide) (fun A _ => flat_not_nests A) ?_ hT hd
  intro A i b hp
  rcases flat_prods hp with ⟨_, rfl⟩ | ⟨_, rfl | rfl⟩ | ⟨_, rfl | rfl⟩ <;> decide

/-- And there is such a parser. -/
example : ∃ t, Makes .slr true flat 0 99 t ∧ t.conflicts = [] := by
  have h : ∃ t, Slr.new true 50 (Samples.grammar flat) = .ok t ∧ t.conflicts = [] := by
    refine ⟨_, rfl, ?_⟩; decide +kernel
  obtain ⟨t, h1, h2⟩ := h
  exact ⟨t, ⟨_, by decide +kernel, 50, h1⟩, h2⟩

theorem expr_nests : Nests Samples.expr 1 := by
  have p1 : IsProd Samples.expr 1 1 [2] :=
    isProd_of_mem (by decide) (bs := [[1, 10, 2], [2]]) (by decide) rfl
  have p2 : IsProd Samples.expr 2 1 [3] :=
    isProd_of_mem (by decide) (bs := [[2, 11, 3], [3]]) (by decide) rfl
  have p3 : IsProd Samples.expr 3 0 [12, 1, 13] :=
    isProd_of_mem (by decide) (bs := [[12, 1, 13], [14]]) (by decide) rfl
  exact ⟨[12], [13], by simp, ((Derives.of_prod p1).trans (.of_prod p2)).trans (.of_prod p3)⟩

/-- With brackets no height is enough. -/
example (n : Nat) : ∃ toks : List (Token Unit Nat), Sentence Samples.expr 0 (toks.map Token.ty) ∧
    Validates exprSlr toks true ∧ ∃ d, Reached exprSlr (Parser.empty exprSlr) toks d ∧ n ≤ d.items.length := by
  refine C93_unbounded makes_exprSlr (by simp) exprSlr_ok.2.2 expr_eof expr_start expr_single expr_productive ?_
    expr_nests n
  have p0 : IsProd Samples.expr 0 0 [1] := isProd_of_mem (by decide) (bs := [[1]]) (by decide) rfl
  exact ⟨[], [], .of_prod p0⟩

end Lrp.Props
