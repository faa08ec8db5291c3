import Verif.Proofs.Effects
import Verif.Props.Runs

/-! C72: the order in which the reductors are called. -/

set_option linter.unusedSectionVars false

namespace Lrp.Props
open Spec
set_option maxRecDepth 100000

variable {T : Type} [LinOrd T] [DecidableEq T] {σ M : Type}

/-- The model with side effects, for reductors that have none, is the model of Model/Dfa.lean. -/
theorem C72_pure (t : Tabler T) (n : Nat) (toks : List (Token M T)) (maps : ReductMap M T) (s : σ) :
    Parser.parseE t n toks (still maps) s = (do let r ← Parser.parse t n toks maps; return (s, r)) :=
  Parser.parseE_still t n toks maps s

/-- C72: whatever the reductors do besides returning a value, a successful parse does what the evaluation
of a parse tree of the input does in the textbook order (children from left to right, then the node; every
node once); the node at the root, for which `parse` calls no reductor, left out. -/
theorem C72_order {k : Method} {dbg : Bool} {D : Decls T} {S eof : T} {t : Tabler T}
    (ht : Makes k dbg D S eof t) (hS : InNoBody D S) (he : Terminal D eof)
    {maps : ReductMapE σ M T} {toks : List (Token M T)} {s s' : σ} {v : M}
    (h : ParsesE t maps toks s s' (.ok v)) :
    ∃ cs its ty, Tree.Valid D (.node S 0 cs) ∧ Tree.yields cs = toks ∧
      Tree.runs (redOfE maps) cs s = some (its ++ [⟨v, ty⟩], s') := by
  obtain ⟨b0, next, red, ha, _⟩ := ht.auto
  obtain ⟨c, its, it, h1, h2, h3, rfl⟩ := ha.parseE_ok ht.eofHead he h
  obtain ⟨hv, _⟩ := ha.accepts hS (ha.inv_moves (inv_init D t.states next toks) h1) h2
  refine ⟨c.trees.reverse, its, it.ty, hv, ?_, h3⟩
  have := h1.yields
  obtain ⟨_, _, _, _, hb⟩ := h2
  simpa [hb] using this

/-- C72 when the parse ends in an error: what has been done is what the evaluation of parse trees of
the beginning of the input does. -/
theorem C72_error {k : Method} {dbg : Bool} {D : Decls T} {S eof : T} {t : Tabler T}
    (ht : Makes k dbg D S eof t) (he : Terminal D eof)
    {maps : ReductMapE σ M T} {toks : List (Token M T)} (hT : TerminalToks D toks) {s s' : σ}
    {e : Error T} (h : ParsesE t maps toks s s' (.error e)) :
    ∃ cs its, (∀ tr ∈ cs, Tree.Valid D tr) ∧ Tree.yields cs <+: toks ∧
      Tree.runs (redOfE maps) cs s = some (its, s') := by
  obtain ⟨b0, next, red, ha, _⟩ := ht.auto
  obtain ⟨n, h⟩ := h
  have hend := ha.parseE_end (maps := maps) ht.eofHead he hT s n
  simp only at h
  rw [h] at hend
  cases hend with
  | @error c _ _ cs its h1 h2 h3 h4 h5 =>
    refine ⟨cs, its, h3, ?_, h5⟩
    have := h1.yields
    simp only [List.reverse_nil, Tree.yields_nil, List.nil_append] at this
    rw [h4, ← this]
    exact List.prefix_append _ _

theorem effects_tree {k : Method} {dbg : Bool} {D : Decls T} {S eof : T} {t : Tabler T}
    (ht : Makes k dbg D S eof t) (hk : k = .lalr → Propagated t) (hc : t.conflicts = [])
    (hS : InNoBody D S) (he : Terminal D eof) (maps : ReductMapE σ M T) (s : σ)
    {cs : List (Tree M T)} (hv : Tree.Valid D (.node S 0 cs)) :
    (∃ its it s', Tree.runs (redOfE maps) cs s = some (its ++ [it], s') ∧
      ParsesE t maps (Tree.yields cs) s s' (.ok it.item)) ∨
    (Tree.runs (redOfE maps) cs s = none ∧
      ∃ p, Panics (fun n => Parser.parseE t n (Tree.yields cs) maps s) p) := by
  obtain ⟨b0, next, red, ha, hl⟩ := ht.looks hk he
  have hT : TerminalToks D (Tree.yields cs) := by
    intro tok htok
    exact hv.terminals tok (by simpa using htok)
  rcases Looks.complete ha hl hS he hv with ⟨c, a, b, hm, hf⟩ | ⟨c, hm, hacc, hcs⟩
  · exact (Clash.false (ht.no_conflict.mp hc) ⟨_, _, _, hm, hf⟩).elim
  · have := ha.parseE_accept_iff (maps := maps) ht.eofHead he hT s hm hacc
    rw [hcs, List.reverse_reverse] at this
    exact this

/-- C72 for conflict-free parsers: every parse tree whose evaluation in that order succeeds is followed. -/
theorem C72_follows {k : Method} {dbg : Bool} {D : Decls T} {S eof : T} {t : Tabler T}
    (ht : Makes k dbg D S eof t) (hk : k = .lalr → Propagated t) (hc : t.conflicts = [])
    (hS : InNoBody D S) (he : Terminal D eof) {maps : ReductMapE σ M T} {s s' : σ}
    {cs : List (Tree M T)} (hv : Tree.Valid D (.node S 0 cs)) {its : List (Token M T)}
    {it : Token M T} (h : Tree.runs (redOfE maps) cs s = some (its ++ [it], s')) :
    ParsesE t maps (Tree.yields cs) s s' (.ok it.item) := by
  rcases effects_tree ht hk hc hS he maps s hv with ⟨its', it', s'', h1, h2⟩ | ⟨h1, _⟩
  · rw [h] at h1
    simp only [Option.some.injEq, Prod.mk.injEq] at h1
    obtain ⟨h1, rfl⟩ := h1
    obtain ⟨_, h1⟩ := List.append_inj' h1 rfl
    cases h1
    exact h2
  · rw [h] at h1; cases h1

/-- C72 for conflict-free parsers: and if a reductor panics in the course of that, so does the parser. -/
theorem C72_panics {k : Method} {dbg : Bool} {D : Decls T} {S eof : T} {t : Tabler T}
    (ht : Makes k dbg D S eof t) (hk : k = .lalr → Propagated t) (hc : t.conflicts = [])
    (hS : InNoBody D S) (he : Terminal D eof) {maps : ReductMapE σ M T} {s : σ}
    {cs : List (Tree M T)} (hv : Tree.Valid D (.node S 0 cs))
    (h : Tree.runs (redOfE maps) cs s = none) :
    ∃ p, Panics (fun n => Parser.parseE t n (Tree.yields cs) maps s) p := by
  rcases effects_tree ht hk hc hS he maps s hv with ⟨its', it', s'', h1, h2⟩ | ⟨_, h1⟩
  · rw [h] at h1; cases h1
  · exact h1

/-- C72: if each reductor notes when it is called, then after a successful parse the notes are the nodes
of a parse tree of the input in postorder, without the root: one call for each. -/
theorem C72_once {k : Method} {dbg : Bool} {D : Decls T} {S eof : T} {t : Tabler T}
    (ht : Makes k dbg D S eof t) (hS : InNoBody D S) (he : Terminal D eof)
    {maps : ReductMap M T} {toks : List (Token M T)} {log : List (T × Nat)} {v : M}
    (h : ParsesE t (noting maps) toks [] log (.ok v)) :
    ∃ cs, Tree.Valid D (.node S 0 cs) ∧ Tree.yields cs = toks ∧ log = Tree.nodesOf cs := by
  obtain ⟨cs, its, ty, h1, h2, h3⟩ := C72_order ht hS he h
  refine ⟨cs, h1, h2, ?_⟩
  rw [runs_noting] at h3
  obtain ⟨_, _, h3⟩ := Option.map_eq_some_iff.mp h3
  simp only [List.nil_append, Prod.mk.injEq] at h3
  exact h3.2.symm

/-- A run of the expression parser with notes, checked by evaluation. -/
theorem noted {toks : List (Token Nat Nat)} {log : List (Nat × Nat)} {v : Nat}
    (h : (match Parser.parseE exprClr 100 toks (noting exprReds) [] with
      | .ok (s, .ok w) => decide (s = log ∧ w = v)
      | _ => false) = true) : ParsesE exprClr (noting exprReds) toks [] log (.ok v) := by
  refine ⟨100, ?_⟩
  show Parser.parseE exprClr 100 toks (noting exprReds) [] = _
  cases hr : Parser.parseE exprClr 100 toks (noting exprReds) [] with
  | panic p => simp [hr] at h
  | fuel => simp [hr] at h
  | ok r =>
    rw [hr] at h
    obtain ⟨s, e | w⟩ := r
    · simp at h
    · obtain ⟨rfl, rfl⟩ := of_decide_eq_true h
      rfl

/-- Not vacuous: the notes of a parse of `2 + 3 * 4` (rule names: 1 sum, 2 product, 3 factor). -/
example : ParsesE exprClr (noting exprReds) [⟨2, 14⟩, ⟨0, 10⟩, ⟨3, 14⟩, ⟨0, 11⟩, ⟨4, 14⟩] []
    [(3, 1), (2, 1), (1, 1), (3, 1), (2, 1), (3, 1), (2, 0), (1, 0)] (.ok 14) :=
  noted (by decide +kernel)

/-- Not vacuous: reductors that hand out numbers, so that the values tell the order of the calls: in
`n * n + n` the last factor gets number 5. -/
example : ∃ r, Parser.parseE exprClr 100 (Samples.toks [14, 11, 14, 10, 14] |>.map (fun t => ⟨0, t.ty⟩))
    [(0, [fun _ _ => none]), (1, [fun _ n => some (n, n + 1), fun _ n => some (n, n + 1)]),
     (2, [fun _ n => some (n, n + 1), fun _ n => some (n, n + 1)]),
     (3, [fun _ n => some (n, n + 1), fun _ n => some (n, n + 1)])] 0 = .ok r ∧ r.1 = 8 ∧
    (match r.2 with | .ok v => v = 7 | .error _ => False) := by
  refine ⟨_, rfl, ?_⟩
  decide +kernel

/-- Not vacuous: a parse that ends in an error (`2 * * 3`) has called the reductors for what it has read;
`C72_error` applies to it. -/
example : ∃ r, Parser.parseE exprClr 100 [⟨2, 14⟩, ⟨0, 11⟩, ⟨0, 11⟩, ⟨3, 14⟩] (noting exprReds) [] =
    .ok r ∧ r.1 = [(3, 1), (2, 1)] ∧ (match r.2 with | .ok _ => False | .error _ => True) := by
  refine ⟨_, rfl, ?_⟩
  decide +kernel

/-- Not vacuous: the hypotheses of `C72_follows` and `C72_panics` hold for every tree of the expression
grammar. -/
example {cs : List (Tree Nat Nat)} (hv : Tree.Valid Samples.expr (.node 0 0 cs)) :
    (∃ log v, ParsesE exprSlr (noting exprReds) (Tree.yields cs) [] log (.ok v)) ∨
    ∃ p, Panics (fun n => Parser.parseE exprSlr n (Tree.yields cs) (noting exprReds) []) p := by
  cases h : Tree.runs (redOfE (noting exprReds)) cs [] with
  | none => exact .inr (C72_panics makes_exprSlr (by simp) exprSlr_ok.2.2 expr_start expr_eof hv h)
  | some r =>
    obtain ⟨its, s'⟩ := r
    have hl := Tree.runs_tys h
    rcases List.eq_nil_or_concat its with rfl | ⟨its, it, rfl⟩
    · cases hv with
      | node hp _ =>
        rw [← hl] at hp
        exact (makes_exprSlr.noEmpty _ _ _ hp rfl).elim
    · exact .inl ⟨s', _, C72_follows makes_exprSlr (by simp) exprSlr_ok.2.2 expr_start expr_eof hv
        (by rw [h, List.concat_eq_append])⟩

end Lrp.Props
