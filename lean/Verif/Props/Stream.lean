import Verif.Proofs.Stream
import Verif.Props.Effects
import Verif.Props.Linear

/-! C78: when the parser asks its iterator for tokens. -/

set_option linter.unusedSectionVars false

namespace Lrp.Props
open Spec
set_option maxRecDepth 100000

variable {T : Type} [LinOrd T] [DecidableEq T] {σ M : Type}

/-- The model with iterators, on the iterator over a list, is the model of Model/Effects.lean. -/
theorem C78_list (t : Tabler T) (n : Nat) (toks : List (Token M T)) (maps : ReductMapE σ M T) (s : σ) :
    (do let r ← Parser.parseS t n listNext (apart maps) (toks, s); return (r.1.2, r.2)) =
      Parser.parseE t n toks maps s :=
  Parser.parseS_list t n toks maps s

/-- C78: whatever the iterator and the reductors do to what is around them, a successful parse does what
going through a parse tree does, with one token read ahead: the token after a leaf is asked for when the leaf
is passed, before the reductors of the nodes that end there are called.  The iterator has said `None` in the
end, once; it is not asked again. -/
theorem C78_order {k : Method} {dbg : Bool} {D : Decls T} {S eof : T} {t : Tabler T}
    (ht : Makes k dbg D S eof t) (hS : InNoBody D S) (he : Terminal D eof)
    {nx : NextFn σ M T} {maps : ReductMapE σ M T} {s s' : σ} {v : M}
    (h : ParsesS t nx maps s s' (.ok v)) :
    ∃ cs its ty, Tree.Valid D (.node S 0 cs) ∧
      Walk nx (redOfE maps) cs (nx s) (its ++ [⟨v, ty⟩]) (none, s') := by
  obtain ⟨b0, next, red, ha, _⟩ := ht.auto
  obtain ⟨w, sts, trs, its, it, h1, h2, h3, rfl⟩ := ha.parseS_ok ht.eofHead he h
  obtain ⟨hv, _⟩ := ha.accepts hS (ha.inv_moves (inv_init D t.states next w) h1) h2
  exact ⟨trs.reverse, its, it.ty, hv, h3⟩

/-- C78 when the parse ends in an error: the tokens of some parse trees have been read, and the one after
them.  An unexpected token is that one: nothing after it is asked for. -/
theorem C78_error {k : Method} {dbg : Bool} {D : Decls T} {S eof : T} {t : Tabler T}
    (ht : Makes k dbg D S eof t) (he : Terminal D eof) {nx : NextFn σ M T}
    (hT : ∀ s tok s', nx s = (some tok, s') → Terminal D tok.ty)
    {maps : ReductMapE σ M T} {s s' : σ} {e : Error T} (h : ParsesS t nx maps s s' (.error e)) :
    ∃ cs its la, (∀ tr ∈ cs, Tree.Valid D tr) ∧ Walk nx (redOfE maps) cs (nx s) its (la, s') ∧
      (∀ x expected, e = .unexpectedToken x expected → (la = none ∧ x = eof) ∨ ∃ tok, la = some tok ∧ x = tok.ty) ∧
      (e = .unexpectedEof → la = none) ∧ (e = .incompleteExec → la ≠ none) := by
  obtain ⟨b0, next, red, ha, _⟩ := ht.auto
  obtain ⟨w, c, cs, its, h1, h2, h3, h4, h5⟩ := ha.parseS_error ht.eofHead he hT h
  refine ⟨cs, its, _, h3, h5, ?_, ?_, ?_⟩
  · rintro x ex rfl
    cases h2 with
    | @noAction i st trs buf row _ _ =>
      cases buf with
      | nil => exact .inl ⟨rfl, rfl⟩
      | cons tok rest => exact .inr ⟨tok, rfl, rfl⟩
  · rintro rfl
    cases h2
    rfl
  · rintro rfl
    cases h2 with
    | incomplete _ hb =>
      intro hn
      exact hb (List.head?_eq_none_iff.mp hn)

/-- C78 for conflict-free parsers: every parse tree that can be gone through in that way is followed. -/
theorem C78_follows {k : Method} {dbg : Bool} {D : Decls T} {S eof : T} {t : Tabler T}
    (ht : Makes k dbg D S eof t) (hk : k = .lalr → Propagated t) (hc : t.conflicts = [])
    (hS : InNoBody D S) (he : Terminal D eof) {nx : NextFn σ M T} {maps : ReductMapE σ M T} {s s' : σ}
    {cs : List (Tree M T)} (hv : Tree.Valid D (.node S 0 cs)) {its : List (Token M T)}
    {it : Token M T} (h : Walk nx (redOfE maps) cs (nx s) (its ++ [it]) (none, s')) :
    ParsesS t nx maps s s' (.ok it.item) := by
  obtain ⟨b0, next, red, ha, hl⟩ := ht.looks hk he
  have hT : TerminalToks D (Tree.yields cs) := by
    intro tok htok
    exact hv.terminals tok (by simpa using htok)
  rcases Looks.complete ha hl hS he hv with ⟨c, a, b, hm, hf⟩ | ⟨c, hm, hacc, hcs⟩
  · exact (Clash.false (ht.no_conflict.mp hc) ⟨_, _, _, hm, hf⟩).elim
  · refine ha.parseS_follows (its := its) ht.eofHead he hT hm hacc ?_
    rw [hcs, List.reverse_reverse]
    exact h

/-- C78: the parser panics only if a reductor does (or is missing), and then where it is called in going
through parse trees. -/
theorem C78_panic {k : Method} {dbg : Bool} {D : Decls T} {S eof : T} {t : Tabler T}
    (ht : Makes k dbg D S eof t) (he : Terminal D eof) {nx : NextFn σ M T}
    (hT : ∀ s tok s', nx s = (some tok, s') → Terminal D tok.ty)
    {maps : ReductMapE σ M T} {s : σ} {p : Panic} (h : Panics (fun n => Parser.parseS t n nx maps s) p) :
    ∃ A i cs ds its its' st la s', (∀ tr ∈ cs, Tree.Valid D tr) ∧ Tree.Valid D (.node A i ds) ∧
      Walk nx (redOfE maps) cs (nx s) its st ∧ Walk nx (redOfE maps) ds st its' (la, s') ∧
      redOfE maps A i its' s' = none := by
  obtain ⟨b0, next, red, ha, _⟩ := ht.auto
  obtain ⟨A, i, cs, ds, its, its', st, la, s', h1, h2, h3, h4, h5⟩ := ha.parseS_panic ht.eofHead he hT h
  exact ⟨A, i, cs, ds, its, its', st, la, s', h2, h1, h3, h4, h5⟩

/-- The parser reads on: after so many rounds of its loop it has ended, or has passed `N` leaves. -/
def ReadsOn (D : Decls T) (t : Tabler T) (nx : NextFn σ M T) (maps : ReductMapE σ M T) (s : σ) : Prop :=
  ∀ N n, 2 * (N + 1) * (D.length + 1) + 2 ≤ n → Parser.parseS t n nx maps s = .fuel →
    ∃ cs its st, (∀ tr ∈ cs, Tree.Valid D tr) ∧ N ≤ (Tree.yields cs).length ∧
      Walk nx (redOfE maps) cs (nx s) its st

/-- C78 for `Clr`, with or without conflicts: no run gets stuck between two tokens. -/
theorem C78_live_clr {dbg : Bool} {D : Decls T} {S eof : T} {t : Tabler T}
    (ht : Makes .clr dbg D S eof t) (he : Terminal D eof) {nx : NextFn σ M T}
    (hT : ∀ s tok s', nx s = (some tok, s') → Terminal D tok.ty)
    (maps : ReductMapE σ M T) (s : σ) : ReadsOn D t nx maps s := by
  obtain ⟨b0, next, red, ha, hl, hx⟩ := ht.exact
  intro N n hn h
  obtain ⟨cs, its, la, s', h1, h2, h3⟩ := ha.parseS_live ht.eofHead he
    (fun i st syms y X _ hy => Exact.no_loop ha hl hx hy X) hT hn h
  exact ⟨cs, its, _, h1, h2, h3⟩

/-- C78 for conflict-free tables of productive grammars: no run gets stuck between two tokens. -/
theorem C78_live {k : Method} {dbg : Bool} {D : Decls T} {S eof : T} {t : Tabler T}
    (ht : Makes k dbg D S eof t) (hk : k = .lalr → Propagated t) (hc : t.conflicts = [])
    (he : Terminal D eof) (hpr : AllProductive D) {nx : NextFn σ M T}
    (hT : ∀ s tok s', nx s = (some tok, s') → Terminal D tok.ty)
    (maps : ReductMapE σ M T) (s : σ) : ReadsOn D t nx maps s := by
  obtain ⟨b0, next, red, ha, hl⟩ := ht.looks hk he
  intro N n hn h
  obtain ⟨cs, its, la, s', h1, h2, h3⟩ := ha.parseS_live ht.eofHead he
    (fun i st syms y X hp _ => Looks.no_loop ha hl he hpr (ht.no_conflict.mp hc) hp X) hT hn h
  exact ⟨cs, its, _, h1, h2, h3⟩

/-! ### Examples -/

/-- An iterator over a list that notes what it is asked for: `(100, x)` for a token of type `x`, `(100, 0)`
for the end. -/
def notingNext : NextFn (List (Token Nat Nat) × List (Nat × Nat)) Nat Nat
  | ([], l) => (none, ([], l ++ [(100, 0)]))
  | (t :: ts, l) => (some t, (ts, l ++ [(100, t.ty)]))

/-- A run of the expression parser with notes, checked by evaluation. -/
theorem streamed {toks : List (Token Nat Nat)} {log : List (Nat × Nat)} {v : Nat}
    (h : (match Parser.parseS exprClr 100 notingNext (apart (noting exprReds)) (toks, []) with
      | .ok (s, .ok w) => decide (s = ([], log) ∧ w = v)
      | _ => false) = true) :
    ParsesS exprClr notingNext (apart (noting exprReds)) (toks, []) ([], log) (.ok v) := by
  refine ⟨100, ?_⟩
  show Parser.parseS exprClr 100 notingNext (apart (noting exprReds)) (toks, []) = _
  cases hr : Parser.parseS exprClr 100 notingNext (apart (noting exprReds)) (toks, []) with
  | panic p => simp [hr] at h
  | fuel => simp [hr] at h
  | ok r =>
    rw [hr] at h
    obtain ⟨s, e | w⟩ := r
    · simp at h
    · obtain ⟨rfl, rfl⟩ := of_decide_eq_true h
      rfl

/-- Not vacuous: the notes of a parse of `2 * 3 + 4`.  The token after `2` is asked for before the
reductor of the factor `2` is called; the end is asked for once, before the last four calls. -/
example : ParsesS exprClr notingNext (apart (noting exprReds))
    ([⟨2, 14⟩, ⟨0, 11⟩, ⟨3, 14⟩, ⟨0, 10⟩, ⟨4, 14⟩], [])
    ([], [(100, 14), (100, 11), (3, 1), (2, 1), (100, 14), (100, 10), (3, 1), (2, 0), (1, 1), (100, 14),
      (100, 0), (3, 1), (2, 1), (1, 0)]) (.ok 10) :=
  streamed (by decide +kernel)

/-- An iterator that never ends: numbers, and how many there were. -/
def numbers : NextFn Nat Nat Nat := fun n => (some ⟨n, 14⟩, n + 1)

theorem expr_number : Terminal Samples.expr 14 := by
  intro d hd
  revert d
  decide

theorem expr_plus : Terminal Samples.expr 10 := by
  intro d hd
  revert d
  decide

/-- Not vacuous: a parse of an endless sequence of numbers ends in an error after asking for two of them. -/
example : ∃ r, Parser.parseS exprClr 100 numbers (still exprReds) 0 = .ok r ∧ r.1 = 2 ∧
    (match r.2 with | .error (.unexpectedToken x _) => x = 14 | _ => False) := by
  refine ⟨_, rfl, ?_⟩
  decide +kernel

/-- Not vacuous: `C78_error` and `C78_panic` apply to all parses of it. -/
example (s : Nat) (tok : Token Nat Nat) (s' : Nat) (h : numbers s = (some tok, s')) :
    Terminal Samples.expr tok.ty := by
  cases h
  exact expr_number

/-- An endless sum of ones. -/
def endless : NextFn Nat Nat Nat := fun n => (some ⟨1, if n % 2 = 0 then 14 else 10⟩, n + 1)

/-- Not vacuous: a parse of it goes on, and reads. -/
example : ∃ cs its st, (∀ tr ∈ cs, Tree.Valid Samples.expr tr) ∧ 9 ≤ (Tree.yields cs).length ∧
    Walk endless (redOfE (still exprReds)) cs (endless 0) its st := by
  refine C78_live_clr makes_exprClr expr_eof ?_ (still exprReds) 0 9 102 (by decide) rfl
  intro s tok s' h
  cases h
  show Terminal Samples.expr (if s % 2 = 0 then 14 else 10)
  split
  · exact expr_number
  · exact expr_plus

/-- An iterator that resumes after its end: what comes after the end is not asked for. -/
def resuming : NextFn Nat Nat Nat := fun n => (if n = 1 then none else some ⟨7, 14⟩, n + 1)

/-- A number as a sum. -/
def number (n : Nat) : Tree Nat Nat := .node 1 1 [.node 2 1 [.node 3 1 [.leaf ⟨n, 14⟩]]]

theorem number_valid (n : Nat) : Tree.Valid Samples.expr (.node 0 0 [number n]) := by
  refine .node ⟨[[1]], ⟨Samples.expr.take 0, Samples.expr.drop 1, rfl, by decide⟩, rfl⟩ ?_
  simp only [number, List.mem_singleton, forall_eq]
  refine .node ⟨[[1, 10, 2], [2]], ⟨Samples.expr.take 1, Samples.expr.drop 2, rfl, by decide⟩, rfl⟩ ?_
  simp only [List.mem_singleton, forall_eq]
  refine .node ⟨[[2, 11, 3], [3]], ⟨Samples.expr.take 2, Samples.expr.drop 3, rfl, by decide⟩, rfl⟩ ?_
  simp only [List.mem_singleton, forall_eq]
  refine .node ⟨[[12, 1, 13], [14]], ⟨Samples.expr.take 3, Samples.expr.drop 4, rfl, by decide⟩, rfl⟩ ?_
  simp only [List.mem_singleton, forall_eq]
  exact .leaf expr_number

example : ParsesS exprClr resuming (still exprReds) 0 2 (.ok 7) :=
  C78_follows makes_exprClr (by simp) exprClr_ok.2.2 expr_start expr_eof (number_valid 7)
    (its := []) (it := ⟨7, 1⟩)
    (.node (.node (.node (.leaf .nil) rfl .nil) rfl .nil) rfl .nil)

end Lrp.Props
