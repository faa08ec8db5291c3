import Verif.Proofs.Suffices
import Verif.Props.Errors
import Verif.Props.Knuth

/-!
C23, C52 — exactly which tables without conflicts accept all sentences.
-/

set_option linter.unusedSectionVars false
set_option maxRecDepth 100000

namespace Lrp.Props
open Spec
variable {T : Type} [LinOrd T] [DecidableEq T]

theorem suffices_iff {k : Method} {dbg : Bool} {D : Decls T} {S eof : T} {t : Tabler T}
    (ht : Makes k dbg D S eof t) {b0 : List T} {next : State T → T → Option Nat} {red : Position T → T → Prop}
    (ha : Auto D S b0 t.states t.actions next red) :
    Suffices D S eof t ↔ Enough D S eof t.states t.actions next := by
  constructor
  · intro h i st γ A n β x hp hv hd
    obtain ⟨path, h1, h2, h3⟩ := ha.chain hp
    rw [List.reverse_reverse] at h3
    subst h3
    have := h path i A n β x h1 (by rw [← h2]; simp) hv hd
    simpa only [cellAt_cell] using this
  · intro h path i A n β x h1 h2 hv hd
    have hp := ha.chain_path h1 .base
    rw [List.append_nil] at hp
    cases hst : (path.map Prod.snd).reverse ++ [0] with
    | nil => simp at hst
    | cons j st =>
      rw [hst] at hp
      have : j = i := by
        have e := congrArg List.head? hst
        rw [← List.reverse_cons, List.head?_reverse, h2] at e
        simpa using e.symm
      subst this
      simpa only [cellAt_cell] using h j st _ A n β x hp hv hd

/-- C23, what decides it: a table without conflicts accepts all sentences of an unambiguous grammar exactly if it
has all the reductions they need; and a table without conflicts that has them shows that the grammar is
unambiguous. (Slr and Clr tables always have them; Lalr tables may not.) -/
theorem C23_iff {k : Method} {dbg : Bool} {D : Decls T} {S eof : T} {t : Tabler T} (ht : Makes k dbg D S eof t)
    (hc : t.conflicts = []) (hS : InNoBody D S) (h1 : SingleStart D S) (he : Terminal D eof) :
    Suffices D S eof t ↔
      (∀ toks : List (Token Unit T), Sentence D S (toks.map Token.ty) → Validates t toks true) ∧ Unambiguous D S := by
  obtain ⟨b0, next, red, ha, _⟩ := ht.auto
  rw [suffices_iff ht ha]
  have hno := ht.no_conflict.mp hc
  constructor
  · intro hE
    have key : ∀ {tr : Tree Unit T}, Tree.Valid D tr → tr.root = S →
        ∃ cs c, tr = .node S 0 cs ∧ Moves t.actions eof ⟨[0], [], tr.yield⟩ c ∧ Accepts t.actions eof c ∧
          c.trees = cs.reverse := by
      intro tr hv hr
      cases hv with
      | leaf h =>
        simp only [Tree.root] at hr
        rw [hr] at h
        exact absurd h (not_terminal_iff.mpr ht.start)
      | @node A i cs hp hcs =>
        simp only [Tree.root] at hr
        subst hr
        have := h1 i _ hp
        subst this
        obtain ⟨c, k1, k2, k3⟩ := ha.completeV hE hno hS (.node hp hcs)
        exact ⟨cs, c, rfl, by simpa using k1, k2, k3⟩
    constructor
    · intro toks hs
      have hT : TerminalToks D toks := terminalToks_of_sentence hs
      obtain ⟨tr, r1, r2, r3⟩ := Tree.of_derives hs.1 hT
      obtain ⟨cs, c, _, k1, k2, k3⟩ := key r2 r1
      rw [r3] at k1
      obtain ⟨_, _, _, _, _, h⟩ := ha.parse_accept (maps := Parser.empty t) ht.eofHead he
        ((reductors_empty ht.grammar).evaluates toks) hT k1 k2
      exact validates_true.mpr h
    · intro t₁ t₂ hv1 hv2 hr1 hr2 hy
      obtain ⟨cs1, c1, e1, m1, a1, t1'⟩ := key hv1 hr1
      obtain ⟨cs2, c2, e2, m2, a2, t2'⟩ := key hv2 hr2
      rw [hy] at m1
      have := dead_unique m1 m2 (fun _ => a1.no_move) (fun _ => a2.no_move)
      subst this
      rw [t1'] at t2'
      rw [e1, e2, List.reverse_inj.mp t2']
  · rintro ⟨hall, hu⟩
    refine ha.enough hS hu () ?_
    intro toks hs
    obtain ⟨c, _, _, k1, k2, _⟩ := ha.parse_ok ht.eofHead he (validates_true.mp (hall toks hs))
    exact ⟨c, k1, k2⟩

/-- Both sides hold for the Lalr table of the expression grammar. -/
example : Suffices Samples.expr 0 99 exprLalr.table :=
  (C23_iff makes_exprLalr exprLalr_ok.2.2 expr_start expr_single expr_eof).mpr
    ⟨fun _ => (C23_partial makes_exprLalr exprLalr_ok.2.2 exprLalr_propagated expr_start expr_single expr_eof).mpr,
      fun _ _ => C25_unambiguous makes_exprLalr (fun _ => exprLalr_propagated) exprLalr_ok.2.2 expr_start expr_single
        expr_eof⟩

/-- And the Lalr table of `C23_false`, of an unambiguous grammar, lacks a reduction. -/
example : ∃ t, Makes .lalr true Samples.lalrGap 0 99 t ∧ t.conflicts = [] ∧ Unambiguous Samples.lalrGap 0 ∧
    ¬ Suffices Samples.lalrGap 0 99 t := by
  obtain ⟨t, h1, h2, h3, h4, h5, h6, h7⟩ := C23_false
  have h : ∃ u, Slr.new true 50 (Samples.grammar Samples.lalrGap) = .ok u ∧ u.conflicts = [] :=
    ⟨_, rfl, by decide +kernel⟩
  obtain ⟨u, k1, k2⟩ := h
  have hu : Makes .slr true Samples.lalrGap 0 99 u := ⟨_, by decide +kernel, 50, k1⟩
  refine ⟨t, h1, h2, fun _ _ => C25_unambiguous hu (by simp) k2 h3 h4 h5, fun hs => ?_⟩
  have := ((C23_iff h1 h2 h3 h4 h5).mp hs).1 (Samples.toks [13, 11, 14, 15, 12])
    (by simpa [Samples.toks, Function.comp_def] using h6)
  cases this.unique h7

/-- C52, what decides it: if the Lalr table has no conflicts, then it has all the reductions the sentences need
exactly if the Clr table has no conflicts either and both accept the same inputs. -/
theorem C52_iff {dbg dbg' : Bool} {D : Decls T} {S eof : T} {t t' : Tabler T} (h : Makes .lalr dbg D S eof t)
    (h' : Makes .clr dbg' D S eof t') (hS : InNoBody D S) (h1 : SingleStart D S) (he : Terminal D eof)
    (hpr : AllProductive D) (hno : t.conflicts = []) :
    Suffices D S eof t ↔ t'.conflicts = [] ∧
      ∀ toks : List (Token Unit T), Validates t toks true ↔ Validates t' toks true := by
  constructor
  · intro hs
    obtain ⟨b0, next, red, ha, _⟩ := h.auto
    have hlr := ha.lr1_enough ((suffices_iff h ha).mp hs) hpr he h1 (h.no_conflict.mp hno)
    have hc := C63_no_conflicts h' he hpr hlr
    refine ⟨hc, fun toks => ?_⟩
    rw [C22_clr_complete h' hc hS h1 he]
    exact ⟨C20_lalr_sound h hS he, ((C23_iff h hno hS h1 he).mp hs).1 toks⟩
  · rintro ⟨hc, heq⟩
    refine (C23_iff h hno hS h1 he).mpr ⟨fun toks ht => ?_, fun _ _ => C25_unambiguous h' (by simp) hc hS h1 he⟩
    exact (heq toks).mpr ((C22_clr_complete h' hc hS h1 he).mpr ht)

/-- Not vacuous: both sides hold for the expression grammar. -/
example : exprClr.conflicts = [] ∧
    ∀ toks : List (Token Unit Nat), Validates exprLalr.table toks true ↔ Validates exprClr toks true :=
  (C52_iff makes_exprLalr makes_exprClr expr_start expr_single expr_eof expr_productive exprLalr_ok.2.2).mp
    ((C23_iff makes_exprLalr exprLalr_ok.2.2 expr_start expr_single expr_eof).mpr
      ⟨fun _ => (C23_partial makes_exprLalr exprLalr_ok.2.2 exprLalr_propagated expr_start expr_single expr_eof).mpr,
        fun _ _ => C25_unambiguous makes_exprLalr (fun _ => exprLalr_propagated) exprLalr_ok.2.2 expr_start
          expr_single expr_eof⟩)

end Lrp.Props
