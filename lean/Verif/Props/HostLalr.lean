import Verif.Proofs.HostLalr
import Verif.Props.Host
import Verif.Props.SequenceLalr

/-!
C111 for Lalr — LALR(1) grammars inside one another, whose Slr tables may have conflicts.
-/

set_option linter.unusedSectionVars false

namespace Lrp.Props
open Spec
set_option maxRecDepth 100000

variable {T : Type} [LinOrd T] [DecidableEq T] {M : Type}

/-- C111: the outer grammar with the inner one between the brackets is LALR(1) if both are. -/
theorem C111_lalr1 {D E : Decls T} {S A o R c eof : T} (hap : Separate D E) (hN : NewBrackets D E o c eof)
    (hS : Nonterminal D S) (hA : Nonterminal D A) (hR : Nonterminal E R) (hb : InNoBody D S) (hbR : InNoBody E R)
    (hn : NoEmpty D) (hnE : NoEmpty E) (hpr : AllProductive D) (hprE : AllProductive E) (hD : LALR1 D S eof)
    (hE : LALR1 E R eof) : LALR1 (Hosting D E A o R c) S eof :=
  lalr1_hosting
    { apart := hap, bD := hb, bE := hbR, nD := hn, nE := hnE, prD := hpr, prE := hprE, oD := hN.openOuter
      oE := hN.openInner, cD := hN.closeOuter, cE := hN.closeInner, ne := hN.different, eD := hN.endOuter
      eE := hN.endInner, eo := hN.endOpen, ec := hN.endClose, S := hS, A := hA, R := hR } hD hE

/-- C111 for Lalr: if lookaheads are passed on in the Lalr tables of both grammars and they have no conflicts, then a
Lalr table of the whole has none in which no state can be mistaken for a successor of another one. -/
theorem C111_unmixed {dbg : Bool} {D E : Decls T} {S A o R c eof : T} {t tE t' : Tabler T}
    (ht : Makes .lalr true D S eof t) (hp : Propagated t) (hno : t.conflicts = [])
    (htE : Makes .lalr true E R eof tE) (hpE : Propagated tE) (hnoE : tE.conflicts = [])
    (ht' : Makes .lalr dbg (Hosting D E A o R c) S eof t') (hu : Unmixed t') (hap : Separate D E)
    (hN : NewBrackets D E o c eof) (hA : Nonterminal D A) (hAS : A ≠ S) (hb : InNoBody D S) (hbR : InNoBody E R)
    (hpr : AllProductive D) (hprE : AllProductive E) : t'.conflicts = [] := by
  have hS := ht.start
  have h1 : SingleStart D S := by
    obtain ⟨g, hg, _⟩ := id ht
    exact single_start_debug hg
  have h1R : SingleStart E R := by
    obtain ⟨g, hg, _⟩ := id htE
    exact single_start_debug hg
  have heD := hN.endOuter.1
  have heE := hN.endInner.1
  exact C69_no_conflicts_partial ht' hu (terminal_withAlt.mpr (terminal_both.mpr ⟨heD, heE⟩))
    ((singleStart_withAlt hAS).mpr ((single_both hap hS).mpr h1))
    (allProductive_withAlt (allProductive_both hap hpr hprE))
    (C111_lalr1 hap hN hS hA htE.start hb hbR ht.noEmpty htE.noEmpty hpr hprE
      (C69_lalr1_partial ht hp heD h1 hpr hno) (C69_lalr1_partial htE hpE heE h1R hprE hnoE))

/-- Not vacuous: sums of products of numbers with assignments between brackets as factors (`sums_host`); the Slr table
of the assignments has a conflict. -/
example : ∃ t', Makes .lalr true (Hosting unbracketed pointersInner 3 60 40 61) 0 99 t' ∧ t'.conflicts = [] := by
  have hg : Grammar.new true 0 (grammarMap unbracketed) 99 = .ok (Samples.grammar unbracketed) := by decide +kernel
  have hgE : Grammar.new true 40 (grammarMap pointersInner) 99 = .ok pointersInnerGrammar := by decide +kernel
  have hg' : Grammar.new true 0 (grammarMap (Hosting unbracketed pointersInner 3 60 40 61)) 99 =
    .ok (Samples.grammar (Hosting unbracketed pointersInner 3 60 40 61)) := by decide +kernel
  have h : ∃ l, Lalr.new true 500 (Samples.grammar unbracketed) = .ok l ∧ l.table.conflicts = [] ∧
      propagatedB l.table = true := by
    refine ⟨_, rfl, ?_⟩
    decide +kernel
  have hE : ∃ l, Lalr.new true 500 pointersInnerGrammar = .ok l ∧ l.table.conflicts = [] ∧
      propagatedB l.table = true := by
    refine ⟨_, rfl, ?_⟩
    decide +kernel
  have h' : ∃ l, Lalr.new true 500 (Samples.grammar (Hosting unbracketed pointersInner 3 60 40 61)) = .ok l ∧
      unmixedB l.table = true := by
    refine ⟨_, rfl, ?_⟩
    decide +kernel
  obtain ⟨l1, h1, c1, p1⟩ := h
  obtain ⟨l2, h2, c2, p2⟩ := hE
  obtain ⟨l3, h3, u3⟩ := h'
  have m1 : Makes .lalr true unbracketed 0 99 l1.table := ⟨_, hg, 500, by
    show (do let l ← Lalr.new true 500 (Samples.grammar unbracketed); return l.table) = _
    rw [h1]; rfl⟩
  have m2 : Makes .lalr true pointersInner 40 99 l2.table := ⟨_, hgE, 500, by
    show (do let l ← Lalr.new true 500 pointersInnerGrammar; return l.table) = _
    rw [h2]; rfl⟩
  have m3 : Makes .lalr true (Hosting unbracketed pointersInner 3 60 40 61) 0 99 l3.table := ⟨_, hg', 500, by
    show (do let l ← Lalr.new true 500 (Samples.grammar (Hosting unbracketed pointersInner 3 60 40 61)); return l.table) = _
    rw [h3]; rfl⟩
  exact ⟨_, m3, C111_unmixed m1 (propagated_of_check p1) c1 m2 (propagated_of_check p2) c2 m3 (unmixed_of_check u3)
    separate_sums brackets_sums ⟨(3, [[14]]), by decide, rfl⟩ (by decide) (Samples.inNoBody (by decide))
    (Samples.inNoBody (by decide))
    (allProductive [(3, 0), (2, 1), (1, 1), (0, 0)] (by decide) (by decide +kernel) (by decide))
    (allProductive [(42, 1), (43, 0), (41, 1), (40, 0)] (by decide) (by decide +kernel) (by decide))⟩

/-- The Slr table of the assignments has a conflict, so that `C111_slr` does not apply to them. -/
theorem C111_slr_conflict : ∃ t, Makes .slr true pointersInner 40 99 t ∧ t.conflicts ≠ [] := by
  have hg : Grammar.new true 40 (grammarMap pointersInner) 99 = .ok pointersInnerGrammar := by decide +kernel
  have h : ∃ t, Slr.new true 500 pointersInnerGrammar = .ok t ∧ t.conflicts ≠ [] := by
    refine ⟨_, rfl, ?_⟩
    decide +kernel
  obtain ⟨t, h1, h2⟩ := h
  exact ⟨t, ⟨_, hg, 500, h1⟩, h2⟩

end Lrp.Props
