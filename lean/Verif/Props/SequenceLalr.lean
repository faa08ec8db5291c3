import Verif.Proofs.SequenceLalr
import Verif.Props.Divide

/-!
C110 for Lalr — sequences of texts of an LALR(1) grammar, whose Slr table may have conflicts.
-/

set_option linter.unusedSectionVars false

namespace Lrp.Props
open Spec
set_option maxRecDepth 100000

variable {T : Type} [LinOrd T] [DecidableEq T] {M : Type}

/-- C110: the grammar of sequences is LALR(1) if that of the pieces is and its start symbol is in no body. -/
theorem C110_lalr1 {D : Decls T} {S' L S m eof : T} (hN : NewNames D S' L m) (hS : Nonterminal D S)
    (hb : InNoBody D S) (hn : NoEmpty D) (heb : InNoBody D eof) (hs : LALR1 D S eof) :
    LALR1 (Sequenced D S' L S m) S' eof :=
  lalr1_sequenced (hN.freshStart hS) hN.list hS hN.mark hN.markList hN.startList hN.startMark heb hb hn hs

/-- C110 for Lalr: if lookaheads are passed on in the Lalr table of a grammar and it has no conflicts, then a Lalr table
of the grammar of sequences has none in which no state can be mistaken for a successor of another one. -/
theorem C110_unmixed {dbg : Bool} {D : Decls T} {S' L S m eof : T} {t t' : Tabler T}
    (ht : Makes .lalr true D S eof t) (hp : Propagated t) (hc : t.conflicts = [])
    (ht' : Makes .lalr dbg (Sequenced D S' L S m) S' eof t') (hu : Unmixed t') (hb : InNoBody D S)
    (hpr : AllProductive D) (hN : NewNames D S' L m) (he : Terminal D eof) (heb : InNoBody D eof) (heS' : eof ≠ S')
    (heL : eof ≠ L) : t'.conflicts = [] := by
  have hS := ht.start
  have h1 : SingleStart D S := by
    obtain ⟨g, hg, _⟩ := id ht
    exact single_start_debug hg
  exact C69_no_conflicts_partial ht' hu (terminal_wrapped.mpr ⟨heS', terminal_listed.mpr ⟨heL, he⟩⟩)
    (singleStart_wrapped (hN.freshStart hS))
    (allProductive_wrapped (hN.freshStart hS) (nonterminal_listed.mpr (.inl rfl))
      (allProductive_listed hN.list hS hN.mark hN.markList hpr))
    (C110_lalr1 hN hS hb ht.noEmpty heb (C69_lalr1_partial ht hp he h1 hpr hc))

/-- Not vacuous: statements `L = R` and `R`, each with a semicolon (60) after it; the Slr table of one statement has a
conflict (C36). -/
example : ∃ t', Makes .lalr true (Sequenced Samples.pointers 50 51 0 60) 50 99 t' ∧ t'.conflicts = [] := by
  have hg : Grammar.new true 0 (grammarMap Samples.pointers) 99 = .ok (Samples.grammar Samples.pointers) := by
    decide +kernel
  have hg' : Grammar.new true 50 (grammarMap (Sequenced Samples.pointers 50 51 0 60)) 99 = .ok pointersSeq := by
    decide +kernel
  have h : ∃ l, Lalr.new true 500 (Samples.grammar Samples.pointers) = .ok l ∧ l.table.conflicts = [] ∧
      propagatedB l.table = true := by
    refine ⟨_, rfl, ?_⟩
    decide +kernel
  have h' : ∃ l, Lalr.new true 500 pointersSeq = .ok l ∧ unmixedB l.table = true := by
    refine ⟨_, rfl, ?_⟩
    decide +kernel
  obtain ⟨l1, h1, c1, p1⟩ := h
  obtain ⟨l2, h2, u2⟩ := h'
  have m1 : Makes .lalr true Samples.pointers 0 99 l1.table := ⟨_, hg, 500, by
    show (do let l ← Lalr.new true 500 (Samples.grammar Samples.pointers); return l.table) = _
    rw [h1]; rfl⟩
  have m2 : Makes .lalr true (Sequenced Samples.pointers 50 51 0 60) 50 99 l2.table := ⟨_, hg', 500, by
    show (do let l ← Lalr.new true 500 pointersSeq; return l.table) = _
    rw [h2]; rfl⟩
  exact ⟨_, m2, C110_unmixed m1 (propagated_of_check p1) c1 m2 (unmixed_of_check u2) (Samples.inNoBody (by decide))
    (allProductive [(2, 1), (3, 0), (1, 1), (0, 0)] (by decide) (by decide +kernel) (by decide)) pointers_names
    pointers_eof (Samples.inNoBody (by decide)) (by decide) (by decide)⟩

end Lrp.Props
