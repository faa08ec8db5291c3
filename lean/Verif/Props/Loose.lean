import Verif.Proofs.Loose
import Verif.Props.Knuth

/-! C07 and C64 in builds without debug assertions: what is in FOLLOW when nonterminals are left over, and when
such a table has conflicts. -/

namespace Lrp.Props
open Spec
set_option maxRecDepth 100000

variable {T : Type} [LinOrd T] [DecidableEq T]

/-- C07, what FOLLOW is in all builds, if every nonterminal is reachable: the terminals that follow `A` or a
nonterminal that comes after `A` in the graph of what follows, and the nonterminals left over in this graph. -/
theorem C07_exact {dbg : Bool} {n : Nat} {D : Decls T} {S eof : T} {g : Grammar T} {t : Tabler T}
    (hg : Grammar.new dbg S (grammarMap D) eof = .ok g) (ht : Tabler.new dbg n g = .ok t)
    (he : Terminal D eof) (hreach : ∀ A, Nonterminal D A → ∃ u v, Derives D [S] (u ++ A :: v))
    (A x : T) (hA : Nonterminal D A) :
    (∃ F, t.follow.get? A = some F ∧ x ∈ F) ↔ Followed D S eof A x :=
  Tabler.followed_iff (Grammar.of_new hg) ht he hreach hA

/-- Not vacuous: in `cliqueAfter`, `10` follows `6` loosely, although not in any sentential form
(`C07_false_release`). -/
theorem cliqueAfter_followed : Followed Samples.cliqueAfter 0 99 6 10 := by
  obtain ⟨⟨t, ht, F, h1, h2⟩, _, he, hre, _⟩ := C07_false_release
  have hg : Grammar.new false 0 (grammarMap Samples.cliqueAfter) 99 = .ok (Samples.grammar Samples.cliqueAfter) := by
    decide +kernel
  have h6 : Nonterminal Samples.cliqueAfter 6 := ⟨(6, [[20]]), by decide, rfl⟩
  exact (C07_exact hg ht he hre 6 10 h6).mp ⟨F, h1, h2⟩

/-- C64 in all builds: the Slr table of a grammar without useless nonterminals has no conflicts iff the grammar
is SLR(1) with the sets as they come out. -/
theorem C64_slr_all_builds {dbg : Bool} {D : Decls T} {S eof : T} {t : Tabler T}
    (h : Makes .slr dbg D S eof t) (he : Terminal D eof) (hS : SingleStart D S)
    (hpr : AllProductive D) (hre : ∀ A, Nonterminal D A → Reachable D S A) :
    t.conflicts = [] ↔ SLR1For D S (Followed D S eof) := by
  rw [h.no_conflict]
  obtain ⟨g, hg, n, hb⟩ := id h
  have hof := Grammar.of_new hg
  obtain ⟨g', n', t0, hg', ht0, _, _, e⟩ := h.tabler
  have hb := Slr.built hof hb
  obtain ⟨b0, hb0, _⟩ := hb.of.grammar.basis
  have key : ∀ A x, Nonterminal D A → (Tabler.Has t.follow A x ↔ Followed D S eof A x) := by
    intro A x hA
    rw [e]
    exact Tabler.followed_iff (Grammar.of_new hg') ht0 he hre hA
  constructor
  · refine Looks.slr1For (hb.auto hb0) (hb.looks_slr hb0 he) he hS ?_
    intro i s p x hs hp hx
    exact (key _ _ ((hb.auto hb0).prod hs hp).1.nonterminal).mpr hx
  · refine (hb.auto hb0).slr_no_conflict_for hpr hb.reaches ?_
    intro i s p x hs hp hx
    exact (key _ _ ((hb.auto hb0).prod hs hp).1.nonterminal).mp hx

end Lrp.Props
