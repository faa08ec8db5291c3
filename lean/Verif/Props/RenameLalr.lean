import Verif.Props.Rename
import Verif.Props.Lalr1

/-! C65 for Lalr tables in which lookaheads have been passed on and no states were mixed up. -/

namespace Lrp.Props
open Spec
set_option maxRecDepth 100000

variable {T T' : Type} [LinOrd T] [DecidableEq T] [LinOrd T'] [DecidableEq T'] {f : T → T'}

/-- C65, proved part for `Lalr`: if lookaheads have been passed on and no states mixed up in both tables, then names
and order change neither whether there are conflicts nor, if there are none, the inputs accepted.  Missing: tables
where this is not so; there it is false, see `C65_false` and `C65_lalr_conflicts`. -/
theorem C65_lalr_partial {dbg dbg' : Bool} {D : Decls T} {S eof : T} {t : Tabler T} {t' : Tabler T'}
    (hf : Injective f) (h : Makes .lalr dbg D S eof t)
    (h' : Makes .lalr dbg' (renamed f D) (f S) (f eof) t') (hp : Propagated t) (hu : Unmixed t)
    (hp' : Propagated t') (hu' : Unmixed t') (he : Terminal D eof) (hb : InNoBody D S) (hS : SingleStart D S)
    (hpr : AllProductive D) :
    (t.conflicts = [] ↔ t'.conflicts = []) ∧
    (t.conflicts = [] → ∀ toks : List (Token Unit T),
      Validates t toks true ↔ Validates t' (renameToks f toks) true) := by
  have hc : t.conflicts = [] ↔ t'.conflicts = [] := by
    rw [C69_iff_partial h hp hu he hS hpr, C69_iff_partial h' hp' hu' ((terminal_rename hf).mpr he)
      (singleStart_rename hf hS) (allProductive_rename hf hpr), lalr1_rename hf]
  exact ⟨hc, fun h0 toks => C65_accepts hf h h' (fun _ => hp) (fun _ => hp') h0 (hc.mp h0) he hb hS toks⟩

/-- Not vacuous: with `=` ordered after `id` too, the Lalr table of the grammar of pointers meets the conditions; so
it has no conflicts and accepts `* id = id`, because the other table does. -/
example : ∃ t', Makes .lalr true (renamed swapXZ Samples.pointers) (swapXZ 0) (swapXZ 99) t' ∧
    t'.conflicts = [] ∧ Validates t' (Samples.toks [11, 12, 13, 12]) true := by
  have hg : Grammar.new true 0 (grammarMap Samples.pointers) 99 =
    .ok (Samples.grammar Samples.pointers) := by decide +kernel
  have hg' : Grammar.new true 0 (grammarMap (renamed swapXZ Samples.pointers)) 99 =
    .ok (Samples.grammar (renamed swapXZ Samples.pointers)) := by decide +kernel
  have h : ∃ l, Lalr.new true 500 (Samples.grammar Samples.pointers) = .ok l ∧
      l.table.conflicts = [] ∧ propagatedB l.table = true ∧ unmixedB l.table = true ∧
      Parser.validate l.table 50 (Samples.toks [11, 12, 10, 12]) = .ok true := by
    refine ⟨_, rfl, ?_⟩
    decide +kernel
  obtain ⟨l, k1, k2, k3, k4, k5⟩ := h
  have h : ∃ l, Lalr.new true 500 (Samples.grammar (renamed swapXZ Samples.pointers)) = .ok l ∧
      propagatedB l.table = true ∧ unmixedB l.table = true := by
    refine ⟨_, rfl, ?_⟩
    decide +kernel
  obtain ⟨l', k1', k3', k4'⟩ := h
  have m : Makes .lalr true Samples.pointers 0 99 l.table := by
    refine ⟨_, hg, 500, ?_⟩
    show (do let l ← Lalr.new true 500 (Samples.grammar Samples.pointers); return l.table) = _
    rw [k1]; rfl
  have m' : Makes .lalr true (renamed swapXZ Samples.pointers) (swapXZ 0) (swapXZ 99) l'.table := by
    refine ⟨_, hg', 500, ?_⟩
    show (do let l ← Lalr.new true 500 (Samples.grammar (renamed swapXZ Samples.pointers)); return l.table) = _
    rw [k1']; rfl
  obtain ⟨r1, r2⟩ := C65_lalr_partial swapXZ_inj m m' (propagated_of_check k3) (unmixed_of_check k4)
    (propagated_of_check k3') (unmixed_of_check k4') pointers_eof (Samples.inNoBody (by decide))
    pointers_single pointers_productive
  exact ⟨l'.table, m', r1.mp k2, (r2 k2 (Samples.toks [11, 12, 10, 12])).mp ⟨50, k5⟩⟩

end Lrp.Props
