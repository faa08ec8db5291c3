import Verif.Proofs.LalrSound
import Verif.Props.Rename

/-! C69: LALR(1) grammars and the tables of Lalr. -/

namespace Lrp.Props
open Spec
set_option maxRecDepth 100000

variable {T : Type} [LinOrd T] [DecidableEq T]

/-- C69 in full: if all nonterminals are productive, the Lalr table has no conflicts iff the grammar is
LALR(1). It is false, see `C69_false`. -/
def C69_statement : Prop :=
  ∀ (D : Decls Nat) (S eof : Nat) (t : Tabler Nat), Makes .lalr true D S eof t → Terminal D eof →
    SingleStart D S → AllProductive D → (t.conflicts = [] ↔ LALR1 D S eof)

/-- C69, one direction, the part that holds: if the Lalr table has no conflicts, and lookaheads have been
passed on along all shifts and gotos, the grammar is LALR(1). -/
theorem C69_lalr1_partial {dbg : Bool} {D : Decls T} {S eof : T} {t : Tabler T}
    (h : Makes .lalr dbg D S eof t) (hp : Propagated t) (he : Terminal D eof)
    (hS : SingleStart D S) (hpr : AllProductive D) (hno : t.conflicts = []) : LALR1 D S eof := by
  obtain ⟨g, hg, n, hb⟩ := id h
  obtain ⟨l, hl, e⟩ := Out.bind_eq_ok.mp hb
  cases e
  obtain ⟨t0, _, hF, _⟩ := Lalr.built (Grammar.of_new hg) hl
  obtain ⟨b0, hb0, _⟩ := hF.of.grammar.basis
  refine Looks.lalr1 (hF.auto hb0) (hF.looks hb0 hp) he hS hpr ?_ (h.no_conflict.mp hno)
  intro i i' s s' hs hs' hc
  refine hF.core_inj hs hs' (OSet.ext (sorted_core _) (sorted_core _) (fun q => ?_))
  rw [mem_core, mem_core]
  exact hc q

/-- C69, the other direction, the part that holds: if no state can be mistaken for a successor of
another one, the Lalr table of an LALR(1) grammar has no conflicts. -/
theorem C69_no_conflicts_partial {dbg : Bool} {D : Decls T} {S eof : T} {t : Tabler T}
    (h : Makes .lalr dbg D S eof t) (hu : Unmixed t) (he : Terminal D eof) (hS : SingleStart D S)
    (hpr : AllProductive D) (hlr : LALR1 D S eof) : t.conflicts = [] := by
  refine h.no_conflict.mpr ?_
  obtain ⟨g, hg, n, hb⟩ := id h
  obtain ⟨l, hl, e⟩ := Out.bind_eq_ok.mp hb
  cases e
  obtain ⟨t0, _, hF, _⟩ := Lalr.built (Grammar.of_new hg) hl
  obtain ⟨b0, hb0, _⟩ := hF.of.grammar.basis
  refine (hF.auto hb0).lalr_no_conflict he hS hpr ?_ hlr
  intro i s p x hs hp hx y hy hxy
  obtain ⟨i', s', st, syms, w, g1, g2, g3, g4, g5, g6⟩ :=
    Lalr.backed (Grammar.of_new hg) hl hpr he hu hs p hp x hx y hy hxy
  obtain rfl := hF.core_inj g1 hs g2
  exact ⟨st, syms, w, g3, g4, g5, g6⟩

/-- C69, with both conditions. -/
theorem C69_iff_partial {dbg : Bool} {D : Decls T} {S eof : T} {t : Tabler T}
    (h : Makes .lalr dbg D S eof t) (hp : Propagated t) (hu : Unmixed t) (he : Terminal D eof)
    (hS : SingleStart D S) (hpr : AllProductive D) : t.conflicts = [] ↔ LALR1 D S eof :=
  ⟨C69_lalr1_partial h hp he hS hpr, C69_no_conflicts_partial h hu he hS hpr⟩

/-- C69: the Clr table of an LALR(1) grammar has no conflicts. -/
theorem C69_clr {dbg : Bool} {D : Decls T} {S eof : T} {t : Tabler T} (h : Makes .clr dbg D S eof t)
    (he : Terminal D eof) (hS : SingleStart D S) (hpr : AllProductive D) (hlr : LALR1 D S eof) :
    t.conflicts = [] := by
  refine h.no_conflict.mpr ?_
  obtain ⟨g, hg, n, hb⟩ := id h
  have hb := Clr.built (Grammar.of_new hg) hb
  obtain ⟨b0, hb0, _⟩ := hb.of.grammar.basis
  have ha := hb.auto hb0
  refine ha.lalr_no_conflict he hS hpr ?_ hlr
  intro i s p x hs hp hx y hy hxy
  obtain ⟨st, syms, hpath⟩ := hb.reaches i s hs
  obtain ⟨w, h1, h2, h3⟩ := Exact.rviable ha (hb.exact_clr hb0) hpr he hpath rfl hs hp hx y hy hxy
  exact ⟨st, syms, w, hpath, h1, h2, h3⟩

/-- C69: SLR(1) grammars are LALR(1), and (if Clr returns a table) LALR(1) grammars are LR(1). -/
theorem C69_classes {dbg : Bool} {D : Decls T} {S eof : T} {t : Tabler T} (h : Makes .clr dbg D S eof t)
    (he : Terminal D eof) (hS : SingleStart D S) (hpr : AllProductive D) :
    (SLR1 D S eof → LALR1 D S eof) ∧ (LALR1 D S eof → LR1 D S eof) :=
  ⟨fun hs => hs.lalr1 he, fun hl => C63_lr1 h (by simp) he hS (C69_clr h he hS hpr hl)⟩

/-! ### Examples -/

/-- Decides `Unmixed`. -/
def unmixedB (t : Tabler T) : Bool :=
  t.states.all fun s => t.states.all fun s' => (s.filterMap Position.top).all fun X =>
    let adv := OSet.ofList ((s.filter fun p => decide (0 < p.point) && decide (p.top = some X)).map
      fun p => bare { p with point := p.point + 1 })
    decide (adv = []) ||
    !decide (adv = OSet.ofList ((s'.filter fun p => decide (0 < p.point)).map bare)) ||
    s.all fun p => !decide (p.top = some X) || decide (0 < p.point)

theorem unmixed_of_check {t : Tabler T} (h : unmixedB t = true) : Unmixed t := by
  intro i j s s' X hs hs' hex hc p hp ht
  unfold unmixedB at h
  simp only [List.all_eq_true] at h
  have h1 := h s (List.mem_of_getElem? hs) s' (List.mem_of_getElem? hs') X
    (List.mem_filterMap.mpr ⟨p, hp, ht⟩)
  simp only [Bool.or_eq_true, decide_eq_true_eq, Bool.not_eq_true', decide_eq_false_iff_not,
    List.all_eq_true] at h1
  have hadv : ∀ c, c ∈ OSet.ofList ((s.filter fun p => decide (0 < p.point) && decide (p.top = some X)).map
      fun p => bare { p with point := p.point + 1 }) ↔
      ∃ p ∈ s, 0 < p.point ∧ After p X ∧ bare { p with point := p.point + 1 } = c := by
    intro c
    rw [OSet.mem_ofList, List.mem_map]
    constructor
    · rintro ⟨p, h2, rfl⟩
      obtain ⟨h3, h4⟩ := List.mem_filter.mp h2
      simp only [Bool.and_eq_true, decide_eq_true_eq] at h4
      exact ⟨p, h3, h4.1, h4.2, rfl⟩
    · rintro ⟨p, h2, h3, h4, rfl⟩
      refine ⟨p, List.mem_filter.mpr ⟨h2, ?_⟩, rfl⟩
      simp only [Bool.and_eq_true, decide_eq_true_eq]
      exact ⟨h3, h4⟩
  rcases h1 with (h1 | h1) | h1
  · obtain ⟨p', h2, h3, h4⟩ := hex
    have := (hadv _).mpr ⟨p', h2, h3, h4, rfl⟩
    rw [h1] at this
    simp at this
  · refine absurd (OSet.ext (OSet.sorted_ofList _) (OSet.sorted_ofList _) (fun c => ?_)) h1
    rw [hadv, ← hc c, OSet.mem_ofList, List.mem_map]
    constructor
    · rintro ⟨q, h2, h3, rfl⟩
      exact ⟨q, List.mem_filter.mpr ⟨h2, by simpa using h3⟩, rfl⟩
    · rintro ⟨q, h2, rfl⟩
      obtain ⟨h3, h4⟩ := List.mem_filter.mp h2
      exact ⟨q, h3, by simpa using h4, rfl⟩
  · rcases h1 p hp with h2 | h2
    · exact absurd ht h2
    · exact h2

/-- What is needed of the Lalr table of the grammar of pointers. -/
theorem pointers_lalr : ∃ t, Makes .lalr true Samples.pointers 0 99 t ∧ t.conflicts = [] ∧
    propagatedB t = true ∧ unmixedB t = true := by
  have hg : Grammar.new true 0 (grammarMap Samples.pointers) 99 =
    .ok (Samples.grammar Samples.pointers) := by decide +kernel
  have h : ∃ l, Lalr.new true 500 (Samples.grammar Samples.pointers) = .ok l ∧
      l.table.conflicts = [] ∧ propagatedB l.table = true ∧ unmixedB l.table = true := by
    refine ⟨_, rfl, ?_⟩
    decide +kernel
  obtain ⟨l, k1, k2, k3, k4⟩ := h
  refine ⟨l.table, ⟨_, hg, 500, ?_⟩, k2, k3, k4⟩
  show (do let l ← Lalr.new true 500 (Samples.grammar Samples.pointers); return l.table) = _
  rw [k1]; rfl

/-- Not vacuous: `S → L = R | R`, `L → * R | id`, `R → L` is LALR(1), but not SLR(1). -/
theorem pointers_lalr1 : LALR1 Samples.pointers 0 99 := by
  obtain ⟨t, h, hno, hp, _⟩ := pointers_lalr
  exact C69_lalr1_partial h (propagated_of_check hp) pointers_eof pointers_single pointers_productive hno

example {t : Tabler Nat} (h : Makes .lalr true Samples.pointers 0 99 t) (hu : Unmixed t) :
    t.conflicts = [] :=
  C69_no_conflicts_partial h hu pointers_eof pointers_single pointers_productive pointers_lalr1

example : ∃ t, Makes .lalr true Samples.pointers 0 99 t ∧ Unmixed t := by
  obtain ⟨t, h, _, _, hu⟩ := pointers_lalr
  exact ⟨t, h, unmixed_of_check hu⟩

/-- `p`, `q`, `r` become `q`, `r`, `p`. -/
def rotate (x : Nat) : Nat := if x = 10 then 11 else if x = 11 then 12 else if x = 12 then 10 else x

theorem rotate_inj : Injective rotate := by
  intro a b h
  unfold rotate at h
  repeat' split at h
  all_goals omega

theorem mixUp_productive : AllProductive Samples.mixUp :=
  allProductive [(5, 0), (4, 0), (3, 0), (2, 0), (1, 0), (0, 0)] (by decide) (by decide +kernel) (by decide)

/-- The grammar `mixUp` is LALR(1): with the symbols in another order no lookahead is lost and there
are no conflicts. -/
theorem mixUp_lalr1 : LALR1 Samples.mixUp 0 99 := by
  have hg : Grammar.new true 0 (grammarMap (renamed rotate Samples.mixUp)) 99 =
    .ok (Samples.grammar (renamed rotate Samples.mixUp)) := by decide +kernel
  have h : ∃ l, Lalr.new true 1000 (Samples.grammar (renamed rotate Samples.mixUp)) = .ok l ∧
      l.table.conflicts = [] ∧ propagatedB l.table = true := by
    refine ⟨_, rfl, ?_⟩
    decide +kernel
  obtain ⟨l, k1, k2, k3⟩ := h
  have m : Makes .lalr true (renamed rotate Samples.mixUp) (rotate 0) (rotate 99) l.table := by
    refine ⟨_, hg, 1000, ?_⟩
    show (do let l ← Lalr.new true 1000 (Samples.grammar (renamed rotate Samples.mixUp)); return l.table) = _
    rw [k1]; rfl
  exact (lalr1_rename rotate_inj).mp (C69_lalr1_partial m (propagated_of_check k3)
    (by unfold Terminal; decide) (single_start_debug hg) (allProductive_rename rotate_inj mixUp_productive) k2)

/-- `update_closures` advances only the kernel of a state, finds by that a state which is
not its successor, and adds lookaheads to it; so an LALR(1) grammar gets conflicts. -/
theorem mixUp_conflicts : ∃ t, Makes .lalr true Samples.mixUp 0 99 t ∧ LALR1 Samples.mixUp 0 99 ∧
    t.conflicts.length = 2 := by
  have hg : Grammar.new true 0 (grammarMap Samples.mixUp) 99 =
    .ok (Samples.grammar Samples.mixUp) := by decide +kernel
  have h : ∃ l, Lalr.new true 1000 (Samples.grammar Samples.mixUp) = .ok l ∧
      l.table.conflicts.length = 2 := by
    refine ⟨_, rfl, ?_⟩
    decide +kernel
  obtain ⟨l, k1, k2⟩ := h
  refine ⟨l.table, ⟨_, hg, 1000, ?_⟩, mixUp_lalr1, k2⟩
  show (do let l ← Lalr.new true 1000 (Samples.grammar Samples.mixUp); return l.table) = _
  rw [k1]; rfl

theorem hiddenConflict_productive : AllProductive Samples.hiddenConflict :=
  allProductive [(3, 0), (2, 0), (1, 0), (0, 0)] (by decide) (by decide +kernel) (by decide)

/-- The other way round: `S → A x | z A y`, `A → c B`, `B → d e | d e y` is not LALR(1),
but the Lalr table has no conflicts, because a lookahead gets lost. -/
theorem hiddenConflict_missed : ∃ t, Makes .lalr true Samples.hiddenConflict 0 99 t ∧
    ¬ LALR1 Samples.hiddenConflict 0 99 ∧ t.conflicts = [] := by
  obtain ⟨t, _, h, _, hno, _⟩ := C65_lalr_conflicts
  refine ⟨t, h, ?_, List.eq_nil_of_length_eq_zero hno⟩
  have hg : Grammar.new true 0 (grammarMap Samples.hiddenConflict) 99 =
    .ok (Samples.grammar Samples.hiddenConflict) := by decide +kernel
  have h : ∃ t, Clr.new true 500 (Samples.grammar Samples.hiddenConflict) = .ok t ∧
      t.conflicts ≠ [] := by
    refine ⟨_, rfl, ?_⟩; decide +kernel
  obtain ⟨t', h1, h2⟩ := h
  exact fun hl => h2 (C69_clr (dbg := true) ⟨_, hg, 500, h1⟩ (by unfold Terminal; decide)
    (single_start_debug hg) hiddenConflict_productive hl)

/-- C69 in full is false, in both directions. -/
theorem C69_false : ¬ C69_statement ∧
    (∃ t, Makes .lalr true Samples.mixUp 0 99 t ∧ LALR1 Samples.mixUp 0 99 ∧ t.conflicts ≠ []) ∧
    (∃ t, Makes .lalr true Samples.hiddenConflict 0 99 t ∧ ¬ LALR1 Samples.hiddenConflict 0 99 ∧
      t.conflicts = []) := by
  obtain ⟨t, h, hl, hc⟩ := mixUp_conflicts
  have hne : t.conflicts ≠ [] := fun e => by rw [e] at hc; simp at hc
  have hg : Grammar.new true 0 (grammarMap Samples.mixUp) 99 =
    .ok (Samples.grammar Samples.mixUp) := by decide +kernel
  refine ⟨fun hst => hne ((hst _ _ _ _ h (by unfold Terminal; decide) (single_start_debug hg)
    mixUp_productive).mpr hl), ⟨t, h, hl, hne⟩, hiddenConflict_missed⟩

end Lrp.Props
